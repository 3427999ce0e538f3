import Verif.Api
import Verif.Values
/-!
# The command-line tool: src/bin/tomlkit.rs

Modelled: `process_document` and the five commands, on argument fields that have already been split.
Not modelled: the `pirate` option parser, the `csv` splitting (its result is the input here: `none` is a csv error), operating system errors of the file system (opening a missing file is modelled, writing always succeeds).
-/

namespace Tomllib.Cli

/-- The file system: path to content. -/
abbrev FS := SMap Str

/-- Why a command failed: what goes into its message, apart from the arguments of options (Main.lean puts the message together). -/
inductive CmdErr where
  | noKeys | csv | badTrueVals | badFalseVals
  | notFound (key : Str)
  | noChildren (key : Str)
  | badType (typ key : Str)
  | badValue (val typ key : Str)
  | notSet (key val typ : Str)
  deriving DecidableEq, Repr

/-- Why a field is no value. -/
inductive FieldErr where
  | badType | badValue
  deriving DecidableEq, Repr

/-- The error of a field with its key, src/bin/tomlkit.rs:626 and 637. -/
def FieldErr.of (k v t : Str) : FieldErr → CmdErr
  | .badType => .badType t k
  | .badValue => .badValue v t k

/-- The result of a command, `Result<String, String>` in the code. -/
abbrev CmdRes := Except CmdErr Str

/-- src/bin/tomlkit.rs:132-143; `trueVals`/`falseVals` are already split. -/
structure Options where
  trueVals : Option (List Str)
  falseVals : Option (List Str)
  separator : Str
  arrStart : Str
  arrEnd : Str
  arrSep : Str
  quiet : Bool
  arrLen : Bool
  stripQuotes : Bool
  printDoc : Bool

/-- src/bin/tomlkit.rs:147-150 -/
def Options.default : Options :=
  ⟨some [lit% "true"], some [lit% "false"], lit% ", ", lit% "[", lit% "]", lit% ", ", false, false, false, false⟩

/-- The commands given, in the form of their split arguments (outer `none`: the command is absent; inner `none`: csv error). -/
structure Commands where
  getValue : Option (Option (List Str))
  hasValue : Option (Option (List Str))
  getChildren : Option (Option (List Str))
  hasChildren : Option (Option (List Str))
  setValue : Option (Option (List Str))
  outputFile : Option Str

/-- A quote character. -/
def isQuote (c : Char) : Bool := c = '\'' || c = '"'

/-- `trim_matches` of quotes. -/
def trimQuotes (s : Str) : Str := ((s.dropWhile isQuote).reverse.dropWhile isQuote).reverse

/-- The loop of `get_value`, src/bin/tomlkit.rs:367-383. -/
def getLoop (o : Options) (doc : Parser) : List Str → Str → Out CmdRes
  | [], acc => .ok (.ok acc)
  | k :: ks, acc => do
    let v ← doc.getValue k
    match v with
    | none => .ok (.error (.notFound k))
    | some v => do
      let s ← v.disp
      let s := if o.stripQuotes then trimQuotes s else s
      getLoop o doc ks (acc ++ s ++ (if ks = [] then [] else o.separator))

/-- `get_value`, src/bin/tomlkit.rs:361-386 -/
def getValue (o : Options) (fields : Option (List Str)) (doc : Parser) : Out CmdRes :=
  match fields with
  | none => .ok (.error .csv)
  | some [] => .ok (.error .noKeys)
  | some ks => getLoop o doc ks []

/-- `if vals.len() > 1 { &vals[i] } else { &vals[0] }` -/
def pick (vals : List Str) (i : Nat) : Out Str :=
  match vals[if vals.length > 1 then i else 0]? with
  | some v => .ok v
  | none => .panic .index

/-- The loop of `has_value`, src/bin/tomlkit.rs:397-429. -/
def hasValueLoop (o : Options) (doc : Parser) : Nat → List Str → Str → Out CmdRes
  | _, [], acc => .ok (.ok acc)
  | i, k :: ks, acc =>
    match o.trueVals with
    | none => .ok (.error .badTrueVals)
    | some tvs => do
      let t ← pick tvs i
      match o.falseVals with
      | none => .ok (.error .badFalseVals)
      | some fvs => do
        let f ← pick fvs i
        let v ← doc.getValue k
        hasValueLoop o doc (i + 1) ks (acc ++ (if v.isSome then t else f) ++ (if ks = [] then [] else o.separator))

/-- `has_value`, src/bin/tomlkit.rs:388-432: the result and the number of keys. -/
def hasValue (o : Options) (fields : Option (List Str)) (doc : Parser) : Out (CmdRes × Nat) :=
  match fields with
  | none => .ok (.error .csv, 0)
  | some [] => .ok (.error .noKeys, 0)
  | some ks => do
    let r ← hasValueLoop o doc 0 ks []
    .ok (r, ks.length)

/-- Names separated by the array separator. -/
def joinSep (sep : Str) : List Str → Str
  | [] => []
  | [k] => k
  | k :: ks => k ++ sep ++ joinSep sep ks

/-- The loop of `get_children`, src/bin/tomlkit.rs:442-480. -/
def getChildrenLoop (o : Options) (doc : Parser) : List Str → Str → CmdRes
  | [], acc => .ok acc
  | k :: ks, acc =>
    let next (s : Str) := getChildrenLoop o doc ks (acc ++ s ++ (if ks = [] then [] else o.separator))
    match doc.getChildren k with
    | none => .error (.notFound k)
    | some (.keys names) =>
      next ((if o.arrLen then natStr names.length ++ o.arrSep else o.arrStart) ++ joinSep o.arrSep names ++
        (if o.arrLen then [] else o.arrEnd))
    | some (.count n) => if n = 0 then .error (.noChildren k) else next (natStr n)

/-- `get_children`, src/bin/tomlkit.rs:434-483 -/
def getChildren (o : Options) (fields : Option (List Str)) (doc : Parser) : CmdRes :=
  match fields with
  | none => .error .csv
  | some [] => .error .noKeys
  | some ks => getChildrenLoop o doc ks []

/-- The loop of `has_children`, src/bin/tomlkit.rs:494-540; `i` starts at the number of keys of `has_value`. -/
def hasChildrenLoop (o : Options) (doc : Parser) : Nat → List Str → Str → Out CmdRes
  | _, [], acc => .ok (.ok acc)
  | i, k :: ks, acc =>
    match o.trueVals with
    | none => .ok (.error .badTrueVals)
    | some tvs => do
      let t ← pick tvs i
      match o.falseVals with
      | none => .ok (.error .badFalseVals)
      | some fvs => do
        let f ← pick fvs i
        let has := match doc.getChildren k with
          | some (.count n) => decide (n > 0)
          | some (.keys names) => decide (names.length > 0)
          | none => false
        hasChildrenLoop o doc (i + 1) ks (acc ++ (if has then t else f) ++ (if ks = [] then [] else o.separator))

/-- `has_children`, src/bin/tomlkit.rs:485-543 -/
def hasChildren (o : Options) (fields : Option (List Str)) (keycount : Nat) (doc : Parser) : Out CmdRes :=
  match fields with
  | none => .ok (.error .csv)
  | some [] => .ok (.error .noKeys)
  | some ks => hasChildrenLoop o doc keycount ks []

/-- The copy of a date-time made for the `datetime` type, src/bin/tomlkit.rs:565-624: a `Z` offset is not copied. -/
def copyDateTime (d : DateTime) : DateTime :=
  ⟨d.date, match d.time with
    | none => none
    | some t => some ⟨t.hour, t.minute, t.second, t.fraction, match t.offset with
      | some (.time a) => some (.time a)
      | _ => none⟩⟩

/-- The value of a field of a given type, src/bin/tomlkit.rs:557-627 and 636-638: a value, or the error. -/
def fieldValue (v typ : Str) : Out (Except FieldErr Value) :=
  let of (r : Option Value) : Out (Except FieldErr Value) := .ok (match r with
    | some x => .ok x
    | none => .error .badValue)
  if typ = lit% "basic-string" ∨ typ = lit% "bs" then of (Value.basicString v)
  else if typ = lit% "ml-basic-string" ∨ typ = lit% "mbs" then of (Value.mlBasicString v)
  else if typ = lit% "literal-string" ∨ typ = lit% "ls" then of (Value.literalString v)
  else if typ = lit% "ml-literal-string" ∨ typ = lit% "mls" then of (Value.mlLiteralString v)
  else if typ = lit% "integer" ∨ typ = lit% "int" then of (Value.intFromStr v)
  else if typ = lit% "float" ∨ typ = lit% "flt" then of (Value.floatFromStr v)
  else if typ = lit% "boolean" ∨ typ = lit% "bool" then of (Value.boolFromStr v)
  else if typ = lit% "datetime" ∨ typ = lit% "dt" then do
    let r ← Value.datetimeParse v
    match r with
    | some (.dt d) => .ok (.ok (.dt (copyDateTime d)))
    | some _ => .ok (.ok (.dt ⟨⟨[], [], []⟩, none⟩))
    | none => .ok (.error .badValue)
  else .ok (.error .badType)

/-- The loop of `set_value`, src/bin/tomlkit.rs:552-645, over triples of fields. -/
def setLoop (o : Options) : List Str → Str → Parser → Out (Parser × CmdRes)
  | k :: v :: t :: rest, acc, doc => do
    let r ← fieldValue v t
    match r with
    | .error e => .ok (doc, .error (e.of k v t))
    | .ok value => do
      let (doc, done) ← doc.setValue k value
      if done then
        setLoop o rest (acc ++ (if o.quiet then [] else lit% "Success" ++ (if rest = [] then [] else o.separator))) doc
      else .ok (doc, .error (.notSet k v t))
  | _, acc, doc => .ok (doc, .ok acc)

/-- `set_value`, src/bin/tomlkit.rs:545-648 -/
def setValue (o : Options) (fields : Option (List Str)) (doc : Parser) : Out (Parser × CmdRes) :=
  match fields with
  | none => .ok (doc, .error .csv)
  | some fs => if fs.length % 3 ≠ 0 ∨ fs.length = 0 then .ok (doc, .error .noKeys) else setLoop o fs [] doc

/-- Why the program exits. -/
inductive Reason where
  /-- The file cannot be opened. -/
  | noFile
  /-- The document is not read without errors to its end. -/
  | notRead (r : ParseResult)
  /-- There is no command. -/
  | noCommand
  deriving DecidableEq, Repr

/-- How a run ends. -/
inductive End where
  /-- `process_document` returns: the results of the commands and the document printed by `--print-doc`. -/
  | finished (results : List CmdRes) (doc : Option Str)
  /-- `std::process::exit(-1)` -/
  | exited (why : Reason)
  | panicked (p : Panic)
  | outOfFuel

/-- A run: the successive states of the file system (a crash can leave any of them behind) and the end. -/
structure Run where
  states : List FS
  last : End

/-- Continue with the value, or end the run by a panic. -/
def step {α : Type} (x : Out α) (states : List FS) (k : α → Run) : Run :=
  match x with
  | .ok a => k a
  | .panic p => ⟨states, .panicked p⟩
  | .fuel => ⟨states, .outOfFuel⟩

/-- Run a command if it is given and the last result is not an error. -/
def command (results : List CmdRes) (given : Option (Option (List Str))) (states : List FS)
    (f : Option (List Str) → Out CmdRes) (k : List CmdRes → Run) : Run :=
  match results.getLast?, given with
  | some (.error _), _ => k results
  | _, some fields => step (f fields) states fun r => k (results ++ [r])
  | _, none => k results

/-- The end of `process_document`, src/bin/tomlkit.rs:316-346 (printing the results is the returned list). -/
def finish (o : Options) (c : Commands) (results : List CmdRes) (doc : Parser) (states : List FS) : Run :=
  if c.getValue.isNone ∧ c.hasValue.isNone ∧ c.getChildren.isNone ∧ c.hasChildren.isNone ∧ c.setValue.isNone then ⟨states, .exited .noCommand⟩
  else if o.printDoc then step doc.display states fun s => ⟨states, .finished results (some s)⟩
  else ⟨states, .finished results none⟩

/-- The part of `process_document` from the set-value command on, src/bin/tomlkit.rs:288-346, and `write_to_file`, 348-353:
the file is created (emptied), then the document is printed, then it is written. -/
def setAndFinish (o : Options) (c : Commands) (path : Str) (results : List CmdRes) (doc : Parser) (fs : FS) : Run :=
  match results.getLast?, c.setValue with
  | some (.error _), _ => finish o c results doc [fs]
  | _, none => finish o c results doc [fs]
  | _, some fields =>
    step (setValue o fields doc) [fs] fun (doc, r) =>
      match r with
      | .error _ => finish o c (results ++ [r]) doc [fs]
      | .ok _ =>
        let out := c.outputFile.getD path
        let fs1 := fs.insert out []
        step doc.display [fs, fs1] fun s =>
          finish o c (results ++ [r]) doc [fs, fs1, fs1.insert out s]

/-- `process_document`, src/bin/tomlkit.rs:208-346. -/
def processDocument (o : Options) (c : Commands) (path : Str) (fs : FS) : Run :=
  match fs.get? path with
  | none => ⟨[fs], .exited .noFile⟩
  | some text =>
    step (Parser.new.parse text) [fs] fun (doc, res) =>
      match res with
      | .full =>
        command [] c.getValue [fs] (fun k => getValue o k doc) fun r =>
        -- has_value also counts its keys
        let keycount := match r.getLast?, c.hasValue with
          | some (.error _), _ => 0
          | _, some (some ks) => ks.length
          | _, _ => 0
        command r c.hasValue [fs] (fun k => Out.bind (hasValue o k doc) fun x => .ok x.1) fun r =>
        command r c.getChildren [fs] (fun k => .ok (getChildren o k doc)) fun r =>
        command r c.hasChildren [fs] (fun k => hasChildren o k keycount doc) fun r =>
        setAndFinish o c path r doc fs
      | r => ⟨[fs], .exited (.notRead r)⟩

end Tomllib.Cli
