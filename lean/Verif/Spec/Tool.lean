import Verif.Cli
import Verif.Spec.Spell
import Verif.Spec.Valid
import Verif.Spec.Values
/-!
# What the command-line tool says
-/

namespace Tomllib.Cli

/-- The text between the quotes at both ends, if there are any: no quote is left at either end. -/
def Unquoted (s t : Str) : Prop :=
  (∃ a b, (∀ c ∈ a ++ b, c = '\'' ∨ c = '"') ∧ s = a ++ t ++ b) ∧ (∀ c x, t = c :: x ∨ t = x ++ [c] → c ≠ '\'' ∧ c ≠ '"')

/-- What `get-value` says about a key: the printed value, perhaps without its quotes. -/
def SaysValue (o : Options) (doc : Parser) (k : Str) (s : Str) : Prop :=
  ∃ v t, doc.getValue k = .ok (some v) ∧ v.disp = .ok t ∧ if o.stripQuotes = true then Unquoted t s else s = t

/-- What `get-children` says about a key: the names with brackets around, or with their number in front, or the number of elements. Nothing is said
about keys without elements. -/
def SaysChildren (o : Options) (doc : Parser) (k : Str) (s : Str) : Prop :=
  (∃ l, doc.getChildren k = some (.keys l) ∧ s =
    if o.arrLen then decimal l.length ++ o.arrSep ++ o.arrSep.intercalate l else o.arrStart ++ o.arrSep.intercalate l ++ o.arrEnd) ∨
  ∃ n, doc.getChildren k = some (.count n) ∧ 0 < n ∧ s = decimal n

/-- The answer with index `i`: a single answer is used again and again. -/
def answer (vals : List Str) (i : Nat) : Str := if vals.length = 1 then vals.headD [] else vals.getD i []

/-- There are answers for `n` questions: one for all, or one for each. -/
def Enough (vals : List Str) (n : Nat) : Prop := vals.length = 1 ∨ (2 ≤ vals.length ∧ n ≤ vals.length)

/-- The key has children. -/
def HasChildren (doc : Parser) (k : Str) : Prop := ∃ c, doc.getChildren k = some c ∧ c ≠ .count 0 ∧ c ≠ .keys []

/-- The results of the commands one after the other; an error is the last of them. -/
def collect : List (Out CmdRes) → Out (List CmdRes)
  | [] => .ok []
  | x :: xs => x.bind fun r => match r with
    | .error e => .ok [.error e]
    | .ok s => (collect xs).bind fun rs => .ok (.ok s :: rs)

/-- The commands that only read, in the order in which they are run. `has-children` goes on with the answers after those of `has-value`. -/
def reading (o : Options) (c : Commands) (doc : Parser) : List (Out CmdRes) :=
  c.getValue.toList.map (fun ks => getValue o ks doc) ++
  c.hasValue.toList.map (fun ks => (hasValue o ks doc).bind fun x => .ok x.1) ++
  c.getChildren.toList.map (fun ks => .ok (getChildren o ks doc)) ++
  c.hasChildren.toList.map (fun ks => hasChildren o ks (match c.hasValue with | some (some l) => l.length | _ => 0) doc)

/-- The end of a run without assignments. -/
def lastOf (o : Options) (doc : Parser) (fs : FS) : Out (List CmdRes) → Run
  | .ok rs => if o.printDoc then step doc.display [fs] fun s => ⟨[fs], .finished rs (some s)⟩ else ⟨[fs], .finished rs none⟩
  | .panic x => ⟨[fs], .panicked x⟩
  | .fuel => ⟨[fs], .outOfFuel⟩

/-- A date-time without its offset, if that is `Z`. -/
def lessZulu (d : DateTime) : DateTime :=
  ⟨d.date, d.time.map fun t => ⟨t.hour, t.minute, t.second, t.fraction, if t.offset = some .zulu then none else t.offset⟩⟩

/-- The value that `set-value` makes of a text, given the name of a type. Strings and numbers are kept as they are; `Z` of a date-time is lost. -/
inductive Denotes (v typ : Str) : Value → Prop where
  | basic : typ ∈ [lit% "basic-string", lit% "bs"] → Pieces BasicPiece v → Denotes v typ (.str v .basic)
  | mlBasic : typ ∈ [lit% "ml-basic-string", lit% "mbs"] → Pieces MlBasicPiece v → Denotes v typ (.str v .mlBasic)
  | literal : typ ∈ [lit% "literal-string", lit% "ls"] → Pieces LiteralPiece v → Denotes v typ (.str v .literal)
  | mlLiteral : typ ∈ [lit% "ml-literal-string", lit% "mls"] → Pieces MlLiteralPiece v → Denotes v typ (.str v .mlLiteral)
  | int (u w : Str) : typ ∈ [lit% "integer", lit% "int"] → v = u ++ w → IntegerText u → Denotes v typ (.int v)
  | float (u w : Str) : typ ∈ [lit% "float", lit% "flt"] → v = u ++ w → FloatText u → Denotes v typ (.float v)
  | true : typ ∈ [lit% "boolean", lit% "bool"] → SameLetters v (lit% "true") → Denotes v typ (.bool true)
  | false : typ ∈ [lit% "boolean", lit% "bool"] → SameLetters v (lit% "false") → Denotes v typ (.bool false)
  | dt (d : DateTime) : typ ∈ [lit% "datetime", lit% "dt"] → d.shape → d.real = true → d.text = v → Denotes v typ (.dt (lessZulu d))

/-- The requested assignments (key, value, type, three fields each) were all made, one after the other. -/
inductive Applied : List Str → Parser → Parser → Prop where
  | nil (doc) : Applied [] doc doc
  | cons {k v t rest value doc doc1 doc'} : Denotes v t value → doc.setValue k value = .ok (doc1, true) →
      Applied rest doc1 doc' → Applied (k :: v :: t :: rest) doc doc'

/-- What may be in the files, during and after a run, if it is not what was there before. -/
def Written (c : Commands) (path : Str) (fs fs' : FS) : Prop :=
  ∃ text doc fields doc', fs.get? path = some text ∧ Parser.new.parse text = .ok (doc, .full) ∧
    c.setValue = some (some fields) ∧ fields ≠ [] ∧ Applied fields doc doc' ∧
    (∀ q, q ≠ c.outputFile.getD path → fs'.get? q = fs.get? q) ∧
    (fs'.get? (c.outputFile.getD path) = some [] ∨ ∃ s, doc'.display = .ok s ∧ fs'.get? (c.outputFile.getD path) = some s)

/-- How the files are left by a run that ends normally: unchanged, or with the printed document after all assignments in the output file. -/
def LeftBehind (c : Commands) (path : Str) (fs : FS) (r : Run) : Prop :=
  ∀ results d, r.last = .finished results d →
    ((∃ x ∈ results, ∃ e, x = Except.error e) ∨ c.setValue = none) ∧ r.states.getLast? = some fs ∨
    ∃ text doc fields doc' s fs', fs.get? path = some text ∧ Parser.new.parse text = .ok (doc, .full) ∧ c.setValue = some (some fields) ∧
      Applied fields doc doc' ∧ doc'.display = .ok s ∧ r.states.getLast? = some fs' ∧ fs'.get? (c.outputFile.getD path) = some s ∧
      ∀ q, q ≠ c.outputFile.getD path → fs'.get? q = fs.get? q

/-- A request to assign one value, in place. -/
def setOne (k v t : Str) : Commands := ⟨none, none, none, none, some (some [k, v, t]), none⟩

/-- The contents of a file at the successive moments of a run. -/
def history (r : Run) (path : Str) : List (Option Str) := r.states.map (·.get? path)

/-- How a run ended, in short: 0 normally, 1 by `exit`, 2 by a panic. -/
def End.code : End → Nat
  | .finished _ _ => 0
  | .exited _ => 1
  | .panicked _ => 2
  | .outOfFuel => 3

/-- The run ends by a panic. -/
def End.panic? : End → Option Panic
  | .panicked x => some x
  | _ => none

end Tomllib.Cli
