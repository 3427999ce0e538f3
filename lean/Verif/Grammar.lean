import Verif.Keys
/-!
# The grammar: src/internals/util.rs, primitives.rs:425-674, objects.rs:196-594, toml.rs
-/

namespace Tomllib

open P

/-! ## Blanks, newlines, comments: src/internals/util.rs -/

/-- src/internals/util.rs:4-6; the upper bound is `0x10FFF` in the code. -/
def notEol (c : Char) : Bool := c.toNat = 0x09 || (Nat.ble 0x20 c.toNat && Nat.ble c.toNat 0x10FFF)

/-- `self.line_count.set(self.line_count.get() + n)` -/
def addLines (n : Nat) : P Unit := act fun st => .ok ({ st with lineCount := st.lineCount + n }, ())

/-- src/internals/util.rs:10-15 -/
def newline : P Str :=
  alt (do let s ← complete (tag (lit% "\r\n")); addLines 1; pure s)
      (do let s ← complete (tag (lit% "\n")); addLines 1; pure s)

/-- src/internals/util.rs:18 -/
def ws : P Str := re Rx.ws

/-- src/internals/util.rs:21-29; the result is the text after `#`. -/
def comment : P Str := do
  let _ ← tag (lit% "#")
  takeWhile notEol

/-! ## Scalars: src/internals/primitives.rs:425-612 -/

/-- `many0!(full_line)` of src/internals/primitives.rs:35 on a string: number of lines taken. The budget is the length, as for `many0`. -/
def fullLines : Nat → Str → Nat
  | 0, _ => 0
  | n + 1, s =>
    if s = [] then 0
    else match Rx.fullLine.find s with
      | some (_, rest) => 1 + fullLines n rest
      | none => 0

/-- src/internals/primitives.rs:37-43 -/
def countLines (s : Str) : Nat := fullLines (s.length + 1) s

/-- src/internals/primitives.rs:425 -/
def integer : P Str := re Rx.integer
/-- src/internals/primitives.rs:428-429 -/
def float : P Str := re Rx.float

/-- `&o[n..o.len()-n]`: drop the quotes, which are ASCII. -/
def unquote (n : Nat) (s : Str) : Str := (s.drop n).take (s.length - 2 * n)

/-- src/internals/primitives.rs:449-454, 466-475 -/
def mlBasicString : P Str := do
  let s ← re Rx.rawMlBasic
  addLines (countLines s)
  pure (unquote 3 s)

/-- src/internals/primitives.rs:445-446, 477-486 -/
def basicString : P Str := do
  let s ← re Rx.rawBasic
  pure (unquote 1 s)

/-- src/internals/primitives.rs:459-464, 488-497 -/
def mlLiteralString : P Str := do
  let s ← re Rx.rawMlLiteral
  addLines (countLines s)
  pure (unquote 3 s)

/-- src/internals/primitives.rs:456, 499-508 -/
def literalString : P Str := do
  let s ← re Rx.rawLiteral
  pure (unquote 1 s)

/-- src/internals/primitives.rs:510-517 -/
def string : P TVal :=
  alt (mapP (TVal.str · .mlLiteral) (complete mlLiteralString)) <|
  alt (mapP (TVal.str · .mlBasic) (complete mlBasicString)) <|
  alt (mapP (TVal.str · .basic) (complete basicString)) <|
  mapP (TVal.str · .literal) (complete literalString)

/-- src/internals/primitives.rs:521-522 -/
def boolean : P Bool :=
  alt (mapP (fun _ => false) (complete (tag (lit% "false")))) (mapP (fun _ => true) (complete (tag (lit% "true"))))

/-- src/internals/primitives.rs:528; the result is the capture group, the digits after the dot. -/
def fractional : P Str := mapP (fun s => s.drop 1) (re Rx.fractional)

/-- `TimeOffsetAmount::new_str`, src/internals/ast/structs.rs:590-599. -/
def newOffset (pn h m : Str) : OffsetAmount :=
  ⟨if pn = lit% "+" then .pos else if pn = lit% "-" then .neg else .pos, h, m⟩

/-- src/internals/primitives.rs:551-561 -/
def timeOffsetAmount : P OffsetAmount := do
  let pn ← alt (complete (tag (lit% "+"))) (complete (tag (lit% "-")))
  let h ← re Rx.dd
  let _ ← tag (lit% ":")
  let m ← re Rx.dd
  pure (newOffset pn h m)

/-- src/internals/primitives.rs:563-568 -/
def timeOffset : P TimeOffset :=
  alt (mapP (fun _ => .zulu) (complete (tag (lit% "Z")))) (mapP TimeOffset.time (complete timeOffsetAmount))

/-- src/internals/primitives.rs:530-549 -/
def time : P Time := do
  let _ ← tag (lit% "T")
  let h ← re Rx.dd
  let _ ← tag (lit% ":")
  let m ← re Rx.dd
  let _ ← tag (lit% ":")
  let s ← re Rx.dd
  let f ← opt (complete fractional)
  let o ← opt (complete timeOffset)
  pure ⟨h, m, s, f, o⟩

/-- src/internals/primitives.rs:570-581 -/
def date : P Date := do
  let y ← re Rx.dddd
  let _ ← tag (lit% "-")
  let m ← re Rx.dd
  let _ ← tag (lit% "-")
  let d ← re Rx.dd
  pure ⟨y, m, d⟩

/-- src/internals/primitives.rs:603-612 -/
def dateTimeInternal : P DateTime := do
  let d ← date
  let t ← opt (complete time)
  pure ⟨d, t⟩

/-- src/internals/primitives.rs:583-601: an invalid date-time is recorded as an error and returned all the same. -/
def dateTime : P DateTime := fun st i =>
  match dateTimeInternal st i with
  | .ok (st', .done r d) =>
    if d.validate then .ok (st', .done r d)
    else match getFullKey st'.map st'.heap st'.lastArrayTables st'.lastArrayTablesIndex st'.keychain with
      | .ok (_, key, _) =>
        .ok ({ st' with errors := st'.errors ++ [.invalidDateTime key st'.lineCount 0 (i.take (i.length - r.length))] }, .done r d)
      | .panic x => .panic x
      | .fuel => .fuel
  | other => other

/-! ## Keys -/

/-- src/internals/primitives.rs:25-32 -/
def isKeychar (c : Char) : Bool :=
  let u := c.toNat
  (Nat.ble 0x41 u && Nat.ble u 0x5A) || (Nat.ble 0x61 u && Nat.ble u 0x7A) || (Nat.ble 0x30 u && Nat.ble u 0x39) ||
  u = 0x2D || u = 0x5F

/-- `self.keychain.borrow_mut().push(Key::Str(k))` -/
def pushKey (k : Str) : P Unit := act fun st => .ok ({ st with keychain := st.keychain ++ [.str k] }, ())

/-- src/internals/primitives.rs:615-625 -/
def key : P Str :=
  alt (do let k ← complete (re Rx.quotedKey); pushKey k; pure k)
      (do let k ← complete (takeWhile1 isKeychar); pushKey k; pure k)

/-- src/internals/primitives.rs:627-636 -/
def keyvalSep : P WSSep := do
  let w1 ← ws
  let _ ← tag (lit% "=")
  let w2 ← ws
  pure ⟨w1, w2⟩

/-! ## Table headers: src/internals/objects.rs:196-447 -/

/-- src/internals/objects.rs:206-216 -/
def tableSubkey : P WSKeySep := do
  let w1 ← ws
  let _ ← tag (lit% ".")
  let w2 ← ws
  let k ← key
  pure ⟨⟨w1, w2⟩, k⟩

/-- src/internals/objects.rs:204 -/
def tableSubkeys : P (List WSKeySep) := many0 tableSubkey

/-- src/internals/objects.rs:218-340 -/
def stdTable : P TableType := do
  let _ ← tag (lit% "[")
  let w1 ← ws
  let k ← key
  let subs ← tableSubkeys
  let w2 ← ws
  let _ ← tag (lit% "]")
  act (stdTableAct ⟨⟨⟨w1, w2⟩, k⟩ :: subs⟩)

/-- src/internals/objects.rs:343-447 -/
def arrayTable : P TableType := do
  let _ ← tag (lit% "[[")
  let w1 ← ws
  let k ← key
  let subs ← tableSubkeys
  let w2 ← ws
  let _ ← tag (lit% "]]")
  act (arrayTableAct ⟨⟨⟨w1, w2⟩, k⟩ :: subs⟩)

/-- src/internals/objects.rs:197-202 -/
def table : P TableType := alt (complete arrayTable) (complete stdTable)

/-! ## Arrays and inline tables: src/internals/objects.rs:449-594

`pval` stands for the parser of values, which is recursive; see `val`. -/

/-- src/internals/objects.rs:450-459 -/
def arraySep : P WSSep := do
  let w1 ← ws
  let _ ← tag (lit% ",")
  let w2 ← ws
  pure ⟨w1, w2⟩

/-- src/internals/objects.rs:461 -/
def wsNewline : P Str := re Rx.wsNewline

/-- src/internals/objects.rs:463-472 -/
def commentNl : P CNL := do
  let pre ← wsNewline
  let c ← comment
  let nls ← wsNewline
  pure (.comment pre c nls)

/-- src/internals/objects.rs:474-479 -/
def commentOrNl : P CNL :=
  alt (complete commentNl) (mapP CNL.newlines (complete wsNewline))

/-- src/internals/objects.rs:481-482 -/
def commentOrNls : P (List CNL) := many1 commentOrNl

/-- Allocate a cell. -/
def alloc (v : TVal) : P Addr := act fun st => .ok ({ st with heap := st.heap ++ [v] }, st.heap.length)

/-- `Key::inc`, src/internals/primitives.rs:17-23. -/
def Key.inc : Key → Key
  | .idx i => .idx (i + 1)
  | .str s => .str s

/-- Record a mixed array, src/internals/objects.rs:491-516: the type of the new element differs from the previous one's. -/
def checkMixed (t : ArrayType) (st : PState) : Out PState :=
  match st.lastArrayType.getLast? with
  | none => .ok st
  | some l =>
    if l = .none ∨ l = t then .ok st
    else
      match getFullKey st.map st.heap st.lastArrayTables st.lastArrayTablesIndex st.keychain with
      | .panic x => .panic x
      | .fuel => .fuel
      | .ok (_, full, parent) =>
        let mixed := match st.errors.getLast? with
          | some (.mixedArray k _ _) => !(k.isPrefixOf full)
          | some _ => false
          | none => true
        if mixed then .ok { st with errors := st.errors ++ [.mixedArray parent st.lineCount 0] } else .ok st

/-- The closure of `array_value`, src/internals/objects.rs:489-523. -/
def arrayValueAct (a : Addr) (st : PState) : Out PState := do
  let v ← (match st.heap[a]? with
    | some v => Out.ok v
    | none => Out.panic .dangling)
  let t ← v.arrayType
  let st ← checkMixed t st
  let st := { st with lastArrayType := st.lastArrayType.dropLast ++ [t] }
  let st ← insertKeyval st a
  match st.keychain.getLast? with
  | none => .panic .underflow
  | some k => .ok { st with keychain := st.keychain.dropLast ++ [k.inc] }

/-- src/internals/objects.rs:484-525 -/
def arrayValue (pval : P Addr) : P ArrayValue := do
  let v ← pval
  let sep ← opt (complete arraySep)
  let cn ← complete commentOrNls
  act fun st => match arrayValueAct v st with
    | .ok st' => .ok (st', ⟨v, sep, cn⟩)
    | .panic x => .panic x
    | .fuel => .fuel

/-- src/internals/objects.rs:527-537 -/
def arrayValues (pval : P Addr) : P (List ArrayValue) := many0 (arrayValue pval)

/-- src/internals/objects.rs:551-564 `array_internal` -/
def arrayInternal (pval : P Addr) : P TVal := do
  let _ ← tag (lit% "[")
  let c1 ← commentOrNls
  let vs ← arrayValues pval
  let c2 ← commentOrNls
  let _ ← tag (lit% "]")
  pure (.arr vs c1 c2)

/-- src/internals/objects.rs:539-549: pushes an index and an array type, and pops both whatever the result. -/
def array (pval : P Addr) : P TVal := fun st i =>
  match arrayInternal pval { st with lastArrayType := st.lastArrayType ++ [.none], keychain := st.keychain ++ [.idx 0] } i with
  | .ok (st', r) =>
    .ok ({ st' with keychain := st'.keychain.dropLast, lastArrayType := st'.lastArrayType.dropLast }, r)
  | .panic x => .panic x
  | .fuel => .fuel

/-- The closure of `keyval`, src/internals/primitives.rs:655-672. -/
def keyvalAct (k : Str) (a : Addr) (st : PState) : Out PState := do
  let st ← (
    if st.arrayError then
      match st.errors.getLast? with
      | none => Out.panic .unwrapNone
      | some (.invalidTable key line col m) => do
        let v ← toVal st.heap a
        Out.ok { st with errors := st.errors.dropLast ++ [.invalidTable key line col (m.insert k v)] }
      | some _ => Out.ok st
    else insertKeyval st a)
  .ok { st with keychain := st.keychain.dropLast }

/-- src/internals/primitives.rs:650-674 -/
def keyval (pval : P Addr) : P KeyVal := do
  let k ← key
  let sep ← keyvalSep
  let v ← pval
  act fun st => match keyvalAct k v st with
    | .ok st' => .ok (st', ⟨k, sep, v⟩)
    | .panic x => .panic x
    | .fuel => .fuel

/-- src/internals/objects.rs:566-575 -/
def tableKeyval (pval : P Addr) : P TableKeyVal := do
  let kv ← keyval pval
  let sep ← opt (complete arraySep)
  let cn ← complete commentOrNls
  pure ⟨kv, sep, cn⟩

/-- src/internals/objects.rs:577-594 -/
def inlineTable (pval : P Addr) : P TVal := do
  let _ ← tag (lit% "{")
  let w1 ← ws
  let kvs ← opt (complete (many0 (tableKeyval pval)))
  let w2 ← ws
  let _ ← tag (lit% "}")
  pure (.itab (kvs.getD []) ⟨w1, w2⟩)

/-- One level of `val`, src/internals/primitives.rs:638-648. -/
def valStep (pval : P Addr) : P Addr :=
  alt (P.bind (complete (array pval)) alloc) <|
  alt (P.bind (complete (inlineTable pval)) alloc) <|
  alt (P.bind (complete dateTime) fun d => alloc (.dt d)) <|
  alt (P.bind (complete float) fun s => alloc (.float s)) <|
  alt (P.bind (complete integer) fun s => alloc (.int s)) <|
  alt (P.bind (complete boolean) fun b => alloc (.bool b)) <|
  P.bind (complete string) alloc

/-- `val` with a bound on the nesting depth. -/
def valFuel : Nat → P Addr
  | 0 => fun _ _ => .fuel
  | n + 1 => valStep (valFuel n)

/-- src/internals/primitives.rs:638-648.  Each nesting level consumes a bracket, so the length of the input bounds the depth. -/
def val : P Addr := fun st i => valFuel (i.length + 1) st i

/-! ## Documents: src/internals/toml.rs -/

/-- src/internals/toml.rs:37-43 -/
def wsExpr : P Expression := do
  let w ← ws
  pure ⟨⟨w, []⟩, none, none, none⟩

/-- src/internals/toml.rs:45-55 -/
def tableComment : P Expression := do
  let w1 ← ws
  let t ← table
  let w2 ← ws
  let c ← opt (complete comment)
  pure ⟨⟨w1, w2⟩, none, some t, c⟩

/-- src/internals/toml.rs:57-67 -/
def keyvalComment : P Expression := do
  let w1 ← ws
  let kv ← keyval val
  let w2 ← ws
  let c ← opt (complete comment)
  pure ⟨⟨w1, w2⟩, some kv, none, c⟩

/-- src/internals/toml.rs:69-77 -/
def wsComment : P Expression := do
  let w ← ws
  let c ← comment
  pure ⟨⟨w, []⟩, none, none, some c⟩

/-- src/internals/toml.rs:28-35 -/
def expression : P Expression :=
  alt (complete tableComment) <| alt (complete keyvalComment) <| alt (complete wsComment) (complete wsExpr)

/-- src/internals/toml.rs:18-26 -/
def nlExpression : P NLExpression := do
  let nl ← newline
  let e ← expression
  pure ⟨nl, e⟩

/-- src/internals/toml.rs:5-16 -/
def toml : P Toml := do
  let e ← expression
  let es ← many0 nlExpression
  pure ⟨⟨[], e⟩ :: es⟩

end Tomllib
