import Verif.Regexes
/-!
# Public value types: src/types.rs
-/

namespace Tomllib

/-- src/types.rs:113-123 -/
inductive StrType where
  | basic | mlBasic | literal | mlLiteral
  deriving DecidableEq, Repr

/-- src/types.rs:1042-1048 -/
inductive PosNeg where
  | pos | neg
  deriving DecidableEq, Repr

/-- src/types.rs:1099-1107 -/
structure OffsetAmount where
  posNeg : PosNeg
  hour : Str
  minute : Str
  deriving DecidableEq, Repr

/-- src/types.rs:1061-1068 -/
inductive TimeOffset where
  | zulu
  | time (t : OffsetAmount)
  deriving DecidableEq, Repr

/-- src/types.rs:1187-1196 -/
structure Date where
  year : Str
  month : Str
  day : Str
  deriving DecidableEq, Repr

/-- src/types.rs:1298-1310 -/
structure Time where
  hour : Str
  minute : Str
  second : Str
  fraction : Option Str
  offset : Option TimeOffset
  deriving DecidableEq, Repr

/-- src/types.rs:1422-1426 -/
structure DateTime where
  date : Date
  time : Option Time
  deriving DecidableEq, Repr

/-- src/types.rs:90-110 -/
inductive Value where
  | int (s : Str)
  | float (s : Str)
  | bool (b : Bool)
  | dt (d : DateTime)
  | str (s : Str) (t : StrType)
  | arr (vs : List Value)
  | itab (kvs : List (Str × Value))
  deriving Repr

/-- src/types.rs:127-160; the `Cell`/`RefCell` are dropped because the key table holds the only mutable reference. -/
inductive Children where
  | count (n : Nat)
  | keys (ks : List Str)
  deriving DecidableEq, Repr

/-! ## Numbers from strings (std) -/

/-- The value of an ASCII digit. -/
def digitVal (c : Char) : Option Nat :=
  if Nat.ble 48 c.toNat && Nat.ble c.toNat 57 then some (c.toNat - 48) else none

/-- Decimal value of a digit string, `none` at the first other character. -/
def digitsVal : Str → Nat → Option Nat
  | [], acc => some acc
  | c :: s, acc => match digitVal c with
    | some d => digitsVal s (acc * 10 + d)
    | none => none

/-- `usize::from_str` and `u64::from_str` on a 64-bit target: an optional `+`, at least one digit, below 2^64. -/
def unsignedFromStr (s : Str) : Option Nat :=
  let ds := match s with
    | '+' :: t => t
    | t => t
  if ds = [] then none
  else match digitsVal ds 0 with
    | some n => if n < 2 ^ 64 then some n else none
    | none => none

/-! ## Validation -/

namespace OffsetAmount

/-- src/types.rs:1166-1183 -/
def validateNumbers (o : OffsetAmount) : Bool :=
  match unsignedFromStr o.hour with
  | some h =>
    if h > 23 then false
    else match unsignedFromStr o.minute with
      | some m => if m > 59 then false else true
      | none => false
  | none => false

/-- src/types.rs:1159-1164 -/
def validate (o : OffsetAmount) : Bool :=
  if blen o.hour ≠ 2 ∨ blen o.minute ≠ 2 then false else o.validateNumbers

/-- src/types.rs:1133-1145; `none` is the error. -/
def fromStr (pn h m : Str) : Option OffsetAmount :=
  match (if pn = lit% "+" then some PosNeg.pos else if pn = lit% "-" then some PosNeg.neg else none) with
  | none => none
  | some p =>
    let o : OffsetAmount := ⟨p, h, m⟩
    if o.validate then some o else none

end OffsetAmount

/-- src/types.rs:1090-1095 -/
def TimeOffset.validate : TimeOffset → Bool
  | .zulu => true
  | .time t => t.validate

namespace Date

/-- src/types.rs:1250-1294 -/
def validateNumbers (d : Date) : Bool :=
  match unsignedFromStr d.year with
  | none => false
  | some y =>
    if y = 0 ∨ y > 9999 then false
    else match unsignedFromStr d.month with
      | none => false
      | some m =>
        if m < 1 ∨ m > 12 then false
        else match unsignedFromStr d.day with
          | none => false
          | some dd =>
            if dd < 1 then false
            else if m = 2 then
              let leap := if y % 4 ≠ 0 then false else if y % 100 ≠ 0 then true else if y % 400 ≠ 0 then false else true
              if leap ∧ dd > 29 then false else if ¬ leap ∧ dd > 28 then false else true
            else if m = 1 ∨ m = 3 ∨ m = 5 ∨ m = 7 ∨ m = 8 ∨ m = 10 ∨ m = 12 then
              if dd > 31 then false else true
            else if dd > 30 then false else true

/-- src/types.rs:1243-1248 -/
def validate (d : Date) : Bool :=
  if blen d.year ≠ 4 ∨ blen d.month ≠ 2 ∨ blen d.day ≠ 2 then false else d.validateNumbers

/-- src/types.rs:1222-1229 -/
def fromStr (y m d : Str) : Option Date :=
  let r : Date := ⟨y, m, d⟩
  if r.validate then some r else none

end Date

namespace Time

/-- src/types.rs:1385-1418 -/
def validateNumbers (t : Time) : Bool :=
  match unsignedFromStr t.hour with
  | none => false
  | some h =>
    if h > 23 then false
    else match unsignedFromStr t.minute with
      | none => false
      | some m =>
        if m > 59 then false
        else match unsignedFromStr t.second with
          | none => false
          | some s =>
            if s > 59 then false
            else
              let fracOk := match t.fraction with
                | some f => (unsignedFromStr f).isSome
                | none => true
              if !fracOk then false
              else match t.offset with
                | some o => o.validate
                | none => true

/-- src/types.rs:1378-1383 -/
def validate (t : Time) : Bool :=
  if blen t.hour ≠ 2 ∨ blen t.minute ≠ 2 ∨ blen t.second ≠ 2 then false else t.validateNumbers

/-- src/types.rs:1343-1362 -/
def fromStr (h m s : Str) (fraction : Option Str) (offset : Option TimeOffset) : Option Time :=
  let t : Time := ⟨h, m, s, fraction, offset⟩
  if t.validate then some t else none

end Time

/-- src/types.rs:1462-1471 -/
def DateTime.validate (d : DateTime) : Bool :=
  if d.date.validate then
    match d.time with
    | some t => t.validate
    | none => true
  else false

/-- Does the anchored pattern match all of the text, under the first-match rule?  (`Done(i, _) => i.len() == 0`.) -/
def findsAll (r : Re) (s : Str) : Bool :=
  match r.find s with
  | some (_, rest) => rest.isEmpty
  | none => false

namespace Value

/-- src/types.rs:947-994.  Integers and floats ignore what follows the match. -/
def validate : Value → Bool
  | int s => (Rx.integer.find s).isSome
  | float s => (Rx.float.find s).isSome
  | dt d => d.validate
  | str s .basic => findsAll Rx.quotelessBasic s
  | str s .mlBasic => findsAll Rx.quotelessMlBasic s
  | str s .literal => findsAll Rx.quotelessLiteral s
  | str s .mlLiteral => findsAll Rx.quotelessMlLiteral s
  | _ => true

end Value

/-! ## Display -/

/-- src/types.rs:1050-1058 -/
def PosNeg.disp : PosNeg → Str
  | .pos => lit% "+"
  | .neg => lit% "-"

/-- src/types.rs:1117-1121 -/
def OffsetAmount.disp (o : OffsetAmount) : Str := o.posNeg.disp ++ o.hour ++ lit% ":" ++ o.minute

/-- src/types.rs:1080-1087 -/
def TimeOffset.disp : TimeOffset → Str
  | .zulu => lit% "Z"
  | .time t => t.disp

/-- src/types.rs:1206-1210 -/
def Date.disp (d : Date) : Str := d.year ++ lit% "-" ++ d.month ++ lit% "-" ++ d.day

/-- src/types.rs:1322-1331 -/
def Time.disp (t : Time) : Str :=
  match t.fraction, t.offset with
  | some f, some o => lit% "T" ++ t.hour ++ lit% ":" ++ t.minute ++ lit% ":" ++ t.second ++ lit% "." ++ f ++ o.disp
  | some f, none => lit% "T" ++ t.hour ++ lit% ":" ++ t.minute ++ lit% ":" ++ t.second ++ lit% "." ++ f
  | none, some o => lit% "T" ++ t.hour ++ lit% ":" ++ t.minute ++ lit% ":" ++ t.second ++ o.disp
  | none, none => lit% "T" ++ t.hour ++ lit% ":" ++ t.minute ++ lit% ":" ++ t.second

/-- src/types.rs:1435-1442 -/
def DateTime.disp (d : DateTime) : Str :=
  match d.time with
  | some t => d.date.disp ++ t.disp
  | none => d.date.disp

/-- `format!("{}", b)` -/
def boolStr (b : Bool) : Str := if b then lit% "true" else lit% "false"

/-- The quoted form of a string, src/types.rs:291-298 and src/internals/ast/structs.rs:251-258. -/
def StrType.quote (t : StrType) (s : Str) : Str :=
  match t with
  | .basic => lit% "\"" ++ s ++ lit% "\""
  | .mlBasic => lit% "\"\"\"" ++ s ++ lit% "\"\"\""
  | .literal => lit% "'" ++ s ++ lit% "'"
  | .mlLiteral => lit% "'''" ++ s ++ lit% "'''"

namespace Value

mutual
/-- src/types.rs:274-311.  `0..arr.len() - 1` underflows on an empty array or inline table. -/
def disp : Value → Out Str
  | int s => .ok s
  | float s => .ok s
  | bool b => .ok (boolStr b)
  | dt d => .ok d.disp
  | str s t => .ok (t.quote s)
  | arr [] => .panic .underflow
  | arr (v :: vs) => do
    let a ← disp v
    let r ← dispRest vs
    .ok (lit% "[" ++ a ++ r ++ lit% "]")
  | itab [] => .panic .underflow
  | itab ((k, v) :: kvs) => do
    let a ← disp v
    let r ← dispKvs kvs
    .ok (lit% "{" ++ k ++ lit% " = " ++ a ++ r ++ lit% "}")
/-- The elements after the first, each preceded by `, `. -/
def dispRest : List Value → Out Str
  | [] => .ok []
  | v :: vs => do
    let a ← disp v
    let r ← dispRest vs
    .ok (lit% ", " ++ a ++ r)
/-- The key/value pairs after the first, each preceded by `, `. -/
def dispKvs : List (Str × Value) → Out Str
  | [] => .ok []
  | (k, v) :: kvs => do
    let a ← disp v
    let r ← dispKvs kvs
    .ok (lit% ", " ++ k ++ lit% " = " ++ a ++ r)
end

end Value

/-! ## Children -/

namespace Children

/-- src/types.rs:186-198 -/
def combineKeys (base child : Str) : Str :=
  if base ≠ [] then base ++ lit% "." ++ child else child

/-- src/types.rs:220-222 -/
def combineKeysIndex (base : Str) (i : Nat) : Str := base ++ lit% "[" ++ natStr i ++ lit% "]"

/-- src/types.rs:244-267 -/
def combineChildKeys (c : Children) (base : Str) : List Str :=
  match c with
  | .count n => (List.range n).map fun i => base ++ lit% "[" ++ natStr i ++ lit% "]"
  | .keys ks => ks.map fun k => if base ≠ [] then base ++ lit% "." ++ k else k

end Children
end Tomllib

namespace Tomllib.Value

mutual
/-- Equality of values is decidable (`PartialEq` is derived in Rust). -/
def beq : Value → Value → Bool
  | int a, int b => decide (a = b)
  | float a, float b => decide (a = b)
  | bool a, bool b => decide (a = b)
  | dt a, dt b => decide (a = b)
  | str a t, str b u => decide (a = b) && decide (t = u)
  | arr a, arr b => beqs a b
  | itab a, itab b => beqKvs a b
  | _, _ => false
/-- Equality of lists of values. -/
def beqs : List Value → List Value → Bool
  | [], [] => true
  | a :: as, b :: bs => beq a b && beqs as bs
  | _, _ => false
/-- Equality of lists of pairs. -/
def beqKvs : List (Str × Value) → List (Str × Value) → Bool
  | [], [] => true
  | (k, a) :: as, (l, b) :: bs => decide (k = l) && (beq a b && beqKvs as bs)
  | _, _ => false
end

mutual
theorem beq_iff : ∀ a b : Value, beq a b = true ↔ a = b
  | int a, b => by cases b <;> simp [beq]
  | float a, b => by cases b <;> simp [beq]
  | bool a, b => by cases b <;> simp [beq]
  | dt a, b => by cases b <;> simp [beq]
  | str a t, b => by cases b <;> simp [beq]
  | arr a, b => by cases b <;> simp [beq, beqs_iff a]
  | itab a, b => by cases b <;> simp [beq, beqKvs_iff a]
theorem beqs_iff : ∀ a b : List Value, beqs a b = true ↔ a = b
  | [], b => by cases b <;> simp [beqs]
  | a :: as, b => by
    cases b with
    | nil => simp [beqs]
    | cons b bs => simp [beqs, beq_iff a b, beqs_iff as bs]
theorem beqKvs_iff : ∀ a b : List (Str × Value), beqKvs a b = true ↔ a = b
  | [], b => by cases b <;> simp [beqKvs]
  | (k, a) :: as, b => by
    cases b with
    | nil => simp [beqKvs]
    | cons b bs =>
      obtain ⟨l, b⟩ := b
      simp [beqKvs, beq_iff a b, beqKvs_iff as bs, and_assoc]
end

instance : DecidableEq Value := fun a b => decidable_of_iff _ (beq_iff a b)

end Tomllib.Value
