/-!
# Base: strings, decimal numbers, finite maps and program outcomes

Rust `String`/`&str`/`Cow<str>` are modelled as lists of Unicode scalar values (`List Char`).
-/

namespace Tomllib

/-- A Rust string: the list of its Unicode scalar values. -/
abbrev Str := List Char

/-- `lit% "abc"` is the list of characters of the literal, written out, so that the kernel can compute with it. -/
syntax "lit% " str : term

macro_rules
  | `(lit% $s:str) => do
    let cs := s.getString.toList.map fun c => Lean.Syntax.mkCharLit c
    let cs := cs.toArray
    `(([$cs,*] : List Char))

/-- Why the Rust program panics.  Each constructor names one place in /repo. -/
inductive Panic where
  /-- `to_val!` on `TOMLValue::Table` (src/internals/macros.rs:11). -/
  | tableToVal
  /-- "Cannot have a table in an array" (src/internals/objects.rs:23). -/
  | tableInArray
  /-- "Key does not exist in map" (src/internals/primitives.rs:117 and 122). -/
  | keyNotInMap
  /-- "Standard table cannot have indexed sub-keys" (src/internals/primitives.rs:225). -/
  | stdTableIndexed
  /-- "Implicit tables can only be Standard Tables" (src/internals/objects.rs:124). -/
  | implicitStd
  /-- "Trying to add a key to an array" (src/internals/objects.rs:329). -/
  | addKeyToArray
  /-- Unsigned subtraction below zero (`c.get() - 1`, `len() - 1`), with overflow checks on. -/
  | underflow
  /-- An index out of the bounds of a vector. -/
  | index
  /-- `unwrap()` of `None` (src/internals/parser.rs:215, src/internals/primitives.rs:659). -/
  | unwrapNone
  /-- "new_value should only be an Array or InlineTable" (src/internals/parser.rs:165). -/
  | setNotVector
  /-- A vacant map entry in `rebuild_vector` (src/internals/parser.rs:306 and 322). -/
  | rebuildVacant
  /-- "Check for the same structure should have eliminated ..." (src/internals/parser.rs:398). -/
  | replaceStructure
  /-- "Unreachable! Set existing hash value ..." (src/internals/primitives.rs:383). -/
  | setVacant
  /-- "existing_value's value is None" (src/internals/parser.rs:175). -/
  | existingNone
  /-- "Invalid expression" (src/internals/ast/structs.rs:112). -/
  | badExpression
  /-- A dangling cell address: cannot happen in Rust, proved unreachable here. -/
  | dangling
  deriving DecidableEq, Repr

/-- The outcome of running a Rust function: a value, a panic, or (an artefact of the model, proved
unreachable) running out of the recursion budget that makes the model's definitions total. -/
inductive Out (α : Type) where
  | ok (a : α)
  | panic (p : Panic)
  | fuel
  deriving DecidableEq, Repr

namespace Out

/-- Sequencing: a panic ends the program. -/
@[inline] def bind {α β : Type} : Out α → (α → Out β) → Out β
  | .ok a, f => f a
  | .panic p, _ => .panic p
  | .fuel, _ => .fuel

instance : Monad Out where
  pure := .ok
  bind := Out.bind

/-- Apply a function to the value. -/
def map' {α β : Type} (f : α → β) : Out α → Out β
  | .ok a => .ok (f a)
  | .panic p => .panic p
  | .fuel => .fuel

end Out

/-- Length in bytes of the UTF-8 encoding, `str::len` in Rust. -/
def blen : Str → Nat
  | [] => 0
  | c :: s => c.utf8Size + blen s

/-- The digit character of a number below ten. -/
def digitCh (n : Nat) : Char := Char.ofNat (48 + n)

/-- Worker of `natStr`. -/
def natStrAux : Nat → Nat → Str → Str
  | 0, _, acc => acc
  | f + 1, n, acc =>
    if n < 10 then digitCh n :: acc else natStrAux f (n / 10) (digitCh (n % 10) :: acc)

/-- `format!("{}", n)` for an unsigned integer: shortest decimal representation. -/
def natStr (n : Nat) : Str := natStrAux (n + 1) n []

/-- `[i]`, the suffix of an indexed key: `format!("[{}]", i)`. -/
def idxStr (i : Nat) : Str := lit% "[" ++ natStr i ++ lit% "]"

/-- A Rust `HashMap<String, V>`.  Iteration order of a `HashMap` is unspecified and the modelled code
never iterates over one, so only `get?` is observable. -/
abbrev SMap (V : Type) := List (Str × V)

namespace SMap
variable {V : Type}

/-- `HashMap::get`. -/
def get? : SMap V → Str → Option V
  | [], _ => none
  | (k, v) :: m, k' => if k = k' then some v else get? m k'

/-- `HashMap::contains_key`. -/
def contains (m : SMap V) (k : Str) : Bool := (m.get? k).isSome

/-- `HashMap::insert`: replaces the value of an existing key. -/
def insert : SMap V → Str → V → SMap V
  | [], k, v => [(k, v)]
  | (k', v') :: m, k, v => if k' = k then (k, v) :: m else (k', v') :: insert m k v

/-- `HashMap::remove`. -/
def erase : SMap V → Str → SMap V
  | [], _ => []
  | (k', v') :: m, k => if k' = k then erase m k else (k', v') :: erase m k

end SMap

end Tomllib
