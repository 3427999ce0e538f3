import Verif.Ast
/-!
# Parser state and the nom 1.2 combinators used by the crate
-/

namespace Tomllib

/-- src/internals/primitives.rs:12-15 -/
inductive Key where
  | str (s : Str)
  | idx (i : Nat)
  deriving DecidableEq, Repr

/-- src/types.rs:35-87.  Only the constructors that the code ever builds. -/
inductive ParseError where
  | mixedArray (key : Str) (line col : Nat)
  | duplicateKey (key : Str) (line col : Nat) (v : Value)
  | invalidTable (key : Str) (line col : Nat) (m : SMap Value)
  | invalidDateTime (key : Str) (line col : Nat) (text : Str)
  deriving DecidableEq, Repr

/-- The fields of `Parser`, src/internals/parser.rs:14-28, that grammar functions use; `root` and `leftover` are in `Api.Parser`,
`mixed_array` and `failure` are never used.  `heap` holds the cells. Vectors are lists with the top of a stack at the end. -/
structure PState where
  map : KMap
  errors : List ParseError
  lineCount : Nat
  lastArrayTables : List TableType
  lastArrayTablesIndex : List Nat
  keychain : List Key
  lastTable : Option TableType
  lastArrayType : List ArrayType
  arrayError : Bool
  heap : Heap
  deriving DecidableEq, Repr

/-- src/internals/parser.rs:31-43 -/
def PState.new : PState :=
  { map := [(root, ⟨none, .keys []⟩)], errors := [], lineCount := 1, lastArrayTables := [], lastArrayTablesIndex := [],
    keychain := [], lastTable := none, lastArrayType := [], arrayError := false, heap := [] }

/-- `nom::IResult` -/
inductive IRes (α : Type) where
  | done (rest : Str) (a : α)
  | err
  | inc
  deriving DecidableEq, Repr

/-- A `method!`: it takes the parser state and the input and returns the new state and a result.
State changes made before a failure stay. -/
abbrev P (α : Type) := PState → Str → Out (PState × IRes α)

namespace P
variable {α β : Type}

/-- Succeed without consuming. -/
protected def pure (a : α) : P α := fun st i => .ok (st, .done i a)

/-- One step of `chain!`. -/
protected def bind (p : P α) (f : α → P β) : P β := fun st i =>
  match p st i with
  | .ok (st', .done r a) => f a st' r
  | .ok (st', .err) => .ok (st', .err)
  | .ok (st', .inc) => .ok (st', .inc)
  | .panic x => .panic x
  | .fuel => .fuel

instance : Monad P where
  pure := P.pure
  bind := P.bind

/-- The closing closure of a `chain!` that reads and writes the parser state. -/
def act (f : PState → Out (PState × α)) : P α := fun st i =>
  match f st with
  | .ok (st', a) => .ok (st', .done i a)
  | .panic x => .panic x
  | .fuel => .fuel

/-- The mapping closure `=> {|x| ...}` of `alt!`. -/
def mapP (f : α → β) (p : P α) : P β := P.bind p fun a => P.pure (f a)

/-- `complete!` turns `Incomplete` into an error. -/
def complete (p : P α) : P α := fun st i =>
  match p st i with
  | .ok (st', .inc) => .ok (st', .err)
  | r => r

/-- `alt!`: the second parser runs on the same input with the state left by the first. -/
def alt (p q : P α) : P α := fun st i =>
  match p st i with
  | .ok (st', .err) => q st' i
  | r => r

/-- `x: p?` in `chain!`. -/
def opt (p : P α) : P (Option α) := fun st i =>
  match p st i with
  | .ok (st', .done r a) => .ok (st', .done r (some a))
  | .ok (st', .err) => .ok (st', .done i none)
  | .ok (st', .inc) => .ok (st', .inc)
  | .panic x => .panic x
  | .fuel => .fuel

/-- `tag_s!` -/
def tag (t : Str) : P Str := fun st i =>
  if blen t > blen i then .ok (st, .inc)
  else if t.isPrefixOf i then .ok (st, .done (i.drop t.length) t)
  else .ok (st, .err)

/-- `re_find!` -/
def re (r : Re) : P Str := fun st i =>
  match r.find i with
  | some (m, rest) => .ok (st, .done rest m)
  | none => .ok (st, .err)

/-- `take_while_s!` (on the empty input it is `Done` with nothing) -/
def takeWhile (p : Char → Bool) : P Str := fun st i =>
  .ok (st, .done (i.dropWhile p) (i.takeWhile p))

/-- `take_while1_s!` -/
def takeWhile1 (p : Char → Bool) : P Str := fun st i =>
  if i.takeWhile p = [] then .ok (st, .err) else .ok (st, .done (i.dropWhile p) (i.takeWhile p))

/-- The loop of `many0!`: stops at the end of the input and at the first error; an element that consumes nothing is an error.
Every iteration but the last consumes, so `n` = remaining length + 1 iterations suffice. -/
def many0Loop (p : P α) : Nat → List α → P (List α)
  | 0, _ => fun _ _ => .fuel
  | n + 1, acc => fun st i =>
    if i = [] then .ok (st, .done i acc)
    else match p st i with
      | .ok (st', .err) => .ok (st', .done i acc)
      | .ok (st', .inc) => .ok (st', .inc)
      | .ok (st', .done r a) =>
        if r.length = i.length then .ok (st', .err) else many0Loop p n (acc ++ [a]) st' r
      | .panic x => .panic x
      | .fuel => .fuel

/-- `many0!` -/
def many0 (p : P α) : P (List α) := fun st i => many0Loop p (i.length + 1) [] st i

/-- The loop of `many1!` after the first element: an element that consumes nothing ends it and is dropped. -/
def many1Loop (p : P α) : Nat → List α → P (List α)
  | 0, _ => fun _ _ => .fuel
  | n + 1, acc => fun st i =>
    if i = [] then .ok (st, .done i acc)
    else match p st i with
      | .ok (st', .err) => .ok (st', .done i acc)
      | .ok (st', .inc) => .ok (st', .inc)
      | .ok (st', .done r a) =>
        if r.length = i.length then .ok (st', .done i acc) else many1Loop p n (acc ++ [a]) st' r
      | .panic x => .panic x
      | .fuel => .fuel

/-- `many1!` -/
def many1 (p : P α) : P (List α) := P.bind p fun a st r => many1Loop p (r.length + 1) [a] st r

end P
end Tomllib
