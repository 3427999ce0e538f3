import Verif.Spec.Spell
import Verif.Spec.Edit
import Verif.Spec.Syntax
import Verif.Api
/-!
# What an assignment does, by the old and the new value
-/

namespace Tomllib

/-- What becomes of a value given to `set_value`: it is taken, it is refused, or the program panics. -/
inductive Verdict
  | taken
  | refused
  | panics
  deriving DecidableEq, Repr

mutual
/-- The first invalid scalar, from left to right, decides: outside of inline tables the value is refused, inside of one the program panics. -/
noncomputable def Value.verdict : Value → Verdict
  | .arr vs => verdicts vs
  | .itab kvs => if deepValidKVs kvs then .taken else .panics
  | .int s => if (Value.int s).valid then .taken else .refused
  | .float s => if (Value.float s).valid then .taken else .refused
  | .bool _ => .taken
  | .dt d => if (Value.dt d).valid then .taken else .refused
  | .str s t => if (Value.str s t).valid then .taken else .refused
noncomputable def verdicts : List Value → Verdict
  | [] => .taken
  | v :: vs => match v.verdict with
    | .taken => verdicts vs
    | x => x
end

/-- The elements of an array or the values of an inline table, each with the key at which it is read, when the whole is at `key`. -/
def Value.parts (key : Str) : Value → List (Str × Value)
  | .arr vs => vs.mapIdx fun i v => (key ++ lit% "[" ++ decimal i ++ lit% "]", v)
  | .itab kvs => kvs.map fun (k, v) => (key ++ lit% "." ++ k, v)
  | _ => []

/-- The outcome of assigning `v` where the value is `w`: a good value of the same structure is taken, a scalar for something else panics; arrays and
inline tables of a new structure are taken when their elements are all scalars, and panic otherwise. -/
noncomputable def assignment (w v : Value) : Verdict :=
  match v.verdict with
  | .taken =>
    if w.sameShape v then .taken
    else if v.scalar?.isSome then .panics
    else if (v.parts []).all fun q => q.2.scalar?.isSome then .taken
    else .panics
  | x => x

/-- The keys at which the parts of `v` would be read are different from each other, and each is new or listed among the children of `key`. -/
def Vacant (p : Parser) (key : Str) (v : Value) : Prop :=
  ((v.parts key).map (·.1)).Nodup ∧
  ∀ q ∈ v.parts key, p.getChildren q.1 = none ∨ ∃ c, p.getChildren key = some c ∧ q.1 ∈ c.combineChildKeys key

/-- The names of an inline table are keys as they are written, each once. -/
def Value.named : Value → Prop
  | .itab kvs => (∀ kv ∈ kvs, KeyWf kv.1) ∧ (kvs.map (·.1)).Nodup
  | _ => True

end Tomllib
