import Verif.Spec.Strict
import Verif.Spec.Tables
import Verif.Spec.Edit
/-!
# Values that can be written down
-/

namespace Tomllib

/-- The kind of a value, as far as arrays care. -/
def Value.kind : Value → ArrayType
  | .int _ => .int
  | .float _ => .float
  | .bool _ => .bool
  | .dt _ => .dt
  | .str _ _ => .str
  | .arr _ => .arr
  | .itab _ => .itab

mutual
/-- No array or inline table in it is empty. -/
def Value.noEmpty : Value → Bool
  | .arr vs => !vs.isEmpty && noEmpties vs
  | .itab kvs => !kvs.isEmpty && noEmptyKVs kvs
  | _ => true
def noEmpties : List Value → Bool
  | [] => true
  | v :: vs => v.noEmpty && noEmpties vs
def noEmptyKVs : List (Str × Value) → Bool
  | [] => true
  | (_, v) :: vs => v.noEmpty && noEmptyKVs vs
end

mutual
/-- A proper value: its scalars are spelled as TOML asks, dates and times exist, the elements of an array are of one kind, the keys of an inline table are bare
or quoted keys and distinct. -/
def Value.proper : Value → Prop
  | .int s => IntegerText s
  | .float s => FloatText s
  | .bool _ => True
  | .dt d => d.shape ∧ d.real = true
  | .str s t => Pieces t.Piece s ∧ t.NoEarlyEnd s
  | .arr vs => properAll vs ∧ ∀ v ∈ vs, ∀ v' ∈ vs, v.kind = v'.kind
  | .itab kvs => properKVs kvs ∧ (kvs.map (·.1)).Nodup
def properAll : List Value → Prop
  | [] => True
  | v :: vs => v.proper ∧ properAll vs
def properKVs : List (Str × Value) → Prop
  | [] => True
  | (k, v) :: vs => KeyWf k ∧ v.proper ∧ properKVs vs
end

mutual
/-- The scalars in it are spelled as TOML asks, and its dates and times exist. -/
def Value.written : Value → Prop
  | .int s => IntegerText s
  | .float s => FloatText s
  | .bool _ => True
  | .dt d => d.shape ∧ d.real = true
  | .str s t => Pieces t.Piece s ∧ t.NoEarlyEnd s
  | .arr vs => writtenAll vs
  | .itab kvs => writtenKVs kvs
def writtenAll : List Value → Prop
  | [] => True
  | v :: vs => v.written ∧ writtenAll vs
def writtenKVs : List (Str × Value) → Prop
  | [] => True
  | (_, v) :: vs => v.written ∧ writtenKVs vs
end

mutual
/-- The same structure, with scalars of the same kinds. -/
def Value.sameKinds : Value → Value → Prop
  | .arr xs, .arr ys => sameKindsAll xs ys
  | .itab xs, .itab ys => sameKindsKVs xs ys
  | x, y => x.scalar?.isSome = true ∧ y.scalar?.isSome = true ∧ x.kind = y.kind
def sameKindsAll : List Value → List Value → Prop
  | [], [] => True
  | x :: xs, y :: ys => x.sameKinds y ∧ sameKindsAll xs ys
  | _, _ => False
def sameKindsKVs : List (Str × Value) → List (Str × Value) → Prop
  | [], [] => True
  | (k, x) :: xs, (k', y) :: ys => k = k' ∧ x.sameKinds y ∧ sameKindsKVs xs ys
  | _, _ => False
end

end Tomllib
