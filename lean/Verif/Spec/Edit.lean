import Verif.Spec.Syntax
import Verif.Spec.Valid
/-!
# What an edit means on syntax trees
-/

namespace Tomllib

/-- The scalar with this value, if the value is a scalar. -/
def Value.scalar? : Value → Option Scalar
  | .int s => some (.int s)
  | .float s => some (.float s)
  | .bool b => some (.bool b)
  | .dt d => some (.dt d)
  | .str s t => some (.str s t)
  | .arr _ => none
  | .itab _ => none

mutual
/-- The value fits the tree: arrays of the same length, inline tables with the same keys in the same order, and valid scalars in
place of scalars. -/
noncomputable def VT.fits : VT → Value → Bool
  | .leaf _, v => v.valid && v.scalar?.isSome
  | .arr es _ _, .arr vs => es.fits vs
  | .itab kvs _, .itab ts => kvs.fits ts
  | _, _ => false
noncomputable def Elems.fits : Elems → List Value → Bool
  | .nil, [] => true
  | .cons v _ _ r, t :: ts => v.fits t && r.fits ts
  | _, _ => false
noncomputable def Pairs.fits : Pairs → List (Str × Value) → Bool
  | .nil, [] => true
  | .cons k _ v _ _ r, (k', t) :: ts => decide (k = k') && (v.fits t && r.fits ts)
  | _, _ => false
end

mutual
/-- The tree with its scalars replaced and its layout kept. -/
def VT.replace : VT → Value → VT
  | .leaf s, v => match v.scalar? with
    | some s' => .leaf s'
    | none => .leaf s
  | .arr es c1 c2, .arr vs => .arr (es.replace vs) c1 c2
  | .itab kvs ws, .itab ts => .itab (kvs.replace ts) ws
  | t, _ => t
def Elems.replace : Elems → List Value → Elems
  | .cons v sep cn r, t :: ts => .cons (v.replace t) sep cn (r.replace ts)
  | es, _ => es
def Pairs.replace : Pairs → List (Str × Value) → Pairs
  | .cons k ws v sep cn r, (_, t) :: ts => .cons k ws (v.replace t) sep cn (r.replace ts)
  | kvs, _ => kvs
end

/-- The separator of freshly written elements: a comma and a blank, nothing after the last. -/
def freshSep (last : Bool) : Option WSSep := if last then none else some ⟨[], lit% " "⟩

mutual
/-- A value written afresh: `[a, b]`, `{ k = a, l = b }`. -/
def Value.fresh : Value → VT
  | .int s => .leaf (.int s)
  | .float s => .leaf (.float s)
  | .bool b => .leaf (.bool b)
  | .dt d => .leaf (.dt d)
  | .str s t => .leaf (.str s t)
  | .arr vs => .arr (freshElems vs) [] []
  | .itab kvs => .itab (freshPairs kvs) ⟨lit% " ", lit% " "⟩
def freshElems : List Value → Elems
  | [] => .nil
  | v :: vs => .cons v.fresh (freshSep vs.isEmpty) [] (freshElems vs)
def freshPairs : List (Str × Value) → Pairs
  | [] => .nil
  | (k, v) :: vs => .cons k ⟨lit% " ", lit% " "⟩ v.fresh (freshSep vs.isEmpty) [] (freshPairs vs)
end

mutual
/-- Every scalar in the value is valid. -/
noncomputable def Value.deepValid : Value → Bool
  | .arr vs => deepValids vs
  | .itab kvs => deepValidKVs kvs
  | .int s => (Value.int s).valid
  | .float s => (Value.float s).valid
  | .bool b => (Value.bool b).valid
  | .dt d => (Value.dt d).valid
  | .str s t => (Value.str s t).valid
noncomputable def deepValids : List Value → Bool
  | [] => true
  | v :: vs => v.deepValid && deepValids vs
noncomputable def deepValidKVs : List (Str × Value) → Bool
  | [] => true
  | (_, v) :: vs => v.deepValid && deepValidKVs vs
end

/-! ## On values -/

mutual
/-- The same structure: arrays of the same length, inline tables with the same keys in the same order, scalars in place of scalars. -/
def Value.sameShape : Value → Value → Bool
  | .arr xs, .arr ys => sameShapes xs ys
  | .itab xs, .itab ys => sameShapeKVs xs ys
  | x, y => x.scalar?.isSome && y.scalar?.isSome
def sameShapes : List Value → List Value → Bool
  | [], [] => true
  | x :: xs, y :: ys => x.sameShape y && sameShapes xs ys
  | _, _ => false
def sameShapeKVs : List (Str × Value) → List (Str × Value) → Bool
  | [], [] => true
  | (k, x) :: xs, (k', y) :: ys => decide (k = k') && (x.sameShape y && sameShapeKVs xs ys)
  | _, _ => false
end

mutual
/-- The second value is the first with some of the scalars `old` in it replaced by `new`, all else being equal. -/
def Value.Edited (old new : Value) : Value → Value → Prop
  | .arr xs, .arr ys => Editeds old new xs ys
  | .itab xs, .itab ys => EditedKVs old new xs ys
  | x, y => x = y ∨ x = old ∧ y = new
def Editeds (old new : Value) : List Value → List Value → Prop
  | [], [] => True
  | x :: xs, y :: ys => Value.Edited old new x y ∧ Editeds old new xs ys
  | _, _ => False
def EditedKVs (old new : Value) : List (Str × Value) → List (Str × Value) → Prop
  | [], [] => True
  | (k, x) :: xs, (k', y) :: ys => k = k' ∧ Value.Edited old new x y ∧ EditedKVs old new xs ys
  | _, _ => False
end

end Tomllib
