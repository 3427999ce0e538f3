import Verif.Spec.Tables
import Verif.Spec.Edit
import Verif.Spec.Strict
import Verif.Spec.Taken
/-!
# A document and what becomes of it by assignments
-/

namespace Tomllib

mutual
/-- A value with the part at a path exchanged for another. -/
def VT.put : VT → List Key → VT → VT
  | _, [], x => x
  | .arr es c1 c2, .idx i :: q, x => .arr (es.put i q x) c1 c2
  | .itab kvs ws, .str k :: q, x => .itab (kvs.put k q x) ws
  | t, _, _ => t
def Elems.put : Elems → Nat → List Key → VT → Elems
  | .nil, _, _, _ => .nil
  | .cons v sep cn r, 0, q, x => .cons (v.put q x) sep cn r
  | .cons v sep cn r, i + 1, q, x => .cons v sep cn (r.put i q x)
def Pairs.put : Pairs → Str → List Key → VT → Pairs
  | .nil, _, _, _ => .nil
  | .cons k' ws v sep cn r, k, q, x => if k' = k then .cons k' ws (v.put q x) sep cn r else .cons k' ws v sep cn (r.put k q x)
end

/-- The lines of a document with the value at a path exchanged for another: it is in the line of the key that begins the path. -/
def putLines (D : Sections) (q : List Key) (x : VT) : List (Str × ET) → List (Str × ET)
  | [] => []
  | (nl, .kv w1 k s v w2 c) :: ls =>
    if (D.here ++ [Key.str k]).isPrefixOf q then (nl, .kv w1 k s (v.put (q.drop (D.here ++ [Key.str k]).length) x) w2 c) :: ls
    else (nl, .kv w1 k s v w2 c) :: putLines (D.step (.kv w1 k s v w2 c)) q x ls
  | l :: ls => l :: putLines (D.step l.2) q x ls

/-- What a value looks like after an assignment: if the structure is the same the layout is kept, otherwise the new value is written afresh. -/
def VT.assigned (t : VT) (v : Value) : VT := if t.value.sameShape v then t.replace v else v.fresh

/-- The assignments that are followed: values of the same structure; arrays of scalars; inline tables of scalars in place of inline tables, when the old keys come
first. -/
def Assignable (t : VT) (v : Value) : Prop :=
  t.value.sameShape v = true ∨ (∃ vs, v = .arr vs ∧ ∀ w ∈ vs, w.scalar?.isSome = true) ∨
  ∃ vs kvs ws, v = .itab vs ∧ t = .itab kvs ws ∧ kvs.keys <+: vs.map (·.1) ∧ (vs.map (·.1)).Nodup ∧ ∀ w ∈ vs, KeyWf w.1 ∧ w.2.scalar?.isSome = true

/-- A document is read and then changed by assignments; the last but one argument is the document as it is by now. The predicates restrict which documents are read
(`DocTaken`: those that are the lines of some text, `DocStrict`: properly written ones) and what may be written.
* `read`: a document whose lines are in order is read.
* `assign`: a valid value is assigned to a path that has a value.
* `refused`: an assignment to a key that has no value or a scalar is refused. -/
inductive History (S : List (Str × ET) → Prop) (P : VT → Prop) : List (Str × ET) → Parser → Prop
  | read {ls : List (Str × ET)} {p : Parser} {r : ParseResult} (hs : S ls) (hf : Sections.Fits {} ls) (h : Parser.new.parse (linesText ls) = .ok (p, r)) :
      History S P ls p
  | assign {ls : List (Str × ET)} {p p' : Parser} {q : List Key} {t : VT} {v : Value} {b : Bool} (hp : History S P ls p) (hq : PathWf q)
      (ht : (Sections.read ls).valueAt q = some t) (hv : v.deepValid = true) (hc : Assignable t v) (hx : P (t.assigned v))
      (h : p.setValue (keyOf [] q) v = .ok (p', b)) : History S P (putLines {} q (t.assigned v) ls) p'
  | refused {ls : List (Str × ET)} {p p' : Parser} {k : Str} {v : Value} (hp : History S P ls p)
      (hw : p.getValue k = .ok none ∨ ∃ w, p.getValue k = .ok (some w) ∧ w.scalar?.isSome = true) (h : p.setValue k v = .ok (p', false)) : History S P ls p'

/-- The key itself, or a key that goes on with a dot or a bracket. -/
def KeyWithin (key k : Str) : Prop := k = key ∨ key ++ lit% "." <+: k ∨ key ++ lit% "[" <+: k

/-- Two parsers that print the same text and give the same answers for every key. -/
def LooksSame (p p' : Parser) : Prop :=
  p'.display = p.display ∧ ∀ k, p'.getValue k = p.getValue k ∧ p'.getChildren k = p.getChildren k

end Tomllib
