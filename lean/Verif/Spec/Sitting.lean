import Verif.Spec.History
/-!
# Several texts read with the same parser, with assignments in between
-/

namespace Tomllib

/-- What has been done with one parser. The arguments are the lines of all the texts that were read, one after the other and as they are by now; how many of them belong to
texts before the last one; and the parser. The predicate restricts what may be written.
* `read`: one more text, whose lines are in order after all those before it, is read.
* `assign`: a valid value is assigned to a path that has a value, in whichever of the texts that is.
* `refused`: an assignment to a key that has no value or a scalar is refused. -/
inductive Sitting (P : VT → Prop) : List (Str × ET) → Nat → Parser → Prop
  | new : Sitting P [] 0 Parser.new
  | read {all ls : List (Str × ET)} {n : Nat} {p p' : Parser} {r : ParseResult} (hp : Sitting P all n p) (hs : DocTaken ls) (hf : (Sections.read all).Fits ls)
      (h : p.parse (linesText ls) = .ok (p', r)) : Sitting P (all ++ ls) all.length p'
  | assign {all : List (Str × ET)} {n : Nat} {p p' : Parser} {q : List Key} {t : VT} {v : Value} {b : Bool} (hp : Sitting P all n p) (hq : PathWf q)
      (ht : (Sections.read all).valueAt q = some t) (hv : v.deepValid = true) (hc : Assignable t v) (hx : P (t.assigned v))
      (h : p.setValue (keyOf [] q) v = .ok (p', b)) : Sitting P (putLines {} q (t.assigned v) all) n p'
  | refused {all : List (Str × ET)} {n : Nat} {p p' : Parser} {k : Str} {v : Value} (hp : Sitting P all n p)
      (hw : p.getValue k = .ok none ∨ ∃ w, p.getValue k = .ok (some w) ∧ w.scalar?.isSome = true) (h : p.setValue k v = .ok (p', false)) : Sitting P all n p'

end Tomllib
