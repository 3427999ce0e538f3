import Verif.Lemmas.Anytime
import Verif.Props.History
/-!
# C17 and C38 with arrays of tables, and at any moment of a history of assignments
-/

namespace Tomllib

/-- C17, for documents with arrays of tables, at any moment of a history of assignments: `get_value` panics exactly at the keys of the tables with a header. -/
theorem C17_any_time {P : VT → Prop} {ls : List (Str × ET)} {p : Parser} (h : History DocTaken P ls p) (K : Str) :
    (∃ x, p.getValue K = .panic x) ↔ ∃ q ∈ (Sections.read ls).heads, K = keyOf [] q :=
  h.hist.elim fun _ hh => hh.panics_iff K

/-- C38, for documents with arrays of tables, at any moment of a history of assignments: an array read whole agrees with its elements read one by one and with the number of
its children, an inline table with its values and the names of its children, and a simple value has no parts. -/
theorem C38_any_time {P : VT → Prop} {ls : List (Str × ET)} {p : Parser} (h : History DocTaken P ls p) (K : Str) :
    (∀ vs, p.getValue K = .ok (some (.arr vs)) →
      (∀ n, p.getValue (indexed K n) = .ok vs[n]?) ∧ p.getChildren K = some (.count vs.length) ∧
      ∀ k, KeyWf k → p.getValue (dotted K k) = .ok none) ∧
    (∀ kvs, p.getValue K = .ok (some (.itab kvs)) →
      (∀ k, KeyWf k → p.getValue (dotted K k) = .ok ((kvs.find? fun e => e.1 = k).map (·.2))) ∧ p.getChildren K = some (.keys (kvs.map (·.1))) ∧
      ∀ n, p.getValue (indexed K n) = .ok none) ∧
    (∀ v, p.getValue K = .ok (some v) → v.scalar?.isSome = true →
      p.getChildren K = some (.count 0) ∧ (∀ n, p.getValue (indexed K n) = .ok none) ∧ ∀ k, KeyWf k → p.getValue (dotted K k) = .ok none) :=
  h.hist.elim fun _ hh => hh.parts K

/-- Both are met in a history of four assignments: `x` has become an array, `t` is a table with a header. -/
example : ∃ ls p, History DocTaken (fun _ => True) ls p ∧ p.getValue (lit% "x") = .ok (some (.arr [.int (lit% "5"), .int (lit% "7")])) ∧ ∃ x, p.getValue (lit% "t") = .panic x := by
  obtain ⟨_, ls, p, h1, _, _, h2, h3⟩ := exHistory
  exact ⟨ls, p, h1, h2, _, h3⟩

end Tomllib
