import Verif.Lemmas.Under
import Verif.Lemmas.Edit
import Verif.Lemmas.Witness
/-!
# What a refused assignment takes away: C10
-/

namespace Tomllib

/-- C10, what the code does instead. An invalid scalar assigned to a key that holds a scalar is refused; the printed document and the value of the key are the same;
the keys that a walk below the key meets are gone, with their values and children, and every other key has the value and the children that it had. -/
theorem C10_invalid_scalar {p : Parser} (hp : Reachable p) {key : Str} (hk : key ≠ []) {w v : Value} (hw : p.getValue key = .ok (some w))
    (hws : w.scalar?.isSome = true) (hv : v.scalar?.isSome = true) (hbad : ¬ v.Valid) :
    ∃ p', p.setValue key v = .ok (p', false) ∧ p'.display = p.display ∧ p'.getValue key = .ok (some w) ∧
      ∀ k, (Descends p key k → p'.getValue k = .ok none ∧ p'.getChildren k = none) ∧
        (¬ Descends p key k → p'.getValue k = p.getValue k ∧ p'.getChildren k = p.getChildren k) := by
  have hset : ∃ p', p.setValue key v = .ok (p', false) := by
    rw [Value.not_valid_iff] at hbad
    obtain ⟨s, hs⟩ := Option.isSome_iff_exists.mp hws
    obtain ⟨s', hs'⟩ := Option.isSome_iff_exists.mp hv
    rw [Value.scalar_eq hs] at hw
    rw [Value.scalar_eq hs'] at hbad ⊢
    obtain ⟨a, h1, h2⟩ := hp.inv.inv.scalar_cell hw
    obtain ⟨c, hg⟩ := valOf_some.mp h1
    obtain ⟨subs, hsub, _⟩ := allSubkeys_ok p.st.map key
    unfold Parser.setValue
    simp only [hg, sameStructure_scalar, hbad, Bool.false_and, Bool.false_eq_true, if_false, Out.bind_eq, hsub, Out.bind, convertVector_scalar hbad]
    exact ⟨_, rfl⟩
  obtain ⟨p', h⟩ := hset
  obtain ⟨h1, h2⟩ := refused_exactly hp hk (by rw [hw]; simp) h
  refine ⟨p', h, h1, ?_, h2⟩
  rw [((h2 key).2 fun hd => ?_).1, hw]
  obtain ⟨subs, hsub, hlen⟩ := allSubkeys_ok p.st.map key
  exact absurd (hlen key ((allSubkeysAt_descends p _ hk hsub key).mpr hd)) (Nat.lt_irrefl _)

/-- C10. So nothing observable changes exactly when a walk below the key meets no key that exists. -/
theorem C10_nothing_changes_iff {p p' : Parser} (hp : Reachable p) {key : Str} (hk : key ≠ []) {w v : Value} (hw : p.getValue key = .ok (some w))
    (hws : w.scalar?.isSome = true) (hv : v.scalar?.isSome = true) (hbad : ¬ v.Valid) (h : p.setValue key v = .ok (p', false)) :
    LooksSame p p' ↔ ∀ k, Descends p key k → p.getChildren k = none := by
  obtain ⟨p1, h1, h2, _, h3⟩ := C10_invalid_scalar hp hk hw hws hv hbad
  rw [h] at h1
  simp only [Out.ok.injEq, Prod.mk.injEq, and_true] at h1
  subst h1
  constructor
  · rintro ⟨_, h4⟩ k hd
    rw [← (h4 k).2]
    exact ((h3 k).1 hd).2
  · intro h4
    refine ⟨h2, fun k => ?_⟩
    by_cases hd : Descends p key k
    · have h5 := h4 k hd
      obtain ⟨h6, h7⟩ := (h3 k).1 hd
      refine ⟨?_, h7.trans h5.symm⟩
      rw [h6]
      have hne : k ≠ [] := by
        obtain ⟨subs, hsub, hlen⟩ := allSubkeys_ok p.st.map key
        have := hlen k ((allSubkeysAt_descends p _ hk hsub k).mpr hd)
        rintro rfl
        simp at this
      refine (hp.inv.inv.getValue_none.mpr ?_).symm
      unfold Parser.getChildren at h5
      simp only [hne, if_false] at h5
      unfold valOf
      cases hg : p.st.map.get? k with
      | none => rfl
      | some hv => rw [hg] at h5; simp at h5
    · exact (h3 k).2 hd

/-- C10, the same for every refused assignment to a key that has a value, or is the key of a table header, whatever the values. -/
theorem C10_refused_exactly {p p' : Parser} (hp : Reachable p) {key : Str} (hk : key ≠ []) {v : Value} (ha : p.getValue key ≠ .ok none)
    (h : p.setValue key v = .ok (p', false)) :
    p'.display = p.display ∧ ∀ k, (Descends p key k → p'.getValue k = .ok none ∧ p'.getChildren k = none) ∧
      (¬ Descends p key k → p'.getValue k = p.getValue k ∧ p'.getChildren k = p.getChildren k) := refused_exactly hp hk ha h

example : ∃ p, Parser.new.parse (lit% "[t.a.b]\nx = 1\n[t]\na = 5\nc = 6") = .ok (p, .full) ∧
    Descends p (lit% "t.a") (lit% "t.a.b.x") ∧ ¬ (Value.int (lit% "?")).Valid ∧
    ∃ p', p.setValue (lit% "t.a") (.int (lit% "?")) = .ok (p', false) ∧ p'.getValue (lit% "t.a.b.x") = .ok none ∧
      p'.getValue (lit% "t.c") = .ok (some (.int (lit% "6"))) := by
  obtain ⟨p, h1, h2, h3, p', h4, h5, h6⟩ : ∃ p, Parser.new.parse (lit% "[t.a.b]\nx = 1\n[t]\na = 5\nc = 6") = .ok (p, .full) ∧
      p.getChildren (lit% "t.a") = some (.keys [lit% "b"]) ∧ p.getChildren (lit% "t.a.b") = some (.keys [lit% "x"]) ∧
      ∃ p', p.setValue (lit% "t.a") (.int (lit% "?")) = .ok (p', false) ∧ p'.getValue (lit% "t.a.b.x") = .ok none ∧
        p'.getValue (lit% "t.c") = .ok (some (.int (lit% "6"))) := Out.wit (by decide +kernel)
  exact ⟨p, h1, .next (.child h2 (by decide)) h3 (by decide), (Value.not_valid_iff _).mpr (by decide +kernel), p', h4, h5, h6⟩

end Tomllib
