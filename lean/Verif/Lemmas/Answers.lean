import Verif.Lemmas.Simulate
import Verif.Lemmas.Read
/-!
# What the getters answer after a document with arrays of tables
-/

namespace Tomllib
namespace Sections

/-! ## The answers -/

theorem Sim.new : Sim {} PState.new := by
  have hK : ∀ q, PathWf q → KP PState.new.map q = if q = [] then some ⟨none, .keys []⟩ else none := by
    intro q hq
    unfold KP parP
    by_cases h : q = []
    · subst h; rfl
    · rw [if_neg h, if_neg h]
      show SMap.get? [(root, _)] _ = none
      simp [SMap.get?, Ne.symm (keyOf_ne_root hq)]
  have hsp : ∀ r, ¬ Spot {} r := by
    rintro r (⟨e, he, _⟩ | h | ⟨e, he, _⟩ | ⟨e, he, _⟩) <;> simp at *
  refine ⟨rfl, rfl, ?_, ⟨fun p hp => ?_, fun r hr => absurd hr (hsp r), fun r hr => absurd hr (hsp r), by simp, by simp⟩, ?_, .inl rfl, ⟨by simp, by simp⟩, ?_⟩
  · intro x hx
    refine ⟨[], trivial, ?_⟩
    show x = root
    have : SMap.get? [(root, (⟨none, .keys []⟩ : HashValue))] x ≠ none := hx
    simp [SMap.get?] at this
    exact this.symm
  · refine ⟨fun t ht => by simp [valueAt] at ht, fun n hn => by simp [count] at hn, fun ht => ?_, fun _ _ ht => ?_⟩
    · have hp0 : p = [] := by
        rcases ht with h | h | ⟨e, he, _⟩ | ⟨e, he, _⟩
        · exact h
        all_goals simp at *
      subst hp0
      refine ⟨none, [], by rw [hK [] trivial]; rfl, ?_, by simp, fun _ => rfl⟩
      unfold Lists
      rw [if_pos rfl]
      exact ⟨fun _ => rfl, by simp [namesOf]⟩
    · rw [hK p hp, if_neg (fun h => ht (.inl h))]
  · intro Y p k hk
    simp at hk
  · exact ⟨[], [], [], [], .nil, ⟨.inr ⟨rfl, rfl, rfl, fun _ => rfl, fun h => absurd rfl h⟩, rfl⟩, rfl⟩

theorem Good.answers {D : Sections} {p : Parser} (g : D.Good (KP p.st.map) p.st.heap) (ho : Only p.st.map) (hi : Inv p.st) : D.Answers p := by
  refine ⟨fun q hq hne => ?_, fun q hq hne => ?_, ?_, fun k hk hr hno => ?_⟩
  · have hs := g.slot q hq
    have hget : p.st.map.get? (keyOf [] q) = KP p.st.map q := KP_ne hne
    cases hv : D.valueAt q with
    | some t =>
      obtain ⟨a, fp, e1, e2⟩ := hs.val t hv
      exact Inv.getValue_rep hi (by simp [valOf, hget, e1]) e2
    | none =>
      dsimp only
      by_cases hh : q ∈ D.heads
      · rw [if_pos hh]
        obtain ⟨v, l, e1, _, e3, _⟩ := hs.tab (.inr (.inl hh))
        obtain ⟨a, rfl, e4⟩ := e3 hh
        have hva : valOf p.st.map (keyOf [] q) = some a := by simp [valOf, hget, e1]
        rcases Inv.getValue_cases hi (keyOf [] q) with ⟨h1, _⟩ | ⟨b, h1, h2, h3⟩ | ⟨b, t, fp, h1, h2, _⟩
        · rw [hva] at h1; simp at h1
        · exact h3
        · rw [hva] at h1; simp at h1; subst h1
          exact absurd e4 (h2.bound a h2.kids.1).2
      · rw [if_neg hh, Inv.getValue_none hi]
        unfold valOf
        rw [hget]
        by_cases ht : D.isTable q
        · rw [hs.tab_eq ht hne hh]; rfl
        · cases hc : D.count q with
          | none => rw [hs.none hv hc ht]; rfl
          | some n => rw [hs.arr n hc]; rfl
  · have hs := g.slot q hq
    have hkn : keyOf [] q ≠ [] := keyOf_ne_nil hq hne
    unfold Parser.getChildren childrenAt
    simp only [if_neg hkn, KP_ne hne]
    cases hv : D.valueAt q with
    | some t =>
      obtain ⟨a, fp, e1, e2⟩ := hs.val t hv
      rw [e1]
    | none =>
      cases hc : D.count q with
      | some n => rw [hs.arr n hc]
      | none =>
        by_cases ht : D.isTable q
        · obtain ⟨v, l, e1, e2, _⟩ := hs.tab ht
          rw [e1]
          unfold Lists at e2
          rw [if_neg hne] at e2
          simp [ht, e2]
        · rw [hs.none hv hc ht]
          simp [ht]
  · obtain ⟨v, l, e1, e2, _⟩ := (g.slot [] trivial).tab (.inl rfl)
    unfold Lists at e2
    rw [if_pos rfl] at e2
    refine ⟨l, ?_, e2⟩
    have : p.st.map.get? root = some ⟨v, .keys l⟩ := e1
    simp [Parser.getChildren, this]
  · have hno' : p.st.map.get? k = none := by
      cases e : p.st.map.get? k with
      | none => rfl
      | some v =>
        obtain ⟨q, hq, e2⟩ := ho k (by rw [e]; simp)
        unfold parP at e2
        split at e2
        · exact absurd e2 hr
        · exact absurd e2 (hno q hq)
    refine ⟨by rw [Parser.getValue, hno'], ?_⟩
    simp [Parser.getChildren, hk, hno']

theorem Sim.answers {D : Sections} {p : Parser} (h : D.Sim p.st) (hi : Inv p.st) : D.Answers p := h.good.answers h.only hi

/-- A document in order is read as it should be. -/
theorem Fits.linesEff {ls : List (Str × ET)} (hw : DocWf ls) (hf : Fits {} ls) : ∃ st es, Tomllib.linesEff ls PState.new = .ok (st, es) ∧ (Sections.read ls).Sim st :=
  Sim.all ls Sim.new hw.lines hf

end Sections
end Tomllib
