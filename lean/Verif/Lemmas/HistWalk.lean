import Verif.Lemmas.HistAll
import Verif.Lemmas.Walk
/-!
# Walking over the keys at any time of a history
-/

namespace Tomllib

theorem History.down {P : VT → Prop} {ls : List (Str × ET)} {p : Parser} (h : History DocTaken P ls p) : ∀ Y, (Sections.read ls).Down Y := by
  induction h with
  | read hs hf h =>
    obtain ⟨st, es, e, hsim⟩ := Sections.Fits.linesEff hs.wf hf
    exact hsim.down
  | @assign ls p p' q t v b hp hq ht hv hc _ h ih =>
    obtain ⟨fp, hh⟩ := hp.hist
    have hap := hh.apart
    intro Y r k hk hne
    rw [Sections.read_put] at hk ⊢
    rcases ih Y r k hk hne with h1 | h1 | h1
    · left
      by_cases hqr : q <+: r ++ [.str k]
      · obtain ⟨s, hs⟩ := hqr
        rcases List.eq_nil_or_concat s with rfl | ⟨s, x, rfl⟩
        · rw [← hs, Sections.valueAt_put_below hap ht, VT.part_nil]; simp
        · rw [List.concat_eq_append, ← List.append_assoc] at hs
          have := List.append_inj' hs rfl
          refine absurd ?_ (hh.good.off hh.plain hq ht (p := r) (.inr (Sections.isTable_names hk)))
          rw [← this.1]; exact List.prefix_append _ _
      · have := Sections.valueAt_put_off hap (t.assigned v) hqr
        obtain ⟨x, hx⟩ := Option.ne_none_iff_exists'.mp h1
        rw [hx] at this
        generalize Sections.valueAt { Sections.read ls with vals := Sections.putVals q (t.assigned v) (Sections.read ls).vals } (r ++ [.str k]) = o at this ⊢
        cases o with
        | none => exact this.elim
        | some y => simp
    · exact .inr (.inl h1)
    · exact .inr (.inr h1)
  | refused _ _ _ ih => exact ih

theorem History.stray {P : VT → Prop} {ls : List (Str × ET)} {p : Parser} (h : History DocTaken P ls p) : ∀ k ∈ (Sections.read ls).stray, KeyWf k := by
  induction h with
  | @read ls _ _ hs hf h => exact Sections.stray_wf ls (D := {}) (by simp) hs.wf.lines
  | assign _ _ _ _ _ _ _ ih => rw [Sections.read_put]; exact ih
  | refused _ _ _ ih => exact ih

theorem Hist.walks {ls : List (Str × ET)} {p : Parser} {fp : List Addr} (h : Hist ls p fp) (hd : ∀ Y, (Sections.read ls).Down Y) : (Sections.read ls).Walks p := by
  have g := h.good
  refine ⟨h.answers, fun q k hw => g.listed h.plain hd hw, ?_, ?_⟩
  · intro q k hq c hc hk
    unfold Sections.childrenAt at hc
    cases hv : (Sections.read ls).valueAt q with
    | some t =>
      rw [hv] at hc
      simp at hc
      subst hc
      have h1 := (VT.part_one t (.str k)).mpr hk
      rw [← g.valueAt_below h.plain hv] at h1
      have h2 := h.vwf _ h1
      cases q with
      | nil => exact h2.1
      | cons x q =>
        cases x with
        | idx => exact hq.elim
        | str x => exact h2.2 k (by simp)
    | none =>
      rw [hv] at hc
      cases hn : (Sections.read ls).count q with
      | some n =>
        rw [hn] at hc
        simp at hc
        subst hc
        exact hk.elim
      | none =>
        rw [hn] at hc
        dsimp only at hc
        split at hc
        · simp at hc
          subst hc
          exact g.nwf _ (Sections.mem_namesOf.mp hk)
        · simp at hc
  · have hs := g.slot [] trivial
    have ht : (Sections.read ls).isTable [] := .inl rfl
    unfold Sections.childrenAt
    rw [hs.val_tab ht, hs.arr_tab ht]
    simp [ht]

end Tomllib
