import Verif.Lemmas.Links
import Verif.Lemmas.Document
/-!
# The invariant of a document that is assigned to
-/

namespace Tomllib

open Sections

theorem Sections.Good.off {D : Sections} {K : List Key → Option HashValue} {h : Heap} (g : D.Good K h) (hp : D.Plain) {q : List Key} (hq : PathWf q) {t : VT} (hv : D.valueAt q = some t)
    {p : List Key} (ht : D.count p ≠ none ∨ D.isTable p) : ¬ q <+: p := by
  rintro ⟨s, rfl⟩
  have hno : ∀ x, (q, x) ∉ D.names := fun x hx => by
    have := (g.slot q hq).val_tab (isTable_names hx)
    rw [hv] at this; simp at this
  have hsol : ∀ k r, D.Solid (q ++ k :: r) → False := by
    intro k r hs
    cases k with
    | str k => exact hno k (hs.str q k r rfl)
    | idx i =>
      obtain ⟨n, hn, _⟩ := hs.idx q i r rfl
      have := (g.slot q hq).val_arr (by rw [hn]; simp)
      rw [hv] at this; simp at this
  have hcount : D.count q = none := by
    cases hc : D.count q with
    | none => rfl
    | some n =>
      have := (g.slot q hq).val_arr (by rw [hc]; simp)
      rw [hv] at this; simp at this
  cases s with
  | nil =>
    rw [List.append_nil] at ht
    rcases ht with ht | ht
    · exact ht hcount
    · have := (g.slot q hq).val_tab ht
      rw [hv] at this; simp at this
  | cons k r =>
    rcases ht with ht | ht | ht | ⟨e, he, ht⟩ | ⟨e, he, ht⟩
    · obtain ⟨n, hn⟩ := Option.ne_none_iff_exists'.mp ht
      exact hsol k r (g.closed _ (.inr (.inr (.inl ⟨_, count_mem hn, rfl⟩))))
    · simp at ht
    · exact hsol k r (g.closed _ (.inr (.inl ht)))
    · have hse := g.closed e.1 (.inr (.inr (.inl ⟨e, he, rfl⟩)))
      rcases List.eq_nil_or_concat r with rfl | ⟨r', z, rfl⟩
      · obtain ⟨h1, _⟩ := List.append_inj' (show q ++ [k] = e.1 ++ [.idx (e.2 - 1)] from ht) rfl
        exact count_none.mp hcount e he h1.symm
      · have : (q ++ k :: r') ++ [z] = e.1 ++ [.idx (e.2 - 1)] := by rw [← ht]; simp
        obtain ⟨h1, _⟩ := List.append_inj' this rfl
        rw [← h1] at hse
        exact hsol k r' hse
    · exact hsol k r (g.closed _ (.inr (.inr (.inr ⟨e, he, ht⟩))))

/-- The state of a parser after some assignments. -/
structure Hist (ls : List (Str × ET)) (p : Parser) (fp : List Addr) : Prop where
  anch : Anchored p ls fp
  only : Only p.st.map
  good : (Sections.read ls).Good (KP p.st.map) p.st.heap
  plain : (Sections.read ls).Plain
  links : Links p.st.heap (KP p.st.map) {} ls p.tree.exprs
  vwf : ∀ r, (Sections.read ls).valueAt r ≠ none → PathWf r

theorem Hist.answers {ls : List (Str × ET)} {p : Parser} {fp : List Addr} (h : Hist ls p fp) : (Sections.read ls).Answers p :=
  h.good.answers h.only h.anch.inv

theorem Hist.apart {ls : List (Str × ET)} {p : Parser} {fp : List Addr} (h : Hist ls p fp) : (Sections.read ls).vals.Pairwise Sections.Apart := h.good.apart h.plain

theorem Hist.focusAt {ls : List (Str × ET)} {p : Parser} {fp : List Addr} (h : Hist ls p fp) {q : List Key} (hq : PathWf q) {t : VT}
    (hv : (Sections.read ls).valueAt q = some t) :
    ∃ b, ∃ F : LinesFocus p.st.heap ls p.tree.exprs fp b, F.sub = t ∧ (∀ x, F.plug x = putLines {} q x ls) ∧ HoleAt p.st.heap (KP p.st.map) {} ls p.tree.exprs q t b F.f1 F.f2 := by
  obtain ⟨e, r, he, hqe, ht⟩ := valueAt_entry hv
  rw [vals_read] at he
  exact h.links.focusAt hq h.anch.rep (by rw [← vals_read]; exact h.apart) he hqe ht

/-- Another value at a path. -/
theorem Hist.exchange {ls : List (Str × ET)} {p : Parser} {fp : List Addr} (h : Hist ls p fp) {q : List Key} (hq : PathWf q) {t : VT}
    (hv : (Sections.read ls).valueAt q = some t) {b : Addr} {f1 f2 : List Addr} (H : HoleAt p.st.heap (KP p.st.map) {} ls p.tree.exprs q t b f1 f2) {p' : Parser} {x : VT} {fp' : List Addr}
    (ha : Anchored p' (putLines {} q x ls) fp') (ho : Only p'.st.map) (htree : p'.tree = p.tree)
    (hK : ∀ r, PathWf r → ¬ q <+: r → KP p'.st.map r = KP p.st.map r) (hh : ∀ c ∈ f1 ++ f2, p'.st.heap[c]? = p.st.heap[c]?)
    (htab : ∀ r c l, PathWf r → ¬ q <+: r → KP p.st.map r = some ⟨some c, l⟩ → p.st.heap[c]? = some .table → p'.st.heap[c]? = some .table)
    (hlx : Linked p'.st.heap (KP p'.st.map) q x b) (hnone : ∀ s, PathWf (q ++ s) → x.part s = none → KP p'.st.map (q ++ s) = none)
    (hxw : ∀ s, x.part s ≠ none → PathWf (q ++ s)) :
    Hist (putLines {} q x ls) p' fp' := by
  have hap := h.apart
  have hlinks : Links p'.st.heap (KP p'.st.map) {} (putLines {} q x ls) p'.tree.exprs := by
    rw [htree]; exact H.relink _ _ x hh hK hlx
  have hread := read_put q x ls
  have hspot : ∀ r, (Sections.read (putLines {} q x ls)).Spot r → (Sections.read ls).Spot r := by
    intro r hr
    rw [hread] at hr
    rcases hr with ⟨e, he, rfl⟩ | hr
    · have : e.1 ∈ (putVals q x (Sections.read ls).vals).map (·.1) := List.mem_map_of_mem he
      rw [putVals_fst, List.mem_map] at this
      obtain ⟨e', h1, h2⟩ := this
      exact .inl ⟨e', h1, h2⟩
    · exact .inr hr
  refine ⟨ha, ho, ⟨fun r hr => ⟨?_, ?_, ?_, ?_⟩, ?_, ?_, ?_, ?_⟩, ?_, hlinks, ?_⟩
  · intro t1 ht1
    obtain ⟨e, s, he, rfl, hs⟩ := valueAt_entry ht1
    rw [vals_read] at he
    obtain ⟨c, _, ⟨g, hg⟩, h2⟩ := hlinks.cell ha.rep e he s t1 hr hs
    exact ⟨c, g, h2, hg⟩
  · intro n hn
    rw [hread] at hn
    have hn' : (Sections.read ls).count r = some n := hn
    rw [hK r hr (h.good.off h.plain hq hv (.inl (by rw [hn']; simp)))]
    exact (h.good.slot r hr).arr n hn'
  · intro ht
    rw [hread] at ht ⊢
    have ht' : (Sections.read ls).isTable r := ht
    have hoff := h.good.off h.plain hq hv (.inr ht')
    obtain ⟨v, l, e1, e2, e3, e4⟩ := (h.good.slot r hr).tab ht'
    refine ⟨v, l, (hK r hr hoff).trans e1, e2, fun hp => ?_, e4⟩
    obtain ⟨a, rfl, g2⟩ := e3 hp
    exact ⟨a, rfl, htab r a _ hr hoff e1 g2⟩
  · intro h1 h2 h3
    by_cases hpre : q <+: r
    · obtain ⟨s, rfl⟩ := hpre
      rw [hread, valueAt_put_below hap hv] at h1
      exact hnone s hr h1
    · rw [hK r hr hpre]
      rw [hread] at h1 h2 h3
      refine (h.good.slot r hr).none ?_ h2 h3
      have := valueAt_put_off hap (q := q) x hpre
      rw [h1] at this
      cases h4 : (Sections.read ls).valueAt r with
      | none => rfl
      | some t => rw [h4] at this; exact this.elim
  · intro r hr
    have := h.good.closed r (hspot r hr)
    rw [hread]
    exact ⟨this.str, this.idx⟩
  · exact fun r hr => h.good.wf r (hspot r hr)
  · rw [hread]; exact h.good.nwf
  · rw [hread]; exact h.good.pos
  · rw [hread]
    refine ⟨?_, ?_, h.plain.counts, h.plain.low⟩
    · show ((putVals q x (Sections.read ls).vals).map (·.1)).Nodup
      rw [putVals_fst]; exact h.plain.once
    · intro e he
      have : e.1 ∈ (putVals q x (Sections.read ls).vals).map (·.1) := List.mem_map_of_mem he
      rw [putVals_fst, List.mem_map] at this
      obtain ⟨e', h1, h2⟩ := this
      rw [← h2]
      exact h.plain.keyed e' h1
  · intro r hr
    rw [hread] at hr
    by_cases hpre : q <+: r
    · obtain ⟨s, rfl⟩ := hpre
      rw [valueAt_put_below hap hv] at hr
      exact hxw s hr
    · refine h.vwf r (fun h4 => ?_)
      have := valueAt_put_off hap (q := q) x hpre
      rw [h4] at this
      cases h5 : Sections.valueAt { Sections.read ls with vals := putVals q x (Sections.read ls).vals } r with
      | none => exact hr h5
      | some t => rw [h5] at this; exact this.elim

end Tomllib
