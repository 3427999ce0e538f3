import Verif.Lemmas.TidyDoc
import Verif.Lemmas.ForTables
/-!
# Reading again what was printed after a history
-/

namespace Tomllib

theorem keyed_scalar {v : Value} (h : v.scalar?.isSome = true) : v.keyed := by
  cases v <;> simp [Value.scalar?, Value.keyed] at *

theorem keyedAll_scalars : ∀ {vs : List Value}, (∀ w ∈ vs, w.scalar?.isSome = true) → keyedAll vs
  | [], _ => trivial
  | v :: vs, h => ⟨keyed_scalar (h v (by simp)), keyedAll_scalars fun w hw => h w (by simp [hw])⟩

theorem keyedKVs_scalars : ∀ {vs : List (Str × Value)}, (∀ w ∈ vs, KeyWf w.1 ∧ w.2.scalar?.isSome = true) → keyedKVs vs
  | [], _ => trivial
  | (k, v) :: vs, h => ⟨(h (k, v) (by simp)).1, keyed_scalar (h (k, v) (by simp)).2, keyedKVs_scalars fun w hw => h w (by simp [hw])⟩

/-- What is assigned can be written properly. -/
theorem VT.assigned_tidy {t t' : VT} {v : Value} (hl : t.Like t') (ht : t'.strict) (hc : Assignable t v) (hw : v.written) : ∃ x', (t.assigned v).Like x' ∧ x'.strict := by
  unfold VT.assigned
  by_cases hsh : t.value.sameShape v = true
  · rw [if_pos hsh]
    exact ⟨_, hl.replace v, VT.strict.replace v ht hw⟩
  · rw [if_neg hsh]
    refine Value.fresh_tidy v hw ?_
    rcases hc with h | ⟨vs, rfl, h⟩ | ⟨vs, kvs, ws, rfl, rfl, h1, h2, h3⟩
    · exact absurd h hsh
    · exact keyedAll_scalars h
    · refine ⟨?_, keyedKVs_scalars h3⟩
      rintro rfl
      cases kvs with
      | nil => exact hsh rfl
      | cons => simp [Pairs.keys] at h1

theorem newVals_strict : ∀ {ls : List (Str × ET)} {D : Sections}, (∀ l ∈ ls, l.2.strict) → ∀ e ∈ D.newVals ls, e.2.strict
  | [], _, _, e, he => by simp [Sections.newVals] at he
  | (nl, .kv w1 k s v w2 c) :: ls, D, h, e, he => by
    rw [Sections.newVals, List.mem_cons] at he
    rcases he with rfl | he
    · have : ET.strict (.kv w1 k s v w2 c) := h (nl, .kv w1 k s v w2 c) (by simp)
      exact this.2.2.2.1
    · exact newVals_strict (fun l hl => h l (by simp [hl])) e he
  | (nl, .table w1 t w2 c) :: ls, D, h, e, he => newVals_strict (ls := ls) (D := D.step _) (fun l hl => h l (by simp [hl])) e he
  | (nl, .blank w) :: ls, D, h, e, he => newVals_strict (ls := ls) (D := D.step _) (fun l hl => h l (by simp [hl])) e he
  | (nl, .comment w c) :: ls, D, h, e, he => newVals_strict (ls := ls) (D := D.step _) (fun l hl => h l (by simp [hl])) e he

theorem DocStrict.each {ls : List (Str × ET)} (h : DocStrict ls) : ∀ l ∈ ls, l.2.strict := by
  cases ls with
  | nil => exact h.elim
  | cons l ls =>
    intro x hx
    rcases List.mem_cons.mp hx with rfl | hx
    · exact h.2.1
    · exact (h.2.2 x hx).2

theorem DocStrict.vals_strict {ls : List (Str × ET)} (h : DocStrict ls) : ∀ e ∈ (Sections.read ls).vals, e.2.strict := by
  rw [Sections.vals_read]
  exact newVals_strict h.each

/-- The document is that of a properly written text, and its lines are like lines in order. -/
structure Tidy (ls : List (Str × ET)) : Prop where
  text : ∃ ls', DocStrict ls' ∧ LinesRel VT.Like ls ls'
  keys : ∃ ls0, DocStrict ls0 ∧ Sections.Fits {} ls0 ∧ LinesRel (fun _ _ => True) ls0 ls

theorem History.tidy {ls : List (Str × ET)} {p : Parser} (h : History DocStrict (fun x => x.value.written) ls p) : Tidy ls := by
  induction h with
  | read hs hf h => exact ⟨⟨_, hs, LinesRel.refl VT.Like.refl _⟩, _, hs, hf, LinesRel.refl (fun _ => trivial) _⟩
  | @assign ls p p' q t v b hp hq ht hv hc hx h ih =>
    obtain ⟨⟨ls', h1, h2⟩, ls0, h3, h4, h5⟩ := ih
    refine ⟨?_, ls0, h3, h4, h5.trans (fun _ _ _ _ _ => trivial) (putLines_rel _ q ls {})⟩
    rw [VT.assigned_value hv] at hx
    have hr := (Sections.Rel.read h2).valueAt q
    rw [ht] at hr
    cases e : (Sections.read ls').valueAt q with
    | none => rw [e] at hr; exact hr.elim
    | some t' =>
      rw [e] at hr
      have hst : t'.strict := by
        obtain ⟨en, s, g1, _, g2⟩ := Sections.valueAt_entry e
        exact VT.strict.part s (DocStrict.vals_strict h1 _ g1) g2
      obtain ⟨x', g1, g2⟩ := VT.assigned_tidy hr hst hc hx
      exact ⟨_, h1.put g2 q, putLines_like g1 q (Sections.Bare.refl {}) h2⟩
  | refused hp hw h ih => exact ih

theorem ValsRel.sound : ∀ {a a' : List (List Key × VT)}, Sections.ValsRel VT.Like a a' → (∀ e ∈ a, e.2.sound = true) → ∀ e ∈ a', e.2.sound = true
  | [], _, h, _, e, he => by cases h; simp at he
  | (p, v) :: a, _, h, hs, e, he => by
    obtain ⟨v', r, rfl, h1, h2⟩ := h
    rcases List.mem_cons.mp he with rfl | he
    · have := hs (p, v) (by simp)
      rw [← h1.common.sound]; exact this
    · exact ValsRel.sound h2 (fun e he => hs e (by simp [he])) e he

/-- A document of a history is, as a text, a properly written document in order. -/
theorem Tidy.fits {ls : List (Str × ET)} (h : Tidy ls) (hs : ∀ e ∈ (Sections.read ls).vals, e.2.sound = true) :
    ∃ ls', DocStrict ls' ∧ LinesRel VT.Like ls ls' ∧ Sections.Fits {} ls' := by
  obtain ⟨⟨ls', h1, h2⟩, ls0, h3, h4, h5⟩ := h
  refine ⟨ls', h1, h2, ?_⟩
  have h6 : LinesRel (fun _ _ => True) ls0 ls' := h5.trans (fun _ _ _ _ _ => trivial) (h2.mono fun _ _ _ => trivial)
  refine Sections.Fits.rel (D := {}) (D' := {}) ⟨rfl, rfl⟩ (fun e he => by simp at he) h6 ?_ ?_ h4
  · rw [← Sections.vals_read]
    exact ValsRel.sound (Sections.Rel.read h2).vals hs
  · rintro ⟨nl, e⟩ hl w1 t w2 c rfl
    have := DocStrict.each h3 _ hl
    exact this.2.1.1

theorem LikeOpt.value {a b : Option VT} (h : LikeOpt a b) : a.map VT.value = b.map VT.value := by
  cases a <;> cases b <;> first | rfl | exact h.elim | exact congrArg some (VT.Like.common h).value

theorem LikeOpt.children {a b : Option VT} (h : LikeOpt a b) : a.map VT.children = b.map VT.children := by
  cases a <;> cases b <;> first | rfl | exact h.elim | exact congrArg some (VT.Like.common h).children

/-- Two parsers which answer as documents alike do give the same answers. -/
theorem Sections.Rel.answers {D D' : Sections} (h : Sections.Rel VT.Like D D') {p p' : Parser} (hp : D.Answers p) (hp' : D'.Answers p') :
    (∀ k, k ≠ [] → k ≠ root → p'.getValue k = p.getValue k ∧ p'.getChildren k = p.getChildren k) ∧
    ∃ l l', p.getChildren [] = some (.keys l) ∧ p'.getChildren [] = some (.keys l') ∧ (∀ n, n ∈ l' ↔ n ∈ l) ∧ (D.stray = [] → l' = l) := by
  constructor
  · intro k hk hr
    by_cases hq : ∃ q, PathWf q ∧ k = keyOf [] q
    · obtain ⟨q, hq, rfl⟩ := hq
      have hne : q ≠ [] := by rintro rfl; exact hk rfl
      rw [hp.value q hq hne, hp'.value q hq hne, hp.children q hq hne, hp'.children q hq hne]
      have hv := h.valueAt q
      unfold Sections.childrenAt
      have hc : D'.count q = D.count q := count_congr h.bare.arrs q
      have ht : D'.isTable q ↔ D.isTable q := by
        unfold Sections.isTable; rw [h.bare.heads, h.bare.arrs, h.bare.names]
      have hn : D'.namesOf q = D.namesOf q := by unfold Sections.namesOf; rw [h.bare.names]
      generalize D.valueAt q = a at hv ⊢
      generalize D'.valueAt q = b at hv ⊢
      cases a with
      | none =>
        cases b with
        | some => exact hv.elim
        | none =>
          simp only [hc, hn, h.bare.heads, true_and]
          split
          · rfl
          · by_cases hi : D.isTable q
            · rw [if_pos hi, if_pos (ht.mpr hi)]
            · rw [if_neg hi, if_neg fun g => hi (ht.mp g)]
      | some t =>
        cases b with
        | none => exact hv.elim
        | some t' => exact ⟨by simp only [(VT.Like.common hv).value], by simp only [(VT.Like.common hv).children]⟩
    · have hq' : ∀ q, PathWf q → k ≠ keyOf [] q := fun q h1 h2 => hq ⟨q, h1, h2⟩
      obtain ⟨a1, a2⟩ := hp.other k hk hr hq'
      obtain ⟨b1, b2⟩ := hp'.other k hk hr hq'
      rw [a1, a2, b1, b2]; exact ⟨rfl, rfl⟩
  · obtain ⟨l, a1, a2, a3⟩ := hp.top
    obtain ⟨l', b1, b2, b3⟩ := hp'.top
    have hn : D'.namesOf [] = D.namesOf [] := by unfold Sections.namesOf; rw [h.bare.names]
    refine ⟨l, l', a1, b1, fun n => ?_, fun hs => ?_⟩
    · rw [a3, b3, hn, h.bare.stray]
    · rw [a2 hs, b2 (by rw [h.bare.stray]; exact hs), hn]

end Tomllib
