import Verif.Lemmas.TakenStop
import Verif.Lemmas.Fresh
/-!
# Texts on which `parse` panics: the lines before are taken
-/

namespace Tomllib

/-- The line at which reading is a panic. -/
theorem expression_panic {st : PState} {i : Str} {x : Panic} (h : expression st i = .panic x) :
    ∃ w px r, Blank w ∧ PX.wf px ∧ i = w ++ px.text ++ r ∧ px.eff st = .panic x := by
  have hx := expression_spec st i
  rw [h] at hx
  generalize hz : (Out.panic x : Out (PState × IRes Expression)) = z at hx
  cases hx with
  | done => simp at hz
  | abort w px r e g1 g2 g3 g4 =>
    cases e with
    | fuel => simp [Abort.out] at hz
    | panic y =>
      simp [Abort.out] at hz
      subst hz
      exact ⟨w, px, r, g1, g2, g3, g4⟩

theorem nlExpression_panic {st : PState} {nl j : Str} {x : Panic} (hnl : nl = lit% "\n" ∨ nl = lit% "\r\n") (h : nlExpression st (nl ++ j) = .panic x) :
    expression (st.lines 1) j = .panic x := by
  simp only [nlExpression, bind_eq] at h
  rw [bind_done (newline_fwd hnl j st)] at h
  rcases hxo : expression (st.lines 1) j with ⟨s, y⟩ | y | _
  · cases y with
    | done r1 x => rw [bind_done hxo] at h; simp [pure_eq, P.pure] at h
    | err => rw [bind_err hxo] at h; simp at h
    | inc => rw [bind_inc hxo] at h; simp at h
  · rw [bind_abort (e := .panic y) hxo] at h; simpa [Abort.out] using h
  · rw [bind_abort (e := .fuel) hxo] at h; simp [Abort.out] at h

theorem lines_panic : ∀ n acc st i x, P.many0Loop nlExpression n acc st i = .panic x →
    ∃ (ls : List (Str × ET)) (nl w : Str) (px : PX) (r : Str) (st1 : PState) (ns : List NLExpression), LinesUpTo ls (nl ++ (w ++ px.text ++ r)) ∧
      i = linesText ls ++ (nl ++ (w ++ px.text ++ r)) ∧ (nl = lit% "\n" ∨ nl = lit% "\r\n") ∧ Blank w ∧ px.wf ∧ linesEff ls st = .ok (st1, ns) ∧ px.eff (st1.lines 1) = .panic x := by
  intro n
  induction n with
  | zero => intro acc st i x h; simp [P.many0Loop] at h
  | succ n ih =>
    intro acc st i x h
    unfold P.many0Loop at h
    split at h
    · simp at h
    · rcases newline_spec st i with ⟨nl, j, hnl, rfl, h1⟩ | h1
      · have hnlc : nlCount nl = 1 := by rcases hnl with rfl | rfl <;> rfl
        split at h
        · simp at h
        · simp at h
        next st1 r1 a ha =>
          split at h
          · simp at h
          · simp only [nlExpression, bind_eq] at ha
            rw [bind_done h1] at ha
            obtain ⟨s2, k2, y, f2, ha⟩ := bind_done_inv ha
            simp [pure_eq, P.pure] at ha
            obtain ⟨rfl, rfl, rfl⟩ := ha
            obtain ⟨e, px, r', s1, d1, rfl, d3, rfl, d5, d6, d7, d8, d9⟩ := expression_stop f2
            rcases d9 with rfl | d9
            · simp [PX.eff] at d7; subst d7
              obtain ⟨ls, nl', w, px, r, st1, ns, g1, rfl, g3, g4, g5, g6, g7⟩ := ih _ _ _ _ h
              exact ⟨(nl, e) :: ls, nl', w, px, r, st1, ⟨nl, e.expr st.heap.length⟩ :: ns, ⟨hnl, d1, g1⟩, by simp [linesText], g3, g4, g5,
                by simp [linesEff, hnlc, d3, g6], g7⟩
            · exfalso
              cases n with
              | zero => simp [P.many0Loop] at h
              | succ n =>
                unfold P.many0Loop at h
                obtain ⟨c, t, e1, _, _⟩ := d9
                rw [if_neg (by rw [e1]; simp), nlExpression_err (newline_stops ⟨c, t, e1, by assumption, by assumption⟩)] at h
                simp at h
        next y hy =>
          simp at h
          subst h
          obtain ⟨w, px, r, g1, g2, rfl, g4⟩ := expression_panic (nlExpression_panic hnl hy)
          exact ⟨[], nl, w, px, r, st, [], trivial, rfl, hnl, g1, g2, rfl, g4⟩
        · simp at h
      · rw [nlExpression_err h1] at h
        simp at h

/-- The document parser panics in its first line, or after lines that it has taken. -/
theorem toml_panic {st : PState} {i : Str} {x : Panic} (h : toml st i = .panic x) :
    (∃ w px r, Blank w ∧ PX.wf px ∧ i = w ++ px.text ++ r ∧ px.eff st = .panic x) ∨
    ∃ (ls : List (Str × ET)) (nl w : Str) (px : PX) (r : Str) (st1 : PState) (ns : List NLExpression), DocUpTo ls (nl ++ (w ++ px.text ++ r)) ∧
      i = linesText ls ++ (nl ++ (w ++ px.text ++ r)) ∧ (nl = lit% "\n" ∨ nl = lit% "\r\n") ∧ Blank w ∧ px.wf ∧ linesEff ls st = .ok (st1, ns) ∧ px.eff (st1.lines 1) = .panic x := by
  simp only [toml, bind_eq] at h
  rcases hxo : expression st i with ⟨s, y⟩ | y | _
  · cases y with
    | err => rw [bind_err hxo] at h; simp at h
    | inc => rw [bind_inc hxo] at h; simp at h
    | done r1 y =>
      rw [bind_done hxo] at h
      have hm : P.many0 nlExpression s r1 = .panic x := by
        rcases hmo : P.many0 nlExpression s r1 with ⟨s', y⟩ | y | _
        · cases y with
          | done r2 z => rw [bind_done hmo] at h; simp [pure_eq, P.pure] at h
          | err => rw [bind_err hmo] at h; simp at h
          | inc => rw [bind_inc hmo] at h; simp at h
        · rw [bind_abort (e := .panic y) hmo] at h; simpa [Abort.out] using h
        · rw [bind_abort (e := .fuel) hmo] at h; simp [Abort.out] at h
      obtain ⟨e, px, r', s1, d1, rfl, d3, rfl, d5, d6, d7, d8, d9⟩ := expression_stop hxo
      rcases d9 with rfl | d9
      · simp [PX.eff] at d7; subst d7
        obtain ⟨ls, nl, w, px, r, st1, ns, g1, rfl, g3, g4, g5, g6, g7⟩ := lines_panic _ _ _ _ _ hm
        have hc : st.lines (nlCount []) = st := rfl
        exact .inr ⟨([], e) :: ls, nl, w, px, r, st1, _, ⟨rfl, d1, g1⟩, by simp [linesText], g3, g4, g5, by simp [linesEff, hc, d3, g6]; rfl, g7⟩
      · exfalso
        simp only [P.many0] at hm
        unfold P.many0Loop at hm
        obtain ⟨c, t, e1, _, _⟩ := d9
        rw [if_neg (by rw [e1]; simp), nlExpression_err (newline_stops ⟨c, t, e1, by assumption, by assumption⟩)] at hm
        simp at hm
  · rw [bind_abort (e := .panic y) hxo] at h
    simp [Abort.out] at h
    subst h
    exact .inl (expression_panic hxo)
  · rw [bind_abort (e := .fuel) hxo] at h; simp [Abort.out] at h

/-! ## Forward -/

theorem eol_nl {nl : Str} (h : nl = lit% "\n" ∨ nl = lit% "\r\n") (j : Str) : Eol (nl ++ j) := by
  rcases h with rfl | rfl
  · exact .inr (.inl ⟨j, rfl⟩)
  · exact .inr (.inr ⟨j, rfl⟩)

theorem header_panic {w : Str} {t : TableType} (hb : Blank w) (ht : t.wf) {r : Str} {st : PState} {x : Panic} (h : t.eff st = .panic x) :
    expression st (w ++ t.text ++ r) = .panic x := by
  have hws := ws_fwd hb (i := t.text ++ r) (by
      intro d x e; cases t <;> (simp [TableType.text] at e; rw [← e.1]; decide)) st
  have hf := table_fwd ht (i := r) st
  rw [h] at hf
  refine alt_abort (e := .panic x) (complete_abort ?_)
  simp only [tableComment, bind_eq]
  rw [List.append_assoc, bind_done hws]
  exact bind_abort (e := .panic x) hf

theorem lines_to_panic {nl w : Str} {t : TableType} {r : Str} {st1 : PState} {x : Panic} (hnl : nl = lit% "\n" ∨ nl = lit% "\r\n") (hb : Blank w) (ht : t.wf)
    (h : t.eff (st1.lines 1) = .panic x) : ∀ (ls : List (Str × ET)), LinesUpTo ls (nl ++ (w ++ t.text ++ r)) → ∀ n acc st ns, (linesText ls ++ (nl ++ (w ++ t.text ++ r))).length < n →
    linesEff ls st = .ok (st1, ns) → P.many0Loop nlExpression n acc st (linesText ls ++ (nl ++ (w ++ t.text ++ r))) = .panic x := by
  intro ls
  induction ls with
  | nil =>
    intro _ n acc st ns hn he
    simp [linesEff] at he
    obtain ⟨rfl, rfl⟩ := he
    cases n with
    | zero => omega
    | succ n =>
      have hl : 0 < nl.length := by rcases hnl with rfl | rfl <;> simp
      have hp : nlExpression st (nl ++ (w ++ t.text ++ r)) = .panic x := by
        simp only [nlExpression, bind_eq]
        rw [bind_done (newline_fwd hnl _ st)]
        exact bind_abort (e := .panic x) (header_panic hb ht h)
      unfold P.many0Loop
      rw [show linesText [] = [] from rfl, List.nil_append, if_neg (by intro e'; simp at e'; rw [e'.1] at hl; simp at hl), hp]
  | cons l ls ih =>
    obtain ⟨nl', e⟩ := l
    intro hL n acc st ns hn he
    obtain ⟨h1, h2, h3⟩ := hL
    simp only at h1 h2
    have hc : nlCount nl' = 1 := by rcases h1 with rfl | rfl <;> rfl
    rw [linesEff, hc] at he
    obtain ⟨s1, e1, he⟩ := Out.bind_ok.mp he
    obtain ⟨⟨s2, n2⟩, e2, he⟩ := Out.bind_ok.mp he
    simp at he
    obtain ⟨rfl, _⟩ := he
    cases n with
    | zero => omega
    | succ n =>
      have hl : 0 < nl'.length := by rcases h1 with rfl | rfl <;> simp
      have hE : Eol (linesText ls ++ (nl ++ (w ++ t.text ++ r))) := by
        by_cases hn : ls = []
        · subst hn; exact eol_nl hnl _
        · exact h3.eol hn
      have hx := expression_taken h2 hE (st.lines 1)
      rw [e1] at hx
      have et : linesText ((nl', e) :: ls) ++ (nl ++ (w ++ t.text ++ r)) = nl' ++ (e.text ++ (linesText ls ++ (nl ++ (w ++ t.text ++ r)))) := by simp [linesText]
      rw [et] at hn ⊢
      have hp : nlExpression st (nl' ++ (e.text ++ (linesText ls ++ (nl ++ (w ++ t.text ++ r))))) =
          .ok (s1, .done (linesText ls ++ (nl ++ (w ++ t.text ++ r))) ⟨nl', e.expr st.heap.length⟩) := by
        simp only [nlExpression, bind_eq]
        rw [bind_done (newline_fwd h1 _ st), bind_done hx]
        rfl
      unfold P.many0Loop
      rw [if_neg (by intro e'; simp at e'; rw [e'.1] at hl; simp at hl), hp]
      dsimp only
      rw [if_neg (by simp; omega)]
      exact ih h3 n _ _ n2 (by simp at hn ⊢; omega) e2

theorem toml_to_panic {nl w : Str} {t : TableType} {r : Str} {st st1 : PState} {x : Panic} (hnl : nl = lit% "\n" ∨ nl = lit% "\r\n") (hb : Blank w) (ht : t.wf)
    (h : t.eff (st1.lines 1) = .panic x) {ls : List (Str × ET)} (hL : DocUpTo ls (nl ++ (w ++ t.text ++ r))) {ns : List NLExpression}
    (he : linesEff ls st = .ok (st1, ns)) : toml st (linesText ls ++ (nl ++ (w ++ t.text ++ r))) = .panic x := by
  cases ls with
  | nil => exact hL.elim
  | cons l ls =>
    obtain ⟨nl', e⟩ := l
    obtain ⟨h1, h2, h3⟩ := hL
    simp only at h1 h2
    subst h1
    rw [linesEff] at he
    obtain ⟨s1, e1, he⟩ := Out.bind_ok.mp he
    obtain ⟨⟨s2, n2⟩, e2, he⟩ := Out.bind_ok.mp he
    simp at he
    obtain ⟨rfl, _⟩ := he
    have e1 : e.eff st = .ok s1 := e1
    have hE : Eol (linesText ls ++ (nl ++ (w ++ t.text ++ r))) := by
      by_cases hn : ls = []
      · subst hn; exact eol_nl hnl _
      · exact h3.eol hn
    have hx := expression_taken h2 hE st
    rw [e1] at hx
    have et : linesText (([], e) :: ls) ++ (nl ++ (w ++ t.text ++ r)) = e.text ++ (linesText ls ++ (nl ++ (w ++ t.text ++ r))) := by simp [linesText]
    simp only [toml, bind_eq]
    rw [et, bind_done hx]
    exact bind_abort (e := .panic x) (p := P.many0 nlExpression) (lines_to_panic hnl hb ht h ls h3 _ _ _ n2 (Nat.lt_succ_self _) e2)

end Tomllib
