import Verif.Lemmas.TakenBack
import Verif.Lemmas.Stop
import Verif.Lemmas.TakenOne
/-!
# Where reading stops, for every text
-/

namespace Tomllib
open P

/-! ## Less may follow -/

theorem Scalar.taken.less {s : Scalar} {r r' : Str} (h : s.taken (r ++ r')) : s.taken r :=
  ⟨h.1, fun s' hw hp => h.2 s' hw (hp.trans ⟨r', by simp⟩)⟩

theorem CommentEnds.less {i r : Str} (h : CommentEnds (i ++ r)) : CommentEnds i := fun c t e => h c (t ++ r) (by rw [e]; rfl)

theorem MoreTaken.less : ∀ {cs : List CNL} {j r : Str}, MoreTaken cs (j ++ r) → MoreTaken cs j
  | [], _, _, _ => trivial
  | .comment pre t nls :: cs, j, r, ⟨h1, h2, h3, h4, h5⟩ => ⟨h1, h2, h3, CommentEnds.less (r := r) (by simpa using h4), h5.less⟩
  | .newlines _ :: _, _, _, h => h.elim

theorem GapTaken.less {cs : List CNL} {j r : Str} (h : GapTaken cs (j ++ r)) : GapTaken cs j := by
  match cs, h with
  | [.newlines w], h => exact h
  | .comment pre t nls :: cs, ⟨h1, h2, h3, h4, h5⟩ => exact ⟨h1, h2, h3, CommentEnds.less (r := r) (by simpa using h4), h5.less⟩

theorem ApartTaken.less {sep : Option WSSep} {cn : List CNL} {j r : Str} (h : ApartTaken sep cn (j ++ r)) : ApartTaken sep cn j :=
  ⟨h.1, h.2.1.less, h.2.2⟩

mutual
theorem VT.taken.less : ∀ {t : VT} {r r' : Str}, t.taken (r ++ r') → t.taken r
  | .leaf s, r, r', h => by rw [VT.taken] at h ⊢; exact h.less
  | .arr es c1 c2, r, r', h => by
    rw [VT.taken] at h ⊢
    exact ⟨GapTaken.less (r := r') (by simpa using h.1), Elems.taken.less (r' := r') (by simpa using h.2.1), h.2.2⟩
  | .itab kvs ws, r, r', h => by
    rw [VT.taken] at h ⊢
    exact ⟨h.1, Pairs.taken.less (r' := r') (by simpa using h.2.1), h.2.2⟩
theorem Elems.taken.less : ∀ {es : Elems} {r r' : Str}, es.taken (r ++ r') → es.taken r
  | .nil, _, _, _ => by simp [Elems.taken]
  | .cons v sep cn es, r, r', h => by
    rw [Elems.taken] at h ⊢
    exact ⟨VT.taken.less (r' := r') (by simpa using h.1), ApartTaken.less (r := r') (by simpa using h.2.1), Elems.taken.less h.2.2⟩
theorem Pairs.taken.less : ∀ {es : Pairs} {r r' : Str}, es.taken (r ++ r') → es.taken r
  | .nil, _, _, _ => by simp [Pairs.taken]
  | .cons k ws v sep cn es, r, r', h => by
    rw [Pairs.taken] at h ⊢
    exact ⟨h.1, h.2.1, VT.taken.less (r' := r') (by simpa using h.2.2.1), ApartTaken.less (r := r') (by simpa using h.2.2.2.1),
      Pairs.taken.less h.2.2.2.2⟩
end

theorem ET.taken.less {e : ET} {r r' : Str} (h : e.taken (r ++ r')) : e.taken r := by
  cases e with
  | blank w => exact h
  | comment w c => exact h
  | table w1 t w2 c => exact h
  | kv w1 k s v w2 c => exact ⟨h.1, h.2.1, h.2.2.1, VT.taken.less (r' := r') (by simpa using h.2.2.2.1), h.2.2.2.2⟩

/-! ## A line followed by a text that does not belong to it -/

theorem NoBlank.avoids {i : Str} (h : NoBlank i) : Avoids (lit% " \t") i := by
  intro c t e hc
  simp at hc
  rcases hc with rfl | rfl
  · exact (h t).1 e
  · exact (h t).2 e

theorem RemarkEnds.fwd {c : Option Str} (hc : CommentWf c) {i : Str} (hi : RemarkEnds i c) (st : PState) :
    P.opt (P.complete comment) st (optComment c ++ i) = .ok (st, .done i c) := by
  cases c with
  | some t => exact opt_done (complete_done (comment_fwd (hc t rfl) (CommentEnds.notEol hi) st))
  | none =>
    refine opt_err ?_
    simp only [optComment, List.nil_append, comment, bind_eq]
    cases i with
    | nil => exact complete_inc (bind_inc tag_nil)
    | cons d x =>
      exact complete_err (bind_err (tag1_ne (fun e => hi x (by rw [e])) (by decide)))

theorem LineEnds.follows {e : ET} {i : Str} (h : e.taken i) (hc : LineEnds i e) (hb : ∀ w, e ≠ .blank w) : Follows i e := by
  intro st
  cases e with
  | blank w => exact absurd rfl (hb w)
  | comment w c =>
    obtain ⟨h1, h2⟩ := h
    have e : (ET.comment w c).text ++ i = w ++ (remark c ++ i) := by simp [ET.text]
    have hws := ws_fwd h1 (i := remark c ++ i) (by intro d x e; simp [remark] at e; rw [← e.1]; decide) st
    have g1 : P.complete tableComment st (w ++ (remark c ++ i)) = .ok (st, .err) := by
      apply complete_err
      simp only [tableComment, bind_eq]
      rw [bind_done hws]
      exact bind_err (table_none (fun x e => by simp [remark] at e) st)
    have g2 : P.complete keyvalComment st (w ++ (remark c ++ i)) = .ok (st, .err) := by
      apply complete_err
      simp only [keyvalComment, bind_eq]
      rw [bind_done hws]
      apply bind_err
      simp only [keyval, bind_eq]
      apply bind_err
      exact key_none (c := '#') (by decide) (by decide)
    rw [e]
    unfold expression
    rw [alt_err g1, alt_err g2]
    refine alt_done (complete_done ?_)
    simp only [wsComment, bind_eq]
    rw [bind_done hws, bind_done (comment_fwd h2 (CommentEnds.notEol hc) st)]
    rfl
  | table w1 t w2 c =>
    obtain ⟨h1, h2, h3, h4⟩ := h
    have e : (ET.table w1 t w2 c).text ++ i = w1 ++ (t.text ++ (w2 ++ (optComment c ++ i))) := by simp [ET.text]
    have hws := ws_fwd h1 (i := t.text ++ (w2 ++ (optComment c ++ i))) (by
      intro d x e; cases t <;> (simp [TableType.text] at e; rw [← e.1]; decide)) st
    have ht := table_fwd h2 (i := w2 ++ (optComment c ++ i)) st
    rw [e, ET.eff]
    rcases Out.cases' (t.eff st) with ⟨s, he⟩ | ⟨e, he⟩
    · rw [he] at ht ⊢
      refine alt_done (complete_done ?_)
      simp only [tableComment, bind_eq]
      rw [bind_done hws, bind_done ht, bind_done (ws_fwd h3 hc.2.avoids s), bind_done (RemarkEnds.fwd h4 hc.1 s)]
      rfl
    · rw [he, Abort.bind] at ht ⊢
      refine alt_abort (complete_abort ?_)
      simp only [tableComment, bind_eq]
      rw [bind_done hws]
      exact bind_abort ht
  | kv w1 k s v w2 c =>
    obtain ⟨h1, h2, h3, h4, h5, h6⟩ := h
    have e : (ET.kv w1 k s v w2 c).text ++ i = w1 ++ (k ++ s.ws1 ++ lit% "=" ++ s.ws2 ++ v.text ++ (w2 ++ optComment c ++ i)) := by simp [ET.text]
    obtain ⟨d, y, hy, hd⟩ := h2.head
    have hws := ws_fwd h1 (i := k ++ s.ws1 ++ lit% "=" ++ s.ws2 ++ v.text ++ (w2 ++ optComment c ++ i)) (by
      intro a x e ha; simp [hy] at e; rw [← e.1] at ha; exact hd (by simp at ha ⊢; grind)) st
    have hnt : P.complete tableComment st (w1 ++ (k ++ s.ws1 ++ lit% "=" ++ s.ws2 ++ v.text ++ (w2 ++ optComment c ++ i))) = .ok (st, .err) := by
      apply complete_err
      simp only [tableComment, bind_eq]
      rw [bind_done hws]
      exact bind_err (table_none (fun x e => by simp [hy] at e; exact hd (by rw [e.1]; decide)) st)
    have hk := keyval_taken (val_taken h4) h4.wf h2 h3 st
    rw [e, ET.eff]
    unfold expression
    rw [alt_err hnt]
    rcases Out.cases' (v.eff (st.pushK k)) with ⟨s1, he⟩ | ⟨e, he⟩
    · rw [he] at hk ⊢
      simp only [Out.ok_bind] at hk ⊢
      rcases Out.cases' (keyvalAct k (s1.heap.length - 1) s1) with ⟨s2, he2⟩ | ⟨e, he2⟩
      · rw [he2] at hk ⊢
        refine alt_done (complete_done ?_)
        simp only [keyvalComment, bind_eq]
        rw [bind_done hws, bind_done hk, List.append_assoc, bind_done (ws_fwd h5 hc.2.avoids s2), bind_done (RemarkEnds.fwd h6 hc.1 s2)]
        rfl
      · rw [he2, Abort.bind] at hk
        rw [he2, Abort.bind]
        refine alt_abort (complete_abort ?_)
        simp only [keyvalComment, bind_eq]
        rw [bind_done hws]
        exact bind_abort hk
    · rw [he, Abort.bind] at hk
      rw [he, Abort.bind, Abort.bind]
      refine alt_abort (complete_abort ?_)
      simp only [keyvalComment, bind_eq]
      rw [bind_done hws]
      exact bind_abort hk

/-! ## Lines followed by the text at which reading stops -/

/-- A line that was read, with what was read in vain after it. -/
theorem expression_stop {st st' : PState} {i r : Str} {x : Expression} (h : expression st i = .ok (st', .done r x)) :
    ∃ (e : ET) (px : PX) (r' : Str) (st1 : PState), e.taken r ∧ i = e.text ++ r ∧ e.eff st = .ok st1 ∧ x = e.expr st.heap.length ∧ px.wf ∧ r = px.text ++ r' ∧
      px.eff st1 = .ok st' ∧ px.opened ∧ (px = .nothing ∨ Stops r) := by
  obtain ⟨e, h1, h2, h3⟩ := expression_back h
  by_cases hb : ∃ w, e = .blank w
  · obtain ⟨w, rfl⟩ := hb
    have hx := expression_spec st i
    rw [h] at hx
    generalize hz : (Out.ok (st', IRes.done r x) : Out (PState × IRes Expression)) = z at hx
    cases hx with
    | done et px r1 r' s1 s2 g1 g2 g3 g4 g5 g6 g7 g8 =>
      simp at hz
      obtain ⟨rfl, rfl, rfl⟩ := hz
      have e1 : et.text = w := List.append_cancel_right (g2.symm.trans h2)
      have e2 := ET.blank_of_text (e := et) (by rw [e1]; exact h1)
      rw [e1] at e2
      subst e2
      exact ⟨.blank w, px, r', s1, h1, h2, g3, rfl, g4, g5, g6, g8, g7.imp_right (·.1)⟩
    | abort w px r e => cases e <;> simp [Abort.out] at hz
  · have hf := h3.follows h1 (fun w e' => hb ⟨w, e'⟩) st
    rw [← h2, h] at hf
    rcases he : e.eff st with s | s | _
    · rw [he] at hf
      simp at hf
      obtain ⟨rfl, rfl⟩ := hf
      exact ⟨e, .nothing, r, _, h1, h2, he, rfl, trivial, rfl, rfl, trivial, .inl rfl⟩
    all_goals (rw [he] at hf; simp [Out.bind] at hf)

theorem LinesUpTo.taken : ∀ {ls : List (Str × ET)} {r : Str}, LinesUpTo ls r → LinesTaken ls
  | [], _, _ => trivial
  | _ :: _, _, h => ⟨h.1, h.2.1.less, h.2.2.taken⟩

theorem DocUpTo.taken : ∀ {ls : List (Str × ET)} {r : Str}, DocUpTo ls r → DocTaken ls
  | _ :: _, _, h => ⟨h.1, h.2.1.less, h.2.2.taken⟩

/-- A line is always read, be it as a blank one. -/
theorem nlExpression_ne_err (st st' : PState) (nl j : Str) :
    P.bind expression (fun e => (pure ⟨nl, e⟩ : P NLExpression)) st j ≠ .ok (st', .err) := by
  intro ha
  have hx := expression_spec st j
  rcases hxo : expression st j with ⟨s, y⟩ | y | _
  · cases y with
    | done r1 x => rw [bind_done hxo] at ha; simp [pure_eq, P.pure] at ha
    | err => rw [hxo] at hx; generalize hz : (Out.ok (s, IRes.err) : Out (PState × IRes Expression)) = z at hx; cases hx with
      | done => simp at hz
      | abort w px r e => cases e <;> simp [Abort.out] at hz
    | inc => rw [hxo] at hx; generalize hz : (Out.ok (s, IRes.inc) : Out (PState × IRes Expression)) = z at hx; cases hx with
      | done => simp at hz
      | abort w px r e => cases e <;> simp [Abort.out] at hz
  · rw [bind_abort (e := .panic y) hxo] at ha; simp [Abort.out] at ha
  · rw [bind_abort (e := .fuel) hxo] at ha; simp [Abort.out] at ha

theorem lines_stop : ∀ n acc st i st' r vs, P.many0Loop nlExpression n acc st i = .ok (st', .done r vs) →
    ∃ (ls : List (Str × ET)) (px : PX) (r' : Str) (st1 : PState) (ns : List NLExpression), LinesUpTo ls r ∧ i = linesText ls ++ r ∧
      linesEff ls st = .ok (st1, ns) ∧ vs = acc ++ ns ∧ px.wf ∧ r = px.text ++ r' ∧ px.eff st1 = .ok st' ∧ px.opened ∧ (px = .nothing ∨ Stops r) := by
  intro n
  induction n with
  | zero => intro acc st i st' r vs h; simp [P.many0Loop] at h
  | succ n ih =>
    intro acc st i st' r vs h
    have stop : (Out.ok (st, IRes.done i acc) : Out (PState × IRes (List NLExpression))) = .ok (st', .done r vs) →
        ∃ (ls : List (Str × ET)) (px : PX) (r' : Str) (st1 : PState) (ns : List NLExpression), LinesUpTo ls r ∧ i = linesText ls ++ r ∧
        linesEff ls st = .ok (st1, ns) ∧ vs = acc ++ ns ∧ px.wf ∧ r = px.text ++ r' ∧ px.eff st1 = .ok st' ∧ px.opened ∧ (px = .nothing ∨ Stops r) := by
      intro h
      simp at h
      obtain ⟨rfl, rfl, rfl⟩ := h
      exact ⟨[], .nothing, i, st, [], trivial, rfl, rfl, by simp, trivial, rfl, rfl, trivial, .inl rfl⟩
    unfold P.many0Loop at h
    split at h
    · exact stop h
    · rcases newline_spec st i with ⟨nl, j, hnl, rfl, h1⟩ | h1
      · have hnlc : nlCount nl = 1 := by rcases hnl with rfl | rfl <;> rfl
        split at h
        next st1 ha =>
          simp only [nlExpression, bind_eq] at ha
          rw [bind_done h1] at ha
          exact absurd ha (nlExpression_ne_err _ _ _ _)
        · simp at h
        next st1 r1 a ha =>
          split at h
          · simp at h
          · simp only [nlExpression, bind_eq] at ha
            rw [bind_done h1] at ha
            obtain ⟨s2, k2, x, f2, ha⟩ := bind_done_inv ha
            simp [pure_eq, P.pure] at ha
            obtain ⟨rfl, rfl, rfl⟩ := ha
            obtain ⟨e, px, r', s1, d1, rfl, d3, rfl, d5, d6, d7, d8, d9⟩ := expression_stop f2
            rcases d9 with rfl | d9
            · simp [PX.eff] at d7; subst d7
              obtain ⟨ls, px, r', st1, ns, g1, rfl, g3, g4, g5, g6, g7, g8⟩ := ih _ _ _ _ _ _ h
              exact ⟨(nl, e) :: ls, px, r', st1, ⟨nl, e.expr st.heap.length⟩ :: ns, ⟨hnl, d1, g1⟩, by simp [linesText],
                by simp [linesEff, hnlc, d3, g3], by rw [g4]; simp [PState.lines], g5, g6, g7, g8⟩
            · have : st' = s2 ∧ r = k2 ∧ vs = acc ++ [⟨nl, e.expr (st.lines 1).heap.length⟩] := by
                cases n with
                | zero => simp [P.many0Loop] at h
                | succ n =>
                  unfold P.many0Loop at h
                  obtain ⟨c, t, e1, _, _⟩ := d9
                  rw [if_neg (by rw [e1]; simp), nlExpression_err (newline_stops ⟨c, t, e1, by assumption, by assumption⟩)] at h
                  simp at h
                  exact ⟨h.1.symm, h.2.1.symm, h.2.2.symm⟩
              obtain ⟨rfl, rfl, rfl⟩ := this
              exact ⟨[(nl, e)], px, r', s1, [⟨nl, e.expr st.heap.length⟩], ⟨hnl, by simpa [linesText] using d1, trivial⟩, by simp [linesText],
                by simp [linesEff, hnlc, d3], by simp [PState.lines], d5, d6, d7, d8, .inr d9⟩
        · simp at h
        · simp at h
      · rw [nlExpression_err h1] at h
        exact stop h

/-- What the document parser did: it took lines, and something was read in vain after them. -/
theorem toml_stop {st st' : PState} {i r : Str} {x : Toml} (h : toml st i = .ok (st', .done r x)) :
    ∃ (ls : List (Str × ET)) (px : PX) (r' : Str) (st1 : PState), DocUpTo ls r ∧ i = linesText ls ++ r ∧ linesEff ls st = .ok (st1, x.exprs) ∧ px.wf ∧
      r = px.text ++ r' ∧ px.eff st1 = .ok st' ∧ px.opened ∧ (px = .nothing ∨ Stops r) := by
  simp only [toml, bind_eq] at h
  obtain ⟨s1, k1, e, f1, h⟩ := bind_done_inv h
  obtain ⟨s2, k2, vs, f2, h⟩ := bind_done_inv h
  simp [pure_eq, P.pure] at h
  obtain ⟨rfl, rfl, rfl⟩ := h
  obtain ⟨e, px, r', s3, d1, rfl, d3, rfl, d5, d6, d7, d8, d9⟩ := expression_stop f1
  have hc : st.lines (nlCount []) = st := rfl
  rcases d9 with rfl | d9
  · simp [PX.eff] at d7; subst d7
    obtain ⟨ls, px, r', st1, ns, g1, rfl, g3, g4, g5, g6, g7, g8⟩ := lines_stop _ _ _ _ _ _ _ f2
    exact ⟨([], e) :: ls, px, r', st1, ⟨rfl, d1, g1⟩, by simp [linesText], by simp [linesEff, hc, d3, g3, g4], g5, g6, g7, g8⟩
  · have : s2 = s1 ∧ k2 = k1 ∧ vs = [] := by
      simp only [P.many0] at f2
      unfold P.many0Loop at f2
      obtain ⟨c, t, e1, _, _⟩ := d9
      rw [if_neg (by rw [e1]; simp), nlExpression_err (newline_stops ⟨c, t, e1, by assumption, by assumption⟩)] at f2
      simp at f2
      exact ⟨f2.1.symm, f2.2.1.symm, f2.2.2⟩
    obtain ⟨rfl, rfl, rfl⟩ := this
    refine ⟨[([], e)], px, r', s3, ⟨rfl, by simpa [linesText] using d1, trivial⟩, by simp [linesText], by simp [linesEff, hc, d3], d5, d6, d7, d8, .inr d9⟩

/-! ## Reading goes as far as it can -/

/-- A comment, as far as it goes. -/
theorem remark_more {t : Str} (ht : CommentText t) (r : Str) : ∃ t' r', remark t ++ r = remark t' ++ r' ∧ CommentText t' ∧ CommentEnds r' ∧ r' <:+ r := by
  rcases comment_split (remark t ++ r) with ⟨t', j, e, g1, g2, _⟩ | ⟨g1, _⟩
  · refine ⟨t', j, e, g1, g2, ?_⟩
    simp [remark] at e
    rcases List.append_eq_append_iff.mp e with ⟨a, rfl, rfl⟩ | ⟨a, rfl, rfl⟩
    · exact ⟨a, rfl⟩
    · cases a with
      | nil => exact ⟨[], rfl⟩
      | cons d a => exact absurd (fun x hx => by simp at hx; subst hx; exact ht x (by simp)) (g2 d (a ++ r) rfl)
  · exact absurd rfl (g1 (t ++ r))

/-- Blanks and a comment at the end of a line, as far as they go. -/
theorem lineEnd_more {w : Str} {c : Option Str} (hw : Blank w) (hc : CommentWf c) (r : Str) :
    ∃ w' c' r', w ++ optComment c ++ r = w' ++ optComment c' ++ r' ∧ Blank w' ∧ CommentWf c' ∧ RemarkEnds r' c' ∧ NoBlank (optComment c' ++ r') ∧ r' <:+ r := by
  have nb : ∀ t i, NoBlank (remark t ++ i) := by intro t i x; simp [remark]
  cases c with
  | some t =>
    obtain ⟨t', r', e, g1, g2, g3⟩ := remark_more (hc t rfl) r
    exact ⟨w, some t', r', by simp [optComment, e], hw, fun x hx => by simp at hx; subst hx; exact g1, g2, nb _ _, g3⟩
  | none =>
    obtain ⟨w1, j, rfl, b1, b2, _⟩ := ws_split r
    rcases comment_split j with ⟨t', k, rfl, g1, g2, _⟩ | ⟨g1, _⟩
    · exact ⟨w ++ w1, some t', k, by simp [optComment], fun c hc => (List.mem_append.mp hc).elim (hw c) (b1 c), fun x hx => by simp at hx; subst hx; exact g1, g2, nb _ _, ⟨w1 ++ remark t', by simp⟩⟩
    · exact ⟨w ++ w1, none, j, by simp [optComment], fun c hc => (List.mem_append.mp hc).elim (hw c) (b1 c), by simp [CommentWf], g1, by simpa [optComment] using b2, ⟨w1, rfl⟩⟩

/-- A line that is taken is read at least. -/
theorem expression_least {e : ET} {r : Str} (h : e.taken r) {st st' : PState} {r1 : Str} {x : Expression}
    (hx : expression st (e.text ++ r) = .ok (st', .done r1 x)) : r1 <:+ r := by
  have fin : ∀ (e' : ET) (r' : Str), e'.taken r' → LineEnds r' e' → (∀ w, e' ≠ .blank w) → e.text ++ r = e'.text ++ r' → r' <:+ r → r1 <:+ r := by
    intro e' r' g1 g2 g3 g4 g5
    have hf := g2.follows g1 g3 st
    rw [← g4, hx] at hf
    rcases he : e'.eff st with s | s | _
    · rw [he] at hf
      simp at hf
      rw [hf.2.1]; exact g5
    all_goals (rw [he] at hf; simp [Out.bind] at hf)
  cases e with
  | blank w =>
    obtain ⟨e', g1, g2, g3⟩ := expression_back hx
    simp only [ET.text] at g2
    rcases List.append_eq_append_iff.mp g2 with ⟨a, e1, e2⟩ | ⟨a, e1, e2⟩
    · exact ⟨a, e2.symm⟩
    · have hb : Blank e'.text := fun c hc => h c (by rw [e1]; exact List.mem_append_left _ hc)
      have := ET.blank_of_text hb
      rw [this] at g3
      have ha : Blank a := fun c hc => h c (by rw [e1]; exact List.mem_append_right _ hc)
      simp only [LineEnds] at g3
      rw [e2] at g3 ⊢
      rw [NoBlank.nil g3 ha]
      exact ⟨[], rfl⟩
  | comment w c =>
    obtain ⟨c', r', e1, g1, g2, g3⟩ := remark_more h.2 r
    exact fin (.comment w c') r' ⟨h.1, g1⟩ g2 (by simp) (by simpa [ET.text] using e1) g3
  | table w1 t w2 c =>
    obtain ⟨h1, h2, h3, h4⟩ := h
    obtain ⟨w', c', r', e1, g1, g2, g3, g4, g5⟩ := lineEnd_more h3 h4 r
    exact fin (.table w1 t w' c') r' ⟨h1, h2, g1, g2⟩ ⟨g3, g4⟩ (by simp) (by simpa [ET.text] using e1) g5
  | kv w1 k s v w2 c =>
    obtain ⟨h1, h2, h3, h4, h5, h6⟩ := h
    obtain ⟨w', c', r', e1, g1, g2, g3, g4, g5⟩ := lineEnd_more h5 h6 r
    exact fin (.kv w1 k s v w' c') r' ⟨h1, h2, h3, by rw [← e1]; exact h4, g1, g2⟩ ⟨g3, g4⟩ (by simp) (by simpa [ET.text] using e1) g5

theorem LinesUpTo.eol {ls : List (Str × ET)} {r : Str} (h : LinesUpTo ls r) (hn : ls ≠ []) : Eol (linesText ls ++ r) := by
  cases ls with
  | nil => exact absurd rfl hn
  | cons l ls =>
    obtain ⟨nl, e⟩ := l
    have := h.1
    simp only at this
    rcases this with rfl | rfl
    · exact .inr (.inl ⟨_, by simp [linesText]; rfl⟩)
    · exact .inr (.inr ⟨_, by simp [linesText]; rfl⟩)

/-- What remains after a line that is taken, before further ones. -/
theorem expression_upTo {e : ET} {ls : List (Str × ET)} {r : Str} (h : e.taken (linesText ls ++ r)) (hl : LinesUpTo ls r) {st st' : PState} {r1 : Str} {x : Expression}
    (hx : expression st (e.text ++ (linesText ls ++ r)) = .ok (st', .done r1 x)) : r1 = linesText ls ++ r ∨ ls = [] ∧ r1 <:+ r := by
  by_cases hn : ls = []
  · subst hn
    exact .inr ⟨rfl, expression_least h hx⟩
  · have hf := expression_taken h (hl.eol hn) st
    rw [hx] at hf
    rcases he : e.eff st with s | s | _
    · rw [he] at hf
      simp at hf
      exact .inl hf.2.1
    all_goals (rw [he] at hf; simp [Out.bind] at hf)

theorem lines_least : ∀ (ls : List (Str × ET)) n acc st st' r r' vs, LinesUpTo ls r' →
    P.many0Loop nlExpression n acc st (linesText ls ++ r') = .ok (st', .done r vs) → r <:+ r' := by
  intro ls
  induction ls with
  | nil =>
    intro n acc st st' r r' vs _ h
    obtain ⟨ls, _, _, _, _, _, e, _⟩ := lines_stop _ _ _ _ _ _ _ h
    exact ⟨linesText ls, by simpa [linesText] using e.symm⟩
  | cons l ls ih =>
    obtain ⟨nl, e⟩ := l
    intro n acc st st' r r' vs hl h
    obtain ⟨h1, h2, h3⟩ := hl
    simp only at h1 h2
    cases n with
    | zero => simp [P.many0Loop] at h
    | succ n =>
      have hl : 0 < nl.length := by rcases h1 with rfl | rfl <;> simp
      have et : linesText ((nl, e) :: ls) ++ r' = nl ++ (e.text ++ (linesText ls ++ r')) := by simp [linesText]
      rw [et] at h
      unfold P.many0Loop at h
      rw [if_neg (by intro e'; simp at e'; rw [e'.1] at hl; simp at hl)] at h
      have hnl := newline_fwd h1 (e.text ++ (linesText ls ++ r')) st
      have hb : ∀ {s k a}, nlExpression st (nl ++ (e.text ++ (linesText ls ++ r'))) = .ok (s, .done k a) → k = linesText ls ++ r' ∨ ls = [] ∧ k <:+ r' := by
        intro s k a ha
        simp only [nlExpression, bind_eq] at ha
        rw [bind_done hnl] at ha
        obtain ⟨s2, k2, x, f2, ha⟩ := bind_done_inv ha
        simp [pure_eq, P.pure] at ha
        obtain ⟨_, rfl, _⟩ := ha
        exact expression_upTo h2 h3 f2
      split at h
      next st1 ha =>
        simp only [nlExpression, bind_eq] at ha
        rw [bind_done hnl] at ha
        exact absurd ha (nlExpression_ne_err _ _ _ _)
      · simp at h
      next st1 r1 a ha =>
        split at h
        · simp at h
        · rcases hb ha with rfl | ⟨rfl, hs⟩
          · exact ih _ _ _ _ _ _ _ h3 h
          · obtain ⟨ls, _, _, _, _, _, e, _⟩ := lines_stop _ _ _ _ _ _ _ h
            exact (List.IsSuffix.trans ⟨linesText ls, e.symm⟩ hs)
      · simp at h
      · simp at h

/-- What is left after reading is left after every beginning of the text that is taken. -/
theorem toml_least {ls : List (Str × ET)} {r' : Str} (hl : DocUpTo ls r') {st st' : PState} {r : Str} {x : Toml}
    (h : toml st (linesText ls ++ r') = .ok (st', .done r x)) : r <:+ r' := by
  cases ls with
  | nil => exact hl.elim
  | cons l ls =>
    obtain ⟨nl, e⟩ := l
    obtain ⟨h1, h2, h3⟩ := hl
    simp only at h1 h2
    subst h1
    have et : linesText (([], e) :: ls) ++ r' = e.text ++ (linesText ls ++ r') := by simp [linesText]
    rw [et] at h
    simp only [toml, bind_eq] at h
    obtain ⟨s1, k1, y, f1, h⟩ := bind_done_inv h
    obtain ⟨s2, k2, vs, f2, h⟩ := bind_done_inv h
    simp [pure_eq, P.pure] at h
    obtain ⟨_, rfl, _⟩ := h
    rcases expression_upTo h2 h3 f1 with rfl | ⟨rfl, hs⟩
    · exact lines_least _ _ _ _ _ _ _ _ h3 f2
    · obtain ⟨ls, _, _, _, _, _, e, _⟩ := lines_stop _ _ _ _ _ _ _ f2
      exact (List.IsSuffix.trans ⟨linesText ls, e.symm⟩ hs)

/-- The parser that read a text, and the one that, in the same state before, reads the lines taken from it alone. -/
theorem parse_stop_any {q : Parser} (hq : PInv q) {i : Str} {p : Parser} {r : ParseResult} (hp : q.parse i = .ok (p, r)) :
    ∃ (ls : List (Str × ET)) (p0 : Parser) (r0 : ParseResult) (px : PX) (r' : Str), DocUpTo ls p.leftover ∧ i = linesText ls ++ p.leftover ∧
      q.parse (linesText ls) = .ok (p0, r0) ∧ p0.tree = p.tree ∧ p0.leftover = [] ∧ px.wf ∧ p.leftover = px.text ++ r' ∧ px.eff p0.st = .ok p.st ∧
      px.opened ∧ r0 = resultOf [] p0.st [] ∧ r = resultOf q.leftover p.st p.leftover ∧ p0.st.lineCount = q.st.lineCount + linesCounted ls ∧ PInv p0 ∧ PInv p ∧
      p.display = textOr (hasEmptyTable ls) (linesText ls) ∧ p0.display = p.display := by
  obtain ⟨ht, hr⟩ := toml_of_parse hp
  obtain ⟨ls, px, r', st1, h1', h2, h3, h4, h5, h6, h7, h8⟩ := toml_stop ht
  have h1 := h1'.taken
  have h0' : q.parse (linesText ls) = .ok (⟨⟨p.tree.exprs⟩, st1, []⟩, resultOf [] st1 []) := by
    unfold Parser.parse
    rw [toml_taken h1, h3]
    by_cases he : st1.errors = [] <;> simp [Out.bind, he, resultOf]
  have hP : PInv p := by have := parse_all hq i; rw [hp] at this; exact this
  have hP0 := parse_all hq (linesText ls)
  rw [h0'] at hP0
  have hd : p.display = textOr (hasEmptyTable ls) (linesText ls) := Parsed.display (p := q) ⟨h1.wf, h2, h3, h4, ⟨r', h5⟩, h6, h8, hr⟩ hP
  refine ⟨ls, _, _, px, r', h1', h2, h0', rfl, rfl, h4, h5, h6, h7, rfl, hr, linesEff_line h3, hP0, hP, hd, ?_⟩
  rw [hd]
  exact Parsed.display (p := q) (i := linesText ls) (r := resultOf q.leftover st1 []) (px := .nothing) ⟨h1.wf, by simp, h3, trivial, ⟨[], by simp [PX.text]⟩, rfl, .inl rfl, rfl⟩ hP0

/-- The parser that read a text, and the one that reads the lines taken from it alone. -/
theorem parse_stop {i : Str} {p : Parser} {r : ParseResult} (hp : Parser.new.parse i = .ok (p, r)) :
    ∃ (ls : List (Str × ET)) (p0 : Parser) (r0 : ParseResult) (px : PX) (r' : Str), DocUpTo ls p.leftover ∧ i = linesText ls ++ p.leftover ∧
      Parser.new.parse (linesText ls) = .ok (p0, r0) ∧ p0.tree = p.tree ∧ p0.leftover = [] ∧ px.wf ∧ p.leftover = px.text ++ r' ∧ px.eff p0.st = .ok p.st ∧
      px.opened ∧ r0 = resultOf [] p0.st [] ∧ r = resultOf [] p.st p.leftover ∧ p0.st.lineCount = 1 + linesCounted ls ∧ PInv p0 ∧ PInv p ∧ p.display = textOr (hasEmptyTable ls) (linesText ls) := by
  obtain ⟨ls, p0, r0, px, r', h1, h2, h3, h4, h5, h6, h7, h8, h9, h10, h11, h12, h13, h14, h15, _⟩ := parse_stop_any PInv.new hp
  exact ⟨ls, p0, r0, px, r', h1, h2, h3, h4, h5, h6, h7, h8, h9, h10, h11, h12, h13, h14, h15⟩

/-- The same for lines that are given. -/
theorem parse_stop_any' {q : Parser} (hq : PInv q) {ls : List (Str × ET)} (hs : DocTaken ls) {i : Str} {p p0 : Parser} {r r0 : ParseResult}
    (hp : q.parse i = .ok (p, r)) (hi : i = linesText ls ++ p.leftover) (h0 : q.parse (linesText ls) = .ok (p0, r0)) :
    ∃ (px : PX) (r' : Str), p0.tree = p.tree ∧ px.wf ∧ p.leftover = px.text ++ r' ∧ px.eff p0.st = .ok p.st ∧ px.opened ∧
      r0 = resultOf [] p0.st [] ∧ r = resultOf q.leftover p.st p.leftover ∧ p0.st.lineCount = q.st.lineCount + linesCounted ls ∧ PInv p0 ∧ PInv p := by
  obtain ⟨ls', p0', r0', px, r', h1, h2, h3, h4, _, h5, h6, h7, h8, h9, h10, h11, h12, h13, _⟩ := parse_stop_any hq hp
  have := h1.taken.one hs (List.append_cancel_right (h2.symm.trans hi))
  subst this
  rw [h3] at h0
  simp at h0
  obtain ⟨rfl, rfl⟩ := h0
  exact ⟨px, r', h4, h5, h6, h7, h8, h9, h10, h11, h12, h13⟩

end Tomllib
