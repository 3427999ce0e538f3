import Verif.Lemmas.TakenVal
import Verif.Lemmas.FwdDoc
/-!
# Documents that are taken are read back from their text
-/

namespace Tomllib
open P

/-- The parser of a line on the text of a line that is taken. -/
theorem expression_taken {e : ET} {i : Str} (h : e.taken i) (hi : Eol i) (st : PState) :
    expression st (e.text ++ i) = (e.eff st).bind fun st' => .ok (st', .done i (e.expr st.heap.length)) := by
  cases e with
  | blank w => exact expression_fwd (e := .blank w) h hi st
  | comment w c => exact expression_fwd (e := .comment w c) h hi st
  | table w1 t w2 c => exact expression_fwd (e := .table w1 t w2 c) h hi st
  | kv w1 k s v w2 c =>
    obtain ⟨h1, h2, h3, h4, h5, h6⟩ := h
    have e : (ET.kv w1 k s v w2 c).text ++ i = w1 ++ (k ++ s.ws1 ++ lit% "=" ++ s.ws2 ++ v.text ++ (w2 ++ optComment c ++ i)) := by simp [ET.text]
    obtain ⟨d, y, hy, hd⟩ := h2.head
    have hws := ws_fwd h1 (i := k ++ s.ws1 ++ lit% "=" ++ s.ws2 ++ v.text ++ (w2 ++ optComment c ++ i)) (by
      intro a x e ha; simp [hy] at e; rw [← e.1] at ha; exact hd (by simp at ha ⊢; grind)) st
    have hnt : P.complete tableComment st (w1 ++ (k ++ s.ws1 ++ lit% "=" ++ s.ws2 ++ v.text ++ (w2 ++ optComment c ++ i))) = .ok (st, .err) := by
      apply complete_err
      simp only [tableComment, bind_eq]
      rw [bind_done hws]
      exact bind_err (table_none (fun x e => by simp [hy] at e; exact hd (by rw [e.1]; decide)) st)
    have hk := keyval_taken (val_taken h4) h4.wf h2 h3 st
    rw [e, ET.eff]
    unfold expression
    rw [alt_err hnt]
    rcases Out.cases' (v.eff (st.pushK k)) with ⟨s1, he⟩ | ⟨e, he⟩
    · rw [he] at hk ⊢
      simp only [Out.ok_bind] at hk ⊢
      rcases Out.cases' (keyvalAct k (s1.heap.length - 1) s1) with ⟨s2, he2⟩ | ⟨e, he2⟩
      · rw [he2] at hk ⊢
        refine alt_done (complete_done ?_)
        simp only [keyvalComment, bind_eq]
        rw [bind_done hws, bind_done hk, List.append_assoc, bind_done (ws_fwd h5 (optComment_avoids c hi) s2), bind_done (optComment_fwd h6 hi s2)]
        rfl
      · rw [he2, Abort.bind] at hk
        rw [he2, Abort.bind]
        refine alt_abort (complete_abort ?_)
        simp only [keyvalComment, bind_eq]
        rw [bind_done hws]
        exact bind_abort hk
    · rw [he, Abort.bind] at hk
      rw [he, Abort.bind, Abort.bind]
      refine alt_abort (complete_abort ?_)
      simp only [keyvalComment, bind_eq]
      rw [bind_done hws]
      exact bind_abort hk

theorem LinesTaken.eol {ls : List (Str × ET)} (h : LinesTaken ls) : Eol (linesText ls) := by
  cases ls with
  | nil => exact .inl rfl
  | cons l ls =>
    obtain ⟨nl, e⟩ := l
    have := h.1
    simp only at this
    rcases this with rfl | rfl
    · exact .inr (.inl ⟨_, by simp [linesText]; rfl⟩)
    · exact .inr (.inr ⟨_, by simp [linesText]; rfl⟩)

theorem LinesTaken.fwd : ∀ (ls : List (Str × ET)), LinesTaken ls → ∀ n acc st, (linesText ls).length < n →
    P.many0Loop nlExpression n acc st (linesText ls) = (linesEff ls st).bind fun x => .ok (x.1, .done [] (acc ++ x.2)) := by
  intro ls
  induction ls with
  | nil =>
    intro _ n acc st hn
    cases n with
    | zero => omega
    | succ n => simp [P.many0Loop, linesText, linesEff]
  | cons l ls ih =>
    obtain ⟨nl, e⟩ := l
    intro h n acc st hn
    obtain ⟨h1, h2, h3⟩ := h
    simp only at h1 h2
    cases n with
    | zero => omega
    | succ n =>
      have hc : nlCount nl = 1 := by rcases h1 with rfl | rfl <;> rfl
      have hl : 0 < nl.length := by rcases h1 with rfl | rfl <;> simp
      have hx := expression_taken h2 h3.eol (st.lines 1)
      have hb : nlExpression st (nl ++ (e.text ++ linesText ls)) = (e.eff (st.lines 1)).bind fun st' => .ok (st', .done (linesText ls) ⟨nl, e.expr st.heap.length⟩) := by
        simp only [nlExpression, bind_eq]
        rw [bind_done (newline_fwd h1 _ st)]
        rcases Out.cases' (e.eff (st.lines 1)) with ⟨s, he⟩ | ⟨e, he⟩
        · rw [he] at hx ⊢
          rw [bind_done hx]
          rfl
        · rw [he, Abort.bind] at hx ⊢
          exact bind_abort hx
      unfold P.many0Loop
      have et : linesText ((nl, e) :: ls) = nl ++ (e.text ++ linesText ls) := by simp [linesText]
      rw [et] at hn
      rw [et, if_neg (by intro e'; simp at e'; rw [e'.1] at hl; simp at hl), hb, linesEff, hc]
      rcases Out.cases' (e.eff (st.lines 1)) with ⟨s, he⟩ | ⟨e, he⟩
      · rw [he]
        simp only [Out.ok_bind]
        rw [if_neg (by simp; omega), ih h3 n _ _ (by simp at hn ⊢; omega)]
        cases linesEff ls s <;> simp [Out.bind]
      · rw [he]; cases e <;> rfl

/-- The document parser on the text of a document that is taken. -/
theorem toml_taken {ls : List (Str × ET)} (h : DocTaken ls) (st : PState) :
    toml st (linesText ls) = (linesEff ls st).bind fun x => .ok (x.1, .done [] ⟨x.2⟩) := by
  cases ls with
  | nil => exact absurd h (by simp [DocTaken])
  | cons l ls =>
    obtain ⟨nl, e⟩ := l
    obtain ⟨h0, h1, h2⟩ := h
    simp only at h0 h1
    subst h0
    have hx := expression_taken h1 h2.eol st
    simp only [toml, bind_eq]
    have et : linesText (([], e) :: ls) = e.text ++ linesText ls := by simp [linesText]
    rw [et, linesEff]
    have hc : st.lines (nlCount []) = st := rfl
    rw [hc]
    rcases Out.cases' (e.eff st) with ⟨s, he⟩ | ⟨e, he⟩
    · rw [he] at hx ⊢
      rw [bind_done hx]
      have := LinesTaken.fwd ls h2 _ [] s (Nat.lt_succ_self _)
      simp only [Out.ok_bind]
      rcases Out.cases' (linesEff ls s) with ⟨x, he2⟩ | ⟨e, he2⟩
      · rw [he2] at this ⊢
        rw [bind_done (p := P.many0 nlExpression) this]
        rfl
      · rw [he2, Abort.bind] at this
        rw [bind_abort (p := P.many0 nlExpression) this, he2]
        cases e <;> rfl
    · rw [he, Abort.bind] at hx
      rw [bind_abort hx, he]
      cases e <;> rfl

/-! ## Properly written documents are taken -/

theorem MoreComments.taken {j : Str} : ∀ {cs : List CNL}, MoreComments cs → MoreTaken cs j
  | [], _ => trivial
  | .comment pre t nls :: cs, h => by
    obtain ⟨rfl, h1, h2, h3⟩ := h
    exact ⟨rfl, h1, h2.spaces, .of (by rw [List.append_assoc]; exact h2.eol), MoreComments.taken h3⟩
  | .newlines _ :: _, h => absurd h (by simp [MoreComments])

theorem Gap.taken {cs : List CNL} (h : Gap cs) (j : Str) : GapTaken cs j := by
  match cs, h with
  | [.newlines w], h => exact h
  | .comment pre t nls :: cs, ⟨h1, h2, h3, h4⟩ => exact ⟨h1, h2, h3.spaces, .of (by rw [List.append_assoc]; exact h3.eol), h4.taken⟩

theorem Apart.taken {sep : Option WSSep} {cn : List CNL} (h : Apart sep cn) (j : Str) : ApartTaken sep cn j := ⟨h.1, h.2.1.taken j, h.2.2⟩

mutual
theorem VT.strict.taken : ∀ {t : VT} {r : Str}, t.strict → Closes r → t.taken r
  | .leaf s, r, h, hr => by rw [VT.strict] at h; rw [VT.taken]; exact h.taken hr
  | .arr es c1 c2, r, h, hr => by
    rw [VT.strict] at h
    rw [VT.taken]
    exact ⟨h.1.taken _, Elems.strict.taken h.2.1 (close_closes r).1, h.2.2⟩
  | .itab kvs ws, r, h, hr => by
    rw [VT.strict] at h
    rw [VT.taken]
    exact ⟨h.1, Pairs.strict.taken h.2.1 (close_closes r).2, h.2.2⟩
theorem Elems.strict.taken : ∀ {es : Elems} {r : Str}, es.strict → Closes r → es.taken r
  | .nil, r, h, hr => by simp [Elems.taken]
  | .cons v sep cn es, r, h, hr => by
    rw [Elems.strict] at h
    rw [Elems.taken]
    refine ⟨VT.strict.taken h.1 ?_, h.2.1.taken _, Elems.strict.taken h.2.2.2 hr⟩
    rw [List.append_assoc]
    refine apart_closes h.2.1 ?_
    cases es with
    | nil => exact .inl (by simpa [Elems.text] using hr)
    | cons => exact .inr (h.2.2.1 (by simp))
theorem Pairs.strict.taken : ∀ {es : Pairs} {r : Str}, es.strict → Closes r → es.taken r
  | .nil, r, h, hr => by simp [Pairs.taken]
  | .cons k ws v sep cn es, r, h, hr => by
    rw [Pairs.strict] at h
    rw [Pairs.taken]
    refine ⟨h.1, h.2.1, VT.strict.taken h.2.2.1 ?_, h.2.2.2.1.taken _, Pairs.strict.taken h.2.2.2.2.2 hr⟩
    rw [List.append_assoc]
    refine apart_closes h.2.2.2.1 ?_
    cases es with
    | nil => exact .inl (by simpa [Pairs.text] using hr)
    | cons => exact .inr (h.2.2.2.2.1 (by simp))
end

theorem ET.strict.taken {e : ET} (h : e.strict) {i : Str} (hi : Eol i) : e.taken i := by
  cases e with
  | kv w1 k s v w2 c =>
    obtain ⟨h1, h2, h3, h4, h5, h6⟩ := h
    exact ⟨h1, h2, h3, h4.taken (lineEnd_closes h5 c hi), h5, h6⟩
  | _ => exact h

theorem LinesStrict.taken : ∀ {ls : List (Str × ET)}, LinesStrict ls → LinesTaken ls
  | [], _ => trivial
  | l :: ls, h => by
    have h3 : LinesStrict ls := fun x hx => h x (by simp [hx])
    obtain ⟨h1, h2⟩ := h l (by simp)
    exact ⟨h1, h2.taken (linesText_eol h3), LinesStrict.taken h3⟩

/-- A properly written document is taken. -/
theorem DocStrict.taken {ls : List (Str × ET)} (h : DocStrict ls) : DocTaken ls := by
  cases ls with
  | nil => exact h
  | cons l ls => exact ⟨h.1, h.2.1.taken (linesText_eol h.2.2), LinesStrict.taken h.2.2⟩

end Tomllib
