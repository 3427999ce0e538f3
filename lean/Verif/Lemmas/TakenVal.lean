import Verif.Lemmas.Longest
import Verif.Lemmas.FwdVal
/-!
# Values that are taken are read back from their text
-/

namespace Tomllib
open P

/-! ## Blanks, line breaks, comments -/

theorem commentText_one (c : Char) : CommentText [c] ↔ notEol c = true := by
  rw [← notEol_text]; simp

theorem CommentEnds.notEol {i : Str} (h : CommentEnds i) : ∀ c x, i = c :: x → notEol c = false := by
  intro c x e
  have := h c x e
  rw [commentText_one] at this
  simpa using this

theorem CommentEnds.of {i : Str} (h : ∀ c x, i = c :: x → Tomllib.notEol c = false) : CommentEnds i := by
  intro c x e
  rw [commentText_one, h c x e]
  simp

theorem commentOrNl_taken {pre t nls i : Str} (h1 : Spaces pre) (h2 : CommentText t) (h3 : Spaces nls) (h4 : CommentEnds (nls ++ i))
    (hi : Avoids (lit% " \t\n\r") i) (st : PState) :
    commentOrNl st (pre ++ (remark t ++ (nls ++ i))) = .ok (st, .done i (.comment pre t nls)) := by
  have : commentNl st (pre ++ (remark t ++ (nls ++ i))) = .ok (st, .done i (.comment pre t nls)) := by
    simp only [commentNl, bind_eq]
    rw [bind_done (wsNewline_fwd h1 (by intro c x e; simp [remark] at e; rw [← e.1]; decide) st),
      bind_done (comment_fwd h2 h4.notEol st), bind_done (wsNewline_fwd h3 hi st)]
    rfl
  exact alt_done (complete_done this)

theorem MoreTaken.avoids {cs : List CNL} {i : Str} (h : MoreTaken cs i) (hi : Avoids (lit% " \t\n\r#") i) : Avoids (lit% " \t\n\r") (gapText cs ++ i) := by
  cases cs with
  | nil => intro c t e hc; exact hi c t e (by simp at hc ⊢; grind)
  | cons a cs =>
    cases a with
    | newlines w => exact absurd h (by simp [MoreTaken])
    | comment pre t nls =>
      obtain ⟨rfl, _⟩ := h
      intro c x e
      simp [gapText, CNL.text, remark] at e
      rw [← e.1]; decide

theorem MoreTaken.fwd {i : Str} (hi : Avoids (lit% " \t\n\r#") i) (st : PState) : ∀ (cs : List CNL), MoreTaken cs i → ∀ n acc,
    (gapText cs ++ i).length < n → P.many1Loop commentOrNl n acc st (gapText cs ++ i) = .ok (st, .done i (acc ++ cs)) := by
  intro cs
  induction cs with
  | nil => intro _ n acc hn; exact moreComments_fwd hi st [] trivial n acc hn
  | cons a cs ih =>
    intro h n acc hn
    cases a with
    | newlines w => exact absurd h (by simp [MoreTaken])
    | comment pre t nls =>
      obtain ⟨rfl, h1, h2, h2', h3⟩ := h
      cases n with
      | zero => omega
      | succ n =>
        unfold P.many1Loop
        have hc := commentOrNl_taken (pre := []) .nil h1 h2 (by simpa using h2') (h3.avoids hi) st
        have e : gapText (.comment [] t nls :: cs) ++ i = [] ++ (remark t ++ (nls ++ (gapText cs ++ i))) := by simp [gapText, CNL.text]
        rw [e, if_neg (by simp [remark]), hc]
        dsimp only
        have hl : (gapText cs ++ i).length < ([] ++ (remark t ++ (nls ++ (gapText cs ++ i)))).length := by
          simp [remark]; omega
        rw [e] at hn
        rw [if_neg (by omega), ih h3 n _ (by omega)]
        simp

theorem GapTaken.fwd {cs : List CNL} {i : Str} (h : GapTaken cs i) (hi : Avoids (lit% " \t\n\r#") i) (st : PState) :
    commentOrNls st (gapText cs ++ i) = .ok (st, .done i cs) := by
  match cs, h with
  | [.newlines w], h => exact gap_fwd (cs := [.newlines w]) h hi st
  | .comment pre t nls :: cs, ⟨h1, h2, h3, h3', h4⟩ =>
    unfold commentOrNls P.many1
    have hc := commentOrNl_taken h1 h2 h3 (by simpa using h3') (h4.avoids hi) st
    have e : gapText (.comment pre t nls :: cs) ++ i = pre ++ (remark t ++ (nls ++ (gapText cs ++ i))) := by simp [gapText, CNL.text]
    rw [e, bind_done hc]
    have := MoreTaken.fwd hi st cs h4 ((gapText cs ++ i).length + 1) [.comment pre t nls] (by omega)
    simpa using this

theorem GapTaken.noComma {cs : List CNL} {j : Str} (h : GapTaken cs j) {i : Str} (hi : ∀ c t, i = c :: t → c ∉ lit% " \t,") : NoComma (gapText cs ++ i) := by
  match cs, h with
  | [.newlines w], h => exact gap_noComma (cs := [.newlines w]) h hi
  | .comment pre x nls :: cs, ⟨h1, h2, h3, h3', h4⟩ =>
    have := gap_noComma (cs := [.newlines pre]) h1 (i := '#' :: (x ++ nls ++ gapText cs ++ i)) (by intro c t e; simp at e; rw [← e.1]; decide)
    simpa [gapText, CNL.text, remark] using this

theorem ApartTaken.fwd {sep : Option WSSep} {cn : List CNL} {i : Str} (h : ApartTaken sep cn i) (hi : Avoids (lit% " \t\n\r#,") i) (st : PState) :
    P.opt (P.complete arraySep) st (commaText sep ++ gapText cn ++ i) = .ok (st, .done (gapText cn ++ i) sep) ∧
    P.complete commentOrNls st (gapText cn ++ i) = .ok (st, .done i cn) := by
  obtain ⟨h1, h2, h3⟩ := h
  constructor
  · cases sep with
    | none =>
      simp only [commaText, List.nil_append]
      exact sep_none (h2.noComma fun c t e hc => hi c t e (by simp at hc ⊢; grind)) st
    | some w =>
      have hb := h3 rfl
      simp only [commaText, List.append_assoc]
      have := sep_some (h1 w rfl) (i := gapText cn ++ i) (by
        intro x
        cases hc : gapText cn with
        | nil =>
          simp only [List.nil_append]
          exact ⟨fun e => hi _ _ e (by decide), fun e => hi _ _ e (by decide)⟩
        | cons d y =>
          rw [hc] at hb
          constructor
          · intro e; simp at e; exact (hb y).1 (by rw [e.1])
          · intro e; simp at e; exact (hb y).2 (by rw [e.1])) st
      simpa using this
  · exact complete_done (h2.fwd (fun c t e hc => hi c t e (by simp at hc ⊢; grind)) st)

/-! ## Taken trees are well formed -/

theorem MoreTaken.wf : ∀ {cs : List CNL} {j : Str}, MoreTaken cs j → CnlsWf cs
  | [], _, _ => by simp [CnlsWf]
  | .comment pre t nls :: cs, j, h => by
    obtain ⟨rfl, h1, h2, _, h3⟩ := h
    intro c hc
    rcases List.mem_cons.mp hc with rfl | hc
    · exact ⟨.nil, h1, h2⟩
    · exact MoreTaken.wf h3 c hc
  | .newlines _ :: _, _, h => absurd h (by simp [MoreTaken])

theorem GapTaken.wf {cs : List CNL} {j : Str} (h : GapTaken cs j) : CnlsWf cs := by
  match cs, h with
  | [.newlines w], h => intro c hc; simp at hc; subst hc; exact h
  | .comment pre t nls :: cs, ⟨h1, h2, h3, _, h4⟩ =>
    intro c hc
    rcases List.mem_cons.mp hc with rfl | hc
    · exact ⟨h1, h2, h3⟩
    · exact h4.wf c hc

mutual
theorem VT.taken.wf : ∀ {t : VT} {r : Str}, t.taken r → t.wf
  | .leaf s, r, h => by rw [VT.taken] at h; exact h.1
  | .arr es c1 c2, r, h => by
    rw [VT.taken] at h
    obtain ⟨h1, h2, rfl⟩ := h
    rw [VT.wf]
    refine ⟨h1.wf, Elems.taken.wf h2, ?_⟩
    intro c hc; simp at hc; subst hc; exact Pieces.nil
  | .itab kvs ws, r, h => by
    rw [VT.taken] at h
    obtain ⟨h1, h2, h3⟩ := h
    rw [VT.wf]
    exact ⟨⟨h1, by rw [h3]; simp [Blank]⟩, Pairs.taken.wf h2⟩
theorem Elems.taken.wf : ∀ {es : Elems} {r : Str}, es.taken r → es.wf
  | .nil, _, _ => by simp [Elems.wf]
  | .cons v sep cn es, r, h => by
    rw [Elems.taken] at h
    rw [Elems.wf]
    exact ⟨VT.taken.wf h.1, h.2.1.1, h.2.1.2.1.wf, Elems.taken.wf h.2.2⟩
theorem Pairs.taken.wf : ∀ {es : Pairs} {r : Str}, es.taken r → es.wf
  | .nil, _, _ => by simp [Pairs.wf]
  | .cons k ws v sep cn es, r, h => by
    rw [Pairs.taken] at h
    rw [Pairs.wf]
    exact ⟨h.1, h.2.1, VT.taken.wf h.2.2.1, h.2.2.2.1.1, h.2.2.2.1.2.1.wf, Pairs.taken.wf h.2.2.2.2⟩
end

/-! ## Values -/

/-- What the text of a scalar begins with. -/
theorem Scalar.wf.head {s : Scalar} (hw : s.wf) : ∃ c t, s.text = c :: t ∧ c ∉ lit% " \t\n\r#,]}[{" := by
  have hre : ∀ {r : Re} {x : Str}, Lang r x → r.nullable = false → (∀ c ∈ lit% " \t\n\r#,]}[{", r.starts c = false) →
      ∃ c t, x = c :: t ∧ c ∉ lit% " \t\n\r#,]}[{" := by
    intro r x h hn h1
    cases x with
    | nil => have := h.nullable rfl; simp [hn] at this
    | cons c t =>
      refine ⟨c, t, rfl, fun hc => ?_⟩
      have := h.starts c t rfl
      rw [h1 c hc] at this; simp at this
  cases s with
  | int s => exact hre (r := Rx.integer) ((lang_integer _).mpr hw) (by decide) (by decide)
  | float s => exact hre (r := Rx.float) ((lang_float_iff _).mpr hw) (by decide) (by decide)
  | bool b => cases b <;> exact ⟨_, _, rfl, by decide⟩
  | dt d => exact Scalar.strict.head (s := .dt d) hw
  | str x t => cases t <;> exact ⟨_, _, rfl, by decide⟩

theorem VT.wf.head {t : VT} (h : t.wf) : ∃ c s, t.text = c :: s ∧ c ∉ lit% " \t\n\r#,]}" := by
  cases t with
  | leaf s =>
    obtain ⟨c, x, h1, h2⟩ := Scalar.wf.head (s := s) h
    exact ⟨c, x, h1, fun hc => h2 (by simp at hc ⊢; grind)⟩
  | arr es c1 c2 => exact ⟨_, _, by rw [VT.text]; rfl, by decide⟩
  | itab kvs ws => exact ⟨_, _, by rw [VT.text]; rfl, by decide⟩

theorem Elems.wf.avoids {es : Elems} (h : es.wf) {i : Str} (hi : Avoids (lit% " \t\n\r#,") i) : Avoids (lit% " \t\n\r#,") (es.text ++ i) := by
  cases es with
  | nil => simpa [Elems.text] using hi
  | cons v sep cn r =>
    rw [Elems.wf] at h
    obtain ⟨c, s, h1, h2⟩ := VT.wf.head h.1
    intro d t e hd
    simp [Elems.text, h1] at e
    rw [← e.1] at hd
    exact h2 (by simp at hd ⊢; grind)

theorem Pairs.wf.avoids {es : Pairs} (h : es.wf) {i : Str} (hi : Avoids (lit% " \t\n\r#,") i) : Avoids (lit% " \t\n\r#,") (es.text ++ i) := by
  cases es with
  | nil => simpa [Pairs.text] using hi
  | cons k ws v sep cn r =>
    rw [Pairs.wf] at h
    obtain ⟨c, s, h1, h2⟩ := h.1.head
    intro d t e hd
    simp [Pairs.text, h1] at e
    rw [← e.1] at hd
    exact h2 (by simp at hd ⊢; grind)

/-- A parser of values on the text of a value followed by `r`. -/
def FwdVr (pval : P Addr) (t : VT) (r : Str) : Prop := ∀ st,
  pval st (t.text ++ r) = (t.eff st).bind fun st' => .ok (st', .done r (t.addr st.heap.length))

theorem arrayValue_taken {pval : P Addr} {v : VT} {sep : Option WSSep} {cn : List CNL} {i : Str} (hv : FwdVr pval v (commaText sep ++ gapText cn ++ i))
    (ha : ApartTaken sep cn i) (hi : Avoids (lit% " \t\n\r#,") i) (st : PState) :
    arrayValue pval st (v.text ++ commaText sep ++ gapText cn ++ i) =
      (v.eff st).bind fun st1 => (arrayValueAct (st1.heap.length - 1) st1).bind fun st2 => .ok (st2, .done i ⟨v.addr st.heap.length, sep, cn⟩) := by
  have h1 := hv st
  have e : v.text ++ commaText sep ++ gapText cn ++ i = v.text ++ (commaText sep ++ gapText cn ++ i) := by simp
  rw [e]
  simp only [arrayValue, bind_eq]
  rcases Out.cases' (v.eff st) with ⟨st1, he⟩ | ⟨e, he⟩
  · rw [he] at h1 ⊢
    obtain ⟨g1, g2⟩ := ha.fwd hi st1
    rw [bind_done h1, bind_done g1, bind_done g2]
    simp only [P.act, Out.ok_bind, VT.eff_addr he]
    cases arrayValueAct (v.addr st.heap.length) st1 <;> rfl
  · rw [he, Abort.bind] at h1 ⊢
    exact bind_abort h1

theorem keyval_taken {pval : P Addr} {v : VT} {i : Str} (hv : FwdVr pval v i) (hs : v.wf) {k : Str} (hk : KeyWf k) {ws : WSSep} (hw : ws.wf) (st : PState) :
    keyval pval st (k ++ ws.ws1 ++ lit% "=" ++ ws.ws2 ++ v.text ++ i) =
      (v.eff (st.pushK k)).bind fun st1 => (keyvalAct k (st1.heap.length - 1) st1).bind fun st2 => .ok (st2, .done i ⟨k, ws, v.addr st.heap.length⟩) := by
  have e : k ++ ws.ws1 ++ lit% "=" ++ ws.ws2 ++ v.text ++ i = k ++ (ws.ws1 ++ lit% "=" ++ ws.ws2 ++ (v.text ++ i)) := by simp
  have hb : Avoids (lit% " \t") (v.text ++ i) := by
    obtain ⟨c, s, h1, h2⟩ := VT.wf.head hs
    intro d t e hd
    simp [h1] at e
    rw [← e.1] at hd
    exact h2 (by simp at hd ⊢; grind)
  have h1 := hv (st.pushK k)
  rw [e]
  simp only [keyval, bind_eq]
  rw [bind_done (key_fwd hk (sep_nokey hw) st), bind_done (keyvalSep_fwd hw hb (st.pushK k))]
  have hp : (st.pushK k).heap.length = st.heap.length := rfl
  rcases Out.cases' (v.eff (st.pushK k)) with ⟨st1, he⟩ | ⟨e, he⟩
  · rw [he] at h1 ⊢
    rw [bind_done h1]
    simp only [P.act, Out.ok_bind, VT.eff_addr he, hp]
    cases keyvalAct k (v.addr st.heap.length) st1 <;> rfl
  · rw [he, Abort.bind] at h1 ⊢
    exact bind_abort h1

theorem tableKeyval_taken {pval : P Addr} {v : VT} {sep : Option WSSep} {cn : List CNL} {i : Str} (hv : FwdVr pval v (commaText sep ++ gapText cn ++ i))
    (hs : v.wf) {k : Str} (hk : KeyWf k) {ws : WSSep} (hw : ws.wf) (ha : ApartTaken sep cn i) (hi : Avoids (lit% " \t\n\r#,") i) (st : PState) :
    tableKeyval pval st (k ++ ws.ws1 ++ lit% "=" ++ ws.ws2 ++ v.text ++ commaText sep ++ gapText cn ++ i) =
      (v.eff (st.pushK k)).bind fun st1 => (keyvalAct k (st1.heap.length - 1) st1).bind fun st2 =>
        .ok (st2, .done i ⟨⟨k, ws, v.addr st.heap.length⟩, sep, cn⟩) := by
  have h1 := keyval_taken hv hs hk hw st
  have e : k ++ ws.ws1 ++ lit% "=" ++ ws.ws2 ++ v.text ++ commaText sep ++ gapText cn ++ i =
    k ++ ws.ws1 ++ lit% "=" ++ ws.ws2 ++ v.text ++ (commaText sep ++ gapText cn ++ i) := by simp
  rw [e]
  simp only [tableKeyval, bind_eq]
  rcases Out.cases' (v.eff (st.pushK k)) with ⟨st1, he⟩ | ⟨e, he⟩
  · rw [he] at h1 ⊢
    simp only [Out.ok_bind] at h1 ⊢
    rcases Out.cases' (keyvalAct k (st1.heap.length - 1) st1) with ⟨st2, he2⟩ | ⟨e, he2⟩
    · rw [he2] at h1 ⊢
      obtain ⟨g1, g2⟩ := ha.fwd hi st2
      rw [bind_done h1, bind_done g1, bind_done g2]
      rfl
    · rw [he2, Abort.bind] at h1 ⊢
      exact bind_abort h1
  · rw [he, Abort.bind] at h1 ⊢
    exact bind_abort h1

theorem array_taken {pval : P Addr} {es : Elems} {c1 : List CNL} {r : Str} (h1 : GapTaken c1 (es.text ++ ']' :: r)) (h2 : es.wf) (st : PState)
    (hl : ∀ m acc st, (es.text ++ ']' :: r).length < m → P.many0Loop (arrayValue pval) m acc st (es.text ++ ']' :: r) =
      (es.eff st).bind fun st' => .ok (st', .done (']' :: r) (acc ++ es.avs st.heap.length))) :
    P.complete (array pval) st ((VT.arr es c1 [.newlines []]).text ++ r) =
      (es.eff st.openArr).bind fun st' => .ok (st'.closeArr, .done r (.arr (es.avs st.heap.length) c1 [.newlines []])) := by
  have e : (VT.arr es c1 [.newlines []]).text ++ r = lit% "[" ++ (gapText c1 ++ (es.text ++ ']' :: r)) := by simp [VT.text, gapText, CNL.text]
  have htag : P.tag (lit% "[") st.openArr (lit% "[" ++ (gapText c1 ++ (es.text ++ ']' :: r))) =
    .ok (st.openArr, .done (gapText c1 ++ (es.text ++ ']' :: r)) (lit% "[")) := tag_append _
  have hg := h1.fwd ((h2.avoids (close_avoids r).1).sub) st.openArr
  have hm := hl _ [] st.openArr (Nat.lt_succ_self _)
  rw [e]
  have key : arrayInternal pval st.openArr (lit% "[" ++ (gapText c1 ++ (es.text ++ ']' :: r))) =
      (es.eff st.openArr).bind fun st' => .ok (st', .done r (.arr (es.avs st.heap.length) c1 [.newlines []])) := by
    simp only [arrayInternal, bind_eq]
    rw [bind_done htag, bind_done hg]
    rcases Out.cases' (es.eff st.openArr) with ⟨st1, he⟩ | ⟨e, he⟩
    · rw [he] at hm ⊢
      simp only [Out.ok_bind] at hm ⊢
      have hm' : arrayValues pval st.openArr (es.text ++ ']' :: r) = .ok (st1, .done (']' :: r) (es.avs st.heap.length)) := by
        simpa [arrayValues, P.many0, PState.openArr] using hm
      have hg2 := gap_fwd gap_nil ((close_avoids r).1.sub) st1
      simp only [gapText, CNL.text, List.append_nil, List.nil_append] at hg2
      have ht : P.tag (lit% "]") st1 (']' :: r) = .ok (st1, .done r (lit% "]")) := tag_append (lit% "]")
      rw [bind_done hm', bind_done hg2, bind_done ht]
      rfl
    · rw [he, Abort.bind] at hm ⊢
      exact bind_abort hm
  have harr : array pval st (lit% "[" ++ (gapText c1 ++ (es.text ++ ']' :: r))) =
      (es.eff st.openArr).bind fun st' => .ok (st'.closeArr, .done r (.arr (es.avs st.heap.length) c1 [.newlines []])) := by
    simp only [array]
    change (match arrayInternal pval st.openArr _ with | .ok (st', r) => _ | .panic x => _ | .fuel => _) = _
    rw [key]
    cases es.eff st.openArr <;> rfl
  rcases Out.cases' (es.eff st.openArr) with ⟨st1, he⟩ | ⟨e, he⟩
  · rw [he] at harr ⊢
    exact complete_done harr
  · rw [he, Abort.bind] at harr ⊢
    exact complete_abort harr

theorem inlineTable_taken {pval : P Addr} {kvs : Pairs} {w : Str} (h1 : Blank w) (h2 : kvs.wf) {r : Str} (st : PState)
    (hl : ∀ m acc st, (kvs.text ++ '}' :: r).length < m → P.many0Loop (tableKeyval pval) m acc st (kvs.text ++ '}' :: r) =
      (kvs.eff st).bind fun st' => .ok (st', .done ('}' :: r) (acc ++ kvs.tkvs st.heap.length))) :
    P.complete (inlineTable pval) st ((VT.itab kvs ⟨w, []⟩).text ++ r) =
      (kvs.eff st).bind fun st' => .ok (st', .done r (.itab (kvs.tkvs st.heap.length) ⟨w, []⟩)) := by
  have e : (VT.itab kvs ⟨w, []⟩).text ++ r = lit% "{" ++ (w ++ (kvs.text ++ '}' :: r)) := by simp [VT.text]
  have htag : P.tag (lit% "{") st (lit% "{" ++ (w ++ (kvs.text ++ '}' :: r))) =
    .ok (st, .done (w ++ (kvs.text ++ '}' :: r)) (lit% "{")) := tag_append _
  have hw := ws_fwd h1 ((h2.avoids (close_avoids r).2).sub) st
  have hm := hl _ [] st (Nat.lt_succ_self _)
  rw [e]
  simp only [inlineTable, bind_eq]
  rcases Out.cases' (kvs.eff st) with ⟨st1, he⟩ | ⟨e, he⟩
  · rw [he] at hm ⊢
    simp only [Out.ok_bind, List.nil_append] at hm ⊢
    have hw2 := ws_fwd (w := []) (by simp [Blank]) ((close_avoids r).2.sub) st1
    have ht : P.tag (lit% "}") st1 ('}' :: r) = .ok (st1, .done r (lit% "}")) := tag_append (lit% "}")
    apply complete_done
    rw [bind_done htag, bind_done hw, bind_done (opt_done (complete_done (p := P.many0 (tableKeyval pval)) hm))]
    simp only [List.nil_append] at hw2
    rw [bind_done hw2, bind_done ht]
    rfl
  · rw [he, Abort.bind] at hm ⊢
    apply complete_abort
    rw [bind_done htag, bind_done hw]
    exact bind_abort (opt_abort (complete_abort (p := P.many0 (tableKeyval pval)) hm))

mutual
theorem VT.taken.fwd : ∀ (t : VT) (r : Str), t.taken r → ∀ n, t.text.length < n → FwdVr (valFuel n) t r
  | .leaf s, r, h, n, hn => by
    intro st
    rw [VT.taken] at h
    cases n with
    | zero => omega
    | succ n =>
      obtain ⟨c, x, h1, h2⟩ := h.1.head
      simp only [VT.text, valFuel]
      rw [valStep_eq, alt_err (bind_err (array_none (valFuel n) st ?_)), alt_err (bind_err (inlineTable_none (valFuel n) st ?_))]
      · exact scalarVal_taken h st
      · intro j e; rw [h1] at e; simp at e; exact h2 (by rw [e.1]; decide)
      · intro j e; rw [h1] at e; simp at e; exact h2 (by rw [e.1]; decide)
  | .arr es c1 c2, r, h, n, hn => by
    intro st
    rw [VT.taken] at h
    obtain ⟨h1, h2, rfl⟩ := h
    cases n with
    | zero => omega
    | succ n =>
      have hlen : es.text.length < n := by simp [VT.text] at hn; omega
      have ha := array_taken (by simpa using h1) h2.wf (r := r) st (fun m acc st hm => Elems.taken.fwd es r h2 n hlen m acc st hm)
      simp only [valFuel]
      rw [valStep_eq]
      rcases Out.cases' (es.eff st.openArr) with ⟨st1, he⟩ | ⟨e, he⟩
      · rw [he] at ha
        simp only [Out.ok_bind] at ha
        refine (alt_done (r := r) (a := (VT.arr es c1 [.newlines []]).addr st.heap.length)
          (st' := st1.closeArr.cell (.arr (es.avs st.heap.length) c1 [.newlines []])) ?_).trans ?_
        · rw [bind_done ha]
          have := Elems.eff_heap _ _ _ he
          simp [alloc, P.act, PState.cell, VT.addr, VT.size, PState.closeArr, this, Elems.cells_length, PState.openArr]
        · simp [VT.eff, he]
      · rw [he, Abort.bind] at ha
        rw [alt_abort (bind_abort ha)]
        simp [VT.eff, he]
  | .itab kvs ws, r, h, n, hn => by
    intro st
    rw [VT.taken] at h
    obtain ⟨h1, h2, h3⟩ := h
    obtain ⟨w, w2⟩ := ws
    simp only at h3
    subst h3
    cases n with
    | zero => omega
    | succ n =>
      have hlen : kvs.text.length < n := by simp [VT.text] at hn; omega
      have ha := inlineTable_taken h1 h2.wf (r := r) st (fun m acc st hm => Pairs.taken.fwd kvs r h2 n hlen m acc st hm)
      simp only [valFuel]
      rw [valStep_eq, alt_err (bind_err (array_none (valFuel n) st (by simp [VT.text])))]
      rcases Out.cases' (kvs.eff st) with ⟨st1, he⟩ | ⟨e, he⟩
      · rw [he] at ha
        simp only [Out.ok_bind] at ha
        refine (alt_done (r := r) (a := (VT.itab kvs ⟨w, []⟩).addr st.heap.length)
          (st' := st1.cell (.itab (kvs.tkvs st.heap.length) ⟨w, []⟩)) ?_).trans ?_
        · rw [bind_done ha]
          have := Pairs.eff_heap _ _ _ he
          simp [alloc, P.act, PState.cell, VT.addr, VT.size, this, Pairs.cells_length]
        · simp [VT.eff, he]
      · rw [he, Abort.bind] at ha
        rw [alt_abort (bind_abort ha)]
        simp [VT.eff, he]
theorem Elems.taken.fwd : ∀ (es : Elems) (r : Str), es.taken (lit% "]" ++ r) → ∀ n, es.text.length < n → ∀ m acc st, (es.text ++ ']' :: r).length < m →
    P.many0Loop (arrayValue (valFuel n)) m acc st (es.text ++ ']' :: r) =
      (es.eff st).bind fun st' => .ok (st', .done (']' :: r) (acc ++ es.avs st.heap.length))
  | .nil, r, _, n, hn, m, acc, st, hm => by
    cases m with
    | zero => omega
    | succ m =>
      have : arrayValue (valFuel n) st (']' :: r) = .ok (st, .err) := by
        simp only [arrayValue, bind_eq]
        exact bind_err (val_close (by omega) st)
      simp [P.many0Loop, Elems.text, this, Elems.eff, Elems.avs]
  | .cons v sep cn es, r, h, n, hn, m, acc, st, hm => by
    rw [Elems.taken] at h
    obtain ⟨h1, h2, h4⟩ := h
    cases m with
    | zero => omega
    | succ m =>
      obtain ⟨c, x, hx, _⟩ := VT.wf.head h1.wf
      have hlv : v.text.length < n := by simp [Elems.text] at hn; omega
      have hle : es.text.length < n := by simp [Elems.text] at hn; omega
      have ha := arrayValue_taken (i := es.text ++ ']' :: r) (by simpa using VT.taken.fwd v _ h1 n hlv) h2 (h4.wf.avoids (close_avoids r).1) st
      have e : (Elems.cons v sep cn es).text ++ ']' :: r = v.text ++ commaText sep ++ gapText cn ++ (es.text ++ ']' :: r) := by simp [Elems.text]
      unfold P.many0Loop
      rw [e, if_neg (by simp [hx]), ha, Elems.eff]
      rcases Out.cases' (v.eff st) with ⟨st1, he⟩ | ⟨e, he⟩
      · rw [he]
        simp only [Out.ok_bind]
        rcases Out.cases' (arrayValueAct (st1.heap.length - 1) st1) with ⟨st2, he2⟩ | ⟨e, he2⟩
        · rw [he2]
          simp only [Out.ok_bind]
          rw [if_neg (by simp [hx]; omega)]
          rw [e] at hm
          rw [Elems.taken.fwd es r h4 n hle m _ st2 (by simp [hx] at hm ⊢; omega)]
          have hh : st2.heap.length = st.heap.length + v.size := by
            rw [arrayValueAct_heap he2, VT.eff_length he]
          simp [Elems.avs, hh]
        · rw [he2]; cases e <;> rfl
      · rw [he]; cases e <;> rfl
theorem Pairs.taken.fwd : ∀ (kvs : Pairs) (r : Str), kvs.taken (lit% "}" ++ r) → ∀ n, kvs.text.length < n → ∀ m acc st, (kvs.text ++ '}' :: r).length < m →
    P.many0Loop (tableKeyval (valFuel n)) m acc st (kvs.text ++ '}' :: r) =
      (kvs.eff st).bind fun st' => .ok (st', .done ('}' :: r) (acc ++ kvs.tkvs st.heap.length))
  | .nil, r, _, n, hn, m, acc, st, hm => by
    cases m with
    | zero => omega
    | succ m =>
      have : tableKeyval (valFuel n) st ('}' :: r) = .ok (st, .err) := by
        simp only [tableKeyval, keyval, bind_eq]
        exact bind_err (bind_err (key_none (by decide) (by decide)))
      simp [P.many0Loop, Pairs.text, this, Pairs.eff, Pairs.tkvs]
  | .cons k ws v sep cn es, r, h, n, hn, m, acc, st, hm => by
    rw [Pairs.taken] at h
    obtain ⟨hk, hw, h1, h2, h4⟩ := h
    cases m with
    | zero => omega
    | succ m =>
      obtain ⟨c, x, hx, _⟩ := hk.head
      have hlv : v.text.length < n := by simp [Pairs.text] at hn; omega
      have hle : es.text.length < n := by simp [Pairs.text] at hn; omega
      have ha := tableKeyval_taken (i := es.text ++ '}' :: r) (by simpa using VT.taken.fwd v _ h1 n hlv) h1.wf hk hw h2 (h4.wf.avoids (close_avoids r).2) st
      have e : (Pairs.cons k ws v sep cn es).text ++ '}' :: r =
        k ++ ws.ws1 ++ lit% "=" ++ ws.ws2 ++ v.text ++ commaText sep ++ gapText cn ++ (es.text ++ '}' :: r) := by simp [Pairs.text]
      unfold P.many0Loop
      rw [e, if_neg (by simp), ha, Pairs.eff]
      rcases Out.cases' (v.eff (st.pushK k)) with ⟨st1, he⟩ | ⟨e, he⟩
      · rw [he]
        simp only [Out.ok_bind]
        rcases Out.cases' (keyvalAct k (st1.heap.length - 1) st1) with ⟨st2, he2⟩ | ⟨e, he2⟩
        · rw [he2]
          simp only [Out.ok_bind]
          rw [if_neg (by simp; omega)]
          rw [e] at hm
          rw [Pairs.taken.fwd es r h4 n hle m _ st2 (by simp at hm ⊢; omega)]
          have hh : st2.heap.length = st.heap.length + v.size := by
            rw [keyvalAct_heap he2, VT.eff_length he]; rfl
          simp [Pairs.tkvs, hh]
        · rw [he2]; cases e <;> rfl
      · rw [he]; cases e <;> rfl
end

/-- The parser of values reads a value that is taken back. -/
theorem val_taken {t : VT} {r : Str} (h : t.taken r) : FwdVr val t r := fun st => VT.taken.fwd t r h _ (by simp; omega) st

end Tomllib
