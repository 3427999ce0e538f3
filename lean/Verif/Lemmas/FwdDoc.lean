import Verif.Lemmas.FwdVal
/-!
# Documents are read back from their text
-/

namespace Tomllib
open P

/-! ## Table headers -/

/-- What follows a key in a header. -/
def NoKey (i : Str) : Prop := ∀ c t, i = c :: t → isKeychar c = false

theorem tableSubkey_fwd {k : WSKeySep} (h1 : k.ws.wf) (h2 : KeyWf k.key) {i : Str} (hi : NoKey i) (st : PState) :
    tableSubkey st (k.text ++ i) = .ok (st.pushK k.key, .done i k) := by
  have e : k.text ++ i = k.ws.ws1 ++ (lit% "." ++ (k.ws.ws2 ++ (k.key ++ i))) := by simp [WSKeySep.text]
  have ht : P.tag (lit% ".") st (lit% "." ++ (k.ws.ws2 ++ (k.key ++ i))) = .ok (st, .done (k.ws.ws2 ++ (k.key ++ i)) (lit% ".")) := tag_append _
  have hk : Avoids (lit% " \t") (k.key ++ i) := by
    obtain ⟨c, x, h3, h4⟩ := h2.head
    intro d t e hd
    simp [h3] at e
    rw [← e.1] at hd
    exact h4 (by simp at hd ⊢; grind)
  simp only [tableSubkey, bind_eq]
  rw [e, bind_done (ws_fwd h1.1 (by intro c t e; simp at e; rw [← e.1]; decide) st), bind_done ht, bind_done (ws_fwd h1.2 hk st),
    bind_done (key_fwd h2 hi st)]
  rfl

theorem tableSubkey_end {w : Str} (hw : Blank w) {i : Str} (st : PState) : tableSubkey st (w ++ ']' :: i) = .ok (st, .err) := by
  simp only [tableSubkey, bind_eq]
  rw [bind_done (ws_fwd hw (by intro c t e; simp at e; rw [← e.1]; decide) st)]
  exact bind_err (tag1_ne (by decide) (by decide))

theorem blank_nokey {w : Str} (hw : Blank w) {i : Str} (hi : NoKey i) : NoKey (w ++ i) := by
  intro c t e
  cases w with
  | nil => exact hi c t e
  | cons d w =>
    simp at e
    rw [← e.1]
    rcases hw d (by simp) with rfl | rfl <;> decide

theorem subkeys_nokey {ks : List WSKeySep} (h : ∀ k ∈ ks, k.ws.wf ∧ KeyWf k.key) {i : Str} (hi : NoKey i) : NoKey (subkeysText ks ++ i) := by
  cases ks with
  | nil => exact hi
  | cons k ks =>
    have := blank_nokey (h k (by simp)).1.1 (i := lit% "." ++ k.ws.ws2 ++ k.key ++ subkeysText ks ++ i) (by
      intro c t e; simp at e; rw [← e.1]; decide)
    simpa [subkeysText, WSKeySep.text] using this

theorem tableSubkeys_fwd {w : Str} (hw : Blank w) {i : Str} : ∀ (ks : List WSKeySep), (∀ k ∈ ks, k.ws.wf ∧ KeyWf k.key) → ∀ n acc st,
    (subkeysText ks ++ (w ++ ']' :: i)).length < n →
    P.many0Loop tableSubkey n acc st (subkeysText ks ++ (w ++ ']' :: i)) = .ok (st.pushKs (ks.map (·.key)), .done (w ++ ']' :: i) (acc ++ ks)) := by
  intro ks
  induction ks with
  | nil =>
    intro _ n acc st hn
    cases n with
    | zero => omega
    | succ n => simp [P.many0Loop, subkeysText, tableSubkey_end hw, pushKs_nil]
  | cons k ks ih =>
    intro h n acc st hn
    cases n with
    | zero => omega
    | succ n =>
      have hk := h k (by simp)
      have hks : ∀ k ∈ ks, k.ws.wf ∧ KeyWf k.key := fun x hx => h x (by simp [hx])
      have hno : NoKey (subkeysText ks ++ (w ++ ']' :: i)) := subkeys_nokey hks (blank_nokey hw (by intro c t e; simp at e; rw [← e.1]; decide))
      have e : subkeysText (k :: ks) ++ (w ++ ']' :: i) = k.text ++ (subkeysText ks ++ (w ++ ']' :: i)) := by simp [subkeysText]
      have hl : 0 < k.text.length := by simp [WSKeySep.text]; omega
      unfold P.many0Loop
      rw [e] at hn
      rw [e, if_neg (by intro e'; have := congrArg List.length e'; simp at this), tableSubkey_fwd hk.1 hk.2 hno st]
      dsimp only
      rw [if_neg (by simp only [List.length_append]; omega), ih hks n _ _ (by simp only [List.length_append] at hn ⊢; omega), pushKs_cons]
      simp

theorem header_fwd {o c : Str} {act : Table → PState → Out (PState × TableType)} {t : Table} (h1 : t.keys ≠ [])
    (h2 : ∀ k ∈ t.keys, k.ws.wf ∧ KeyWf k.key) (hc : ∃ x, c = ']' :: x) {i : Str} (st : PState) :
    headerP o c act st (o ++ t.text ++ c ++ i) =
      (act t (st.pushKs (t.keys.map (·.key)))).bind fun x => .ok (x.1, .done i x.2) := by
  obtain ⟨ks⟩ := t
  cases ks with
  | nil => simp at h1
  | cons k ks =>
    obtain ⟨⟨w1, w2⟩, kk⟩ := k
    obtain ⟨x, rfl⟩ := hc
    have hk := h2 ⟨⟨w1, w2⟩, kk⟩ (by simp)
    have hks : ∀ k ∈ ks, k.ws.wf ∧ KeyWf k.key := fun y hy => h2 y (by simp [hy])
    have e : o ++ (Table.mk (⟨⟨w1, w2⟩, kk⟩ :: ks)).text ++ (']' :: x) ++ i =
        o ++ (w1 ++ (kk ++ (subkeysText ks ++ (w2 ++ ']' :: (x ++ i))))) := by simp [Table.text]
    have ht := tag_append (st := st) o (i := w1 ++ (kk ++ (subkeysText ks ++ (w2 ++ ']' :: (x ++ i)))))
    have hb : Avoids (lit% " \t") (kk ++ (subkeysText ks ++ (w2 ++ ']' :: (x ++ i)))) := by
      obtain ⟨c, y, h3, h4⟩ := hk.2.head
      intro d t e hd
      simp only at h3
      simp [h3] at e
      rw [← e.1] at hd
      exact h4 (by simp at hd ⊢; grind)
    have hno : NoKey (subkeysText ks ++ (w2 ++ ']' :: (x ++ i))) :=
      subkeys_nokey hks (blank_nokey hk.1.2 (by intro c t e; simp at e; rw [← e.1]; decide))
    have hs := tableSubkeys_fwd (i := x ++ i) hk.1.2 ks hks _ [] (st.pushK kk) (Nat.lt_succ_self _)
    simp only [List.nil_append, pushKs_cons] at hs
    have ht2 := tag_append (st := st.pushKs (kk :: ks.map (·.key))) (']' :: x) (i := i)
    simp only [headerP, bind_eq]
    rw [e, bind_done ht, bind_done (ws_fwd hk.1.1 hb st), bind_done (key_fwd hk.2 hno st), bind_done (p := tableSubkeys) hs,
      bind_done (ws_fwd hk.1.2 (by intro c t e; simp at e; rw [← e.1]; decide) _)]
    simp only [List.cons_append] at ht2
    rw [bind_done ht2]
    simp only [P.act, List.map_cons]
    cases act _ (st.pushKs (kk :: ks.map (·.key))) <;> rfl

theorem tag2_ne {a b c d : Char} {i : Str} {st : PState} (h : d ≠ b) :
    P.tag [a, b] st (c :: d :: i) = .ok (st, .err) ∨ P.tag [a, b] st (c :: d :: i) = .ok (st, .inc) := by
  unfold P.tag
  split
  · exact .inr rfl
  · have : [a, b].isPrefixOf (c :: d :: i) = false := by simp [List.isPrefixOf, Ne.symm h]
    simp [this]

theorem table_fwd {t : TableType} (h : t.strict) {i : Str} (st : PState) :
    table st (t.text ++ i) = (t.eff st).bind fun st' => .ok (st', .done i t) := by
  unfold table
  cases t with
  | arr t =>
    have hf := header_fwd (o := lit% "[[") (c := lit% "]]") (act := arrayTableAct) h.1 h.2 ⟨_, rfl⟩ (i := i) st
    rw [← arrayTable_eq] at hf
    simp only [TableType.text, TableType.eff]
    rcases Out.cases' (arrayTableAct t (st.pushKs (t.keys.map (·.key)))) with ⟨⟨s, tt⟩, he⟩ | ⟨e, he⟩
    · have := arrayTableAct_res he
      subst this
      simp only [TableType.table] at hf
      rw [he] at hf ⊢
      exact alt_done (complete_done hf)
    · simp only [TableType.table] at hf
      rw [he, Abort.bind] at hf
      rw [he, alt_abort (complete_abort hf)]
      cases e <;> rfl
  | std t =>
    have hf := header_fwd (o := lit% "[") (c := lit% "]") (act := stdTableAct) h.1 h.2 ⟨_, rfl⟩ (i := i) st
    rw [← stdTable_eq] at hf
    have hno : P.complete arrayTable st ((TableType.std t).text ++ i) = .ok (st, .err) := by
      obtain ⟨d, y, e, hd⟩ : ∃ d y, (TableType.std t).text ++ i = '[' :: d :: y ∧ d ≠ '[' := by
        obtain ⟨ks⟩ := t
        cases ks with
        | nil => exact absurd rfl h.1
        | cons k ks =>
          have hk := h.2 k (by simp [TableType.table])
          obtain ⟨c, z, h3, h4⟩ := hk.2.head
          cases hw : k.ws.ws1 with
          | nil => exact ⟨c, z ++ subkeysText ks ++ k.ws.ws2 ++ lit% "]" ++ i, by simp [TableType.text, Table.text, hw, h3], fun e => h4 (by rw [e]; decide)⟩
          | cons b w =>
            refine ⟨b, w ++ k.key ++ subkeysText ks ++ k.ws.ws2 ++ lit% "]" ++ i, by simp [TableType.text, Table.text, hw], ?_⟩
            rcases hk.1.1 b (by simp [hw]) with rfl | rfl <;> decide
      rw [e]
      rw [arrayTable_eq]
      simp only [headerP, bind_eq]
      rcases tag2_ne (a := '[') (c := '[') (i := y) (st := st) hd with ht | ht
      · exact complete_err (bind_err ht)
      · exact complete_inc (bind_inc ht)
    rw [alt_err hno]
    simp only [TableType.text, TableType.eff]
    rcases Out.cases' (stdTableAct t (st.pushKs (t.keys.map (·.key)))) with ⟨⟨s, tt⟩, he⟩ | ⟨e, he⟩
    · have := stdTableAct_res he
      subst this
      simp only [TableType.table] at hf
      rw [he] at hf ⊢
      exact complete_done hf
    · simp only [TableType.table] at hf
      rw [he, Abort.bind] at hf
      rw [he, complete_abort hf]
      cases e <;> rfl

theorem table_none {i : Str} (h : ∀ x, i ≠ '[' :: x) (st : PState) : table st i = .ok (st, .err) := by
  have : ∀ (o c : Str) act, P.complete (headerP ('[' :: o) c act) st i = .ok (st, .err) := by
    intro o c act
    simp only [headerP, bind_eq]
    cases i with
    | nil => exact complete_inc (bind_inc tag_nil)
    | cons d x =>
      have hd : d ≠ '[' := fun e => h x (by rw [e])
      rcases tag_ne (t := o) (i := x) (st := st) hd with g | g
      · exact complete_err (bind_err g)
      · exact complete_inc (bind_inc g)
  unfold table
  rw [arrayTable_eq, stdTable_eq, alt_err (this _ _ _)]
  exact this _ _ _

/-! ## Lines -/

/-- The end of a line: nothing, or a line break. -/
def Eol (i : Str) : Prop := i = [] ∨ (∃ x, i = '\n' :: x) ∨ ∃ x, i = '\r' :: '\n' :: x

theorem Eol.head {i : Str} (h : Eol i) : ∀ c t, i = c :: t → c = '\n' ∨ c = '\r' := by
  rcases h with rfl | ⟨x, rfl⟩ | ⟨x, rfl⟩ <;> (intro c t e; simp at e; try simp [← e.1])

theorem Eol.notEol {i : Str} (h : Eol i) : ∀ c t, i = c :: t → Tomllib.notEol c = false := by
  intro c t e
  rcases h.head c t e with rfl | rfl <;> decide

theorem Eol.avoids {i : Str} (h : Eol i) : Avoids (lit% " \t#[") i := by
  intro c t e
  rcases h.head c t e with rfl | rfl <;> decide

theorem optComment_fwd {c : Option Str} (hc : CommentWf c) {i : Str} (hi : Eol i) (st : PState) :
    P.opt (P.complete comment) st (optComment c ++ i) = .ok (st, .done i c) := by
  cases c with
  | some t => exact opt_done (complete_done (comment_fwd (hc t rfl) hi.notEol st))
  | none =>
    refine opt_err ?_
    simp only [optComment, List.nil_append, comment, bind_eq]
    cases i with
    | nil => exact complete_inc (bind_inc tag_nil)
    | cons d x =>
      exact complete_err (bind_err (tag1_ne (fun e => hi.avoids d x rfl (by rw [e]; decide)) (by decide)))

theorem optComment_avoids (c : Option Str) {i : Str} (hi : Eol i) : Avoids (lit% " \t") (optComment c ++ i) := by
  cases c with
  | none => exact hi.avoids.sub
  | some t => intro d x e; simp [optComment, remark] at e; rw [← e.1]; decide

theorem lineEnd_closes {w : Str} (hw : Blank w) (c : Option Str) {i : Str} (hi : Eol i) : Closes (w ++ optComment c ++ i) := by
  intro d x e
  cases w with
  | cons a w =>
    simp at e
    rw [← e.1]; rcases hw a (by simp) with rfl | rfl <;> decide
  | nil =>
    cases c with
    | some t => simp [optComment, remark] at e; rw [← e.1]; decide
    | none =>
      simp [optComment] at e
      rcases hi.head d x e with rfl | rfl <;> decide

/-- The parser of a line on the text of a properly written line. -/
theorem expression_fwd {e : ET} (h : e.strict) {i : Str} (hi : Eol i) (st : PState) :
    expression st (e.text ++ i) = (e.eff st).bind fun st' => .ok (st', .done i (e.expr st.heap.length)) := by
  -- neither a header nor a pair
  have hnone : ∀ (w j : Str), Blank w → (∀ c t, j = c :: t → c ∉ lit% " \t[\"" ∧ isKeychar c = false) →
      expression st (w ++ j) = P.alt (P.complete wsComment) (P.complete wsExpr) st (w ++ j) := by
    intro w j hw hj
    have hws := ws_fwd hw (i := j) (fun c t e hc => (hj c t e).1 (by simp at hc ⊢; grind)) st
    have h1 : P.complete tableComment st (w ++ j) = .ok (st, .err) := by
      apply complete_err
      simp only [tableComment, bind_eq]
      rw [bind_done hws]
      exact bind_err (table_none (fun x e => (hj _ _ e).1 (by decide)) st)
    have h2 : P.complete keyvalComment st (w ++ j) = .ok (st, .err) := by
      apply complete_err
      simp only [keyvalComment, bind_eq]
      rw [bind_done hws]
      apply bind_err
      simp only [keyval, bind_eq]
      apply bind_err
      cases j with
      | nil =>
        rcases key_spec st [] with ⟨k, r, wk, e, _⟩ | h1
        · obtain ⟨d, t, rfl, hd⟩ := KeyWf.cons wk
          simp at e
        · exact h1
      | cons c t => exact key_none (hj c t rfl).2 (fun e => (hj c t rfl).1 (by rw [e]; decide))
    unfold expression
    rw [alt_err h1, alt_err h2]
  cases e with
  | blank w =>
    have hb : Avoids (lit% " \t") i := hi.avoids.sub
    have hws := ws_fwd h hb st
    simp only [ET.text]
    rw [hnone w i h (fun c t e => by rcases hi.head c t e with rfl | rfl <;> decide)]
    have : P.complete wsComment st (w ++ i) = .ok (st, .err) := by
      simp only [wsComment, bind_eq, P.complete]
      rw [bind_done hws]
      simp only [comment, bind_eq]
      cases i with
      | nil => rw [bind_inc (bind_inc tag_nil)]
      | cons d x => rw [bind_err (bind_err (tag1_ne (fun e => hi.avoids d x rfl (by rw [e]; decide)) (by decide)))]
    rw [alt_err this]
    simp only [wsExpr, bind_eq, ET.eff, Out.ok_bind]
    rw [complete_done (bind_done hws)]
    rfl
  | comment w c =>
    obtain ⟨h1, h2⟩ := h
    have e : (ET.comment w c).text ++ i = w ++ (remark c ++ i) := by simp [ET.text]
    rw [e, hnone w _ h1 (fun c t e => by simp [remark] at e; rw [← e.1]; decide)]
    have hws := ws_fwd h1 (i := remark c ++ i) (by intro d x e; simp [remark] at e; rw [← e.1]; decide) st
    refine alt_done (complete_done ?_)
    simp only [wsComment, bind_eq]
    rw [bind_done hws, bind_done (comment_fwd h2 hi.notEol st)]
    rfl
  | table w1 t w2 c =>
    obtain ⟨h1, h2, h3, h4⟩ := h
    have e : (ET.table w1 t w2 c).text ++ i = w1 ++ (t.text ++ (w2 ++ (optComment c ++ i))) := by simp [ET.text]
    have hws := ws_fwd h1 (i := t.text ++ (w2 ++ (optComment c ++ i))) (by
      intro d x e; cases t <;> (simp [TableType.text] at e; rw [← e.1]; decide)) st
    have ht := table_fwd h2 (i := w2 ++ (optComment c ++ i)) st
    rw [e, ET.eff]
    rcases Out.cases' (t.eff st) with ⟨s, he⟩ | ⟨e, he⟩
    · rw [he] at ht ⊢
      refine alt_done (complete_done ?_)
      simp only [tableComment, bind_eq]
      rw [bind_done hws, bind_done ht, bind_done (ws_fwd h3 (optComment_avoids c hi) s), bind_done (optComment_fwd h4 hi s)]
      rfl
    · rw [he, Abort.bind] at ht ⊢
      refine alt_abort (complete_abort ?_)
      simp only [tableComment, bind_eq]
      rw [bind_done hws]
      exact bind_abort ht
  | kv w1 k s v w2 c =>
    obtain ⟨h1, h2, h3, h4, h5, h6⟩ := h
    have e : (ET.kv w1 k s v w2 c).text ++ i = w1 ++ (k ++ s.ws1 ++ lit% "=" ++ s.ws2 ++ v.text ++ (w2 ++ optComment c ++ i)) := by simp [ET.text]
    obtain ⟨d, y, hy, hd⟩ := h2.head
    have hws := ws_fwd h1 (i := k ++ s.ws1 ++ lit% "=" ++ s.ws2 ++ v.text ++ (w2 ++ optComment c ++ i)) (by
      intro a x e ha; simp [hy] at e; rw [← e.1] at ha; exact hd (by simp at ha ⊢; grind)) st
    have hnt : P.complete tableComment st (w1 ++ (k ++ s.ws1 ++ lit% "=" ++ s.ws2 ++ v.text ++ (w2 ++ optComment c ++ i))) = .ok (st, .err) := by
      apply complete_err
      simp only [tableComment, bind_eq]
      rw [bind_done hws]
      exact bind_err (table_none (fun x e => by simp [hy] at e; exact hd (by rw [e.1]; decide)) st)
    have hk := keyval_fwd (val_fwd h4) h4 h2 h3 (lineEnd_closes h5 c hi) st
    rw [e, ET.eff]
    unfold expression
    rw [alt_err hnt]
    rcases Out.cases' (v.eff (st.pushK k)) with ⟨s1, he⟩ | ⟨e, he⟩
    · rw [he] at hk ⊢
      simp only [Out.ok_bind] at hk ⊢
      rcases Out.cases' (keyvalAct k (s1.heap.length - 1) s1) with ⟨s2, he2⟩ | ⟨e, he2⟩
      · rw [he2] at hk ⊢
        refine alt_done (complete_done ?_)
        simp only [keyvalComment, bind_eq]
        rw [bind_done hws, bind_done hk, List.append_assoc, bind_done (ws_fwd h5 (optComment_avoids c hi) s2), bind_done (optComment_fwd h6 hi s2)]
        rfl
      · rw [he2, Abort.bind] at hk
        rw [he2, Abort.bind]
        refine alt_abort (complete_abort ?_)
        simp only [keyvalComment, bind_eq]
        rw [bind_done hws]
        exact bind_abort hk
    · rw [he, Abort.bind] at hk
      rw [he, Abort.bind, Abort.bind]
      refine alt_abort (complete_abort ?_)
      simp only [keyvalComment, bind_eq]
      rw [bind_done hws]
      exact bind_abort hk

/-! ## Documents -/

theorem linesText_eol {ls : List (Str × ET)} (h : LinesStrict ls) : Eol (linesText ls) := by
  cases ls with
  | nil => exact .inl rfl
  | cons l ls =>
    obtain ⟨nl, e⟩ := l
    have := (h (nl, e) (by simp)).1
    simp only at this
    rcases this with rfl | rfl
    · exact .inr (.inl ⟨_, by simp [linesText]; rfl⟩)
    · exact .inr (.inr ⟨_, by simp [linesText]; rfl⟩)

theorem newline_fwd {nl : Str} (h : nl = lit% "\n" ∨ nl = lit% "\r\n") (i : Str) (st : PState) : newline st (nl ++ i) = .ok (st.lines 1, .done i nl) := by
  simp only [newline, bind_eq]
  rcases h with rfl | rfl
  · have h1 : P.complete (P.tag (lit% "\r\n")) st (lit% "\n" ++ i) = .ok (st, .err) := complete_tag_ne (by decide)
    have h2 := complete_done (tag_append (st := st) (lit% "\n") (i := i))
    rw [alt_err (bind_err h1), bind_done h2]
    rfl
  · have h2 := complete_done (tag_append (st := st) (lit% "\r\n") (i := i))
    refine alt_done ?_
    rw [bind_done h2]
    rfl

theorem lines_fwd : ∀ (ls : List (Str × ET)), LinesStrict ls → ∀ n acc st, (linesText ls).length < n →
    P.many0Loop nlExpression n acc st (linesText ls) = (linesEff ls st).bind fun x => .ok (x.1, .done [] (acc ++ x.2)) := by
  intro ls
  induction ls with
  | nil =>
    intro _ n acc st hn
    cases n with
    | zero => omega
    | succ n => simp [P.many0Loop, linesText, linesEff]
  | cons l ls ih =>
    obtain ⟨nl, e⟩ := l
    intro h n acc st hn
    obtain ⟨h1, h2⟩ := h (nl, e) (by simp)
    have h3 : LinesStrict ls := fun l hl => h l (by simp [hl])
    simp only at h1 h2
    cases n with
    | zero => omega
    | succ n =>
      have hc : nlCount nl = 1 := by rcases h1 with rfl | rfl <;> rfl
      have hl : 0 < nl.length := by rcases h1 with rfl | rfl <;> simp
      have hx := expression_fwd h2 (linesText_eol h3) (st.lines 1)
      have hb : nlExpression st (nl ++ (e.text ++ linesText ls)) = (e.eff (st.lines 1)).bind fun st' => .ok (st', .done (linesText ls) ⟨nl, e.expr st.heap.length⟩) := by
        simp only [nlExpression, bind_eq]
        rw [bind_done (newline_fwd h1 _ st)]
        rcases Out.cases' (e.eff (st.lines 1)) with ⟨s, he⟩ | ⟨e, he⟩
        · rw [he] at hx ⊢
          rw [bind_done hx]
          rfl
        · rw [he, Abort.bind] at hx ⊢
          exact bind_abort hx
      unfold P.many0Loop
      have et : linesText ((nl, e) :: ls) = nl ++ (e.text ++ linesText ls) := by simp [linesText]
      rw [et] at hn
      rw [et, if_neg (by intro e'; simp at e'; rw [e'.1] at hl; simp at hl), hb, linesEff, hc]
      rcases Out.cases' (e.eff (st.lines 1)) with ⟨s, he⟩ | ⟨e, he⟩
      · rw [he]
        simp only [Out.ok_bind]
        rw [if_neg (by simp; omega), ih h3 n _ _ (by simp at hn ⊢; omega)]
        cases linesEff ls s <;> simp [Out.bind]
      · rw [he]; cases e <;> rfl

/-- The document parser on the text of a properly written document. -/
theorem toml_fwd {ls : List (Str × ET)} (h : DocStrict ls) (st : PState) :
    toml st (linesText ls) = (linesEff ls st).bind fun x => .ok (x.1, .done [] ⟨x.2⟩) := by
  cases ls with
  | nil => exact absurd h (by simp [DocStrict])
  | cons l ls =>
    obtain ⟨nl, e⟩ := l
    obtain ⟨h0, h1, h2⟩ := h
    simp only at h0 h1
    subst h0
    have hx := expression_fwd h1 (linesText_eol h2) st
    simp only [toml, bind_eq]
    have et : linesText (([], e) :: ls) = e.text ++ linesText ls := by simp [linesText]
    rw [et, linesEff]
    have hc : st.lines (nlCount []) = st := rfl
    rw [hc]
    rcases Out.cases' (e.eff st) with ⟨s, he⟩ | ⟨e, he⟩
    · rw [he] at hx ⊢
      rw [bind_done hx]
      have := lines_fwd ls h2 _ [] s (Nat.lt_succ_self _)
      simp only [Out.ok_bind]
      rcases Out.cases' (linesEff ls s) with ⟨x, he2⟩ | ⟨e, he2⟩
      · rw [he2] at this ⊢
        rw [bind_done (p := P.many0 nlExpression) this]
        rfl
      · rw [he2, Abort.bind] at this
        rw [bind_abort (p := P.many0 nlExpression) this, he2]
        cases e <;> rfl
    · rw [he, Abort.bind] at hx
      rw [bind_abort hx, he]
      cases e <;> rfl

end Tomllib
