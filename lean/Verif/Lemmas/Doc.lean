import Verif.Lemmas.Gram
/-!
# What the document parser does
-/

namespace Tomllib
open P

/-! ## Table headers -/

theorem pushKs_nil (st : PState) : st.pushKs [] = st := by simp [PState.pushKs]
theorem pushKs_cons (st : PState) (k : Str) (ks : List Str) : (st.pushK k).pushKs ks = st.pushKs (k :: ks) := by
  simp [PState.pushKs, PState.pushK]

theorem tableSubkey_spec (st : PState) (i : Str) :
    (∃ k r, k.ws.wf ∧ KeyWf k.key ∧ i = k.text ++ r ∧ tableSubkey st i = .ok (st.pushK k.key, .done r k)) ∨
    tableSubkey st i = .ok (st, .err) ∨ tableSubkey st i = .ok (st, .inc) := by
  simp only [tableSubkey, bind_eq]
  obtain ⟨w1, m1, i1, h1, rfl, rfl, b1⟩ := LexT.ws st i
  rw [bind_done h1]
  rcases Lex.tag (lit% ".") st i1 with ⟨_, m2, i2, h2, rfl, rfl, rfl⟩ | h2 | h2
  · rw [bind_done h2]
    obtain ⟨w2, m3, i3, h3, rfl, rfl, b3⟩ := LexT.ws st i2
    rw [bind_done h3]
    rcases key_spec st i3 with ⟨k, r, wk, rfl, h4⟩ | h4
    · rw [bind_done h4]
      exact .inl ⟨⟨⟨w1, w2⟩, k⟩, r, ⟨b1, b3⟩, wk, by simp [WSKeySep.text], rfl⟩
    · rw [bind_err h4]; exact .inr (.inl rfl)
  · rw [bind_err h2]; exact .inr (.inl rfl)
  · rw [bind_inc h2]; exact .inr (.inr rfl)

/-- Well-formed further keys of a header. -/
def SubsWf (ks : List WSKeySep) : Prop := ∀ k ∈ ks, k.ws.wf ∧ KeyWf k.key

theorem tableSubkeys_spec : ∀ n acc (st : PState) (i : Str), i.length < n →
    ∃ ks r, SubsWf ks ∧ i = subkeysText ks ++ r ∧
      (P.many0Loop tableSubkey n acc st i = .ok (st.pushKs (ks.map (·.key)), .done r (acc ++ ks)) ∨
       P.many0Loop tableSubkey n acc st i = .ok (st.pushKs (ks.map (·.key)), .inc)) := by
  intro n
  induction n with
  | zero => intro _ _ _ h; omega
  | succ n ih =>
    intro acc st i hn
    unfold P.many0Loop
    split
    next hi => exact ⟨[], i, by simp [SubsWf], rfl, .inl (by simp [pushKs_nil])⟩
    next hi =>
      rcases tableSubkey_spec st i with ⟨k, r, h1, h2, h3, h4⟩ | h | h
      · rw [h4]
        dsimp only
        have hl : r.length < i.length := by
          rw [h3]; simp [WSKeySep.text]; omega
        rw [if_neg (by omega)]
        obtain ⟨ks, r', g1, g2, g3⟩ := ih (acc ++ [k]) (st.pushK k.key) r (by omega)
        refine ⟨k :: ks, r', ?_, by simp [subkeysText, h3, g2], ?_⟩
        · intro x hx
          rcases List.mem_cons.mp hx with rfl | hx
          · exact ⟨h1, h2⟩
          · exact g1 x hx
        · rcases g3 with g3 | g3
          · left; rw [g3, pushKs_cons]; simp
          · right; rw [g3, pushKs_cons]; simp
      · rw [h]; exact ⟨[], i, by simp [SubsWf], rfl, .inl (by simp [pushKs_nil])⟩
      · rw [h]; exact ⟨[], i, by simp [SubsWf], rfl, .inr (by simp [pushKs_nil])⟩

/-- The common part of the two header parsers. -/
def headerP (o c : Str) (act : Table → PState → Out (PState × TableType)) : P TableType := do
  let _ ← tag o
  let w1 ← ws
  let k ← key
  let subs ← tableSubkeys
  let w2 ← ws
  let _ ← tag c
  P.act (act ⟨⟨⟨w1, w2⟩, k⟩ :: subs⟩)

theorem stdTable_eq : stdTable = headerP (lit% "[") (lit% "]") stdTableAct := rfl
theorem arrayTable_eq : arrayTable = headerP (lit% "[[") (lit% "]]") arrayTableAct := rfl

/-- Results of a header parser. -/
inductive HRes (o c : Str) (act : Table → PState → Out (PState × TableType)) (st : PState) (i : Str) :
    Out (PState × IRes TableType) → Prop where
  | done (t : Table) (r : Str) (st' : PState) (tt : TableType) : t.keys ≠ [] → SubsWf t.keys → i = o ++ t.text ++ c ++ r →
      act t (st.pushKs (t.keys.map (·.key))) = .ok (st', tt) → HRes o c act st i (.ok (st', .done r tt))
  | clean (x : IRes TableType) : x = .err ∨ x = .inc → HRes o c act st i (.ok (st, x))
  | err (txt : Str) (ks : List Str) (r : Str) (x : IRes TableType) : x = .err ∨ x = .inc → (∀ k ∈ ks, KeyWf k) → ks ≠ [] →
      (∃ w k u, Blank w ∧ KeyWf k ∧ txt = o ++ w ++ k ++ u) →
      i = txt ++ r → HRes o c act st i (.ok (st.pushKs ks, x))
  | abort (t : Table) (r : Str) (e : Abort) : t.keys ≠ [] → SubsWf t.keys → i = o ++ t.text ++ c ++ r →
      act t (st.pushKs (t.keys.map (·.key))) = e.out → HRes o c act st i e.out

theorem header_spec (o c : Str) (act : Table → PState → Out (PState × TableType)) (st : PState) (i : Str) :
    HRes o c act st i (headerP o c act st i) := by
  simp only [headerP, bind_eq]
  rcases Lex.tag o st i with ⟨_, m1, i1, h1, rfl, rfl, rfl⟩ | h1 | h1
  · rw [bind_done h1]
    obtain ⟨w1, m2, i2, h2, rfl, rfl, b1⟩ := LexT.ws st i1
    rw [bind_done h2]
    rcases key_spec st i2 with ⟨k, i3, wk, rfl, h3⟩ | h3
    · rw [bind_done h3]
      obtain ⟨ks, i4, g1, rfl, g3⟩ := tableSubkeys_spec (i3.length + 1) [] (st.pushK k) i3 (by omega)
      have hks : ∀ x ∈ k :: ks.map (·.key), KeyWf x := by
        intro x hx
        simp at hx
        rcases hx with rfl | ⟨y, hy, rfl⟩
        · exact wk
        · exact (g1 y hy).2
      have errc : ∀ x : IRes TableType, x = .err ∨ x = .inc →
          HRes m1 c act st (m1 ++ (w1 ++ (k ++ (subkeysText ks ++ i4)))) (.ok (st.pushKs (k :: ks.map (·.key)), x)) := fun x hx =>
        .err (m1 ++ w1 ++ k ++ subkeysText ks) (k :: ks.map (·.key)) i4 x hx hks (by simp) ⟨w1, k, subkeysText ks, b1, wk, rfl⟩ (by simp)
      rcases g3 with g3 | g3
      · have : tableSubkeys (st.pushK k) (subkeysText ks ++ i4) = .ok (st.pushKs (k :: ks.map (·.key)), .done i4 ks) := by
          rw [pushKs_cons] at g3; simpa [tableSubkeys, P.many0] using g3
        rw [bind_done this]
        obtain ⟨w2, m5, i5, h5, rfl, rfl, b5⟩ := LexT.ws (st.pushKs (k :: ks.map (·.key))) i4
        rw [bind_done h5]
        rcases Lex.tag c (st.pushKs (k :: ks.map (·.key))) i5 with ⟨_, m6, i6, h6, rfl, rfl, rfl⟩ | h6 | h6
        · rw [bind_done h6]
          have hwf : SubsWf (⟨⟨w1, w2⟩, k⟩ :: ks) := by
            intro x hx
            rcases List.mem_cons.mp hx with rfl | hx
            · exact ⟨⟨b1, b5⟩, wk⟩
            · exact g1 x hx
          have e1 : (Table.mk (⟨⟨w1, w2⟩, k⟩ :: ks)).keys.map (·.key) = k :: ks.map (·.key) := by simp
          simp only [P.act]
          rcases Out.cases' (act ⟨⟨⟨w1, w2⟩, k⟩ :: ks⟩ (st.pushKs (k :: ks.map (·.key)))) with ⟨⟨s, tt⟩, h⟩ | ⟨e, h⟩
          · rw [h]
            exact .done _ i6 s tt (by simp) hwf (by simp [Table.text]) (by rw [e1, h])
          · rw [h]
            have := HRes.abort (o := m1) (c := m6) (act := act) (st := st)
              (i := m1 ++ (w1 ++ (k ++ (subkeysText ks ++ (w2 ++ (m6 ++ i6)))))) ⟨⟨⟨w1, w2⟩, k⟩ :: ks⟩ i6 e (by simp) hwf (by simp [Table.text]) (by rw [e1, h])
            cases e <;> exact this
        · rw [bind_err h6]; exact errc _ (.inl rfl)
        · rw [bind_inc h6]; exact errc _ (.inr rfl)
      · have : tableSubkeys (st.pushK k) (subkeysText ks ++ i4) = .ok (st.pushKs (k :: ks.map (·.key)), .inc) := by
          rw [pushKs_cons] at g3; simpa [tableSubkeys, P.many0] using g3
        rw [bind_inc this]; exact errc _ (.inr rfl)
    · rw [bind_err h3]; exact .clean _ (.inl rfl)
  · rw [bind_err h1]; exact .clean _ (.inl rfl)
  · rw [bind_inc h1]; exact .clean _ (.inr rfl)

/-- The value, if one was begun, begins with an opening bracket or brace. -/
def PX.opened : PX → Prop
  | .kv _ _ last => last.opened
  | .pair _ _ _ => False
  | .table _ => False
  | _ => True

/-- Results of the table parser after the blanks. -/
inductive TbRes (st : PState) (i : Str) : Out (PState × IRes TableType) → Prop where
  | done (t : TableType) (r : Str) (st' : PState) : t.wf → i = t.text ++ r → t.eff st = .ok st' → TbRes st i (.ok (st', .done r t))
  | clean : TbRes st i (.ok (st, .err))
  | err (px : PX) (r : Str) (st' : PState) : px.wf → i = px.text ++ r → px.eff st = .ok st' → (∃ j, i = '[' :: j) → px.opened → TbRes st i (.ok (st', .err))
  | abort (t : TableType) (r : Str) (e : Abort) : t.wf → i = t.text ++ r → t.eff st = e.out → TbRes st i e.out

theorem stdTableAct_res {t : Table} {st st' : PState} {tt : TableType} (h : stdTableAct t st = .ok (st', tt)) : tt = .std t := by
  simp only [stdTableAct, Out.bind_eq] at h
  split at h
  · simp at h
  · rw [Out.bind_ok] at h
    obtain ⟨⟨a, b, c⟩, _, h⟩ := h
    split at h
    · rw [Out.bind_ok] at h
      obtain ⟨_, _, h⟩ := h
      simp at h; exact h.2.symm
    · rw [Out.bind_ok] at h
      obtain ⟨_, _, h⟩ := h
      rw [Out.bind_ok] at h
      obtain ⟨_, _, h⟩ := h
      rw [Out.bind_ok] at h
      obtain ⟨_, _, h⟩ := h
      simp at h; exact h.2.symm

theorem arrayTableAct_res {t : Table} {st st' : PState} {tt : TableType} (h : arrayTableAct t st = .ok (st', tt)) : tt = .arr t := by
  simp only [arrayTableAct, Out.bind_eq] at h
  split at h
  · simp at h
  · rw [Out.bind_ok] at h
    obtain ⟨_, _, h⟩ := h
    rw [Out.bind_ok] at h
    obtain ⟨_, _, h⟩ := h
    split at h
    · simp at h; exact h.2.symm
    · simp at h; exact h.2.symm

theorem key_none {c : Char} {i : Str} {st : PState} (h : isKeychar c = false) (h' : c ≠ '"') : key st (c :: i) = .ok (st, .err) := by
  rcases key_spec st (c :: i) with ⟨k, r, wk, e, _⟩ | h1
  · obtain ⟨d, t, rfl, hd⟩ := KeyWf.cons wk
    simp at e
    rw [← e.1] at hd
    simp [h, h'] at hd
  · exact h1

theorem table_spec (st : PState) (i : Str) : TbRes st i (table st i) := by
  simp only [table]
  have ha := header_spec (lit% "[[") (lit% "]]") arrayTableAct st i
  rw [← arrayTable_eq] at ha
  -- the standard header parser on a text that begins with two brackets
  have hstd : ∀ s w u, Blank w → P.complete stdTable s (lit% "[[" ++ w ++ u) = .ok (s, .err) := by
    intro s w u hw
    apply complete_err
    rw [stdTable_eq]
    simp only [headerP, bind_eq]
    have : P.tag (lit% "[") s (lit% "[[" ++ w ++ u) = .ok (s, .done ('[' :: (w ++ u)) (lit% "[")) := by
      have := tag_append (lit% "[") (i := '[' :: (w ++ u)) (st := s)
      simpa using this
    rw [bind_done this, bind_done (ws_none (by decide) (by decide))]
    exact bind_err (key_none (by decide) (by decide))
  generalize ho : arrayTable st i = o at ha
  cases ha with
  | done t r st' tt h1 h2 h3 h4 =>
    have := arrayTableAct_res h4
    subst this
    rw [alt_done (complete_done ho)]
    exact .done (.arr t) r st' ⟨h1, h2⟩ (by simpa [TableType.text] using h3) (by simp [TableType.eff, h4])
  | abort t r e h1 h2 h3 h4 =>
    rw [alt_abort (complete_abort ho)]
    exact .abort (.arr t) r e ⟨h1, h2⟩ (by simpa [TableType.text] using h3) (by simp [TableType.eff, h4])
  | err txt ks r x hx h1 h2 h3 h4 =>
    obtain ⟨w, k, u, b, wk, rfl⟩ := h3
    have hc : P.complete arrayTable st i = .ok (st.pushKs ks, .err) := by
      rcases hx with rfl | rfl
      · exact complete_err ho
      · exact complete_inc ho
    rw [alt_err hc]
    have := hstd (st.pushKs ks) w (k ++ u ++ r) b
    have hi : i = lit% "[[" ++ w ++ (k ++ u ++ r) := by rw [h4]; simp
    rw [hi, this]
    exact .err (.header (lit% "[[" ++ w ++ k ++ u) ks) r _ h1 (by simp [PX.text]) rfl ⟨_, rfl⟩ trivial
  | clean x hx =>
    have hc : P.complete arrayTable st i = .ok (st, .err) := by
      rcases hx with rfl | rfl
      · exact complete_err ho
      · exact complete_inc ho
    rw [alt_err hc]
    have hs := header_spec (lit% "[") (lit% "]") stdTableAct st i
    rw [← stdTable_eq] at hs
    generalize hos : stdTable st i = o at hs
    cases hs with
    | done t r st' tt h1 h2 h3 h4 =>
      have := stdTableAct_res h4
      subst this
      rw [complete_done hos]
      exact .done (.std t) r st' ⟨h1, h2⟩ (by simpa [TableType.text] using h3) (by simp [TableType.eff, h4])
    | abort t r e h1 h2 h3 h4 =>
      rw [complete_abort hos]
      exact .abort (.std t) r e ⟨h1, h2⟩ (by simpa [TableType.text] using h3) (by simp [TableType.eff, h4])
    | clean x hx =>
      rcases hx with rfl | rfl
      · rw [complete_err hos]; exact .clean
      · rw [complete_inc hos]; exact .clean
    | err txt ks r x hx h1 h2 h3 h4 =>
      have : P.complete stdTable st i = .ok (st.pushKs ks, .err) := by
        rcases hx with rfl | rfl
        · exact complete_err hos
        · exact complete_inc hos
      rw [this]
      obtain ⟨w, k, u, b, wk, rfl⟩ := h3
      exact .err (.header _ ks) r _ h1 h4 rfl ⟨w ++ k ++ u ++ r, by rw [h4]; simp⟩ trivial

/-! ## Lines -/

/-- Does not begin a line break, and is not empty. -/
def Stops (r : Str) : Prop := ∃ c t, r = c :: t ∧ c ≠ '\n' ∧ c ≠ '\r'

/-- Results of a line. -/
inductive XRes (st : PState) (i : Str) : Out (PState × IRes Expression) → Prop where
  | done (et : ET) (px : PX) (r r' : Str) (st1 st2 : PState) : et.wf → i = et.text ++ r → et.eff st = .ok st1 →
      px.wf → r = px.text ++ r' → px.eff st1 = .ok st2 → (px = .nothing ∨ (Stops r ∧ ∃ w, et = .blank w)) → px.opened →
      XRes st i (.ok (st2, .done r (et.expr st.heap.length)))
  | abort (w : Str) (px : PX) (r : Str) (e : Abort) : Blank w → px.wf → i = w ++ px.text ++ r → px.eff st = e.out → XRes st i e.out

theorem wsExpr_eq (st : PState) (i : Str) {w r : Str} (h : ws st i = .ok (st, .done r w)) :
    P.complete wsExpr st i = .ok (st, .done r ((ET.blank w).expr 0)) := by
  apply complete_done
  simp only [wsExpr, bind_eq]
  rw [bind_done h]; rfl

theorem ws_indep {st st' : PState} {i r w : Str} (h : ws st i = .ok (st, .done r w)) : ws st' i = .ok (st', .done r w) := by
  simp only [ws, P.re] at h ⊢
  cases hf : Rx.ws.find i with
  | none => simp [hf] at h
  | some x => simp [hf] at h ⊢; exact h

/-- After blanks `w` and a failed table header and pair, the line is blank or a comment. -/
theorem wsLine_spec (st : PState) (i : Str) {w j : Str} (hw : ws st i = .ok (st, .done j w)) (hb : Blank w) (hi : i = w ++ j) (n : Nat) :
    ∃ (et : ET) (r : Str), et.wf ∧ i = et.text ++ r ∧ (∀ s, et.eff s = .ok s) ∧
      P.alt (P.complete wsComment) (P.complete wsExpr) st i = .ok (st, .done r (et.expr n)) ∧
      ((∀ t, j ≠ '#' :: t) → et = .blank w ∧ r = j) := by
  rcases Lex.comment st j with ⟨c, m, r, h1, h2, rfl, h3⟩ | h1 | h1
  · refine ⟨.comment w c, r, ⟨hb, by simpa [CommentWf] using h3⟩, by simp [ET.text, hi, h2], fun _ => rfl, ?_, ?_⟩
    · apply alt_done
      apply complete_done
      simp only [wsComment, bind_eq]
      rw [bind_done hw, bind_done h1]; rfl
    · intro hj
      exact absurd h2 (hj (c ++ r))
  all_goals
    refine ⟨.blank w, j, hb, by simp [ET.text, hi], fun _ => rfl, ?_, fun _ => ⟨rfl, rfl⟩⟩
    rw [alt_err (st' := st)]
    · exact wsExpr_eq st i hw
    · simp only [wsComment, bind_eq]
      first
        | exact complete_err (by rw [bind_done hw, bind_err h1])
        | exact complete_inc (by rw [bind_done hw, bind_inc h1])

theorem expression_spec (st : PState) (i : Str) : XRes st i (expression st i) := by
  simp only [expression]
  obtain ⟨w, _, j, hw, hi, rfl, hb⟩ := LexT.ws st i
  have ht := table_spec st j
  -- the tail of a line that was not a table header or pair
  have tail : ∀ (s : PState) (px : PX) (r : Str), px.wf → j = px.text ++ r → px.eff st = .ok s → (px = .nothing ∨ (Stops j ∧ ∀ t, j ≠ '#' :: t)) → px.opened →
      XRes st i (P.alt (P.complete wsComment) (P.complete wsExpr) s i) := by
    intro s px r h1 h2 h3 h4 h6
    obtain ⟨et, r', g1, g2, g3, g4, g5⟩ := wsLine_spec s i (ws_indep hw) hb hi st.heap.length
    rw [g4]
    rcases h4 with rfl | ⟨h4, h5⟩
    · simp [PX.eff] at h3; subst h3
      exact .done et .nothing r' r' st st g1 g2 (g3 st) trivial rfl rfl (.inl rfl) trivial
    · obtain ⟨rfl, rfl⟩ := g5 h5
      exact .done _ px r' r st s g1 g2 rfl h1 h2 h3 (.inr ⟨h4, w, rfl⟩) h6
  generalize hto : table st j = o at ht
  have htc : ∀ x, (P.bind table fun t => P.bind ws fun w2 => P.bind (P.opt (P.complete comment)) fun c =>
      P.pure (⟨⟨w, w2⟩, none, some t, c⟩ : Expression)) st j = x → tableComment st i = x := by
    intro x hx
    simp only [tableComment, bind_eq]
    rw [bind_done hw]; exact hx
  cases ht with
  | done t r st' h1 h2 h3 =>
    obtain ⟨w2, _, r1, g1, g2, rfl, b2⟩ := LexT.ws st' r
    obtain ⟨c, _, r2, f1, f2, rfl, f3⟩ := LexT.optComment st' r1
    have := htc (.ok (st', .done r2 ⟨⟨w, w2⟩, none, some t, c⟩)) (by
      rw [bind_done hto, bind_done g1, bind_done f1]; rfl)
    rw [alt_done (complete_done this)]
    exact .done (.table w t w2 c) .nothing r2 r2 st' st' ⟨hb, h1, b2, f3⟩ (by simp [ET.text, hi, h2, g2, f2]) h3 trivial rfl rfl (.inl rfl) trivial
  | abort t r e h1 h2 h3 =>
    have := htc e.out (bind_abort hto)
    rw [alt_abort (complete_abort this)]
    exact .abort w (.table t) r e hb h1 (by simp [PX.text, hi, h2]) h3
  | err px r st' h1 h2 h3 h4 h5 =>
    have := htc (.ok (st', .err)) (bind_err hto)
    rw [alt_err (complete_err this)]
    obtain ⟨j', rfl⟩ := h4
    have hk : keyvalComment st' i = .ok (st', .err) := by
      simp only [keyvalComment, bind_eq]
      rw [bind_done (ws_indep hw)]
      apply bind_err
      simp only [keyval, bind_eq]
      exact bind_err (key_none (by decide) (by decide))
    rw [alt_err (complete_err hk)]
    exact tail st' px r h1 h2 h3 (.inr ⟨⟨_, _, rfl, by decide, by decide⟩, by simp⟩) h5
  | clean =>
    have := htc (.ok (st, .err)) (bind_err hto)
    rw [alt_err (complete_err this)]
    have hkv := keyval_spec val j.length (fun st i _ => val_spec st i) st j (by omega)
    generalize hko : keyval val st j = o at hkv
    have hkc : ∀ x, (P.bind (keyval val) fun t => P.bind ws fun w2 => P.bind (P.opt (P.complete comment)) fun c =>
        P.pure (⟨⟨w, w2⟩, some t, none, c⟩ : Expression)) st j = x → keyvalComment st i = x := by
      intro x hx
      simp only [keyvalComment, bind_eq]
      rw [bind_done hw]; exact hx
    have dirty : ∀ pt : PT, ∀ r s, pt.wf → j = pt.text ++ r → pt.eff st = .ok s → pt.opened →
        XRes st i (P.alt (P.complete wsComment) (P.complete wsExpr) s i) := by
      intro pt r s h1 h2 h3 h4
      by_cases hn : pt = .nothing
      · subst hn
        simp [PT.eff] at h3; subst h3
        exact tail st .nothing j trivial rfl rfl (.inl rfl) trivial
      · obtain ⟨c, t, e1, e2⟩ := PT.text_cons h1 hn
        have hne := keystart_ne e2
        have hst : Stops j ∧ ∀ t, j ≠ '#' :: t := by
          rw [h2, e1]
          exact ⟨⟨c, t ++ r, rfl, hne.2.2.2.2.2.1, hne.2.2.2.2.2.2⟩, fun t' e => by simp at e; exact hne.2.2.1 e.1⟩
        cases pt with
        | nothing => exact absurd rfl hn
        | key k => exact tail s (.key k) r h1 h2 h3 (.inr hst) trivial
        | kv k sep l => exact tail s (.kv k sep l) r h1 h2 h3 (.inr hst) h4
    cases hkv with
    | done k sep v r s1 s2 h1 h2 h3 h4 h5 h6 =>
      obtain ⟨w2, _, r1, g1, g2, rfl, b2⟩ := LexT.ws s2 r
      obtain ⟨c, _, r2, f1, f2, rfl, f3⟩ := LexT.optComment s2 r1
      have := hkc (.ok (s2, .done r2 ⟨⟨w, w2⟩, some ⟨k, sep, v.addr st.heap.length⟩, none, c⟩)) (by
        rw [bind_done hko, bind_done g1, bind_done f1]; rfl)
      rw [alt_done (complete_done this)]
      exact .done (.kv w k sep v w2 c) .nothing r2 r2 s2 s2 ⟨hb, h1, h2, h3, b2, f3⟩ (by simp [ET.text, hi, h4, g2, f2])
        (by simp [ET.eff, h5, h6]) trivial rfl rfl (.inl rfl) trivial
    | err pt r s h1 h2 h3 h4 =>
      have := hkc (.ok (s, .err)) (bind_err hko)
      rw [alt_err (complete_err this)]
      exact dirty pt r s h1 h2 h3 h4
    | inc pt r s h1 h2 h3 h4 h5 =>
      have := hkc (.ok (s, .inc)) (bind_inc hko)
      rw [alt_err (complete_inc this)]
      exact dirty pt r s h1 h2 h3 h5
    | abort pt r e h1 h2 h3 =>
      have := hkc e.out (bind_abort hko)
      rw [alt_abort (complete_abort this)]
      cases pt with
      | nothing => simp [PT.eff] at h3; cases e <;> simp [Abort.out] at h3
      | key k => simp [PT.eff] at h3; cases e <;> simp [Abort.out] at h3
      | kv k sep l => exact .abort w (.kv k sep l) r e hb h1 (by simp [PX.text, PT.text, hi, h2]) h3
    | abortAct k sep v r s1 e h1 h2 h3 h4 h5 h6 =>
      have := hkc e.out (bind_abort hko)
      rw [alt_abort (complete_abort this)]
      exact .abort w (.pair k sep v) r e hb ⟨h1, h2, h3⟩ (by simp [PX.text, hi, h4]) (by simp [PX.eff, h5, h6])

/-! ## Documents -/

theorem newline_spec (st : PState) (i : Str) :
    (∃ nl r, (nl = lit% "\n" ∨ nl = lit% "\r\n") ∧ i = nl ++ r ∧ newline st i = .ok (st.lines 1, .done r nl)) ∨
    newline st i = .ok (st, .err) := by
  simp only [newline, bind_eq]
  rcases (Lex.tag (lit% "\r\n")).complete st i with ⟨_, m, r, h1, h2, rfl, rfl⟩ | h1
  · left
    exact ⟨_, r, .inr rfl, h2, alt_done (by rw [bind_done h1]; rfl)⟩
  · rw [alt_err (bind_err h1)]
    rcases (Lex.tag (lit% "\n")).complete st i with ⟨_, m, r, h1, h2, rfl, rfl⟩ | h1
    · left
      exact ⟨_, r, .inl rfl, h2, by rw [bind_done h1]; rfl⟩
    · right; exact bind_err h1

theorem newline_stops {st : PState} {i : Str} (h : Stops i) : newline st i = .ok (st, .err) := by
  obtain ⟨c, t, rfl, h1, h2⟩ := h
  rcases newline_spec st (c :: t) with ⟨nl, r, hn, e, _⟩ | h
  · rcases hn with rfl | rfl
    · simp at e; exact absurd e.1 h1
    · simp at e; exact absurd e.1 h2
  · exact h

/-- Results of reading further lines (`nl` is the line break before the line on which reading went wrong). -/
inductive LRes (st : PState) (i : Str) (acc : List NLExpression) : Out (PState × IRes (List NLExpression)) → Prop where
  | done (ls : List (Str × ET)) (px : PX) (nodes : List NLExpression) (r r' : Str) (st1 st2 : PState) : LinesWf ls → i = linesText ls ++ r →
      linesEff ls st = .ok (st1, nodes) → px.wf → r = px.text ++ r' → px.eff st1 = .ok st2 → (px = .nothing ∨ (Stops r ∧ ls ≠ [])) → px.opened →
      LRes st i acc (.ok (st2, .done r (acc ++ nodes)))
  | abort (ls : List (Str × ET)) (nl w : Str) (px : PX) (nodes : List NLExpression) (r : Str) (st1 : PState) (e : Abort) : LinesWf ls →
      (nl = lit% "\n" ∨ nl = lit% "\r\n") → Blank w → px.wf → i = linesText ls ++ nl ++ w ++ px.text ++ r →
      linesEff ls st = .ok (st1, nodes) → px.eff (st1.lines 1) = e.out → LRes st i acc e.out

theorem nlExpression_err {st : PState} {i : Str} (h : newline st i = .ok (st, .err)) : nlExpression st i = .ok (st, .err) := by
  simp only [nlExpression, bind_eq]; exact bind_err h

theorem lines_spec : ∀ n acc (st : PState) (i : Str), i.length < n → LRes st i acc (P.many0Loop nlExpression n acc st i) := by
  intro n
  induction n with
  | zero => intro _ _ _ h; omega
  | succ n ih =>
    intro acc st i hn
    have stop : LRes st i acc (.ok (st, .done i acc)) := by
      have := LRes.done (st := st) (i := i) (acc := acc) [] .nothing [] i i st st (by simp [LinesWf]) rfl rfl trivial rfl rfl (.inl rfl) trivial
      simpa using this
    unfold P.many0Loop
    split
    next hi => exact stop
    next hi =>
      rcases newline_spec st i with ⟨nl, j, hnl, rfl, h1⟩ | h1
      · have hx := expression_spec (st.lines 1) j
        generalize hxo : expression (st.lines 1) j = o at hx
        have hnlc : nlCount nl = 1 := by rcases hnl with rfl | rfl <;> rfl
        cases hx with
        | abort w px r e g1 g2 g3 g4 =>
          have : nlExpression st (nl ++ j) = e.out := by
            simp only [nlExpression, bind_eq]
            rw [bind_done h1]; exact bind_abort hxo
          rw [this]
          have := LRes.abort (st := st) (i := nl ++ j) (acc := acc) [] nl w px [] r st e (by simp [LinesWf]) hnl g1 g2
            (by simp [linesText, g3]) rfl g4
          cases e <;> exact this
        | done et px r r' s1 s2 g1 g2 g3 g4 g5 g6 g7 g8 =>
          have he : nlExpression st (nl ++ j) = .ok (s2, .done r ⟨nl, et.expr st.heap.length⟩) := by
            simp only [nlExpression, bind_eq]
            rw [bind_done h1, bind_done hxo]; rfl
          rw [he]
          dsimp only
          have hl : r.length < (nl ++ j).length := by
            have : 0 < nl.length := by rcases hnl with rfl | rfl <;> simp
            rw [g2]; simp; omega
          rw [if_neg (by omega)]
          rcases g7 with rfl | ⟨g7, w, rfl⟩
          · simp [PX.eff] at g6; subst g6
            have hr := ih (acc ++ [⟨nl, et.expr st.heap.length⟩]) s1 r (by omega)
            generalize P.many0Loop nlExpression n (acc ++ [⟨nl, et.expr st.heap.length⟩]) s1 r = o at hr
            have hwf : ∀ ls, LinesWf ls → LinesWf ((nl, et) :: ls) := by
              intro ls h l hl
              rcases List.mem_cons.mp hl with rfl | hl
              · exact ⟨hnl, g1⟩
              · exact h l hl
            cases hr with
            | done ls px nodes r2 r3 t1 t2 f1 f2 f3 f4 f5 f6 f7 f8 =>
              have := LRes.done (st := st) (i := nl ++ j) (acc := acc) ((nl, et) :: ls) px (⟨nl, et.expr st.heap.length⟩ :: nodes) r2 r3 t1 t2
                (hwf ls f1) (by simp [linesText, g2, f2]) (by simp [linesEff, hnlc, g3, f3]) f4 f5 f6 (f7.imp_right fun h => ⟨h.1, by simp⟩) f8
              simpa using this
            | abort ls nl2 w px nodes r2 t1 e f1 f2 f3 f4 f5 f6 f7 =>
              exact .abort ((nl, et) :: ls) nl2 w px (⟨nl, et.expr st.heap.length⟩ :: nodes) r2 t1 e (hwf ls f1) f2 f3 f4
                (by simp [linesText, g2, f5]) (by simp [linesEff, hnlc, g3, f6]) f7
          · simp [ET.eff] at g3; subst g3
            have : P.many0Loop nlExpression n (acc ++ [⟨nl, (ET.blank w).expr st.heap.length⟩]) s2 r =
                .ok (s2, .done r (acc ++ [⟨nl, (ET.blank w).expr st.heap.length⟩])) := by
              cases n with
              | zero => simp at hn; have := hn; simp_all
              | succ n =>
                unfold P.many0Loop
                obtain ⟨c, t, e1, _, _⟩ := g7
                rw [if_neg (by rw [e1]; simp), nlExpression_err (newline_stops ⟨c, t, e1, by assumption, by assumption⟩)]
            rw [this]
            exact .done [(nl, .blank w)] px [⟨nl, (ET.blank w).expr st.heap.length⟩] r r' (st.lines 1) s2
              (by intro l hl; simp at hl; subst hl; exact ⟨hnl, g1⟩) (by simp [linesText, g2]) (by simp [linesEff, ET.eff, hnlc]) g4 g5 g6 (.inr ⟨g7, by simp⟩) g8
      · rw [nlExpression_err h1]
        exact stop

/-- Results of the document parser. -/
inductive DRes (st : PState) (i : Str) : Out (PState × IRes Toml) → Prop where
  | done (ls : List (Str × ET)) (px : PX) (nodes : List NLExpression) (r r' : Str) (st1 st2 : PState) : DocWf ls → i = linesText ls ++ r →
      linesEff ls st = .ok (st1, nodes) → px.wf → r = px.text ++ r' → px.eff st1 = .ok st2 → (px = .nothing ∨ Stops r) → px.opened →
      DRes st i (.ok (st2, .done r ⟨nodes⟩))
  | abort (ls : List (Str × ET)) (nl w : Str) (px : PX) (nodes : List NLExpression) (r : Str) (st1 : PState) (e : Abort) : (ls = [] ∨ DocWf ls) →
      (nl = [] ∧ ls = [] ∨ nl = lit% "\n" ∨ nl = lit% "\r\n") → Blank w → px.wf → i = linesText ls ++ nl ++ w ++ px.text ++ r →
      linesEff ls st = .ok (st1, nodes) → px.eff (st1.lines (nlCount nl)) = e.out → DRes st i e.out

theorem lines_zero (st : PState) : st.lines 0 = st := rfl

theorem toml_spec (st : PState) (i : Str) : DRes st i (toml st i) := by
  simp only [toml, bind_eq]
  have hx := expression_spec st i
  generalize hxo : expression st i = o at hx
  cases hx with
  | abort w px r e g1 g2 g3 g4 =>
    rw [bind_abort hxo]
    exact .abort [] [] w px [] r st e (.inl rfl) (.inl ⟨rfl, rfl⟩) g1 g2 (by simp [linesText, g3]) rfl (by simpa [nlCount, lines_zero] using g4)
  | done et px r r' s1 s2 g1 g2 g3 g4 g5 g6 g7 g8 =>
    rw [bind_done hxo]
    rcases g7 with rfl | ⟨g7, w, rfl⟩
    · simp [PX.eff] at g6; subst g6
      have hr := lines_spec (r.length + 1) [] s1 r (by omega)
      generalize hro : P.many0Loop nlExpression (r.length + 1) [] s1 r = o at hr
      cases hr with
      | done ls px nodes r2 r3 t1 t2 f1 f2 f3 f4 f5 f6 f7 f8 =>
        have : P.many0 nlExpression s1 r = .ok (t2, .done r2 nodes) := by simpa [P.many0] using hro
        rw [bind_done this]
        exact .done (([], et) :: ls) px (⟨[], et.expr st.heap.length⟩ :: nodes) r2 r3 t1 t2 ⟨rfl, g1, f1⟩
          (by simp [linesText, g2, f2]) (by simp [linesEff, nlCount, lines_zero, g3, f3]) f4 f5 f6 (f7.imp_right And.left) f8
      | abort ls nl w px nodes r2 t1 e f1 f2 f3 f4 f5 f6 f7 =>
        have : P.many0 nlExpression s1 r = e.out := by simpa [P.many0] using hro
        rw [bind_abort this]
        exact .abort (([], et) :: ls) nl w px (⟨[], et.expr st.heap.length⟩ :: nodes) r2 t1 e (.inr ⟨rfl, g1, f1⟩) (.inr f2) f3 f4
          (by simp [linesText, g2, f5]) (by simp [linesEff, nlCount, lines_zero, g3, f6])
          (by have : nlCount nl = 1 := by rcases f2 with rfl | rfl <;> rfl
              rw [this]; exact f7)
    · simp [ET.eff] at g3; subst g3
      have : P.many0 nlExpression s2 r = .ok (s2, .done r []) := by
        unfold P.many0 P.many0Loop
        obtain ⟨c, t, e1, a1, a2⟩ := g7
        rw [if_neg (by rw [e1]; simp), nlExpression_err (newline_stops ⟨c, t, e1, a1, a2⟩)]
      rw [bind_done this]
      exact .done [([], .blank w)] px [⟨[], (ET.blank w).expr st.heap.length⟩] r r' st s2 ⟨rfl, g1, by simp [LinesWf]⟩
        (by simp [linesText, g2]) (by simp [linesEff, ET.eff, nlCount, lines_zero]) g4 g5 g6 (.inr g7) g8

end Tomllib
