import Verif.Lemmas.First
/-!
# What the value parsers do

Every run of a value parser is described by a syntax tree: the text consumed is the tree's text and the new state is the tree's effect.
-/

namespace Tomllib
open P

/-- An abnormal end. -/
inductive Abort where
  | panic (x : Panic)
  | fuel

/-- As an outcome. -/
def Abort.out {α : Type} : Abort → Out α
  | .panic x => .panic x
  | .fuel => .fuel

theorem Out.cases' {α : Type} (o : Out α) : (∃ a, o = .ok a) ∨ ∃ e : Abort, o = e.out := by
  cases o with
  | ok a => exact .inl ⟨a, rfl⟩
  | panic x => exact .inr ⟨.panic x, rfl⟩
  | fuel => exact .inr ⟨.fuel, rfl⟩

@[simp] theorem Abort.bind {α β : Type} (e : Abort) (f : α → Out β) : (e.out : Out α).bind f = e.out := by
  cases e <;> rfl
@[simp] theorem Out.ok_bind {α β : Type} (a : α) (f : α → Out β) : (Out.ok a).bind f = f a := rfl
theorem Abort.out_inj {α β : Type} {e : Abort} {f : Abort} (h : (e.out : Out α) = f.out) : (e.out : Out β) = f.out := by
  cases e <;> cases f <;> simp_all [Abort.out]
@[simp] theorem Abort.ne_ok {α : Type} {e : Abort} {a : α} : (e.out : Out α) ≠ .ok a := by cases e <;> simp [Abort.out]
theorem bind_abort {α β : Type} {p : P α} {f : α → P β} {st i} {e : Abort} (h : p st i = e.out) : P.bind p f st i = e.out := by
  cases e <;> simp [P.bind, h, Abort.out]
theorem complete_abort {α : Type} {p : P α} {st i} {e : Abort} (h : p st i = e.out) : P.complete p st i = e.out := by
  cases e <;> simp [P.complete, h, Abort.out]
theorem opt_abort {α : Type} {p : P α} {st i} {e : Abort} (h : p st i = e.out) : P.opt p st i = e.out := by
  cases e <;> simp [P.opt, h, Abort.out]
theorem alt_abort {α : Type} {p q : P α} {st i} {e : Abort} (h : p st i = e.out) : P.alt p q st i = e.out := by
  cases e <;> simp [P.alt, h, Abort.out]

/-! ## Scalars -/

/-- A scalar parser: reads a scalar, or fails without a trace. -/
def ScSpec (p : P TVal) : Prop := ∀ st i,
  (∃ s r, Scalar.wf s ∧ i = s.text ++ r ∧ p st i = (s.eff st).bind fun st' => .ok (st', .done r s.cell)) ∨ p st i = .ok (st, .err)

theorem ScSpec.alt {p q : P TVal} (hp : ScSpec p) (hq : ScSpec q) : ScSpec (P.alt p q) := fun st i => by
  rcases hp st i with ⟨s, r, h1, h2, h3⟩ | h
  · left
    refine ⟨s, r, h1, h2, ?_⟩
    rcases Out.cases' (s.eff st) with ⟨st', he⟩ | ⟨e, he⟩
    · rw [he] at h3 ⊢
      exact alt_done h3
    · rw [he] at h3 ⊢
      rw [Abort.bind] at h3 ⊢
      exact alt_abort h3
  · rw [alt_err h]; exact hq st i

theorem ScSpec.of_lexC {α : Type} {p : P α} {R : α → Str → Prop} (h : LexC p R) (f : α → Scalar)
    (hf : ∀ a m, R a m → m = (f a).text ∧ (f a).wf) (he : ∀ a st, (f a).eff st = .ok st) :
    ScSpec (P.mapP (fun a => (f a).cell) p) := fun st i => by
  rcases h st i with ⟨a, m, r, h1, h2, h3⟩ | h
  · obtain ⟨rfl, h4⟩ := hf a m h3
    exact .inl ⟨f a, r, h4, h2, by simp [P.mapP, bind_done h1, P.pure, he]⟩
  · exact .inr (by simp [P.mapP, bind_err h])

theorem lang_quoted {q : Str} {r : Re} {s : Str} (h : Lang (Re.seqs [Re.lit q, r, Re.lit q]) s) : ∃ m, s = q ++ m ++ q := by
  obtain ⟨u, v, rfl, h1, h2⟩ := lang_seq h
  obtain ⟨w, x, rfl, h3, h4⟩ := lang_seq h2
  rw [lang_lit h1, lang_lit h4]
  exact ⟨w, by simp⟩

theorem unquote_quote (q m : Str) : unquote q.length (q ++ m ++ q) = m := by
  simp only [unquote, List.append_assoc, List.length_append, List.drop_left]
  have : q.length + (m.length + q.length) - 2 * q.length = m.length := by omega
  rw [this]; simp

theorem ScSpec.mlBasic : ScSpec (P.mapP (TVal.str · .mlBasic) (P.complete mlBasicString)) := fun st i => by
  rcases LexC.re Rx.rawMlBasic st i with ⟨a, m, r, h1, h2, rfl, h3⟩ | h
  · obtain ⟨x, rfl⟩ := lang_quoted (q := lit% "\"\"\"") h3
    left
    refine ⟨.str x .mlBasic, r, lang_raw_iff (t := .mlBasic).mp h3, h2, ?_⟩
    simp [P.mapP, P.complete, P.bind, mlBasicString, bind_eq, h1, addLines, P.act, Scalar.eff, StrType.quoted, PState.lines, P.pure, pure_eq,
      Scalar.cell, unquote]
  · right
    simp [P.mapP, P.complete, P.bind, mlBasicString, bind_eq, h]

theorem ScSpec.mlLiteral : ScSpec (P.mapP (TVal.str · .mlLiteral) (P.complete mlLiteralString)) := fun st i => by
  rcases LexC.re Rx.rawMlLiteral st i with ⟨a, m, r, h1, h2, rfl, h3⟩ | h
  · obtain ⟨x, rfl⟩ := lang_quoted (q := lit% "'''") h3
    left
    refine ⟨.str x .mlLiteral, r, lang_raw_iff (t := .mlLiteral).mp h3, h2, ?_⟩
    simp [P.mapP, P.complete, P.bind, mlLiteralString, bind_eq, h1, addLines, P.act, Scalar.eff, StrType.quoted, PState.lines, P.pure, pure_eq,
      Scalar.cell, unquote]
  · right
    simp [P.mapP, P.complete, P.bind, mlLiteralString, bind_eq, h]

theorem ScSpec.basic : ScSpec (P.mapP (TVal.str · .basic) (P.complete basicString)) := fun st i => by
  rcases LexC.re Rx.rawBasic st i with ⟨a, m, r, h1, h2, rfl, h3⟩ | h
  · obtain ⟨x, rfl⟩ := lang_quoted (q := lit% "\"") h3
    left
    refine ⟨.str x .basic, r, lang_raw_iff (t := .basic).mp h3, h2, ?_⟩
    simp [P.mapP, P.complete, P.bind, basicString, bind_eq, h1, Scalar.eff, P.pure, pure_eq, Scalar.cell, unquote]
  · right
    simp [P.mapP, P.complete, P.bind, basicString, bind_eq, h]

theorem ScSpec.literal : ScSpec (P.mapP (TVal.str · .literal) (P.complete literalString)) := fun st i => by
  rcases LexC.re Rx.rawLiteral st i with ⟨a, m, r, h1, h2, rfl, h3⟩ | h
  · obtain ⟨x, rfl⟩ := lang_quoted (q := lit% "'") h3
    left
    refine ⟨.str x .literal, r, lang_raw_iff (t := .literal).mp h3, h2, ?_⟩
    simp [P.mapP, P.complete, P.bind, literalString, bind_eq, h1, Scalar.eff, P.pure, pure_eq, Scalar.cell, unquote]
  · right
    simp [P.mapP, P.complete, P.bind, literalString, bind_eq, h]

theorem ScSpec.string : ScSpec string := ScSpec.mlLiteral.alt (ScSpec.mlBasic.alt (ScSpec.basic.alt ScSpec.literal))

theorem ScSpec.dateTime : ScSpec (P.mapP TVal.dt (P.complete dateTime)) := fun st i => by
  rcases Lex.dateTimeInternal st i with ⟨d, m, r, h1, h2, rfl, h3⟩ | h | h
  · left
    refine ⟨.dt d, r, h3, h2, ?_⟩
    simp only [P.mapP, P.bind, P.complete, Tomllib.dateTime, h1, Scalar.eff, Scalar.cell]
    by_cases hv : d.validate
    · simp [hv, P.pure]
    · have ht : i.take (i.length - r.length) = d.text := by rw [h2]; simp
      simp only [hv, ht]
      cases hk : getFullKey st.map st.heap st.lastArrayTables st.lastArrayTablesIndex st.keychain <;> simp [P.pure, Out.bind]
  · right; simp [P.mapP, P.bind, P.complete, Tomllib.dateTime, h]
  · right; simp [P.mapP, P.bind, P.complete, Tomllib.dateTime, h]

theorem ScSpec.float : ScSpec (P.mapP TVal.float (P.complete float)) :=
  ScSpec.of_lexC (Lex.complete LexC.float.l) Scalar.float (by rintro a m ⟨rfl, h⟩; exact ⟨rfl, h⟩) (fun _ _ => rfl)
theorem ScSpec.integer : ScSpec (P.mapP TVal.int (P.complete integer)) :=
  ScSpec.of_lexC (Lex.complete LexC.integer.l) Scalar.int (by rintro a m ⟨rfl, h⟩; exact ⟨rfl, h⟩) (fun _ _ => rfl)
theorem ScSpec.boolean : ScSpec (P.mapP TVal.bool (P.complete boolean)) :=
  ScSpec.of_lexC (Lex.complete LexC.boolean.l) Scalar.bool (by rintro a m rfl; exact ⟨rfl, trivial⟩) (fun _ _ => rfl)

theorem ScSpec.complete {p : P TVal} (h : ScSpec p) : ScSpec (P.complete p) := fun st i => by
  rcases h st i with ⟨s, r, h1, h2, h3⟩ | h
  · left
    refine ⟨s, r, h1, h2, ?_⟩
    rcases Out.cases' (s.eff st) with ⟨st', he⟩ | ⟨e, he⟩
    · rw [he] at h3 ⊢
      exact complete_done h3
    · rw [he, Abort.bind] at h3 ⊢
      exact complete_abort h3
  · exact .inr (complete_err h)

/-! ## Scalars stored in a cell -/

/-- The scalar alternatives of `val`. -/
def scalarVal : P Addr :=
  alt (P.bind (complete dateTime) fun d => alloc (.dt d)) <|
  alt (P.bind (complete float) fun s => alloc (.float s)) <|
  alt (P.bind (complete integer) fun s => alloc (.int s)) <|
  alt (P.bind (complete boolean) fun b => alloc (.bool b)) <|
  P.bind (complete string) alloc

theorem valStep_eq (pval : P Addr) : valStep pval =
    alt (P.bind (complete (array pval)) alloc) (alt (P.bind (complete (inlineTable pval)) alloc) scalarVal) := rfl

/-- A parser of scalars that allocates. -/
def ScASpec (p : P Addr) : Prop := ∀ st i,
  (∃ s r, Scalar.wf s ∧ i = s.text ++ r ∧
    p st i = ((VT.leaf s).eff st).bind fun st' => .ok (st', .done r ((VT.leaf s).addr st.heap.length))) ∨ p st i = .ok (st, .err)

theorem ScASpec.alt {p q : P Addr} (hp : ScASpec p) (hq : ScASpec q) : ScASpec (P.alt p q) := fun st i => by
  rcases hp st i with ⟨s, r, h1, h2, h3⟩ | h
  · left
    refine ⟨s, r, h1, h2, ?_⟩
    rcases Out.cases' ((VT.leaf s).eff st) with ⟨st', he⟩ | ⟨e, he⟩
    · rw [he] at h3 ⊢
      exact alt_done h3
    · rw [he] at h3 ⊢
      rw [Abort.bind] at h3 ⊢
      exact alt_abort h3
  · rw [alt_err h]; exact hq st i

theorem ScASpec.of {p : P TVal} (h : ScSpec p) : ScASpec (P.bind p alloc) := fun st i => by
  rcases h st i with ⟨s, r, h1, h2, h3⟩ | h
  · left
    refine ⟨s, r, h1, h2, ?_⟩
    rcases Out.cases' (s.eff st) with ⟨st', he⟩ | ⟨e, he⟩
    · rw [he] at h3
      simp only [Out.ok_bind] at h3
      rw [bind_done h3]
      have := Scalar.eff_heap he
      simp [VT.eff, he, alloc, P.act, PState.cell, VT.addr, VT.size, this]
    · rw [he, Abort.bind] at h3
      rw [bind_abort h3, VT.eff, he]
      simp
  · exact .inr (bind_err h)

theorem bind_mapP {α β γ : Type} (p : P α) (f : α → β) (g : β → P γ) : P.bind (P.mapP f p) g = P.bind p fun a => g (f a) := by
  funext st i
  simp only [P.mapP, P.bind]
  cases p st i with
  | ok x => obtain ⟨st', _ | _ | _⟩ := x <;> rfl
  | panic x => rfl
  | fuel => rfl

theorem ScASpec.scalarVal : ScASpec scalarVal := by
  refine ScASpec.alt ?_ (ScASpec.alt ?_ (ScASpec.alt ?_ (ScASpec.alt ?_ (ScASpec.of ScSpec.string.complete))))
  · rw [← bind_mapP (complete dateTime) TVal.dt]; exact ScASpec.of ScSpec.dateTime
  · rw [← bind_mapP (complete float) TVal.float]; exact ScASpec.of ScSpec.float
  · rw [← bind_mapP (complete integer) TVal.int]; exact ScASpec.of ScSpec.integer
  · rw [← bind_mapP (complete boolean) TVal.bool]; exact ScASpec.of ScSpec.boolean

/-! ## First characters of scalars -/

theorem shape_text {d : DateTime} (h : d.shape) : ∃ c s, d.text = c :: s ∧ 48 ≤ c.toNat ∧ c.toNat ≤ 57 := by
  obtain ⟨⟨h1, h2⟩, _⟩ := h.1
  cases hy : d.date.year with
  | nil => simp [hy] at h1
  | cons c t =>
    refine ⟨c, ?_⟩
    have := h2 c (by simp [hy])
    simp only [DateTime.text, Date.text, hy]
    split <;> simp [this]

theorem Scalar.text_cons {s : Scalar} (h : s.wf) : ∃ c t, s.text = c :: t ∧ c ≠ '[' ∧ c ≠ '{' ∧ c ≠ ']' ∧ c ≠ '}' ∧ c ≠ '#' := by
  have hre : ∀ {r : Re} {x : Str}, Lang r x → r.nullable = false → r.starts '[' = false → r.starts '{' = false →
      r.starts ']' = false → r.starts '}' = false → r.starts '#' = false →
      ∃ c t, x = c :: t ∧ c ≠ '[' ∧ c ≠ '{' ∧ c ≠ ']' ∧ c ≠ '}' ∧ c ≠ '#' := by
    intro r x h hn h1 h2 h3 h4 h5
    cases x with
    | nil => have := h.nullable rfl; simp [hn] at this
    | cons c t =>
      have := h.starts c t rfl
      refine ⟨c, t, rfl, ?_, ?_, ?_, ?_, ?_⟩ <;> (rintro rfl; simp_all)
  cases s with
  | int s => exact hre (r := Rx.integer) ((lang_integer _).mpr h) (by decide) (by decide) (by decide) (by decide) (by decide) (by decide)
  | float s => exact hre (r := Rx.float) ((lang_float_iff _).mpr h) (by decide) (by decide) (by decide) (by decide) (by decide) (by decide)
  | bool b => cases b <;> exact ⟨_, _, rfl, by decide, by decide, by decide, by decide, by decide⟩
  | dt d =>
    obtain ⟨c, t, h1, h2, h3⟩ := shape_text h
    refine ⟨c, t, h1, ?_, ?_, ?_, ?_, ?_⟩ <;> (rintro rfl; simp at h2 h3)
  | str s t => cases t <;> exact ⟨_, _, rfl, by decide, by decide, by decide, by decide, by decide⟩

theorem VT.text_cons {t : VT} (h : t.wf) : ∃ c s, t.text = c :: s := by
  cases t with
  | leaf s => obtain ⟨c, t, h1, _⟩ := Scalar.text_cons (s := s) h; exact ⟨c, t, h1⟩
  | arr es c1 c2 => exact ⟨_, _, by rw [VT.text]; rfl⟩
  | itab kvs ws => exact ⟨_, _, by rw [VT.text]; rfl⟩

theorem KeyWf.cons {k : Str} (h : KeyWf k) : ∃ c t, k = c :: t ∧ (isKeychar c = true ∨ c = '"') := by
  rcases h with ⟨h1, h2⟩ | h
  · cases k with
    | nil => simp at h1
    | cons c t => exact ⟨c, t, rfl, .inl ((isKeychar_eq c).trans (h2 c (by simp)))⟩
  · obtain ⟨s, _, _, rfl⟩ := h
    exact ⟨_, _, rfl, .inr rfl⟩

/-! ## Keys -/

theorem key_spec (st : PState) (i : Str) :
    (∃ k r, KeyWf k ∧ i = k ++ r ∧ key st i = .ok (st.pushK k, .done r k)) ∨ key st i = .ok (st, .err) := by
  rcases LexC.re Rx.quotedKey st i with ⟨a, m, r, h1, h2, rfl, h3⟩ | h
  · left
    refine ⟨a, r, .inr ((lang_quotedKey _).mp h3), h2, ?_⟩
    simp [key, P.alt, bind_eq, P.bind, P.complete, h1, pushKey, P.act, pure_eq, P.pure, PState.pushK]
  · rcases LexC.takeWhile1 isKeychar st i with ⟨a, m, r, h1, h2, rfl, h3, h4⟩ | h'
    · left
      refine ⟨a, r, .inl ⟨h3, fun c hc => (isKeychar_eq c).symm.trans (h4 c hc)⟩, h2, ?_⟩
      simp [key, P.alt, bind_eq, P.bind, P.complete, h, h1, pushKey, P.act, pure_eq, P.pure, PState.pushK]
    · right
      simp [key, P.alt, bind_eq, P.bind, P.complete, h, h']

/-! ## Arrays -/

/-- Begins with an opening bracket or brace. -/
def Opens (i : Str) : Prop := ∃ c t, i = c :: t ∧ (c = '[' ∨ c = '{')

/-- Results of a value parser. -/
inductive VRes (st : PState) (i : Str) : Out (PState × IRes Addr) → Prop where
  | done (t : VT) (r : Str) (st' : PState) : t.wf → i = t.text ++ r → t.eff st = .ok st' →
      VRes st i (.ok (st', .done r (t.addr st.heap.length)))
  | err (pv : PV) (r : Str) (st' : PState) : pv.wf → i = pv.text ++ r → pv.eff st = .ok st' → (pv = .nothing ∨ Opens i) →
      VRes st i (.ok (st', .err))
  | abort (pv : PV) (r : Str) (e : Abort) : pv.wf → i = pv.text ++ r → pv.eff st = e.out → VRes st i e.out

/-- Results of the loop over array elements. -/
inductive ERes (st : PState) (i : Str) (acc : List ArrayValue) : Out (PState × IRes (List ArrayValue)) → Prop where
  | done (es : Elems) (pv : PV) (r r' : Str) (st1 st2 : PState) : es.wf → i = es.text ++ r → es.eff st = .ok st1 →
      pv.wf → r = pv.text ++ r' → pv.eff st1 = .ok st2 → (pv = .nothing ∨ Opens r) →
      ERes st i acc (.ok (st2, .done r (acc ++ es.avs st.heap.length)))
  | abort (es : Elems) (pv : PV) (r : Str) (e : Abort) : es.wf → i = es.text ++ pv.text ++ r → pv.wf → (es.eff st).bind pv.eff = e.out →
      ERes st i acc e.out

theorem arrayValue_eq (pval : P Addr) {st st1 : PState} {i r : Str} {a : Addr} (h : pval st i = .ok (st1, .done r a)) :
    ∃ sep cn m r', r = m ++ r' ∧ m = commaText sep ++ gapText cn ∧ SepWf sep ∧ CnlsWf cn ∧
      arrayValue pval st i = (arrayValueAct a st1).bind fun st2 => .ok (st2, .done r' ⟨a, sep, cn⟩) := by
  obtain ⟨sep, m1, r1, h1, rfl, rfl, hs⟩ := LexT.optSep st1 r
  obtain ⟨cn, m2, r2, h2, rfl, rfl, hc⟩ := LexT.commentOrNls.complete st1 r1
  refine ⟨sep, cn, _, r2, (List.append_assoc _ _ _).symm, rfl, hs, hc, ?_⟩
  simp only [arrayValue, bind_eq]
  rw [bind_done h, bind_done h1, bind_done h2]
  simp only [P.act]
  cases arrayValueAct a st1 <;> rfl

theorem arrayValues_spec (pval : P Addr) (N : Nat) (hp : ∀ st i, i.length < N → VRes st i (pval st i)) :
    ∀ n acc st i, i.length < n → i.length < N → ERes st i acc (P.many0Loop (arrayValue pval) n acc st i) := by
  intro n
  induction n with
  | zero => intro _ _ _ h; omega
  | succ n ih =>
    intro acc st i hn hN
    unfold P.many0Loop
    split
    next hi =>
      subst hi
      have := ERes.done (st := st) (i := []) (acc := acc) .nil .nothing [] [] st st (by simp [Elems.wf]) rfl rfl (by simp [PV.wf]) rfl rfl (.inl rfl)
      simpa [Elems.avs] using this
    next hi =>
      have hv := hp st i hN
      generalize hpv : pval st i = o at hv
      cases hv with
      | err pv r st' h1 h2 h3 h4 =>
        have : arrayValue pval st i = .ok (st', .err) := by simp only [arrayValue, bind_eq]; exact bind_err hpv
        rw [this]
        have := ERes.done (st := st) (i := i) (acc := acc) .nil pv i r st st' (by simp [Elems.wf]) rfl rfl h1 h2 h3 h4
        simpa [Elems.avs] using this
      | abort pv r e h1 h2 h3 =>
        have : arrayValue pval st i = e.out := by simp only [arrayValue, bind_eq]; exact bind_abort hpv
        rw [this]
        have := ERes.abort (st := st) (i := i) (acc := acc) .nil pv r e (by simp [Elems.wf]) (by simpa [Elems.text] using h2) h1
          (by simpa [Elems.eff] using h3)
        cases e <;> exact this
      | done t r st' h1 h2 h3 =>
        obtain ⟨sep, cn, m, r', rfl, rfl, hs, hc, he⟩ := arrayValue_eq pval hpv
        rw [he]
        have ha := VT.eff_addr h3
        rcases Out.cases' (arrayValueAct (t.addr st.heap.length) st') with ⟨st2, h4⟩ | ⟨e, h4⟩
        · rw [h4]
          dsimp only [Out.ok_bind]
          have hlt : r'.length < i.length := by
            obtain ⟨c, s, hc⟩ := VT.text_cons h1
            rw [h2, hc]; simp; omega
          rw [if_neg (by omega)]
          have hr := ih (acc ++ [⟨t.addr st.heap.length, sep, cn⟩]) st2 r' (by omega) (by omega)
          have hh : st2.heap.length = st.heap.length + t.size := by
            rw [arrayValueAct_heap h4, VT.eff_length h3]
          generalize P.many0Loop (arrayValue pval) n (acc ++ [⟨t.addr st.heap.length, sep, cn⟩]) st2 r' = o at hr
          cases hr with
          | done es pv r'' r3 st1 st3 g1 g2 g3 g4 g5 g6 g7 =>
            have := ERes.done (st := st) (i := i) (acc := acc) (.cons t sep cn es) pv r'' r3 st1 st3 (by simp [Elems.wf, *])
              (by simp [Elems.text, h2, g2]) (by simp [Elems.eff, h3, ha, h4, g3]) g4 g5 g6 g7
            simpa [Elems.avs, hh] using this
          | abort es pv r'' e g1 g2 g3 g4 =>
            exact .abort (.cons t sep cn es) pv r'' e (by simp [Elems.wf, *])
              (by simp [Elems.text, h2, g2]) g3 (by simp [Elems.eff, h3, ha, h4, g4])
        · rw [h4]
          have := ERes.abort (st := st) (i := i) (acc := acc) (.cons t sep cn .nil) .nothing r' e (by simp [Elems.wf, *])
            (by simp [Elems.text, PV.text, h2]) (by simp [PV.wf]) (by simp [Elems.eff, h3, ha, h4])
          cases e <;> exact this

/-- Results of an array parser on a text that begins with a bracket. -/
inductive ARes (st : PState) (i : Str) : Out (PState × IRes TVal) → Prop where
  | done (es : Elems) (c1 c2 : List CNL) (r : Str) (st' : PState) : (VT.arr es c1 c2).wf → i = (VT.arr es c1 c2).text ++ r →
      es.eff st.openArr = .ok st' → ARes st i (.ok (st'.closeArr, .done r (.arr (es.avs st.heap.length) c1 c2)))
  | err (pv : PV) (r : Str) (st' : PState) : pv.wf → i = pv.text ++ r → pv.eff st = .ok st' → ARes st i (.ok (st', .err))
  | abort (pv : PV) (r : Str) (e : Abort) : pv.wf → i = pv.text ++ r → pv.eff st = e.out → ARes st i e.out

theorem commentOrNls_none {c : Char} {i : Str} {st : PState} (h1 : c ≠ '#') (h2 : Re.starts c Rx.wsNewline = false) :
    commentOrNls st (c :: i) = .ok (st, .done (c :: i) [.newlines []]) := by
  have hw : wsNewline st (c :: i) = .ok (st, .done (c :: i) []) := re_star_none h2
  have hc : comment st (c :: i) = .ok (st, .err) := by
    simp only [comment, bind_eq]
    exact bind_err (tag1_ne h1 (by decide))
  have h : commentOrNl st (c :: i) = .ok (st, .done (c :: i) (.newlines [])) := by
    simp [commentOrNl, P.alt, P.complete, commentNl, bind_eq, P.bind, hw, hc, P.mapP, P.pure]
  simp [commentOrNls, P.many1, P.bind, h, P.many1Loop]

theorem closeArr_openArr (st : PState) : st.openArr.closeArr = st := by
  simp [PState.openArr, PState.closeArr]

theorem array_spec (pval : P Addr) (N : Nat) (hp : ∀ st i, i.length < N → VRes st i (pval st i)) (st : PState) (j : Str)
    (hN : j.length < N) : ARes st ('[' :: j) (P.complete (array pval) st ('[' :: j)) := by
  have htag : P.tag (lit% "[") st.openArr ('[' :: j) = .ok (st.openArr, .done j (lit% "[")) := tag_append (lit% "[") (i := j)
  obtain ⟨c1, m1, j1, h1, rfl, rfl, w1⟩ := LexT.commentOrNls st.openArr j
  have hr := arrayValues_spec pval N hp (j1.length + 1) [] st.openArr j1 (by omega) (by simp at hN; omega)
  generalize ho : P.many0Loop (arrayValue pval) (j1.length + 1) [] st.openArr j1 = o at hr
  have hod : st.openArr.heap.length = st.heap.length := rfl
  cases hr with
  | abort es pv r e g1 g2 g3 g4 =>
    have : array pval st ('[' :: (gapText c1 ++ j1)) = e.out := by
      have : arrayInternal pval st.openArr ('[' :: (gapText c1 ++ j1)) = e.out := by
        simp only [arrayInternal, bind_eq]
        rw [bind_done htag, bind_done h1]
        exact bind_abort ho
      simp only [array]
      change (match arrayInternal pval st.openArr _ with | .ok (st', r) => _ | .panic x => _ | .fuel => _) = _
      rw [this]; cases e <;> rfl
    rw [complete_abort this]
    refine .abort (.arr c1 es pv) r e ⟨w1, g1, g3⟩ (by simp [PV.text, g2]) ?_
    rw [PV.eff]
    rcases Out.cases' (es.eff st.openArr) with ⟨s1, h⟩ | ⟨e', h⟩
    · rw [h] at g4 ⊢; simp at g4 ⊢; rw [g4]; simp
    · rw [h] at g4 ⊢; simp at g4 ⊢; exact g4
  | done es pv r r' st1 st2 g1 g2 g3 g4 g5 g6 g7 =>
    obtain ⟨c2, m2, j2, h2, e2, rfl, w2⟩ := LexT.commentOrNls st2 r
    have key : ∀ o', (P.bind (P.tag (lit% "]")) fun _ => P.pure (TVal.arr (es.avs st.heap.length) c1 c2)) st2 j2 = .ok (st2, o') →
        array pval st ('[' :: (gapText c1 ++ j1)) = .ok (st2.closeArr, o') := by
      intro o' ht
      have : arrayInternal pval st.openArr ('[' :: (gapText c1 ++ j1)) = .ok (st2, o') := by
        simp only [arrayInternal, bind_eq]
        rw [bind_done htag, bind_done h1]
        have : arrayValues pval st.openArr j1 = .ok (st2, .done r (es.avs st.openArr.heap.length)) := by
          simpa [arrayValues, P.many0] using ho
        rw [bind_done this, bind_done h2]
        exact ht
      simp only [array]
      change (match arrayInternal pval st.openArr _ with | .ok (st', r) => _ | .panic x => _ | .fuel => _) = _
      rw [this]; rfl
    have herr : ∀ o', o' = .err ∨ o' = .inc → P.tag (lit% "]") st2 j2 = .ok (st2, o') →
        ARes st ('[' :: (gapText c1 ++ j1)) (P.complete (array pval) st ('[' :: (gapText c1 ++ j1))) := by
      intro o' ho' ht
      have hA : P.complete (array pval) st ('[' :: (gapText c1 ++ j1)) = .ok (st2.closeArr, .err) := by
        rcases ho' with rfl | rfl
        · exact complete_err (key .err (bind_err ht))
        · exact complete_inc (key .inc (bind_inc ht))
      rw [hA]
      exact .err (.arr c1 es pv) r' _ ⟨w1, g1, g4⟩ (by simp [PV.text, g2, g5]) (by simp [PV.eff, g3, g6])
    rcases Lex.tag (lit% "]") st2 j2 with ⟨a, m, j3, h3, e3, rfl, rfl⟩ | h3 | h3
    · have : pv = .nothing := by
        rcases g7 with g7 | ⟨c, t, hc, ho⟩
        · exact g7
        · exfalso
          rw [hc] at h2
          have hn : commentOrNls st2 (c :: t) = .ok (st2, .done (c :: t) [.newlines []]) := by
            rcases ho with rfl | rfl <;> exact commentOrNls_none (by decide) (by decide)
          rw [hn] at h2
          simp at h2
          rw [← h2.1] at e3
          simp at e3
          rcases ho with rfl | rfl <;> simp at e3
      subst this
      simp [PV.eff] at g6; subst g6
      have := key (.done j3 (.arr (es.avs st.heap.length) c1 c2)) (by rw [bind_done h3]; rfl)
      rw [complete_done this]
      exact .done es c1 c2 j3 st1 ⟨w1, g1, w2⟩ (by simp [VT.text, g2, e2, e3]) g3
    · exact herr .err (.inl rfl) h3
    · exact herr .inc (.inr rfl) h3

theorem array_none (pval : P Addr) (st : PState) {i : Str} (h : ∀ j, i ≠ '[' :: j) :
    P.complete (array pval) st i = .ok (st, .err) := by
  have : ∃ o', (o' = .err ∨ o' = .inc) ∧ arrayInternal pval st.openArr i = .ok (st.openArr, o') := by
    simp only [arrayInternal, bind_eq]
    cases i with
    | nil => exact ⟨.inc, .inr rfl, bind_inc tag_nil⟩
    | cons c j =>
      have hc : c ≠ '[' := fun e => h j (by rw [e])
      exact ⟨.err, .inl rfl, bind_err (tag1_ne hc (by decide))⟩
  obtain ⟨o', ho, h1⟩ := this
  have h2 : array pval st i = .ok (st, o') := by
    simp only [array]
    change (match arrayInternal pval st.openArr _ with | .ok (st', r) => _ | .panic x => _ | .fuel => _) = _
    rw [h1]
    change Out.ok (st.openArr.closeArr, o') = _
    rw [closeArr_openArr]
  rcases ho with rfl | rfl
  · exact complete_err h2
  · exact complete_inc h2

/-! ## Inline tables -/

/-- What was read of a pair that could not be completed. -/
inductive PT where
  | nothing
  | key (k : Str)
  | kv (k : Str) (ws : WSSep) (last : PV)

/-- The text read. -/
def PT.text : PT → Str
  | .nothing => []
  | .key k => k
  | .kv k ws last => k ++ ws.ws1 ++ lit% "=" ++ ws.ws2 ++ last.text

/-- The effect. -/
def PT.eff : PT → PState → Out PState
  | .nothing, st => .ok st
  | .key k, st => .ok (st.pushK k)
  | .kv k _ last, st => last.eff (st.pushK k)

/-- Its parts are well-formed. -/
def PT.wf : PT → Prop
  | .nothing => True
  | .key k => KeyWf k
  | .kv k ws last => KeyWf k ∧ ws.wf ∧ last.wf

/-- A value read in part begins with an opening bracket or brace. -/
def PV.opened (v : PV) : Prop := v = .nothing ∨ Opens v.text

/-- The value, if one was begun, begins with an opening bracket or brace. -/
def PT.opened : PT → Prop
  | .kv _ _ last => last.opened
  | _ => True

theorem PV.opened_of {v : PV} (hw : v.wf) {i r : Str} (h : i = v.text ++ r) (ho : v = .nothing ∨ Opens i) : v.opened := by
  rcases ho with rfl | ⟨c, t, e, hc⟩
  · exact .inl rfl
  · cases v with
    | nothing => exact .inl rfl
    | val t' =>
      obtain ⟨d, s, hd⟩ := VT.text_cons (t := t') hw
      refine .inr ⟨d, s, hd, ?_⟩
      rw [h, PV.text, hd] at e
      simp at e
      rw [e.1]; exact hc
    | arr c1 es l => exact .inr ⟨'[', _, by rw [PV.text]; rfl, .inl rfl⟩
    | itab w kvs => exact .inr ⟨'{', _, by rw [PV.text]; rfl, .inr rfl⟩
    | itabK w kvs k => exact .inr ⟨'{', _, by rw [PV.text]; rfl, .inr rfl⟩
    | itabKV w kvs k ws l => exact .inr ⟨'{', _, by rw [PV.text]; rfl, .inr rfl⟩

/-- The inline table it is the end of. -/
def PT.pv (w : Str) (kvs : Pairs) : PT → PV
  | .nothing => .itab w kvs
  | .key k => .itabK w kvs k
  | .kv k ws last => .itabKV w kvs k ws last

theorem PT.pv_text (w : Str) (kvs : Pairs) (p : PT) : (p.pv w kvs).text = lit% "{" ++ w ++ kvs.text ++ p.text := by
  cases p <;> simp [PT.pv, PV.text, PT.text]
theorem PT.pv_eff (w : Str) (kvs : Pairs) (p : PT) (st : PState) : (p.pv w kvs).eff st = (kvs.eff st).bind p.eff := by
  cases p with
  | nothing =>
    simp only [PT.pv, PV.eff]
    rcases Out.cases' (kvs.eff st) with ⟨s1, h⟩ | ⟨e, h⟩ <;> rw [h] <;> simp [PT.eff]
  | key k => simp only [PT.pv, PV.eff]; rfl
  | kv k ws l => simp only [PT.pv, PV.eff]; rfl
theorem PT.pv_wf {w : Str} {kvs : Pairs} {p : PT} (h1 : Blank w) (h2 : kvs.wf) (h3 : p.wf) : (p.pv w kvs).wf := by
  cases p <;> simp_all [PT.pv, PV.wf, PT.wf]
theorem PT.text_cons {p : PT} (h : p.wf) (hn : p ≠ .nothing) : ∃ c t, p.text = c :: t ∧ (isKeychar c = true ∨ c = '"') := by
  cases p with
  | nothing => simp at hn
  | key k => exact KeyWf.cons h
  | kv k ws l =>
    obtain ⟨c, t, hk, hc⟩ := KeyWf.cons h.1
    exact ⟨c, t ++ ws.ws1 ++ lit% "=" ++ ws.ws2 ++ l.text, by simp [PT.text, hk], hc⟩

/-- Results of the loop over pairs. -/
inductive TRes (st : PState) (i : Str) (acc : List TableKeyVal) : Out (PState × IRes (List TableKeyVal)) → Prop where
  | done (kvs : Pairs) (pt : PT) (r r' : Str) (st1 st2 : PState) : kvs.wf → i = kvs.text ++ r → kvs.eff st = .ok st1 →
      pt.wf → r = pt.text ++ r' → pt.eff st1 = .ok st2 →
      TRes st i acc (.ok (st2, .done r (acc ++ kvs.tkvs st.heap.length)))
  | inc (kvs : Pairs) (pt : PT) (r : Str) (st1 st2 : PState) : kvs.wf → i = kvs.text ++ pt.text ++ r → kvs.eff st = .ok st1 →
      pt.wf → pt.eff st1 = .ok st2 → pt ≠ .nothing → TRes st i acc (.ok (st2, .inc))
  | abort (kvs : Pairs) (pt : PT) (r : Str) (e : Abort) : kvs.wf → i = kvs.text ++ pt.text ++ r → pt.wf → (kvs.eff st).bind pt.eff = e.out →
      TRes st i acc e.out

/-- Results of a pair. -/
inductive KRes (st : PState) (i : Str) : Out (PState × IRes KeyVal) → Prop where
  | done (k : Str) (ws : WSSep) (v : VT) (r : Str) (st1 st2 : PState) : KeyWf k → ws.wf → v.wf →
      i = k ++ ws.ws1 ++ lit% "=" ++ ws.ws2 ++ v.text ++ r → v.eff (st.pushK k) = .ok st1 → keyvalAct k (st1.heap.length - 1) st1 = .ok st2 →
      KRes st i (.ok (st2, .done r ⟨k, ws, v.addr st.heap.length⟩))
  | err (pt : PT) (r : Str) (st' : PState) : pt.wf → i = pt.text ++ r → pt.eff st = .ok st' → pt.opened → KRes st i (.ok (st', .err))
  | inc (pt : PT) (r : Str) (st' : PState) : pt.wf → i = pt.text ++ r → pt.eff st = .ok st' → pt ≠ .nothing → pt.opened → KRes st i (.ok (st', .inc))
  | abort (pt : PT) (r : Str) (e : Abort) : pt.wf → i = pt.text ++ r → pt.eff st = e.out → KRes st i e.out
  | abortAct (k : Str) (ws : WSSep) (v : VT) (r : Str) (st1 : PState) (e : Abort) : KeyWf k → ws.wf → v.wf →
      i = k ++ ws.ws1 ++ lit% "=" ++ ws.ws2 ++ v.text ++ r → v.eff (st.pushK k) = .ok st1 → keyvalAct k (st1.heap.length - 1) st1 = e.out →
      KRes st i e.out

theorem keyval_spec (pval : P Addr) (N : Nat) (hp : ∀ st i, i.length < N → VRes st i (pval st i)) (st : PState) (i : Str)
    (hN : i.length ≤ N) : KRes st i (keyval pval st i) := by
  simp only [keyval, bind_eq]
  rcases key_spec st i with ⟨k, r, wk, rfl, h1⟩ | h1
  · rw [bind_done h1]
    rcases Lex.keyvalSep (st.pushK k) r with ⟨sep, m, r1, h2, rfl, rfl, w2⟩ | h2 | h2
    · rw [bind_done h2]
      have hl : r1.length < N := by
        simp at hN; omega
      have hv := hp (st.pushK k) r1 hl
      generalize hpv : pval (st.pushK k) r1 = o at hv
      cases hv with
      | done t r2 st1 g1 g2 g3 =>
        rw [bind_done hpv]
        have ha := VT.eff_addr g3
        simp only [P.act]
        have hpk : (st.pushK k).heap.length = st.heap.length := rfl
        rw [hpk] at ha ⊢
        rcases Out.cases' (keyvalAct k (t.addr st.heap.length) st1) with ⟨st2, h4⟩ | ⟨e, h4⟩
        · rw [h4]
          exact .done k sep t r2 st1 st2 wk w2 g1 (by simp [g2]) g3 (by rw [ha, h4])
        · rw [h4]
          have := KRes.abortAct (st := st) (i := k ++ (sep.ws1 ++ lit% "=" ++ sep.ws2 ++ r1)) k sep t r2 st1 e wk w2 g1 (by simp [g2]) g3 (by rw [ha, h4])
          cases e <;> exact this
      | err pv r2 st1 g1 g2 g3 g4 =>
        rw [bind_err hpv]
        exact .err (.kv k sep pv) r2 st1 ⟨wk, w2, g1⟩ (by simp [PT.text, g2]) g3 (PV.opened_of g1 g2 g4)
      | abort pv r2 e g1 g2 g3 =>
        rw [bind_abort hpv]
        exact .abort (.kv k sep pv) r2 e ⟨wk, w2, g1⟩ (by simp [PT.text, g2]) g3
    · rw [bind_err h2]
      exact .err (.key k) r _ wk (by simp [PT.text]) rfl trivial
    · rw [bind_inc h2]
      exact .inc (.key k) r _ wk (by simp [PT.text]) rfl (by simp) trivial
  · rw [bind_err h1]
    exact .err .nothing i _ trivial (by simp [PT.text]) rfl trivial

theorem tableKeyvals_spec (pval : P Addr) (N : Nat) (hp : ∀ st i, i.length < N → VRes st i (pval st i)) :
    ∀ n acc st i, i.length < n → i.length ≤ N → TRes st i acc (P.many0Loop (tableKeyval pval) n acc st i) := by
  intro n
  induction n with
  | zero => intro _ _ _ h; omega
  | succ n ih =>
    intro acc st i hn hN
    unfold P.many0Loop
    split
    next hi =>
      subst hi
      have := TRes.done (st := st) (i := []) (acc := acc) .nil .nothing [] [] st st (by simp [Pairs.wf]) rfl rfl (by simp [PT.wf]) rfl rfl
      simpa [Pairs.tkvs] using this
    next hi =>
      have hv := keyval_spec pval N hp st i hN
      generalize hpv : keyval pval st i = o at hv
      cases hv with
      | err pt r st' h1 h2 h3 _ =>
        have : tableKeyval pval st i = .ok (st', .err) := by simp only [tableKeyval, bind_eq]; exact bind_err hpv
        rw [this]
        have := TRes.done (st := st) (i := i) (acc := acc) .nil pt i r st st' (by simp [Pairs.wf]) rfl rfl h1 h2 h3
        simpa [Pairs.tkvs] using this
      | inc pt r st' h1 h2 h3 h4 _ =>
        have : tableKeyval pval st i = .ok (st', .inc) := by simp only [tableKeyval, bind_eq]; exact bind_inc hpv
        rw [this]
        exact .inc .nil pt r st st' (by simp [Pairs.wf]) (by simpa [Pairs.text] using h2) rfl h1 h3 h4
      | abort pt r e h1 h2 h3 =>
        have : tableKeyval pval st i = e.out := by simp only [tableKeyval, bind_eq]; exact bind_abort hpv
        rw [this]
        have := TRes.abort (st := st) (i := i) (acc := acc) .nil pt r e (by simp [Pairs.wf]) (by simpa [Pairs.text] using h2) h1
          (by simpa [Pairs.eff] using h3)
        cases e <;> exact this
      | abortAct k ws v r st1 e g1 g2 g3 g4 g5 g6 =>
        have : tableKeyval pval st i = e.out := by simp only [tableKeyval, bind_eq]; exact bind_abort hpv
        rw [this]
        have := TRes.abort (st := st) (i := i) (acc := acc) (.cons k ws v none [] .nil) .nothing r e
          (by simp [Pairs.wf, SepWf, CnlsWf, *]) (by simpa [Pairs.text, PT.text, commaText, gapText] using g4) (by simp [PT.wf])
          (by simp [Pairs.eff, g5, g6])
        cases e <;> exact this
      | done k ws v r st1 st2 g1 g2 g3 g4 g5 g6 =>
        obtain ⟨sep, m1, r1, h1, rfl, rfl, hs⟩ := LexT.optSep st2 r
        obtain ⟨cn, m2, r2, h2, rfl, rfl, hc⟩ := LexT.commentOrNls.complete st2 r1
        have he : tableKeyval pval st i = .ok (st2, .done r2 ⟨⟨k, ws, v.addr st.heap.length⟩, sep, cn⟩) := by
          simp only [tableKeyval, bind_eq]
          rw [bind_done hpv, bind_done h1, bind_done h2]; rfl
        rw [he]
        dsimp only
        have hlt : r2.length < i.length := by
          rw [g4]; simp; omega
        rw [if_neg (by omega)]
        have hr := ih (acc ++ [⟨⟨k, ws, v.addr st.heap.length⟩, sep, cn⟩]) st2 r2 (by omega) (by omega)
        have hh : st2.heap.length = st.heap.length + v.size := by
          rw [keyvalAct_heap g6, VT.eff_length g5]; rfl
        generalize P.many0Loop (tableKeyval pval) n (acc ++ [⟨⟨k, ws, v.addr st.heap.length⟩, sep, cn⟩]) st2 r2 = o at hr
        cases hr with
        | done kvs pt r'' r3 s1 s2 f1 f2 f3 f4 f5 f6 =>
          have := TRes.done (st := st) (i := i) (acc := acc) (.cons k ws v sep cn kvs) pt r'' r3 s1 s2 (by simp [Pairs.wf, *])
            (by simp [Pairs.text, g4, f2]) (by simp [Pairs.eff, g5, g6, f3]) f4 f5 f6
          simpa [Pairs.tkvs, hh] using this
        | inc kvs pt r'' s1 s2 f1 f2 f3 f4 f5 f6 =>
          exact .inc (.cons k ws v sep cn kvs) pt r'' s1 s2 (by simp [Pairs.wf, *])
            (by simp [Pairs.text, g4, f2]) (by simp [Pairs.eff, g5, g6, f3]) f4 f5 f6
        | abort kvs pt r'' e f1 f2 f3 f4 =>
          exact .abort (.cons k ws v sep cn kvs) pt r'' e (by simp [Pairs.wf, *])
            (by simp [Pairs.text, g4, f2]) f3 (by simp [Pairs.eff, g5, g6, f4])

/-- Results of an inline table parser on a text that begins with a brace. -/
inductive IRes' (st : PState) (i : Str) : Out (PState × IRes TVal) → Prop where
  | done (kvs : Pairs) (ws : WSSep) (r : Str) (st' : PState) : (VT.itab kvs ws).wf → i = (VT.itab kvs ws).text ++ r →
      kvs.eff st = .ok st' → IRes' st i (.ok (st', .done r (.itab (kvs.tkvs st.heap.length) ws)))
  | err (pv : PV) (r : Str) (st' : PState) : pv.wf → i = pv.text ++ r → pv.eff st = .ok st' → IRes' st i (.ok (st', .err))
  | abort (pv : PV) (r : Str) (e : Abort) : pv.wf → i = pv.text ++ r → pv.eff st = e.out → IRes' st i e.out

theorem keystart_ne {c : Char} (h : isKeychar c = true ∨ c = '"') :
    c ≠ '}' ∧ c ≠ '[' ∧ c ≠ '#' ∧ c ≠ ' ' ∧ c ≠ '\t' ∧ c ≠ '\n' ∧ c ≠ '\r' := by
  rcases h with h | rfl
  · refine ⟨?_, ?_, ?_, ?_, ?_, ?_, ?_⟩ <;> (rintro rfl; revert h; decide)
  · decide

theorem ws_none {c : Char} {i : Str} {st : PState} (h1 : c ≠ ' ') (h2 : c ≠ '\t') : ws st (c :: i) = .ok (st, .done (c :: i) []) := by
  obtain ⟨a, m, r, e1, e2, rfl, hb⟩ := LexT.ws st (c :: i)
  cases a with
  | nil => simp at e2; rw [e1, e2]
  | cons d t =>
    simp at e2
    have := hb d (by simp)
    simp [← e2.1, h1, h2] at this

theorem inlineTable_spec (pval : P Addr) (N : Nat) (hp : ∀ st i, i.length < N → VRes st i (pval st i)) (st : PState) (j : Str)
    (hN : j.length ≤ N) : IRes' st ('{' :: j) (P.complete (inlineTable pval) st ('{' :: j)) := by
  have htag : P.tag (lit% "{") st ('{' :: j) = .ok (st, .done j (lit% "{")) := tag_append (lit% "{") (i := j)
  obtain ⟨w1, m1, j1, h1, rfl, rfl, hw1⟩ := LexT.ws st j
  have hr := tableKeyvals_spec pval N hp (j1.length + 1) [] st j1 (by omega) (by simp at hN; omega)
  generalize ho : P.many0Loop (tableKeyval pval) (j1.length + 1) [] st j1 = o at hr
  cases hr with
  | abort kvs pt r e g1 g2 g3 g4 =>
    have : inlineTable pval st ('{' :: (w1 ++ j1)) = e.out := by
      simp only [inlineTable, bind_eq]
      rw [bind_done htag, bind_done h1]
      exact bind_abort (opt_abort (complete_abort ho))
    rw [complete_abort this]
    refine .abort (pt.pv w1 kvs) r e (PT.pv_wf hw1 g1 g3) (by simp [PT.pv_text, g2]) ?_
    rw [PT.pv_eff, g4]
  | inc kvs pt r s1 s2 g1 g2 g3 g4 g5 g6 =>
    have hstart : ∃ c t, j1 = c :: t ∧ (isKeychar c = true ∨ c = '"') := by
      cases kvs with
      | nil =>
        obtain ⟨c, t, e1, e2⟩ := PT.text_cons g4 g6
        exact ⟨c, t ++ r, by simp [g2, Pairs.text, e1], e2⟩
      | cons k ws v sep cn kvs =>
        rw [Pairs.wf] at g1
        obtain ⟨c, t, e1, e2⟩ := KeyWf.cons g1.1
        exact ⟨c, t ++ ws.ws1 ++ lit% "=" ++ ws.ws2 ++ v.text ++ commaText sep ++ gapText cn ++ kvs.text ++ pt.text ++ r, by
          simp [g2, Pairs.text, e1], e2⟩
    obtain ⟨c, t, e1, e2⟩ := hstart
    have hne := keystart_ne e2
    have hopt : P.opt (P.complete (P.many0 (tableKeyval pval))) st j1 = .ok (s2, .done j1 none) := by
      simp [P.opt, P.complete, P.many0, ho]
    have : inlineTable pval st ('{' :: (w1 ++ j1)) = .ok (s2, .err) := by
      simp only [inlineTable, bind_eq]
      rw [bind_done htag, bind_done h1, bind_done hopt, e1, bind_done (ws_none hne.2.2.2.1 hne.2.2.2.2.1)]
      exact bind_err (tag1_ne hne.1 (by decide))
    rw [complete_err this]
    exact .err (pt.pv w1 kvs) r s2 (PT.pv_wf hw1 g1 g4) (by simp [PT.pv_text, g2]) (by simp [PT.pv_eff, g3, g5])
  | done kvs pt r r' s1 s2 g1 g2 g3 g4 g5 g6 =>
    have hopt : P.opt (P.complete (P.many0 (tableKeyval pval))) st j1 = .ok (s2, .done r (some (kvs.tkvs st.heap.length))) := by
      simp [P.opt, P.complete, P.many0, ho]
    obtain ⟨w2, m2, j2, h2, e2, rfl, hw2⟩ := LexT.ws s2 r
    have key : ∀ o', (P.bind (P.tag (lit% "}")) fun _ => P.pure (TVal.itab (kvs.tkvs st.heap.length) ⟨w1, w2⟩)) s2 j2 = .ok (s2, o') →
        inlineTable pval st ('{' :: (w1 ++ j1)) = .ok (s2, o') := by
      intro o' ht
      simp only [inlineTable, bind_eq]
      rw [bind_done htag, bind_done h1, bind_done hopt, bind_done h2]
      exact ht
    have herr : IRes' st ('{' :: (w1 ++ j1)) (.ok (s2, .err)) :=
      .err (pt.pv w1 kvs) r' s2 (PT.pv_wf hw1 g1 g4) (by simp [PT.pv_text, g2, g5]) (by simp [PT.pv_eff, g3, g6])
    rcases Lex.tag (lit% "}") s2 j2 with ⟨a, m, j3, h3, e3, rfl, rfl⟩ | h3 | h3
    · have : pt = .nothing := by
        by_cases hpt : pt = .nothing
        · exact hpt
        · exfalso
          obtain ⟨c, t, f1, f2⟩ := PT.text_cons g4 hpt
          have hne := keystart_ne f2
          rw [g5, f1] at h2
          simp only [List.cons_append] at h2
          rw [ws_none hne.2.2.2.1 hne.2.2.2.2.1] at h2
          simp at h2
          rw [← h2.1] at e3
          simp at e3
          exact hne.1 e3.1
      subst this
      simp [PT.eff] at g6; subst g6
      have := key (.done j3 (.itab (kvs.tkvs st.heap.length) ⟨w1, w2⟩)) (by rw [bind_done h3]; rfl)
      rw [complete_done this]
      exact .done kvs ⟨w1, w2⟩ j3 s1 ⟨⟨hw1, hw2⟩, g1⟩ (by simp [VT.text, g2, e2, e3]) g3
    · rw [complete_err (key .err (bind_err h3))]; exact herr
    · rw [complete_inc (key .inc (bind_inc h3))]; exact herr

theorem inlineTable_none (pval : P Addr) (st : PState) {i : Str} (h : ∀ j, i ≠ '{' :: j) :
    P.complete (inlineTable pval) st i = .ok (st, .err) := by
  simp only [inlineTable, bind_eq]
  cases i with
  | nil => exact complete_inc (bind_inc tag_nil)
  | cons c j =>
    have hc : c ≠ '{' := fun e => h j (by rw [e])
    exact complete_err (bind_err (tag1_ne hc (by decide)))

/-! ## Values -/

theorem scalarVal_opens (st : PState) {i : Str} (h : Opens i) : scalarVal st i = .ok (st, .err) := by
  rcases ScASpec.scalarVal st i with ⟨s, r, h1, h2, _⟩ | h'
  · obtain ⟨c, t, e1, e2⟩ := h
    obtain ⟨d, u, f1, f2, f3, _⟩ := Scalar.text_cons h1
    rw [e1, f1] at h2
    simp at h2
    rcases e2 with rfl | rfl
    · exact absurd h2.1.symm f2
    · exact absurd h2.1.symm f3
  · exact h'

theorem valStep_spec (pval : P Addr) (N : Nat) (hp : ∀ st i, i.length < N → VRes st i (pval st i)) (st : PState) (i : Str)
    (hN : i.length < N + 1) : VRes st i (valStep pval st i) := by
  rw [valStep_eq]
  by_cases hb : ∃ j, i = '[' :: j
  · obtain ⟨j, rfl⟩ := hb
    have hr := array_spec pval N hp st j (by simp at hN; omega)
    have hop : Opens ('[' :: j) := ⟨_, _, rfl, .inl rfl⟩
    generalize ho : P.complete (array pval) st ('[' :: j) = o at hr
    cases hr with
    | done es c1 c2 r st' g1 g2 g3 =>
      have : P.bind (P.complete (array pval)) alloc st ('[' :: j) =
          .ok (st'.closeArr.cell (.arr (es.avs st.heap.length) c1 c2), .done r ((VT.arr es c1 c2).addr st.heap.length)) := by
        rw [bind_done ho]
        have := Elems.eff_heap _ _ _ g3
        simp [alloc, P.act, PState.cell, VT.addr, VT.size, PState.closeArr, this, Elems.cells_length, PState.openArr]
      rw [alt_done this]
      exact .done _ r _ g1 g2 (by simp [VT.eff, g3])
    | err pv r st' g1 g2 g3 =>
      rw [alt_err (bind_err ho), alt_err (bind_err (inlineTable_none pval st' (by simp))), scalarVal_opens st' hop]
      exact .err pv r st' g1 g2 g3 (.inr hop)
    | abort pv r e g1 g2 g3 =>
      rw [alt_abort (bind_abort ho)]
      exact .abort pv r e g1 g2 g3
  · rw [alt_err (bind_err (array_none pval st (fun j e => hb ⟨j, e⟩)))]
    by_cases hc : ∃ j, i = '{' :: j
    · obtain ⟨j, rfl⟩ := hc
      have hr := inlineTable_spec pval N hp st j (by simp at hN; omega)
      have hop : Opens ('{' :: j) := ⟨_, _, rfl, .inr rfl⟩
      generalize ho : P.complete (inlineTable pval) st ('{' :: j) = o at hr
      cases hr with
      | done kvs ws r st' g1 g2 g3 =>
        have : P.bind (P.complete (inlineTable pval)) alloc st ('{' :: j) =
            .ok (st'.cell (.itab (kvs.tkvs st.heap.length) ws), .done r ((VT.itab kvs ws).addr st.heap.length)) := by
          rw [bind_done ho]
          have := Pairs.eff_heap _ _ _ g3
          simp [alloc, P.act, PState.cell, VT.addr, VT.size, this, Pairs.cells_length]
        rw [alt_done this]
        exact .done _ r _ g1 g2 (by simp [VT.eff, g3])
      | err pv r st' g1 g2 g3 =>
        rw [alt_err (bind_err ho), scalarVal_opens st' hop]
        exact .err pv r st' g1 g2 g3 (.inr hop)
      | abort pv r e g1 g2 g3 =>
        rw [alt_abort (bind_abort ho)]
        exact .abort pv r e g1 g2 g3
    · rw [alt_err (bind_err (inlineTable_none pval st (fun j e => hc ⟨j, e⟩)))]
      rcases ScASpec.scalarVal st i with ⟨s, r, h1, h2, h3⟩ | h
      · rw [h3]
        rcases Out.cases' ((VT.leaf s).eff st) with ⟨st', he⟩ | ⟨e, he⟩
        · rw [he]
          exact .done (.leaf s) r st' h1 h2 he
        · rw [he, Abort.bind]
          exact .abort (.val (.leaf s)) r e h1 h2 he
      · rw [h]
        exact .err .nothing i st trivial rfl rfl (.inl rfl)

theorem valFuel_spec : ∀ n st i, i.length < n → VRes st i (valFuel n st i)
  | 0, _, _, h => absurd h (by omega)
  | n + 1, st, i, h => valStep_spec (valFuel n) n (fun st i h => valFuel_spec n st i h) st i h

theorem val_spec (st : PState) (i : Str) : VRes st i (val st i) := valFuel_spec _ st i (by omega)

end Tomllib
