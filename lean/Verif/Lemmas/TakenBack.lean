import Verif.Lemmas.TakenDoc
/-!
# What is read has been taken
-/

namespace Tomllib
open P

/-! ## Inversion of the combinators -/

theorem bind_done_inv {α β : Type} {p : P α} {f : α → P β} {st st' : PState} {i r : Str} {b : β} (h : P.bind p f st i = .ok (st', .done r b)) :
    ∃ st1 r1 a, p st i = .ok (st1, .done r1 a) ∧ f a st1 r1 = .ok (st', .done r b) := by
  simp only [P.bind] at h
  split at h
  · exact ⟨_, _, _, by assumption, h⟩
  all_goals simp at h

theorem complete_done_inv {α : Type} {p : P α} {st st' : PState} {i r : Str} {b : α} (h : P.complete p st i = .ok (st', .done r b)) :
    p st i = .ok (st', .done r b) := by
  simp only [P.complete] at h
  split at h
  · simp at h
  · exact h

theorem alt_done_inv {α : Type} {p q : P α} {st st' : PState} {i r : Str} {b : α} (h : P.alt p q st i = .ok (st', .done r b)) :
    p st i = .ok (st', .done r b) ∨ ∃ st1, p st i = .ok (st1, .err) ∧ q st1 i = .ok (st', .done r b) := by
  simp only [P.alt] at h
  split at h
  · exact .inr ⟨_, by assumption, h⟩
  · exact .inl h

theorem opt_done_inv {α : Type} {p : P α} {st st' : PState} {i r : Str} {b : Option α} (h : P.opt p st i = .ok (st', .done r b)) :
    (∃ a, b = some a ∧ p st i = .ok (st', .done r a)) ∨ b = none ∧ r = i := by
  simp only [P.opt] at h
  split at h
  · simp at h; exact .inl ⟨_, h.2.2.symm, by rw [← h.1, ← h.2.1]; assumption⟩
  · simp at h; exact .inr ⟨h.2.2.symm, h.2.1.symm⟩
  all_goals simp at h

/-! ## Blanks, line breaks, comments -/

/-- No blank and no line break follows. -/
def NoSpace (i : Str) : Prop := ∀ p x, SpacePiece p → i ≠ p ++ x

theorem space_split : ∀ (n : Nat) (i : Str), i.length < n → ∃ w j, i = w ++ j ∧ Spaces w ∧ NoSpace j := by
  intro n
  induction n with
  | zero => intro i h; omega
  | succ n ih =>
    intro i hn
    by_cases h : ∃ p x, SpacePiece p ∧ i = p ++ x
    · obtain ⟨p, x, h1, rfl⟩ := h
      have : 0 < p.length := by cases h1 <;> simp
      obtain ⟨w, j, rfl, h2, h3⟩ := ih x (by simp at hn; omega)
      exact ⟨p ++ w, j, by simp, .cons h1 h2, h3⟩
    · exact ⟨[], i, rfl, .nil, fun p x h1 h2 => h ⟨p, x, h1, h2⟩⟩

theorem wsNewline_split (i : Str) : ∃ w j, i = w ++ j ∧ Spaces w ∧ NoSpace j ∧ ∀ st, wsNewline st i = .ok (st, .done j w) := by
  obtain ⟨w, j, rfl, h1, h2⟩ := space_split _ i (Nat.lt_succ_self _)
  refine ⟨w, j, rfl, h1, h2, fun st => (prefixFree_space.chain (g := true) ((lang_wsNewline w).mpr h1) ?_).det.re st⟩
  intro m t e hm
  exact h2 m t ((lang_spacePiece m).mp hm) e

theorem NoSpace.nil {w j : Str} (h : NoSpace (w ++ j)) (hw : Spaces w) : w = [] := by
  cases hw with
  | nil => rfl
  | @cons u v h1 h2 => exact absurd (List.append_assoc u v j) (h u (v ++ j) h1)

theorem ws_split (i : Str) : ∃ w j, i = w ++ j ∧ Blank w ∧ NoBlank j ∧ ∀ st, ws st i = .ok (st, .done j w) := by
  have : ∃ w j, i = w ++ j ∧ Blank w ∧ NoBlank j := by
    induction i with
    | nil => exact ⟨[], [], rfl, by simp [Blank], by simp [NoBlank]⟩
    | cons c i ih =>
      by_cases hc : c = ' ' ∨ c = '\t'
      · obtain ⟨w, j, rfl, h1, h2⟩ := ih
        refine ⟨c :: w, j, rfl, ?_, h2⟩
        intro d hd
        rcases List.mem_cons.mp hd with rfl | hd
        · exact hc
        · exact h1 d hd
      · refine ⟨[], c :: i, rfl, by simp [Blank], fun x => ⟨fun e => hc (.inl ?_), fun e => hc (.inr ?_)⟩⟩ <;> (simp at e; exact e.1)
  obtain ⟨w, j, rfl, h1, h2⟩ := this
  refine ⟨w, j, rfl, h1, h2, fun st => ws_fwd h1 ?_ st⟩
  intro c t e hc
  simp at hc
  rcases hc with rfl | rfl
  · exact (h2 t).1 e
  · exact (h2 t).2 e

theorem NoBlank.nil {w j : Str} (h : NoBlank (w ++ j)) (hw : Blank w) : w = [] := by
  cases w with
  | nil => rfl
  | cons c w =>
    rcases hw c (by simp) with rfl | rfl
    · exact absurd rfl (h (w ++ j)).1
    · exact absurd rfl (h (w ++ j)).2

theorem comment_split (i : Str) : (∃ t j, i = remark t ++ j ∧ CommentText t ∧ CommentEnds j ∧ ∀ st, comment st i = .ok (st, .done j t)) ∨
    ((∀ x, i ≠ '#' :: x) ∧ ∀ st, P.complete comment st i = .ok (st, .err)) := by
  by_cases h : ∃ x, i = '#' :: x
  · obtain ⟨x, rfl⟩ := h
    have h1 : CommentText (x.takeWhile notEol) := (notEol_text _).mp fun c hc => by
      have := List.all_takeWhile (p := notEol) (l := x)
      exact List.all_eq_true.mp this c hc
    have h2 : ∀ c t, x.dropWhile notEol = c :: t → notEol c = false := by
      intro c t e
      clear h1
      induction x with
      | nil => simp at e
      | cons d x ih =>
        by_cases hd : notEol d = true
        · simp [hd] at e; exact ih e
        · simp [hd] at e; rw [← e.1]; simpa using hd
    have e : '#' :: x = remark (x.takeWhile notEol) ++ x.dropWhile notEol := by simp [remark]
    refine .inl ⟨_, _, e, h1, .of h2, fun st => ?_⟩
    conv => lhs; rw [e]
    exact comment_fwd h1 h2 st
  · refine .inr ⟨fun x e => h ⟨x, e⟩, fun st => ?_⟩
    simp only [comment, bind_eq]
    cases i with
    | nil => exact complete_inc (bind_inc tag_nil)
    | cons c t => exact complete_err (bind_err (tag1_ne (fun e => h ⟨t, by rw [e]⟩) (by decide)))

theorem commentOrNl_split (i : Str) :
    (∃ pre t nls j, i = pre ++ (remark t ++ (nls ++ j)) ∧ Spaces pre ∧ CommentText t ∧ Spaces nls ∧ CommentEnds (nls ++ j) ∧ NoSpace j ∧
      ∀ st, commentOrNl st i = .ok (st, .done j (.comment pre t nls))) ∨
    ∃ w j, i = w ++ j ∧ Spaces w ∧ NoSpace j ∧ (∀ x, j ≠ '#' :: x) ∧ ∀ st, commentOrNl st i = .ok (st, .done j (.newlines w)) := by
  obtain ⟨w, j, rfl, h1, h2, h3⟩ := wsNewline_split i
  rcases comment_split j with ⟨t, j', rfl, g1, g2, g3⟩ | ⟨g1, g2⟩
  · obtain ⟨w', j, rfl, f1, f2, f3⟩ := wsNewline_split j'
    refine .inl ⟨w, t, w', j, rfl, h1, g1, f1, g2, f2, fun st => alt_done (complete_done ?_)⟩
    simp only [commentNl, bind_eq]
    rw [bind_done (h3 st), bind_done (g3 st), bind_done (f3 st)]
    rfl
  · refine .inr ⟨w, j, rfl, h1, h2, g1, fun st => ?_⟩
    have : P.complete commentNl st (w ++ j) = .ok (st, .err) := by
      simp only [commentNl, bind_eq, P.complete]
      rw [bind_done (h3 st)]
      have := g2 st
      simp only [P.complete] at this
      rcases hc : comment st j with ⟨st', o⟩ | x | _
      · rw [hc] at this
        cases o with
        | done r a => simp at this
        | err => simp at this; rw [bind_err (hc.trans (by rw [this]))]
        | inc => simp at this; rw [bind_inc (hc.trans (by rw [this]))]
      · rw [hc] at this; simp at this
      · rw [hc] at this; simp at this
    unfold commentOrNl
    rw [alt_err this]
    simp only [P.mapP]
    rw [bind_done (complete_done (h3 st))]
    rfl

/-- No blank, line break or comment follows. -/
def Stuck (i : Str) : Prop := NoSpace i ∧ ∀ x, i ≠ '#' :: x

theorem more_split : ∀ (n : Nat) (i : Str), i.length < n → NoSpace i →
    ∃ cs j, i = gapText cs ++ j ∧ MoreTaken cs j ∧ Stuck j ∧ ∀ acc st, P.many1Loop commentOrNl n acc st i = .ok (st, .done j (acc ++ cs)) := by
  intro n
  induction n with
  | zero => intro i h; omega
  | succ n ih =>
    intro i hn hi
    by_cases he : i = []
    · subst he
      exact ⟨[], [], rfl, trivial, ⟨hi, by simp⟩, fun acc st => by simp [P.many1Loop]⟩
    · rcases commentOrNl_split i with ⟨pre, t, nls, j, rfl, h1, h2, h3, h4, h5, h6⟩ | ⟨w, j, rfl, h1, h2, h3, h4⟩
      · have := hi.nil h1
        subst this
        obtain ⟨cs, j', rfl, g1, g2, g3⟩ := ih j (by simp [remark] at hn; omega) h5
        refine ⟨.comment [] t nls :: cs, j', by simp [gapText, CNL.text], ⟨rfl, h2, h3, by simpa using h4, g1⟩, g2, fun acc st => ?_⟩
        unfold P.many1Loop
        rw [if_neg he, h6]
        dsimp only
        rw [if_neg (by simp [remark]; omega), g3]
        simp
      · have := hi.nil h1
        subst this
        refine ⟨[], j, rfl, trivial, ⟨h2, h3⟩, fun acc st => ?_⟩
        unfold P.many1Loop
        rw [if_neg he, h4]
        simp

theorem gap_split (i : Str) : ∃ cs j, i = gapText cs ++ j ∧ GapTaken cs j ∧ Stuck j ∧ ∀ st, commentOrNls st i = .ok (st, .done j cs) := by
  rcases commentOrNl_split i with ⟨pre, t, nls, j, rfl, h1, h2, h3, h4, h5, h6⟩ | ⟨w, j, rfl, h1, h2, h3, h4⟩
  · obtain ⟨cs, j', rfl, g1, g2, g3⟩ := more_split _ j (Nat.lt_succ_self _) h5
    refine ⟨.comment pre t nls :: cs, j', by simp [gapText, CNL.text], ⟨h1, h2, h3, by simpa using h4, g1⟩, g2, fun st => ?_⟩
    unfold commentOrNls P.many1
    rw [bind_done (h6 st), g3]
    simp
  · obtain ⟨cs, j', e, g1, g2, g3⟩ := more_split _ j (Nat.lt_succ_self _) h2
    cases cs with
    | cons a cs =>
      cases a with
      | newlines w => exact absurd g1 (by simp [MoreTaken])
      | comment pre t nls =>
        obtain ⟨rfl, _⟩ := g1
        exact absurd (by rw [e]; simp [gapText, CNL.text, remark]) (h3 (t ++ nls ++ gapText cs ++ j'))
    | nil =>
      simp only [gapText, List.nil_append] at e
      subst e
      refine ⟨[.newlines w], j, by simp [gapText, CNL.text], h1, g2, fun st => ?_⟩
      unfold commentOrNls P.many1
      rw [bind_done (h4 st), g3]
      simp

/-- Where nothing can be read of a gap, the gap is empty. -/
theorem Stuck.gap {cs : List CNL} {j k : Str} (h : Stuck (gapText cs ++ j)) (hg : GapTaken cs k) : cs = [.newlines []] := by
  match cs, hg with
  | [.newlines w], hg =>
    have h1 := h.1
    simp only [gapText, CNL.text, List.append_nil] at h1
    rw [NoSpace.nil h1 hg]
  | .comment pre t nls :: cs, ⟨h1, _⟩ =>
    have e : gapText (.comment pre t nls :: cs) ++ j = pre ++ ('#' :: (t ++ nls ++ gapText cs ++ j)) := by simp [gapText, CNL.text, remark]
    rw [e] at h
    have := h.1.nil h1
    subst this
    exact absurd rfl (h.2 _)

theorem Stuck.noBlank {i : Str} (h : Stuck i) : NoBlank i := fun x =>
  ⟨fun e => h.1 [' '] x .blank e, fun e => h.1 ['\t'] x .tab e⟩

/-! ## Separators -/

theorem sep_split (i : Str) : ∃ sep j, i = commaText sep ++ j ∧ SepWf sep ∧ (sep.isSome → NoBlank j) ∧
    ∀ st, P.opt (P.complete arraySep) st i = .ok (st, .done j sep) := by
  by_cases h : NoComma i
  · exact ⟨none, i, rfl, by simp [SepWf], by simp, fun st => sep_none h st⟩
  · simp only [NoComma, ne_eq, Classical.not_forall, Classical.not_not] at h
    obtain ⟨w, x, h1, rfl⟩ := h
    obtain ⟨w2, j, rfl, g1, g2, _⟩ := ws_split x
    refine ⟨some ⟨w, w2⟩, j, by simp [commaText], by simp [SepWf, WSSep.wf, h1, g1], fun _ => g2, fun st => ?_⟩
    have := sep_some (w := ⟨w, w2⟩) ⟨h1, g1⟩ g2 st
    simpa using this

/-- The comma and the gap after a value. -/
theorem apart_split {st st1 st2 : PState} {i j j' : Str} {sep : Option WSSep} {cn : List CNL}
    (h1 : P.opt (P.complete arraySep) st i = .ok (st1, .done j sep)) (h2 : P.complete commentOrNls st1 j = .ok (st2, .done j' cn)) :
    i = commaText sep ++ gapText cn ++ j' ∧ ApartTaken sep cn j' ∧ Stuck j' := by
  obtain ⟨sep', k, rfl, g1, g2, g3⟩ := sep_split i
  rw [g3] at h1
  simp at h1
  obtain ⟨_, rfl, rfl⟩ := h1
  obtain ⟨cs, k', rfl, f1, f2, f3⟩ := gap_split k
  have := complete_done_inv h2
  rw [f3] at this
  simp at this
  obtain ⟨_, rfl, rfl⟩ := this
  refine ⟨by simp, ⟨g1, f1, fun h => ?_⟩, f2⟩
  have := g2 h
  intro x
  constructor
  · intro e; rw [e] at this; exact (this _).1 rfl
  · intro e; rw [e] at this; exact (this _).2 rfl

/-! ## Values -/

/-- What a parser of values has read has been taken. -/
def BackV (pval : P Addr) : Prop := ∀ st i st' r a, pval st i = .ok (st', .done r a) → ∃ t : VT, t.taken r ∧ i = t.text ++ r

theorem elems_back {pval : P Addr} (hp : BackV pval) : ∀ n acc st i st' r vs, P.many0Loop (arrayValue pval) n acc st i = .ok (st', .done r vs) →
    ∃ es : Elems, es.taken r ∧ i = es.text ++ r ∧ (Stuck i → Stuck r) := by
  intro n
  induction n with
  | zero => intro acc st i st' r vs h; simp [P.many0Loop] at h
  | succ n ih =>
    intro acc st i st' r vs h
    unfold P.many0Loop at h
    split at h
    · simp at h
      obtain ⟨_, rfl, _⟩ := h
      exact ⟨.nil, by simp [Elems.taken], by simp [Elems.text], id⟩
    · split at h
      · simp at h
        obtain ⟨_, rfl, _⟩ := h
        exact ⟨.nil, by simp [Elems.taken], by simp [Elems.text], id⟩
      · simp at h
      next st1 r1 a ha =>
        split at h
        · simp at h
        · obtain ⟨es, g1, rfl, g3⟩ := ih _ _ _ _ _ _ h
          simp only [arrayValue, bind_eq] at ha
          obtain ⟨s1, k1, v, f1, ha⟩ := bind_done_inv ha
          obtain ⟨s2, k2, sep, f2, ha⟩ := bind_done_inv ha
          obtain ⟨s3, k3, cn, f3, ha⟩ := bind_done_inv ha
          have hk : k3 = es.text ++ r := by
            simp only [P.act] at ha
            split at ha <;> simp at ha
            split at * <;> simp_all
          subst hk
          obtain ⟨rfl, e2, e3⟩ := apart_split f2 f3
          obtain ⟨t, d1, rfl⟩ := hp _ _ _ _ _ f1
          refine ⟨.cons t sep cn es, ?_, by simp [Elems.text], fun _ => g3 e3⟩
          rw [Elems.taken]
          exact ⟨by simpa using d1, e2, g1⟩
      · simp at h
      · simp at h

theorem keyval_back {pval : P Addr} (hp : BackV pval) {st st' : PState} {i r : Str} {kv : KeyVal} (h : keyval pval st i = .ok (st', .done r kv)) :
    ∃ (k : Str) (ws : WSSep) (v : VT), KeyWf k ∧ ws.wf ∧ v.taken r ∧ i = k ++ ws.ws1 ++ lit% "=" ++ ws.ws2 ++ v.text ++ r := by
  simp only [keyval, bind_eq] at h
  obtain ⟨s1, k1, k, f1, h⟩ := bind_done_inv h
  obtain ⟨s2, k2, ws, f2, h⟩ := bind_done_inv h
  obtain ⟨s3, k3, a, f3, h⟩ := bind_done_inv h
  have hk : k3 = r := by
    simp only [P.act] at h
    split at h <;> simp at h
    split at * <;> simp_all
  subst hk
  obtain ⟨t, d1, rfl⟩ := hp _ _ _ _ _ f3
  rcases key_spec st i with ⟨k', r', e1, rfl, e3⟩ | e
  · rw [e3] at f1
    simp at f1
    obtain ⟨_, rfl, rfl⟩ := f1
    rcases Lex.keyvalSep s1 r' with ⟨a', m, r2, e4, rfl, rfl, e6⟩ | e4 | e4
    · rw [e4] at f2
      simp at f2
      obtain ⟨_, rfl, rfl⟩ := f2
      exact ⟨k', a', t, e1, e6, d1, by simp⟩
    · rw [e4] at f2; simp at f2
    · rw [e4] at f2; simp at f2
  · rw [e] at f1; simp at f1

theorem pairs_back {pval : P Addr} (hp : BackV pval) : ∀ n acc st i st' r vs, P.many0Loop (tableKeyval pval) n acc st i = .ok (st', .done r vs) →
    ∃ es : Pairs, es.taken r ∧ i = es.text ++ r ∧ (NoBlank i → NoBlank r) := by
  intro n
  induction n with
  | zero => intro acc st i st' r vs h; simp [P.many0Loop] at h
  | succ n ih =>
    intro acc st i st' r vs h
    unfold P.many0Loop at h
    split at h
    · simp at h
      obtain ⟨_, rfl, _⟩ := h
      exact ⟨.nil, by simp [Pairs.taken], by simp [Pairs.text], id⟩
    · split at h
      · simp at h
        obtain ⟨_, rfl, _⟩ := h
        exact ⟨.nil, by simp [Pairs.taken], by simp [Pairs.text], id⟩
      · simp at h
      next st1 r1 a ha =>
        split at h
        · simp at h
        · obtain ⟨es, g1, rfl, g3⟩ := ih _ _ _ _ _ _ h
          simp only [tableKeyval, bind_eq] at ha
          obtain ⟨s1, k1, v, f1, ha⟩ := bind_done_inv ha
          obtain ⟨s2, k2, sep, f2, ha⟩ := bind_done_inv ha
          obtain ⟨s3, k3, cn, f3, ha⟩ := bind_done_inv ha
          simp [pure_eq, P.pure] at ha
          obtain ⟨_, rfl, _⟩ := ha
          obtain ⟨rfl, e2, e3⟩ := apart_split f2 f3
          obtain ⟨k, ws, t, d1, d2, d3, rfl⟩ := keyval_back hp f1
          refine ⟨.cons k ws t sep cn es, ?_, by simp [Pairs.text], fun _ => g3 e3.noBlank⟩
          rw [Pairs.taken]
          exact ⟨d1, d2, by simpa using d3, e2, g1⟩
      · simp at h
      · simp at h

theorem tag_done_inv {t : Str} {st st' : PState} {i r x : Str} (h : P.tag t st i = .ok (st', .done r x)) : i = t ++ r := by
  rcases Lex.tag t st i with ⟨_, m, r', h1, rfl, rfl, rfl⟩ | h1 | h1
  · rw [h1] at h; simp at h; rw [h.2.1]
  · rw [h1] at h; simp at h
  · rw [h1] at h; simp at h

theorem array_back {pval : P Addr} (hp : BackV pval) {st st' : PState} {i r : Str} {a : TVal} (h : array pval st i = .ok (st', .done r a)) :
    ∃ t : VT, t.taken r ∧ i = t.text ++ r := by
  simp only [array] at h
  split at h
  next s o ho =>
    simp at h
    obtain ⟨_, rfl⟩ := h
    simp only [arrayInternal, bind_eq] at ho
    obtain ⟨s1, k1, _, f1, ho⟩ := bind_done_inv ho
    obtain ⟨s2, k2, c1, f2, ho⟩ := bind_done_inv ho
    obtain ⟨s3, k3, vs, f3, ho⟩ := bind_done_inv ho
    obtain ⟨s4, k4, c2, f4, ho⟩ := bind_done_inv ho
    obtain ⟨s5, k5, _, f5, ho⟩ := bind_done_inv ho
    simp [pure_eq, P.pure] at ho
    obtain ⟨_, rfl, _⟩ := ho
    have e1 := tag_done_inv f1
    have e5 := tag_done_inv f5
    subst e1 e5
    obtain ⟨c1', j, rfl, g1, g2, g3⟩ := gap_split k1
    rw [g3] at f2
    simp at f2
    obtain ⟨_, rfl, rfl⟩ := f2
    obtain ⟨es, d1, rfl, d3⟩ := elems_back hp _ _ _ _ _ _ _ f3
    obtain ⟨c2', j', rfl, b1, b2, b3⟩ := gap_split k3
    have hs := d3 g2
    rw [b3] at f4
    simp at f4
    obtain ⟨_, rfl, rfl⟩ := f4
    have := hs.gap b1
    subst this
    simp only [gapText, CNL.text, List.append_nil, List.nil_append] at d1 d3 g1 ⊢
    refine ⟨.arr es c1' [.newlines []], ?_, by simp [VT.text, gapText, CNL.text]⟩
    rw [VT.taken]
    exact ⟨by simpa using g1, d1, rfl⟩
  all_goals simp at h

theorem inlineTable_back {pval : P Addr} (hp : BackV pval) {st st' : PState} {i r : Str} {a : TVal} (h : inlineTable pval st i = .ok (st', .done r a)) :
    ∃ t : VT, t.taken r ∧ i = t.text ++ r := by
  simp only [inlineTable, bind_eq] at h
  obtain ⟨s1, k1, _, f1, h⟩ := bind_done_inv h
  obtain ⟨s2, k2, w1, f2, h⟩ := bind_done_inv h
  obtain ⟨s3, k3, vs, f3, h⟩ := bind_done_inv h
  obtain ⟨s4, k4, w2, f4, h⟩ := bind_done_inv h
  obtain ⟨s5, k5, _, f5, h⟩ := bind_done_inv h
  simp [pure_eq, P.pure] at h
  obtain ⟨_, rfl, _⟩ := h
  have e1 := tag_done_inv f1
  have e5 := tag_done_inv f5
  subst e1 e5
  obtain ⟨w, j, rfl, g1, g2, g3⟩ := ws_split k1
  rw [g3] at f2
  simp at f2
  obtain ⟨_, rfl, rfl⟩ := f2
  have hes : ∃ es : Pairs, es.taken k3 ∧ j = es.text ++ k3 ∧ (NoBlank j → NoBlank k3) := by
    rcases opt_done_inv f3 with ⟨x, _, hx⟩ | ⟨_, rfl⟩
    · exact pairs_back hp _ _ _ _ _ _ _ (complete_done_inv hx)
    · exact ⟨.nil, by simp [Pairs.taken], by simp [Pairs.text], id⟩
  obtain ⟨es, d1, rfl, d3⟩ := hes
  obtain ⟨w', j', rfl, b1, b2, b3⟩ := ws_split k3
  rw [b3] at f4
  simp at f4
  obtain ⟨_, rfl, rfl⟩ := f4
  have := (d3 g2).nil b1
  subst this
  refine ⟨.itab es ⟨w, []⟩, ?_, by simp [VT.text]⟩
  rw [VT.taken]
  exact ⟨g1, d1, rfl⟩

theorem alloc_done_inv {v : TVal} {st st' : PState} {i r : Str} {a : Addr} (h : alloc v st i = .ok (st', .done r a)) : r = i := by
  simp [alloc, P.act] at h
  exact h.2.1.symm

theorem scalarVal_back : BackV scalarVal := by
  intro st i st' r a h
  rcases scalarVal_best i with ⟨s, r', h1, rfl, h3⟩ | ⟨_, h1⟩
  · rw [h3] at h
    obtain ⟨x, _, h⟩ := Out.bind_ok.mp h
    simp at h
    obtain ⟨_, rfl, _⟩ := h
    exact ⟨.leaf s, by rw [VT.taken]; exact h1, by simp [VT.text]⟩
  · rw [h1 st] at h; simp at h

theorem valFuel_back : ∀ n, BackV (valFuel n) := by
  intro n
  induction n with
  | zero => intro st i st' r a h; simp [valFuel] at h
  | succ n ih =>
    intro st i st' r a h
    simp only [valFuel] at h
    rw [valStep_eq] at h
    rcases alt_done_inv h with h | ⟨s1, _, h⟩
    · obtain ⟨s, k, v, f1, f2⟩ := bind_done_inv h
      have := alloc_done_inv f2
      subst this
      exact array_back ih (complete_done_inv f1)
    · rcases alt_done_inv h with h | ⟨s1, _, h⟩
      · obtain ⟨s, k, v, f1, f2⟩ := bind_done_inv h
        have := alloc_done_inv f2
        subst this
        exact inlineTable_back ih (complete_done_inv f1)
      · exact scalarVal_back _ _ _ _ _ h

theorem val_back : BackV val := fun st i st' r a h => valFuel_back _ st i st' r a h

/-! ## Lines -/

/-- Where a comment, if there is one, ends, and no comment begins if there is none. -/
def RemarkEnds (r : Str) : Option Str → Prop
  | some _ => CommentEnds r
  | none => ∀ x, r ≠ '#' :: x

/-- Nothing of what follows belongs to the line. -/
def LineEnds (r : Str) : ET → Prop
  | .blank _ => NoBlank r
  | .comment _ _ => CommentEnds r
  | .table _ _ _ c => RemarkEnds r c ∧ NoBlank (optComment c ++ r)
  | .kv _ _ _ _ _ c => RemarkEnds r c ∧ NoBlank (optComment c ++ r)

theorem expression_back {st st' : PState} {i r : Str} {x : Expression} (h : expression st i = .ok (st', .done r x)) :
    ∃ e : ET, e.taken r ∧ i = e.text ++ r ∧ LineEnds r e := by
  unfold expression at h
  have hc : ∀ {s s1 : PState} {k k1 : Str} {c : Option Str}, P.opt (P.complete comment) s k = .ok (s1, .done k1 c) →
      k = optComment c ++ k1 ∧ CommentWf c ∧ RemarkEnds k1 c := by
    intro s s1 k k1 c h
    rcases comment_split k with ⟨t, j, rfl, g1, g2, g3⟩ | ⟨g1, g2⟩
    · rw [opt_done (complete_done (g3 s))] at h
      simp at h
      obtain ⟨_, rfl, rfl⟩ := h
      exact ⟨rfl, fun t' e => by simp at e; subst e; exact g1, g2⟩
    · rw [opt_err (g2 s)] at h
      simp at h
      obtain ⟨_, rfl, rfl⟩ := h
      exact ⟨rfl, by simp [CommentWf], g1⟩
  have hw : ∀ {s s1 : PState} {k k1 w : Str}, ws s k = .ok (s1, .done k1 w) → k = w ++ k1 ∧ Blank w ∧ NoBlank k1 := by
    intro s s1 k k1 w h
    obtain ⟨w', j, rfl, g1, g2, g3⟩ := ws_split k
    rw [g3] at h
    simp at h
    obtain ⟨_, rfl, rfl⟩ := h
    exact ⟨rfl, g1, g2⟩
  rcases alt_done_inv h with h | ⟨s1, _, h⟩
  · have h := complete_done_inv h
    simp only [tableComment, bind_eq] at h
    obtain ⟨s1, k1, w1, f1, h⟩ := bind_done_inv h
    obtain ⟨s2, k2, t, f2, h⟩ := bind_done_inv h
    obtain ⟨s3, k3, w2, f3, h⟩ := bind_done_inv h
    obtain ⟨s4, k4, c, f4, h⟩ := bind_done_inv h
    simp [pure_eq, P.pure] at h
    obtain ⟨_, rfl, _⟩ := h
    obtain ⟨rfl, b1, _⟩ := hw f1
    obtain ⟨rfl, b3, b5⟩ := hw f3
    obtain ⟨rfl, b4, b6⟩ := hc f4
    have ht := table_spec s1 k1
    generalize ho : table s1 k1 = o at ht f2
    cases ht with
    | done t' r' _ h1 h2 h3 =>
      simp at f2
      obtain ⟨_, rfl, rfl⟩ := f2
      subst h2
      exact ⟨.table w1 t' w2 c, ⟨b1, h1, b3, b4⟩, by simp [ET.text], b6, b5⟩
    | abort _ _ e h1 h2 h3 => exact absurd f2 (by simp)
    | _ => simp at f2
  rcases alt_done_inv h with h | ⟨s2, _, h⟩
  · have h := complete_done_inv h
    simp only [keyvalComment, bind_eq] at h
    obtain ⟨s1, k1, w1, f1, h⟩ := bind_done_inv h
    obtain ⟨s2, k2, t, f2, h⟩ := bind_done_inv h
    obtain ⟨s3, k3, w2, f3, h⟩ := bind_done_inv h
    obtain ⟨s4, k4, c, f4, h⟩ := bind_done_inv h
    simp [pure_eq, P.pure] at h
    obtain ⟨_, rfl, _⟩ := h
    obtain ⟨rfl, b1, _⟩ := hw f1
    obtain ⟨rfl, b3, b5⟩ := hw f3
    obtain ⟨rfl, b4, b6⟩ := hc f4
    obtain ⟨k, ws, v, d1, d2, d3, rfl⟩ := keyval_back val_back f2
    exact ⟨.kv w1 k ws v w2 c, ⟨b1, d1, d2, by simpa using d3, b3, b4⟩, by simp [ET.text], b6, b5⟩
  rcases alt_done_inv h with h | ⟨s2, _, h⟩
  · have h := complete_done_inv h
    simp only [wsComment, bind_eq] at h
    obtain ⟨s1, k1, w1, f1, h⟩ := bind_done_inv h
    obtain ⟨s2, k2, c, f2, h⟩ := bind_done_inv h
    simp [pure_eq, P.pure] at h
    obtain ⟨_, rfl, _⟩ := h
    obtain ⟨rfl, b1, _⟩ := hw f1
    rcases comment_split k1 with ⟨t, j, rfl, g1, g4, g3⟩ | ⟨_, g2⟩
    · rw [g3] at f2
      simp at f2
      obtain ⟨_, rfl, rfl⟩ := f2
      exact ⟨.comment w1 t, ⟨b1, g1⟩, by simp [ET.text], g4⟩
    · have := complete_done (p := comment) f2
      rw [g2] at this; simp at this
  · have h := complete_done_inv h
    simp only [wsExpr, bind_eq] at h
    obtain ⟨s1, k1, w1, f1, h⟩ := bind_done_inv h
    simp [pure_eq, P.pure] at h
    obtain ⟨_, rfl, _⟩ := h
    obtain ⟨rfl, b1, b2⟩ := hw f1
    exact ⟨.blank w1, b1, by simp [ET.text], b2⟩

theorem lines_back : ∀ n acc st i st' vs, P.many0Loop nlExpression n acc st i = .ok (st', .done [] vs) → ∃ ls, LinesTaken ls ∧ i = linesText ls := by
  intro n
  induction n with
  | zero => intro acc st i st' vs h; simp [P.many0Loop] at h
  | succ n ih =>
    intro acc st i st' vs h
    unfold P.many0Loop at h
    split at h
    · simp at h
      obtain ⟨_, rfl, _⟩ := h
      exact ⟨[], trivial, rfl⟩
    · split at h
      · simp at h
        obtain ⟨_, rfl, _⟩ := h
        exact ⟨[], trivial, rfl⟩
      · simp at h
      next st1 r1 a ha =>
        split at h
        · simp at h
        · obtain ⟨ls, g1, rfl⟩ := ih _ _ _ _ _ h
          simp only [nlExpression, bind_eq] at ha
          obtain ⟨s1, k1, nl, f1, ha⟩ := bind_done_inv ha
          obtain ⟨s2, k2, x, f2, ha⟩ := bind_done_inv ha
          simp [pure_eq, P.pure] at ha
          obtain ⟨_, rfl, _⟩ := ha
          obtain ⟨e, d1, rfl, _⟩ := expression_back f2
          rcases newline_spec st i with ⟨nl', r, e1, rfl, e3⟩ | e
          · rw [e3] at f1
            simp at f1
            obtain ⟨_, rfl, rfl⟩ := f1
            exact ⟨(nl', e) :: ls, ⟨e1, d1, g1⟩, by simp [linesText]⟩
          · rw [e] at f1; simp at f1
      · simp at h
      · simp at h

/-- A text that the document parser reads to the end is the text of lines that are taken. -/
theorem toml_back {st st' : PState} {i : Str} {x : Toml} (h : toml st i = .ok (st', .done [] x)) : ∃ ls, DocTaken ls ∧ i = linesText ls := by
  simp only [toml, bind_eq] at h
  obtain ⟨s1, k1, e, f1, h⟩ := bind_done_inv h
  obtain ⟨s2, k2, vs, f2, h⟩ := bind_done_inv h
  simp [pure_eq, P.pure] at h
  obtain ⟨_, rfl, _⟩ := h
  obtain ⟨ls, g1, rfl⟩ := lines_back _ _ _ _ _ _ f2
  obtain ⟨e, d1, rfl, _⟩ := expression_back f1
  exact ⟨([], e) :: ls, ⟨rfl, d1, g1⟩, by simp [linesText]⟩

end Tomllib
