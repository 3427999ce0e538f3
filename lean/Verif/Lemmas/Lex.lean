import Verif.Lemmas.Eff
import Verif.Lemmas.Lang
/-!
# Parsers that only read text
-/

namespace Tomllib
open P

/-- `is_keychar` accepts the characters of bare keys. -/
theorem isKeychar_eq (c : Char) : isKeychar c = isBareChar c := by
  have e : ∀ (d : Char), (c.toNat = d.toNat ↔ c = d) := fun d => ⟨fun h => Char.ext (UInt32.toNat_inj.mp h), fun h => h ▸ rfl⟩
  have e1 : c.toNat = 45 ↔ c = '-' := e '-'
  have e2 : c.toNat = 95 ↔ c = '_' := e '_'
  have e3 : c.val.toNat = c.toNat := rfl
  rw [Bool.eq_iff_iff]
  simp [isKeychar, isBareChar, Char.isAlphanum, Char.isAlpha, Char.isUpper, Char.isLower, Char.isDigit, UInt32.le_iff_toNat_le, e1, e2, e3]

/-- A parser that leaves the state alone; when it succeeds it has consumed some `m` with `R a m`. -/
def Lex {α : Type} (p : P α) (R : α → Str → Prop) : Prop :=
  ∀ st i, (∃ a m r, p st i = .ok (st, .done r a) ∧ i = m ++ r ∧ R a m) ∨ p st i = .ok (st, .err) ∨ p st i = .ok (st, .inc)

/-- The same, never `Incomplete`. -/
def LexC {α : Type} (p : P α) (R : α → Str → Prop) : Prop :=
  ∀ st i, (∃ a m r, p st i = .ok (st, .done r a) ∧ i = m ++ r ∧ R a m) ∨ p st i = .ok (st, .err)

/-- The same, always successful. -/
def LexT {α : Type} (p : P α) (R : α → Str → Prop) : Prop :=
  ∀ st i, ∃ a m r, p st i = .ok (st, .done r a) ∧ i = m ++ r ∧ R a m

section
variable {α β : Type} {p q : P α} {R S : α → Str → Prop}

theorem LexT.c (h : LexT p R) : LexC p R := fun st i => .inl (h st i)
theorem LexC.l (h : LexC p R) : Lex p R := fun st i => (h st i).elim .inl (fun h => .inr (.inl h))
theorem LexT.l (h : LexT p R) : Lex p R := h.c.l

theorem Lex.mono (h : Lex p R) (f : ∀ a m, R a m → S a m) : Lex p S := fun st i => by
  rcases h st i with ⟨a, m, r, h1, h2, h3⟩ | h | h
  · exact .inl ⟨a, m, r, h1, h2, f _ _ h3⟩
  · exact .inr (.inl h)
  · exact .inr (.inr h)
theorem LexC.mono (h : LexC p R) (f : ∀ a m, R a m → S a m) : LexC p S := fun st i => by
  rcases h st i with ⟨a, m, r, h1, h2, h3⟩ | h
  · exact .inl ⟨a, m, r, h1, h2, f _ _ h3⟩
  · exact .inr h
theorem LexT.mono (h : LexT p R) (f : ∀ a m, R a m → S a m) : LexT p S := fun st i => by
  obtain ⟨a, m, r, h1, h2, h3⟩ := h st i
  exact ⟨a, m, r, h1, h2, f _ _ h3⟩

theorem bind_eq (p : P α) (f : α → P β) : (p >>= f) = P.bind p f := rfl
theorem pure_eq (a : α) : (pure a : P α) = P.pure a := rfl

theorem bind_done {f : α → P β} {st st' i r a} (h : p st i = .ok (st', .done r a)) : P.bind p f st i = f a st' r := by
  simp [P.bind, h]
theorem bind_err {f : α → P β} {st st' i} (h : p st i = .ok (st', .err)) : P.bind p f st i = .ok (st', .err) := by
  simp [P.bind, h]
theorem bind_inc {f : α → P β} {st st' i} (h : p st i = .ok (st', .inc)) : P.bind p f st i = .ok (st', .inc) := by
  simp [P.bind, h]
theorem bind_panic {f : α → P β} {st i x} (h : p st i = .panic x) : P.bind p f st i = .panic x := by
  simp [P.bind, h]
theorem bind_fuel {f : α → P β} {st i} (h : p st i = .fuel) : P.bind p f st i = .fuel := by
  simp [P.bind, h]

theorem Lex.bind {f : α → P β} {S : α → β → Str → Prop} (h : Lex p R) (hf : ∀ a, Lex (f a) (S a)) :
    Lex (P.bind p f) (fun b m => ∃ a m1 m2, m = m1 ++ m2 ∧ R a m1 ∧ S a b m2) := fun st i => by
  rcases h st i with ⟨a, m, r, h1, h2, h3⟩ | h | h
  · rw [bind_done h1]
    rcases hf a st r with ⟨b, m', r', h1', h2', h3'⟩ | h' | h'
    · exact .inl ⟨b, m ++ m', r', h1', by simp [h2, h2'], a, m, m', rfl, h3, h3'⟩
    · exact .inr (.inl h')
    · exact .inr (.inr h')
  · rw [bind_err h]; exact .inr (.inl rfl)
  · rw [bind_inc h]; exact .inr (.inr rfl)

theorem LexC.bind {f : α → P β} {S : α → β → Str → Prop} (h : LexC p R) (hf : ∀ a, LexC (f a) (S a)) :
    LexC (P.bind p f) (fun b m => ∃ a m1 m2, m = m1 ++ m2 ∧ R a m1 ∧ S a b m2) := fun st i => by
  rcases h st i with ⟨a, m, r, h1, h2, h3⟩ | h
  · rw [bind_done h1]
    rcases hf a st r with ⟨b, m', r', h1', h2', h3'⟩ | h'
    · exact .inl ⟨b, m ++ m', r', h1', by simp [h2, h2'], a, m, m', rfl, h3, h3'⟩
    · exact .inr h'
  · rw [bind_err h]; exact .inr rfl

theorem LexT.pure (a : α) : LexT (P.pure a) (fun b m => b = a ∧ m = []) :=
  fun _ i => ⟨a, [], i, rfl, rfl, rfl, rfl⟩

theorem Lex.mapP {f : α → β} (h : Lex p R) : Lex (P.mapP f p) (fun b m => ∃ a, b = f a ∧ R a m) :=
  (Lex.bind h fun a => (LexT.pure (f a)).l).mono (by
    rintro b m ⟨a, m1, m2, rfl, h1, rfl, rfl⟩
    exact ⟨a, rfl, by simpa using h1⟩)
theorem LexC.mapP {f : α → β} (h : LexC p R) : LexC (P.mapP f p) (fun b m => ∃ a, b = f a ∧ R a m) :=
  (LexC.bind h fun a => (LexT.pure (f a)).c).mono (by
    rintro b m ⟨a, m1, m2, rfl, h1, rfl, rfl⟩
    exact ⟨a, rfl, by simpa using h1⟩)

theorem Lex.complete (h : Lex p R) : LexC (P.complete p) R := fun st i => by
  rcases h st i with ⟨a, m, r, h1, h2, h3⟩ | h | h
  · exact .inl ⟨a, m, r, by simp [P.complete, h1], h2, h3⟩
  · exact .inr (by simp [P.complete, h])
  · exact .inr (by simp [P.complete, h])

theorem LexT.complete (h : LexT p R) : LexT (P.complete p) R := fun st i => by
  obtain ⟨a, m, r, h1, h2, h3⟩ := h st i
  exact ⟨a, m, r, by simp [P.complete, h1], h2, h3⟩

theorem Lex.alt (h : Lex p R) (h' : Lex q R) : Lex (P.alt p q) R := fun st i => by
  rcases h st i with ⟨a, m, r, h1, h2, h3⟩ | h | h
  · exact .inl ⟨a, m, r, by simp [P.alt, h1], h2, h3⟩
  · have : P.alt p q st i = q st i := by simp [P.alt, h]
    rw [this]; exact h' st i
  · exact .inr (.inr (by simp [P.alt, h]))

theorem LexC.alt (h : LexC p R) (h' : LexC q R) : LexC (P.alt p q) R := fun st i => by
  rcases h st i with ⟨a, m, r, h1, h2, h3⟩ | h
  · exact .inl ⟨a, m, r, by simp [P.alt, h1], h2, h3⟩
  · have : P.alt p q st i = q st i := by simp [P.alt, h]
    rw [this]; exact h' st i

theorem LexC.altT (h : LexC p R) (h' : LexT q R) : LexT (P.alt p q) R := fun st i => by
  rcases h st i with ⟨a, m, r, h1, h2, h3⟩ | h
  · exact ⟨a, m, r, by simp [P.alt, h1], h2, h3⟩
  · have : P.alt p q st i = q st i := by simp [P.alt, h]
    rw [this]; exact h' st i

theorem LexC.opt (h : LexC p R) :
    LexT (P.opt p) (fun b m => (b = none ∧ m = []) ∨ ∃ a, b = some a ∧ R a m) := fun st i => by
  rcases h st i with ⟨a, m, r, h1, h2, h3⟩ | h
  · exact ⟨some a, m, r, by simp [P.opt, h1], h2, .inr ⟨a, rfl, h3⟩⟩
  · exact ⟨none, [], i, by simp [P.opt, h], rfl, .inl ⟨rfl, rfl⟩⟩

end

theorem Lex.tag (t : Str) : Lex (P.tag t) (fun a m => a = t ∧ m = t) := fun st i => by
  unfold P.tag
  split
  · exact .inr (.inr rfl)
  · split
    next h =>
      refine .inl ⟨t, t, _, rfl, ?_, rfl, rfl⟩
      obtain ⟨r, rfl⟩ := List.isPrefixOf_iff_prefix.mp h
      simp
    next => exact .inr (.inl rfl)

theorem tag_done {t i r : Str} {st st' : PState} {a : Str} (h : P.tag t st i = .ok (st', .done r a)) : st' = st ∧ i = t ++ r := by
  rcases Lex.tag t st i with ⟨a', m, r', h1, h2, h3, h4⟩ | h1 | h1 <;> rw [h1] at h <;> simp at h
  obtain ⟨rfl, rfl, rfl⟩ := h
  subst h4
  exact ⟨rfl, h2⟩

theorem LexC.re (r : Re) : LexC (P.re r) (fun a m => a = m ∧ Lang r m) := fun st i => by
  unfold P.re
  split
  next m rest h =>
    obtain ⟨h1, h2⟩ := Re.find_some h
    exact .inl ⟨m, m, rest, rfl, h1, rfl, h2⟩
  next => exact .inr rfl

/-- A starred pattern always matches. -/
theorem LexT.reStar (g : Bool) (r : Re) : LexT (P.re (.star g r)) (fun a m => a = m ∧ Lang (.star g r) m) := fun st i => by
  unfold P.re
  split
  next m rest h =>
    obtain ⟨h1, h2⟩ := Re.find_some h
    exact ⟨m, m, rest, rfl, h1, rfl, h2⟩
  next h => exact absurd .nil (Re.find_none h [] i rfl)

theorem LexT.takeWhile (f : Char → Bool) : LexT (P.takeWhile f) (fun a m => a = m ∧ ∀ c ∈ m, f c = true) := fun st i =>
  ⟨i.takeWhile f, i.takeWhile f, i.dropWhile f, rfl, (List.takeWhile_append_dropWhile).symm, rfl, fun c hc => by
    have := List.all_takeWhile (p := f) (l := i)
    exact (List.all_eq_true.mp this) c hc⟩

theorem LexC.takeWhile1 (f : Char → Bool) : LexC (P.takeWhile1 f) (fun a m => a = m ∧ m ≠ [] ∧ ∀ c ∈ m, f c = true) := fun st i => by
  unfold P.takeWhile1
  split
  · exact .inr rfl
  next h =>
    exact .inl ⟨_, _, _, rfl, (List.takeWhile_append_dropWhile).symm, rfl, h, fun c hc => by
      have := List.all_takeWhile (p := f) (l := i)
      exact (List.all_eq_true.mp this) c hc⟩

theorem LexT.ws : LexT ws (fun a m => a = m ∧ Blank m) :=
  (LexT.reStar _ _).mono fun _ _ h => ⟨h.1, lang_ws h.2⟩

theorem LexT.wsNewline : LexT wsNewline (fun a m => a = m ∧ Spaces m) :=
  (LexT.reStar _ _).mono fun _ _ h => ⟨h.1, (lang_wsNewline _).mp h.2⟩

theorem Lex.comment : Lex comment (fun a m => m = remark a ∧ CommentText a) :=
  (Lex.bind (Lex.tag _) fun _ => (LexT.takeWhile notEol).l).mono (by
    rintro a m ⟨_, m1, m2, rfl, ⟨rfl, rfl⟩, rfl, h⟩
    exact ⟨rfl, (notEol_text _).mp h⟩)

theorem Lex.keyvalSep : Lex keyvalSep (fun a m => m = a.ws1 ++ lit% "=" ++ a.ws2 ∧ a.wf) :=
  (Lex.bind LexT.ws.l fun w1 => Lex.bind (Lex.tag (lit% "=")) fun _ => Lex.bind LexT.ws.l fun w2 => (LexT.pure (WSSep.mk w1 w2)).l).mono (by
    rintro a m ⟨w1, m1, _, rfl, ⟨rfl, h1⟩, _, m2, _, rfl, ⟨rfl, rfl⟩, w2, m3, _, rfl, ⟨rfl, h3⟩, rfl, rfl⟩
    exact ⟨by simp, h1, h3⟩)

theorem Lex.arraySep : Lex arraySep (fun a m => m = commaText (some a) ∧ a.wf) :=
  (Lex.bind LexT.ws.l fun w1 => Lex.bind (Lex.tag (lit% ",")) fun _ => Lex.bind LexT.ws.l fun w2 => (LexT.pure (WSSep.mk w1 w2)).l).mono (by
    rintro a m ⟨w1, m1, _, rfl, ⟨rfl, h1⟩, _, m2, _, rfl, ⟨rfl, rfl⟩, w2, m3, _, rfl, ⟨rfl, h3⟩, rfl, rfl⟩
    exact ⟨by simp [commaText], h1, h3⟩)

theorem LexT.optSep : LexT (P.opt (P.complete arraySep)) (fun a m => m = commaText a ∧ SepWf a) :=
  (LexC.opt Lex.arraySep.complete).mono (by
    rintro a m (⟨rfl, rfl⟩ | ⟨a, rfl, rfl, h⟩)
    · exact ⟨rfl, by simp [SepWf]⟩
    · exact ⟨rfl, by simpa [SepWf] using h⟩)

theorem LexT.optComment : LexT (P.opt (P.complete comment)) (fun a m => m = optComment a ∧ CommentWf a) :=
  (LexC.opt Lex.comment.complete).mono (by
    rintro a m (⟨rfl, rfl⟩ | ⟨a, rfl, rfl, h⟩)
    · exact ⟨rfl, by simp [CommentWf]⟩
    · exact ⟨rfl, by simpa [CommentWf] using h⟩)

theorem Lex.commentNl : Lex commentNl (fun a m => m = a.text ∧ a.wf) :=
  (Lex.bind LexT.wsNewline.l fun pre => Lex.bind Lex.comment fun c => Lex.bind LexT.wsNewline.l fun n =>
    (LexT.pure (CNL.comment pre c n)).l).mono (by
    rintro a m ⟨w1, m1, _, rfl, ⟨rfl, h1⟩, c, m2, _, rfl, ⟨rfl, h2⟩, w2, m3, _, rfl, ⟨rfl, h3⟩, rfl, rfl⟩
    exact ⟨by simp [CNL.text], h1, h2, h3⟩)

theorem LexT.mapP {α β : Type} {p : P α} {R : α → Str → Prop} {f : α → β} (h : LexT p R) :
    LexT (P.mapP f p) (fun b m => ∃ a, b = f a ∧ R a m) := fun st i => by
  obtain ⟨a, m, r, h1, h2, h3⟩ := h st i
  exact ⟨f a, m, r, by simp [P.mapP, bind_done h1, P.pure], h2, a, rfl, h3⟩

theorem LexT.commentOrNl : LexT commentOrNl (fun a m => m = a.text ∧ a.wf) :=
  LexC.altT Lex.commentNl.complete ((LexT.mapP LexT.wsNewline.complete).mono (by
    rintro a m ⟨n, rfl, rfl, h⟩
    exact ⟨rfl, h⟩))

theorem many1Loop_commentOrNl : ∀ (n : Nat) (acc : List CNL) (st : PState) (i : Str), i.length < n →
    ∃ cs m r, P.many1Loop commentOrNl n acc st i = .ok (st, .done r (acc ++ cs)) ∧ i = m ++ r ∧ m = gapText cs ∧ CnlsWf cs := by
  intro n
  induction n with
  | zero => intro _ _ _ h; omega
  | succ n ih =>
    intro acc st i hn
    unfold P.many1Loop
    split
    · exact ⟨[], [], i, by simp, rfl, rfl, by simp [CnlsWf]⟩
    · obtain ⟨a, m, r, h1, h2, h3, h4⟩ := LexT.commentOrNl st i
      rw [h1]
      dsimp only
      split
      · exact ⟨[], [], i, by simp, rfl, rfl, by simp [CnlsWf]⟩
      next hl =>
        have hlen : i.length = m.length + r.length := by rw [h2]; simp
        obtain ⟨cs, m', r', e1, e2, e3, e4⟩ := ih (acc ++ [a]) st r (by omega)
        refine ⟨a :: cs, m ++ m', r', by simpa using e1, by simp [h2, e2], by simp [gapText, h3, e3], ?_⟩
        intro c hc
        rcases List.mem_cons.mp hc with rfl | hc
        · exact h4
        · exact e4 c hc

theorem LexT.commentOrNls : LexT commentOrNls (fun a m => m = gapText a ∧ CnlsWf a) := fun st i => by
  obtain ⟨a, m, r, h1, h2, h3, h4⟩ := LexT.commentOrNl st i
  obtain ⟨cs, m', r', e1, e2, e3, e4⟩ := many1Loop_commentOrNl (r.length + 1) [a] st r (by omega)
  refine ⟨a :: cs, m ++ m', r', ?_, by simp [h2, e2], by simp [gapText, h3, e3], ?_⟩
  · simp only [Tomllib.commentOrNls, P.many1]
    rw [bind_done h1]
    simpa using e1
  · intro c hc
    rcases List.mem_cons.mp hc with rfl | hc
    · exact h4
    · exact e4 c hc

/-! ## Numbers, booleans, dates -/

theorem LexC.integer : LexC integer (fun a m => m = a ∧ IntegerText a) :=
  (LexC.re _).mono (by rintro a m ⟨rfl, h⟩; exact ⟨rfl, (lang_integer _).mp h⟩)
theorem LexC.float : LexC float (fun a m => m = a ∧ FloatText a) :=
  (LexC.re _).mono (by rintro a m ⟨rfl, h⟩; exact ⟨rfl, (lang_float_iff _).mp h⟩)

theorem LexC.boolean : LexC boolean (fun b m => m = boolText b) :=
  LexC.alt ((LexC.mapP (Lex.tag _).complete).mono (by rintro b m ⟨_, rfl, rfl, rfl⟩; rfl))
    ((LexC.mapP (Lex.tag _).complete).mono (by rintro b m ⟨_, rfl, rfl, rfl⟩; rfl))

theorem lang_d09 {s} (h : Lang Rx.d09 s) : Digits 1 s := by
  obtain ⟨c, rfl, h1⟩ := lang_cls h
  simp [inCls] at h1
  simpa [Digits] using h1

theorem Digits.append {n m : Nat} {s t : Str} (h : Digits n s) (h' : Digits m t) : Digits (n + m) (s ++ t) := by
  refine ⟨by simp [h.1, h'.1], fun c hc => ?_⟩
  rcases List.mem_append.mp hc with hc | hc
  · exact h.2 c hc
  · exact h'.2 c hc

theorem lang_dd {s} (h : Lang Rx.dd s) : Digits 2 s := by
  obtain ⟨u, v, rfl, h1, h2⟩ := lang_seq h
  exact (lang_d09 h1).append (lang_d09 h2)

theorem lang_dddd {s} (h : Lang Rx.dddd s) : Digits 4 s := by
  obtain ⟨u, v, rfl, h1, h⟩ := lang_seq h
  obtain ⟨u2, v, rfl, h2, h⟩ := lang_seq h
  obtain ⟨u3, v, rfl, h3, h4⟩ := lang_seq h
  exact (lang_d09 h1).append ((lang_d09 h2).append ((lang_d09 h3).append (lang_d09 h4)))

theorem lang_digits {s} (h : Lang (.star true Rx.d09) s) : Digits s.length s := by
  refine ⟨rfl, ?_⟩
  refine lang_star h (Q := fun s => ∀ c ∈ s, 48 ≤ c.toNat ∧ c.toNat ≤ 57) (by simp) ?_
  intro u v _ hu _ hv c hc
  rcases List.mem_append.mp hc with hc | hc
  · exact (lang_d09 hu).2 c hc
  · exact hv c hc

theorem lang_fractional {s} (h : Lang Rx.fractional s) : ∃ f, s = lit% "." ++ f ∧ f ≠ [] ∧ Digits f.length f := by
  obtain ⟨u, v, rfl, h1, h⟩ := lang_seq h
  obtain ⟨w, x, rfl, h2, h3⟩ := lang_seq h
  rw [lang_ch h1]
  have hw := lang_d09 h2
  have hx := lang_digits h3
  refine ⟨w ++ x, rfl, ?_, ?_⟩
  · intro h; have := hw.1; simp at h; simp [h.1] at this
  · have := hw.append hx
    rw [← this.1] at this; exact this

theorem LexC.dd : LexC (P.re Rx.dd) (fun a m => m = a ∧ Digits 2 a) :=
  (LexC.re _).mono (by rintro a m ⟨rfl, h⟩; exact ⟨rfl, lang_dd h⟩)
theorem LexC.dddd : LexC (P.re Rx.dddd) (fun a m => m = a ∧ Digits 4 a) :=
  (LexC.re _).mono (by rintro a m ⟨rfl, h⟩; exact ⟨rfl, lang_dddd h⟩)

theorem Lex.fractional : LexC fractional (fun a m => m = lit% "." ++ a ∧ a ≠ [] ∧ Digits a.length a) :=
  (LexC.mapP (LexC.re _)).mono (by
    rintro a m ⟨s, rfl, rfl, h⟩
    obtain ⟨f, rfl, h1, h2⟩ := lang_fractional h
    exact ⟨by simp, by simpa using h1, by simpa using h2⟩)

theorem Lex.timeOffsetAmount : Lex timeOffsetAmount (fun a m => m = a.text ∧ (TimeOffset.time a).shape) :=
  (Lex.bind (R := fun a m => m = a ∧ (a = lit% "+" ∨ a = lit% "-"))
    (LexC.alt ((Lex.tag (lit% "+")).complete.mono (by rintro a m ⟨rfl, rfl⟩; simp))
      ((Lex.tag (lit% "-")).complete.mono (by rintro a m ⟨rfl, rfl⟩; simp))).l fun pn =>
    Lex.bind LexC.dd.l fun h => Lex.bind (Lex.tag (lit% ":")) fun _ => Lex.bind LexC.dd.l fun mi =>
    (LexT.pure (newOffset pn h mi)).l).mono (by
    rintro a m ⟨pn, m1, _, rfl, ⟨rfl, h1⟩, h, m2, _, rfl, ⟨rfl, h2⟩, _, m3, _, rfl, ⟨rfl, rfl⟩, mi, m4, _, rfl, ⟨rfl, h4⟩, rfl, rfl⟩
    rcases h1 with rfl | rfl <;> simp [newOffset, OffsetAmount.text, OffsetAmount.text, TimeOffset.shape, h2, h4])

theorem LexC.timeOffset : LexC timeOffset (fun a m => m = a.text ∧ a.shape) :=
  LexC.alt ((LexC.mapP (Lex.tag _).complete).mono (by rintro b m ⟨_, rfl, rfl, rfl⟩; simp [TimeOffset.text, TimeOffset.shape]))
    ((LexC.mapP Lex.timeOffsetAmount.complete).mono (by rintro b m ⟨o, rfl, rfl, h⟩; exact ⟨rfl, h⟩))

theorem Lex.time : Lex time (fun a m => m = a.text ∧ a.shape) :=
  (Lex.bind (Lex.tag (lit% "T")) fun _ => Lex.bind LexC.dd.l fun h => Lex.bind (Lex.tag (lit% ":")) fun _ =>
    Lex.bind LexC.dd.l fun mi => Lex.bind (Lex.tag (lit% ":")) fun _ => Lex.bind LexC.dd.l fun s =>
    Lex.bind (LexC.opt (Lex.complete Lex.fractional.l)).l fun f => Lex.bind (LexC.opt (Lex.complete LexC.timeOffset.l)).l fun o =>
    (LexT.pure (Time.mk h mi s f o)).l).mono (by
    rintro a m ⟨_, m1, _, rfl, ⟨rfl, rfl⟩, h, m2, _, rfl, ⟨rfl, h2⟩, _, m3, _, rfl, ⟨rfl, rfl⟩, mi, m4, _, rfl, ⟨rfl, h4⟩,
      _, m5, _, rfl, ⟨rfl, rfl⟩, s, m6, _, rfl, ⟨rfl, h6⟩, f, m7, _, rfl, h7, o, m8, _, rfl, h8, rfl, rfl⟩
    rcases h7 with ⟨rfl, rfl⟩ | ⟨f, rfl, rfl, hf, hf'⟩ <;> rcases h8 with ⟨rfl, rfl⟩ | ⟨o, rfl, rfl, ho⟩ <;>
      simp [Time.text, fracText, offText, Time.shape, *])

theorem Lex.date : Lex date (fun a m => m = a.text ∧ a.shape) :=
  (Lex.bind LexC.dddd.l fun y => Lex.bind (Lex.tag (lit% "-")) fun _ => Lex.bind LexC.dd.l fun mo =>
    Lex.bind (Lex.tag (lit% "-")) fun _ => Lex.bind LexC.dd.l fun d =>
    (LexT.pure (Date.mk y mo d)).l).mono (by
    rintro a m ⟨y, m1, _, rfl, ⟨rfl, h1⟩, _, m2, _, rfl, ⟨rfl, rfl⟩, mo, m3, _, rfl, ⟨rfl, h3⟩, _, m4, _, rfl, ⟨rfl, rfl⟩,
      d, m5, _, rfl, ⟨rfl, h5⟩, rfl, rfl⟩
    simp [Date.text, Date.shape, h1, h3, h5])

theorem Lex.dateTimeInternal : Lex dateTimeInternal (fun a m => m = a.text ∧ a.shape) :=
  (Lex.bind Lex.date fun d => Lex.bind (LexC.opt Lex.time.complete).l fun t => (LexT.pure (DateTime.mk d t)).l).mono (by
    rintro a m ⟨d, m1, _, rfl, ⟨rfl, h1⟩, t, m2, _, rfl, h2, rfl, rfl⟩
    rcases h2 with ⟨rfl, rfl⟩ | ⟨t, rfl, rfl, ht⟩ <;> simp [DateTime.text, DateTime.shape, *])

end Tomllib
