import Verif.Lemmas.Gram
import Verif.Lemmas.Scalars
import Verif.Lemmas.Num
import Verif.Spec.Strict
/-!
# Values are read back from their text: scalars
-/

namespace Tomllib
open P

/-- No quote follows. -/
def NoQuote (r : Str) : Prop := ∀ x, r ≠ '"' :: x ∧ r ≠ '\'' :: x

theorem Closes.noQuote {r : Str} (h : Closes r) : NoQuote r := fun x =>
  ⟨fun e => h.ne e '"' (by decide) rfl, fun e => h.ne e '\'' (by decide) rfl⟩

/-- A scalar parser applied to the text of a scalar. -/
def FwdS (p : P TVal) (s : Scalar) (r : Str) : Prop := ∀ st, p st (s.text ++ r) = (s.eff st).bind fun st' => .ok (st', .done r s.cell)

/-- A parser that fails, with no effect. -/
def ErrOn {α : Type} (p : P α) (i : Str) : Prop := ∀ st, p st i = .ok (st, .err)

theorem FwdS.altl {p q : P TVal} {s : Scalar} {r : Str} (h : FwdS p s r) : FwdS (P.alt p q) s r := fun st => by
  rcases Out.cases' (s.eff st) with ⟨st', he⟩ | ⟨e, he⟩
  · have := h st
    rw [he] at this ⊢
    exact alt_done this
  · have := h st
    rw [he, Abort.bind] at this ⊢
    exact alt_abort this

theorem FwdS.altr {p q : P TVal} {s : Scalar} {r : Str} (hp : ErrOn p (s.text ++ r)) (h : FwdS q s r) : FwdS (P.alt p q) s r := fun st => by
  rw [alt_err (hp st)]; exact h st

theorem FwdS.complete {p : P TVal} {s : Scalar} {r : Str} (h : FwdS p s r) : FwdS (P.complete p) s r := fun st => by
  rcases Out.cases' (s.eff st) with ⟨st', he⟩ | ⟨e, he⟩
  · have := h st
    rw [he] at this ⊢
    exact complete_done this
  · have := h st
    rw [he, Abort.bind] at this ⊢
    exact complete_abort this

theorem ErrOn.mapP {α β : Type} {p : P α} {f : α → β} {i : Str} (h : ErrOn p i) : ErrOn (P.mapP f p) i := fun st => by
  simp [P.mapP, bind_err (h st)]
theorem ErrOn.complete {α : Type} {p : P α} {i : Str} (h : ErrOn p i) : ErrOn (P.complete p) i := fun st => complete_err (h st)
theorem ErrOn.alt {α : Type} {p q : P α} {i : Str} (h : ErrOn p i) (h' : ErrOn q i) : ErrOn (P.alt p q) i := fun st => by
  rw [alt_err (h st)]; exact h' st
theorem ErrOn.bind {α β : Type} {p : P α} {f : α → P β} {i : Str} (h : ErrOn p i) : ErrOn (P.bind p f) i := fun st => bind_err (h st)
theorem Fails.errOn {r : Re} {i : Str} (h : Fails r i) : ErrOn (P.re r) i := fun st => h.re st

/-! ## Strings -/

theorem string_parts (t : StrType) (s r : Str) (hs : Pieces t.Piece s) (he : t.NoEarlyEnd s) (st : PState) :
    P.re t.raw st (t.quoted s ++ r) = .ok (st, .done r (t.quoted s)) := (t.det_raw hs he).re st

theorem mlQuote_prefix {t : StrType} {s r : Str} (hn : NoQuote r) (hs : Pieces t.Piece s) (ht : t = .basic ∨ t = .literal) :
    ¬ lit% "\"\"\"" <+: t.quoted s ++ r ∧ ¬ lit% "'''" <+: t.quoted s ++ r := by
  rcases ht with rfl | rfl
  · refine ⟨?_, by simp [StrType.quoted]⟩
    rintro ⟨x, hx⟩
    cases hs with
    | nil => simp [StrType.quoted] at hx; exact (hn _).1 hx.symm
    | cons h1 _ =>
      cases h1 with
      | char c _ h2 _ => simp [StrType.quoted] at hx; exact h2 hx.1.symm
      | esc c _ => simp [StrType.quoted] at hx
      | uni h2 => obtain ⟨t, rfl | rfl⟩ := h2.head <;> simp [StrType.quoted] at hx
  · refine ⟨by simp [StrType.quoted], ?_⟩
    rintro ⟨x, hx⟩
    cases hs with
    | nil => simp [StrType.quoted] at hx; exact (hn _).2 hx.symm
    | cons h1 _ =>
      cases h1 with
      | char c _ h2 => simp [StrType.quoted] at hx; exact h2 hx.1.symm

theorem raw_fails {t : StrType} {i : Str} (h : ¬ t.quotes <+: i) : Fails t.raw i := by
  rw [StrType.raw_eq]
  exact Fails.seq (Fails.lit h)

/-- The parser of strings reads a quoted text back, unless the closing quotes occur early. -/
theorem string_fwd {t : StrType} {s r : Str} (hs : Pieces t.Piece s) (he : t.NoEarlyEnd s) (hn : t = .basic ∨ t = .literal → NoQuote r) :
    FwdS string (.str s t) r := by
  have e1 : ∀ i, ¬ lit% "'''" <+: i → ErrOn (P.mapP (TVal.str · .mlLiteral) (P.complete mlLiteralString)) i := fun i h =>
    (ErrOn.bind (raw_fails (t := .mlLiteral) h).errOn).complete.mapP
  have e2 : ∀ i, ¬ lit% "\"\"\"" <+: i → ErrOn (P.mapP (TVal.str · .mlBasic) (P.complete mlBasicString)) i := fun i h =>
    (ErrOn.bind (raw_fails (t := .mlBasic) h).errOn).complete.mapP
  have e3 : ∀ i, ¬ lit% "\"" <+: i → ErrOn (P.mapP (TVal.str · .basic) (P.complete basicString)) i := fun i h =>
    (ErrOn.bind (raw_fails (t := .basic) h).errOn).complete.mapP
  have hp := string_parts t s r hs he
  cases t with
  | mlLiteral =>
    refine FwdS.altl fun st => ?_
    have hp := hp st
    simp only [StrType.raw] at hp
    have hu := unquote_quote (StrType.mlLiteral.quotes) s
    simp [P.mapP, P.complete, P.bind, mlLiteralString, bind_eq, Scalar.text, hp, addLines, P.act, Scalar.eff, PState.lines, P.pure, pure_eq, Scalar.cell]
    simpa [StrType.quoted, StrType.quotes] using hu
  | mlBasic =>
    refine FwdS.altr (e1 _ (by simp [Scalar.text, StrType.quoted])) (FwdS.altl fun st => ?_)
    have hp := hp st
    simp only [StrType.raw] at hp
    have hu := unquote_quote (StrType.mlBasic.quotes) s
    simp [P.mapP, P.complete, P.bind, mlBasicString, bind_eq, Scalar.text, hp, addLines, P.act, Scalar.eff, PState.lines, P.pure, pure_eq, Scalar.cell]
    simpa [StrType.quoted, StrType.quotes] using hu
  | basic =>
    obtain ⟨h1, h2⟩ := mlQuote_prefix (hn (.inl rfl)) hs (.inl rfl)
    refine FwdS.altr (e1 _ h2) (FwdS.altr (e2 _ h1) (FwdS.altl fun st => ?_))
    have hp := hp st
    simp only [StrType.raw] at hp
    have hu := unquote_quote (StrType.basic.quotes) s
    simp [P.mapP, P.complete, P.bind, basicString, bind_eq, Scalar.text, hp, addLines, P.act, Scalar.eff, PState.lines, P.pure, pure_eq, Scalar.cell]
    simpa [StrType.quoted, StrType.quotes] using hu
  | literal =>
    obtain ⟨h1, h2⟩ := mlQuote_prefix (hn (.inr rfl)) hs (.inr rfl)
    refine FwdS.altr (e1 _ h2) (FwdS.altr (e2 _ h1) (FwdS.altr (e3 _ (by simp [Scalar.text, StrType.quoted])) fun st => ?_))
    have hp := hp st
    simp only [StrType.raw] at hp
    have hu := unquote_quote (StrType.literal.quotes) s
    simp [P.mapP, P.complete, P.bind, literalString, bind_eq, Scalar.text, hp, addLines, P.act, Scalar.eff, PState.lines, P.pure, pure_eq, Scalar.cell]
    simpa [StrType.quoted, StrType.quotes] using hu

/-! ## All scalars -/

theorem dateTime_fwd {d : DateTime} {r : Str} (hd : d.shape) (hr : Closes r) : FwdS (P.mapP TVal.dt (P.complete dateTime)) (.dt d) r := fun st => by
  have h1 := dateTimeInternal_fwd hd hr st
  simp only [Scalar.text, P.mapP, P.bind, P.complete, Tomllib.dateTime, h1, Scalar.eff, Scalar.cell]
  by_cases hv : d.validate
  · simp [hv, P.pure]
  · have ht : (d.text ++ r).take ((d.text ++ r).length - r.length) = d.text := by simp
    simp only [hv, ht]
    cases hk : getFullKey st.map st.heap st.lastArrayTables st.lastArrayTablesIndex st.keychain <;> simp [P.pure, Out.bind]

theorem float_fwd {s r : Str} (hs : Lang Rx.float s) (hr : Closes r) : FwdS (P.mapP TVal.float (P.complete float)) (.float s) r := fun st => by
  have h1 := (det_float hs hr).re st
  simp [P.mapP, P.bind, P.complete, float, Scalar.text, h1, P.pure, Scalar.eff, Scalar.cell]

theorem integer_fwd {s r : Str} (hs : Lang Rx.integer s) (hr : Closes r) : FwdS (P.mapP TVal.int (P.complete integer)) (.int s) r := fun st => by
  have h1 := (det_integer hs hr.dOrUd).re st
  simp [P.mapP, P.bind, P.complete, integer, Scalar.text, h1, P.pure, Scalar.eff, Scalar.cell]

theorem boolean_fwd (b : Bool) (r : Str) : FwdS (P.mapP TVal.bool (P.complete boolean)) (.bool b) r := fun st => by
  cases b with
  | true =>
    have h1 : P.complete (P.tag (lit% "false")) st (lit% "true" ++ r) = .ok (st, .err) := complete_tag_ne (by decide)
    have h2 := complete_done (tag_append (st := st) (lit% "true") (i := r))
    have h3 : boolean st (lit% "true" ++ r) = .ok (st, .done r true) := by
      unfold boolean
      rw [alt_err (by simp only [P.mapP]; exact bind_err h1)]
      simp only [P.mapP]; rw [bind_done h2]; rfl
    simp only [Scalar.text, boolText, P.mapP]
    exact bind_done (complete_done h3)
  | false =>
    have h2 := complete_done (tag_append (st := st) (lit% "false") (i := r))
    have h3 : boolean st (lit% "false" ++ r) = .ok (st, .done r false) := by
      unfold boolean
      refine alt_done ?_
      simp only [P.mapP]; rw [bind_done h2]; rfl
    simp only [Scalar.text, boolText, P.mapP]
    exact bind_done (complete_done h3)

theorem boolean_err {c : Char} {i : Str} (h1 : c ≠ 't') (h2 : c ≠ 'f') : ErrOn boolean (c :: i) :=
  ErrOn.alt (ErrOn.mapP fun _ => complete_tag_ne h2) (ErrOn.mapP fun _ => complete_tag_ne h1)

/-- What the alternatives for scalars do with the text of a scalar. -/
theorem scalarVal_fwd' {s : Scalar} {r : Str} (hw : s.wf) (hq : ∀ x t, s = .str x t → t.NoEarlyEnd x) (hr : Closes r) (st : PState) :
    scalarVal st (s.text ++ r) = ((VT.leaf s).eff st).bind fun st' => .ok (st', .done r ((VT.leaf s).addr st.heap.length)) := by
  have al : ∀ (p : P TVal), FwdS p s r → P.bind p alloc st (s.text ++ r) =
      ((VT.leaf s).eff st).bind fun st' => .ok (st', .done r ((VT.leaf s).addr st.heap.length)) := by
    intro p h
    have h3 := h st
    rcases Out.cases' (s.eff st) with ⟨st', he⟩ | ⟨e, he⟩
    · rw [he] at h3
      simp only [Out.ok_bind] at h3
      rw [bind_done h3]
      have := Scalar.eff_heap he
      simp [VT.eff, he, alloc, P.act, PState.cell, VT.addr, VT.size, this]
    · rw [he, Abort.bind] at h3
      rw [bind_abort h3, VT.eff, he]
      simp
  have hev : scalarVal = P.alt (P.bind (P.mapP TVal.dt (complete dateTime)) alloc) (P.alt (P.bind (P.mapP TVal.float (complete float)) alloc)
      (P.alt (P.bind (P.mapP TVal.int (complete integer)) alloc) (P.alt (P.bind (P.mapP TVal.bool (complete boolean)) alloc)
      (P.bind (complete string) alloc)))) := by
    simp only [bind_mapP]; rfl
  rw [hev]
  -- an alternative that succeeds, after those that fail
  have altl : ∀ (p q : P Addr) (o : Out PState) , (p st (s.text ++ r) = o.bind fun st' => .ok (st', .done r ((VT.leaf s).addr st.heap.length))) →
      P.alt p q st (s.text ++ r) = o.bind fun st' => .ok (st', .done r ((VT.leaf s).addr st.heap.length)) := by
    intro p q o h
    rcases Out.cases' o with ⟨st', rfl⟩ | ⟨e, rfl⟩
    · exact alt_done h
    · rw [Abort.bind] at h ⊢; exact alt_abort h
  have altr : ∀ (p : P TVal) (q : P Addr), ErrOn p (s.text ++ r) → P.alt (P.bind p alloc) q st (s.text ++ r) = q st (s.text ++ r) :=
    fun p q h => alt_err (h.bind st)
  cases s with
  | dt d => exact altl _ _ _ (al _ (dateTime_fwd hw hr))
  | float x =>
    rw [altr _ _ (ErrOn.mapP fun _ => not_date_float ((lang_float_iff _).mpr hw))]
    exact altl _ _ _ (al _ (float_fwd ((lang_float_iff _).mpr hw) hr))
  | int x =>
    rw [altr _ _ (ErrOn.mapP fun _ => not_date_int ((lang_integer _).mpr hw) hr), altr _ _ (ErrOn.mapP (ErrOn.complete (p := float) (Fails.errOn (float_fails ((lang_integer _).mpr hw) hr))))]
    exact altl _ _ _ (al _ (integer_fwd ((lang_integer _).mpr hw) hr))
  | bool b =>
    obtain ⟨c, t, h1, h2, h3, h4⟩ : ∃ c t, (Scalar.bool b).text = c :: t ∧ (¬ (48 ≤ c.toNat ∧ c.toNat ≤ 57)) ∧ Rx.float.starts c = false ∧
        Rx.integer.starts c = false := by
      cases b
      · exact ⟨'f', _, rfl, by decide, by decide, by decide⟩
      · exact ⟨'t', _, rfl, by decide, by decide, by decide⟩
    rw [altr _ _ (by rw [h1]; exact ErrOn.mapP fun _ => not_date_head h2),
      altr _ _ (by rw [h1]; exact (Fails.errOn (Fails.cons (by decide) h3)).complete.mapP),
      altr _ _ (by rw [h1]; exact (Fails.errOn (Fails.cons (by decide) h4)).complete.mapP)]
    exact altl _ _ _ (al _ (boolean_fwd b r))
  | str x t =>
    obtain ⟨c, y, h1, h2, h3, h4, h5, h6⟩ : ∃ c y, (Scalar.str x t).text = c :: y ∧ (¬ (48 ≤ c.toNat ∧ c.toNat ≤ 57)) ∧
        Rx.float.starts c = false ∧ Rx.integer.starts c = false ∧ c ≠ 't' ∧ c ≠ 'f' := by
      cases t <;> exact ⟨_, _, rfl, by decide, by decide, by decide, by decide, by decide⟩
    rw [altr _ _ (by rw [h1]; exact ErrOn.mapP fun _ => not_date_head h2),
      altr _ _ (by rw [h1]; exact (Fails.errOn (Fails.cons (by decide) h3)).complete.mapP),
      altr _ _ (by rw [h1]; exact (Fails.errOn (Fails.cons (by decide) h4)).complete.mapP),
      altr _ _ (by rw [h1]; exact (boolean_err h5 h6).complete.mapP)]
    exact al _ (string_fwd (hw) (hq x t rfl) fun _ => hr.noQuote).complete

end Tomllib

/-! ## The texts of numbers -/

namespace Tomllib

theorem finds_iff (r : Re) (s : Str) : (r.find s).isSome = true ↔ ∃ u w, s = u ++ w ∧ Lang r u := by
  constructor
  · intro h
    obtain ⟨⟨m, t⟩, h⟩ := Option.isSome_iff_exists.mp h
    obtain ⟨h1, h2⟩ := Re.find_some h
    exact ⟨m, t, h1, h2⟩
  · rintro ⟨u, w, rfl, hu⟩
    cases h : r.find (u ++ w) with
    | some x => rfl
    | none => exact absurd hu (Re.find_none h u w rfl)

/-! ## Printed numbers -/

theorem natStrAux_head : ∀ (f n : Nat), n < f → 0 < n → ∃ c t, natStrAux f n [] = c :: t ∧ 49 ≤ c.toNat ∧ c.toNat ≤ 57
  | 0, n, h, _ => by omega
  | f + 1, n, h, h0 => by
    rw [natStrAux]
    split
    next h' =>
      have := digitCh_toNat h'
      exact ⟨_, _, rfl, by omega, by omega⟩
    next h' =>
      obtain ⟨c, t, h1, h2⟩ := natStrAux_head f (n / 10) (by omega) (by omega)
      rw [natStrAux_append, h1]
      exact ⟨c, _, rfl, h2⟩

theorem anyDigit_of {c : Char} (h : 48 ≤ c.toNat ∧ c.toNat ≤ 57) : anyDigit c := by
  simp only [anyDigit, inCls, Rx.digitRanges, List.map_cons, List.cons_append, List.any_cons, Bool.or_eq_true, Bool.and_eq_true, Nat.ble_eq]
  exact .inl h

theorem digits_pieces : ∀ {s : Str}, (∀ c ∈ s, 48 ≤ c.toNat ∧ c.toNat ≤ 57) → Pieces DigitGroup s
  | [], _ => .nil
  | c :: s, h => Pieces.cons (u := [c]) (.digit c (anyDigit_of (h c (by simp)))) (digits_pieces fun x hx => h x (by simp [hx]))

theorem natStr_unsigned (n : Nat) : Unsigned (natStr n) := by
  have hd := natStr_digits n
  by_cases h0 : n = 0
  · subst h0
    exact .one '0' (anyDigit_of (by decide))
  · obtain ⟨c, t, h1, h2, h3⟩ := natStrAux_head (n + 1) n (by omega) (by omega)
    have h1 : natStr n = c :: t := h1
    rw [h1] at hd ⊢
    cases t with
    | nil => exact .one c (anyDigit_of (hd c (by simp)))
    | cons d t =>
      exact Unsigned.many c [d] t h2 h3 (.digit d (anyDigit_of (hd d (by simp)))) (digits_pieces fun x hx => hd x (by simp [hx]))

theorem intStr_integer (n : Int) : IntegerText (intStr n) := by
  cases n with
  | ofNat n => exact .plain (natStr_unsigned n)
  | negSucc n => exact .minus (natStr_unsigned (n + 1))

theorem Scalar.strict.wf {s : Scalar} (h : s.strict) : s.wf := by
  cases s with
  | int x => exact h
  | float x => exact h
  | bool b => trivial
  | dt d => exact h
  | str x t => exact h.1

/-- What the alternatives for scalars do with the text of a scalar. -/
theorem scalarVal_fwd {s : Scalar} {r : Str} (hs : s.strict) (hr : Closes r) (st : PState) :
    scalarVal st (s.text ++ r) = ((VT.leaf s).eff st).bind fun st' => .ok (st', .done r ((VT.leaf s).addr st.heap.length)) :=
  scalarVal_fwd' hs.wf (by rintro x t rfl; exact hs.2) hr st

end Tomllib
