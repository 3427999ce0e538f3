import Verif.Spec.Values
import Verif.Lemmas.Valid
import Verif.Lemmas.Dates
import Verif.Lemmas.Fwd
/-!
# Lemmas for Props/Values
-/

namespace Tomllib

theorem pad0_padded {w n : Nat} (h : n < 10 ^ (w + 1)) : Padded (w + 1) n (pad0 (w + 1) n) :=
  ⟨⟨pad0_length h, pad0_digits _ _⟩, (digitsVal_iff.mp (pad0_val (w + 1) n)).2.symm⟩

theorem IsDate.padded {y m d : Nat} (h : IsDate y m d) : Padded 4 y (pad0 4 y) ∧ Padded 2 m (pad0 2 m) ∧ Padded 2 d (pad0 2 d) := by
  obtain ⟨_, h1, _, h2, _, h3⟩ := h
  have := daysIn_le y m
  exact ⟨pad0_padded (by omega), pad0_padded (by omega), pad0_padded (by omega)⟩

theorem IsTime.padded {h m s : Nat} (H : IsTime h m s) : Padded 2 h (pad0 2 h) ∧ Padded 2 m (pad0 2 m) ∧ Padded 2 s (pad0 2 s) := by
  obtain ⟨h1, h2, h3⟩ := H
  exact ⟨pad0_padded (by omega), pad0_padded (by omega), pad0_padded (by omega)⟩

/-- The sign character of an offset. -/
def signOf (pn : Char) (o : PosNeg) : Prop := pn = '+' ∧ o = .pos ∨ pn = '-' ∧ o = .neg

/-- What is common to the six constructors with a time. -/
theorem dateTimeOf_int (y m d h mi s : Nat) (f : Option Nat) (off : Option TimeOffset) (ho : ∀ x, off = some x → x.validate = true)
    (hf : ∀ x, f = some x → x < 2 ^ 64) :
    (IsDate y m d ∧ IsTime h mi s → ∃ Y M D H I S, Padded 4 y Y ∧ Padded 2 m M ∧ Padded 2 d D ∧ Padded 2 h H ∧ Padded 2 mi I ∧ Padded 2 s S ∧
      Value.dateTimeOf (pad0 4 y) (pad0 2 m) (pad0 2 d) (pad0 2 h) (pad0 2 mi) (pad0 2 s) (f.map natStr) off =
        some (.dt ⟨⟨Y, M, D⟩, some ⟨H, I, S, f.map natStr, off⟩⟩)) ∧
    (¬ (IsDate y m d ∧ IsTime h mi s) →
      Value.dateTimeOf (pad0 4 y) (pad0 2 m) (pad0 2 d) (pad0 2 h) (pad0 2 mi) (pad0 2 s) (f.map natStr) off = none) := by
  have hp := date_pad y m d
  have ht := time_pad h mi s (f.map natStr) off
  have hf' : ∀ x, f.map natStr = some x → ∃ F, Numeral x F ∧ F < 2 ^ 64 := by
    intro x hx
    cases f with
    | none => simp at hx
    | some n => simp at hx; subst hx; exact ⟨n, natStr_numeral n, hf n rfl⟩
  constructor
  · rintro ⟨h1, h2⟩
    obtain ⟨g1, g2, g3⟩ := h1.padded
    obtain ⟨g4, g5, g6⟩ := h2.padded
    refine ⟨_, _, _, _, _, _, g1, g2, g3, g4, g5, g6, ?_⟩
    simp [Value.dateTimeOf, Date.fromStr, Time.fromStr, hp.mpr h1, ht.mpr ⟨h2, hf', ho⟩]
  · intro hn
    by_cases h1 : IsDate y m d
    · have : ¬ (⟨pad0 2 h, pad0 2 mi, pad0 2 s, f.map natStr, off⟩ : Time).validate = true := fun h' => hn ⟨h1, (ht.mp h').1⟩
      simp [Value.dateTimeOf, Date.fromStr, Time.fromStr, hp.mpr h1, this]
    · have : ¬ (⟨pad0 4 y, pad0 2 m, pad0 2 d⟩ : Date).validate = true := fun h' => h1 (hp.mp h')
      simp [Value.dateTimeOf, Date.fromStr, this]

theorem dateTimeOf_shows (y m d h mi s : Nat) (f : Option Nat) (off : Option TimeOffset) (ho : ∀ x, off = some x → x.validate = true)
    (hf : ∀ x, f = some x → x < 2 ^ 64) :
    Prints (Value.dateTimeOf (pad0 4 y) (pad0 2 m) (pad0 2 d) (pad0 2 h) (pad0 2 mi) (pad0 2 s) (f.map natStr) off)
      (IsDate y m d ∧ IsTime h mi s) y m d h mi s (fun R => ∃ F, fracShown f F ∧ R = F ++ (off.map TimeOffset.text).getD []) := by
  obtain ⟨h1, h2⟩ := dateTimeOf_int y m d h mi s f off ho hf
  refine ⟨fun hk => ?_, h2⟩
  obtain ⟨Y, M, D, H, I, S, g1, g2, g3, g4, g5, g6, g7⟩ := h1 hk
  refine ⟨_, Y, M, D, H, I, S, fracText (f.map natStr) ++ (off.map TimeOffset.text).getD [], g7, g1, g2, g3, g4, g5, g6, ⟨fracText (f.map natStr), ?_, rfl⟩, ?_⟩
  · cases f with
    | none => rfl
    | some n => exact ⟨natStr n, rfl, natStr_numeral n, natStr_digits n⟩
  · cases f <;> cases off <;> simp [Value.disp, DateTime.text, Date.text, Time.text, fracText, offText]

theorem datetimeParse_eq (s : Str) (o : Option Value) : Value.datetimeParse s = .ok o ↔
    ((∃ d : DateTime, d.shape ∧ d.validate = true ∧ s = d.text ∧ o = some (.dt d)) ∨
     ((∀ d : DateTime, d.shape → d.validate = true → s ≠ d.text) ∧ o = none)) := by
  have fwd : ∀ d : DateTime, d.shape → d.validate = true → s = d.text → Value.datetimeParse s = .ok (some (.dt d)) := by
    rintro d h1 h2 rfl
    have := dateTimeInternal_fwd h1 Closes.nil PState.new
    rw [List.append_nil] at this
    simp [Value.datetimeParse, dateTime, this, h2, Value.validate]
  have bwd : (∀ d : DateTime, d.shape → d.validate = true → s ≠ d.text) → Value.datetimeParse s = .ok none := by
    intro hn
    rcases Lex.dateTimeInternal PState.new s with ⟨d, m, r, h1, h2, rfl, h3⟩ | h | h
    · by_cases hv : d.validate = true
      · have hr : r ≠ [] := by rintro rfl; exact hn d h3 hv (by simpa using h2)
        simp [Value.datetimeParse, dateTime, h1, hv, hr]
      · have hk : ∃ x, getFullKey PState.new.map PState.new.heap PState.new.lastArrayTables PState.new.lastArrayTablesIndex
            PState.new.keychain = .ok x := ⟨_, rfl⟩
        obtain ⟨⟨a, b, c⟩, hk⟩ := hk
        simp [Value.datetimeParse, dateTime, h1, hv, hk, Value.validate]
    · simp [Value.datetimeParse, dateTime, h]
    · simp [Value.datetimeParse, dateTime, h]
  constructor
  · intro h
    by_cases hd : ∃ d : DateTime, d.shape ∧ d.validate = true ∧ s = d.text
    · obtain ⟨d, h1, h2, h3⟩ := hd
      rw [fwd d h1 h2 h3] at h
      exact .inl ⟨d, h1, h2, h3, by simpa using h.symm⟩
    · have hd' : ∀ d : DateTime, d.shape → d.validate = true → s ≠ d.text := fun d h1 h2 h3 => hd ⟨d, h1, h2, h3⟩
      rw [bwd hd'] at h
      exact .inr ⟨hd', by simpa using h.symm⟩
  · rintro (⟨d, h1, h2, h3, rfl⟩ | ⟨h1, rfl⟩)
    · exact fwd d h1 h2 h3
    · exact bwd h1

theorem not_integerText {s : Str} {c : Char} (hc : c ∈ s) (h : Rx.integer.uses c = false) : ¬ IntegerText s := by
  intro h'
  have := ((lang_integer s).mpr h').uses c hc
  rw [h] at this; simp at this

theorem not_floatText {s : Str} {c : Char} (hc : c ∈ s) (h : Rx.float.uses c = false) : ¬ FloatText s := by
  intro h'
  have := ((lang_float_iff s).mpr h').uses c hc
  rw [h] at this; simp at this

theorem checked_str (s : Str) (t : StrType) (v : Value) : Value.checked (.str s t) = some v ↔ v = .str s t ∧ Pieces t.Piece s := by
  have hv : (Value.str s t).validate = findsAll (.star true t.item) s := by cases t <;> rfl
  rw [← StrType.findsAll, Value.checked, hv]
  split
  next h => simp [h, eq_comm]
  next h => simp [h]

theorem lowerCh_iff {c d : Char} (hd : 97 ≤ d.toNat ∧ d.toNat ≤ 122) : lowerCh c = d ↔ c = d ∨ (97 ≤ d.toNat ∧ d.toNat ≤ 122 ∧ c.toNat + 32 = d.toNat) := by
  unfold lowerCh
  split
  next h =>
    simp at h
    have ht : (Char.ofNat (c.toNat + 32)).toNat = c.toNat + 32 := by
      have key : ∀ k : Fin 26, (Char.ofNat (65 + k.val + 32)).toNat = 65 + k.val + 32 := by decide
      have := key ⟨c.toNat - 65, by omega⟩
      have e : 65 + (c.toNat - 65) = c.toNat := by omega
      simpa only [e] using this
    constructor
    · rintro rfl; right; rw [ht]; omega
    · rintro (rfl | ⟨_, _, h3⟩)
      · omega
      · exact char_eq_of_toNat (by rw [ht, h3])
  next h =>
    simp at h
    constructor
    · exact .inl
    · rintro (rfl | ⟨h1, h2, h3⟩)
      · rfl
      · omega

theorem map_lower_iff {s w : Str} (hw : ∀ d ∈ w, 97 ≤ d.toNat ∧ d.toNat ≤ 122) : s.map lowerCh = w ↔ SameLetters s w := by
  induction w generalizing s with
  | nil => simp [SameLetters]
  | cons d w ih =>
    cases s with
    | nil => simp [SameLetters]
    | cons c s =>
      have := ih (s := s) fun x hx => hw x (by simp [hx])
      simp only [List.map_cons, List.cons.injEq, this, lowerCh_iff (hw d (by simp)), SameLetters, List.length_cons, List.zip_cons_cons, List.mem_cons,
        Nat.add_right_cancel_iff, forall_eq_or_imp]
      constructor
      · rintro ⟨h1, h2, h3⟩; exact ⟨h2, h1, h3⟩
      · rintro ⟨h1, h2, h3⟩; exact ⟨h2, h1, h3⟩

end Tomllib
