import Verif.Spec.Calendar
import Verif.Lemmas.Num
import Verif.Lemmas.Gram
/-!
# Dates and times
-/

namespace Tomllib

theorem digitsVal_eq : ∀ (s : Str) (n : Nat), (∀ c ∈ s, 48 ≤ c.toNat ∧ c.toNat ≤ 57) →
    digitsVal s n = some (s.foldl (fun n c => 10 * n + (c.toNat - 48)) n)
  | [], n, _ => rfl
  | c :: s, n, h => by
    rw [digitsVal, digitVal_of (h c (by simp))]
    dsimp only
    rw [digitsVal_eq s _ (fun c hc => h c (by simp [hc])), Nat.mul_comm n 10]
    rfl

theorem digitsVal_digits : ∀ (s : Str) (n m : Nat), digitsVal s n = some m → ∀ c ∈ s, 48 ≤ c.toNat ∧ c.toNat ≤ 57
  | [], _, _, _ => by simp
  | c :: s, n, m, h => by
    rw [digitsVal] at h
    split at h
    next d hd =>
      intro x hx
      rcases List.mem_cons.mp hx with rfl | hx
      · exact (digitVal_some hd).1
      · exact digitsVal_digits s _ _ h x hx
    · simp at h

theorem digitsVal_iff {s : Str} {n : Nat} : digitsVal s 0 = some n ↔ (∀ c ∈ s, 48 ≤ c.toNat ∧ c.toNat ≤ 57) ∧ n = decVal s := by
  constructor
  · intro h
    have hd := digitsVal_digits _ _ _ h
    refine ⟨hd, ?_⟩
    rw [digitsVal_eq _ _ hd] at h
    simpa [decVal] using h.symm
  · rintro ⟨h, rfl⟩
    exact digitsVal_eq _ _ h

theorem plus_not_digit : ¬ (48 ≤ '+'.toNat ∧ '+'.toNat ≤ 57) := by decide

theorem unsigned_iff {s : Str} {n : Nat} : unsignedFromStr s = some n ↔ Numeral s n ∧ n < 2 ^ 64 := by
  have key : ∀ ds : Str, (if ds = [] then none else match digitsVal ds 0 with | some n => if n < 2 ^ 64 then some n else none | none => none) = some n ↔
      (ds ≠ [] ∧ (∀ c ∈ ds, 48 ≤ c.toNat ∧ c.toNat ≤ 57) ∧ n = decVal ds) ∧ n < 2 ^ 64 := by
    intro ds
    constructor
    · intro h
      split at h
      · simp at h
      next hne =>
        split at h
        next m hm =>
          obtain ⟨h1, rfl⟩ := digitsVal_iff.mp hm
          split at h
          · simp at h; subst h; exact ⟨⟨hne, h1, rfl⟩, by assumption⟩
          · simp at h
        · simp at h
    · rintro ⟨⟨h1, h2, rfl⟩, h3⟩
      rw [if_neg h1, digitsVal_iff.mpr ⟨h2, rfl⟩]
      simp [h3]
  unfold unsignedFromStr
  constructor
  · intro h
    dsimp only at h
    split at h
    next t =>
      obtain ⟨⟨h1, h2, h3⟩, h4⟩ := (key t).mp h
      exact ⟨⟨t, h1, h2, .inr rfl, h3⟩, h4⟩
    next t _ =>
      obtain ⟨⟨h1, h2, h3⟩, h4⟩ := (key s).mp h
      exact ⟨⟨s, h1, h2, .inl rfl, h3⟩, h4⟩
  · rintro ⟨⟨ds, h1, h2, h3, h4⟩, h5⟩
    dsimp only
    rcases h3 with rfl | rfl
    · split
      next t => exact absurd (h2 '+' (by simp)) plus_not_digit
      · exact (key s).mpr ⟨⟨h1, h2, h4⟩, h5⟩
    · exact (key ds).mpr ⟨⟨h1, h2, h4⟩, h5⟩

theorem Numeral.unique {s : Str} {n m : Nat} (h : Numeral s n) (h' : Numeral s m) : n = m := by
  obtain ⟨a, h1, h2, h3, h4⟩ := h
  obtain ⟨b, g1, g2, g3, g4⟩ := h'
  rcases h3 with rfl | rfl
  · rcases g3 with rfl | rfl
    · rw [h4, g4]
    · exact absurd (h2 '+' (by simp)) plus_not_digit
  · rcases g3 with g3 | g3
    · exact absurd (g2 '+' (by simp [← g3])) plus_not_digit
    · simp at g3; rw [h4, g4, g3]

theorem Numeral.ascii {s : Str} {n : Nat} (h : Numeral s n) : ∀ c ∈ s, c.toNat < 128 := by
  obtain ⟨a, _, h2, h3, _⟩ := h
  intro c hc
  rcases h3 with rfl | rfl
  · have := h2 c hc; omega
  · rcases List.mem_cons.mp hc with rfl | hc
    · decide
    · have := h2 c hc; omega

theorem blen_ascii : ∀ {s : Str}, (∀ c ∈ s, c.toNat < 128) → blen s = s.length
  | [], _ => rfl
  | c :: s, h => by
    have hc := h c (by simp)
    have : c.utf8Size = 1 := by
      have hv : c.val.toNat < 128 := hc
      rw [Char.utf8Size, if_pos]
      exact UInt32.le_iff_toNat_le.mpr (by simp; omega)
    rw [blen, this, blen_ascii (fun c hc => h c (by simp [hc])), List.length_cons, Nat.add_comm]

theorem Numeral.blen {s : Str} {n : Nat} (h : Numeral s n) : blen s = s.length := blen_ascii h.ascii

theorem decVal_lt : ∀ (s : Str), (∀ c ∈ s, 48 ≤ c.toNat ∧ c.toNat ≤ 57) → decVal s < 10 ^ s.length := by
  have key : ∀ (s : Str) (n : Nat), (∀ c ∈ s, 48 ≤ c.toNat ∧ c.toNat ≤ 57) →
      s.foldl (fun n c => 10 * n + (c.toNat - 48)) n < (n + 1) * 10 ^ s.length := by
    intro s
    induction s with
    | nil => intro n _; simp
    | cons c s ih =>
      intro n h
      have hc := h c (by simp)
      have := ih (10 * n + (c.toNat - 48)) (fun c hc => h c (by simp [hc]))
      simp only [List.foldl_cons, List.length_cons]
      refine Nat.lt_of_lt_of_le this ?_
      rw [Nat.pow_succ, Nat.mul_comm (10 ^ s.length) 10, ← Nat.mul_assoc]
      exact Nat.mul_le_mul_right _ (by omega)
  intro s h
  simpa [decVal] using key s 0 h

theorem Numeral.lt {s : Str} {n k : Nat} (h : Numeral s n) (hl : s.length ≤ k) : n < 10 ^ k := by
  obtain ⟨a, _, h2, h3, rfl⟩ := h
  refine Nat.lt_of_lt_of_le (decVal_lt a h2) (Nat.pow_le_pow_right (by omega) ?_)
  rcases h3 with rfl | rfl
  · exact hl
  · simp at hl; omega

/-- Numbers of at most four characters. -/
theorem unsigned_short {s : Str} {n : Nat} (hl : s.length ≤ 4) : unsignedFromStr s = some n ↔ Numeral s n := by
  rw [unsigned_iff]
  refine ⟨fun h => h.1, fun h => ⟨h, ?_⟩⟩
  exact Nat.lt_of_lt_of_le (h.lt hl) (by decide)

theorem unsigned_none {s : Str} (hl : s.length ≤ 4) (h : unsignedFromStr s = none) (n : Nat) : ¬ Numeral s n := by
  intro hn
  rw [(unsigned_short hl).mpr hn] at h
  simp at h

theorem blen_length (s : Str) : s.length ≤ blen s := by
  induction s with
  | nil => simp [Tomllib.blen]
  | cons c s ih =>
    have := utf8Size_pos c
    simp [Tomllib.blen]; omega

/-! ## Dates -/

theorem daysIn_le (y m : Nat) : daysIn y m ≤ 31 := by
  unfold daysIn
  split <;> first | omega | (split <;> omega)

theorem dateNumbers {d : Date} {y m dd : Nat} (hy : unsignedFromStr d.year = some y) (hm : unsignedFromStr d.month = some m)
    (hd : unsignedFromStr d.day = some dd) : d.validateNumbers = true ↔ IsDate y m dd := by
  unfold Date.validateNumbers
  rw [hy, hm, hd]
  dsimp only
  by_cases h1 : y = 0 ∨ y > 9999
  · rw [if_pos h1]; simp only [Bool.false_eq_true, false_iff]; intro h; obtain ⟨h2, h3, _⟩ := h; omega
  · rw [if_neg h1]
    by_cases h2 : m < 1 ∨ m > 12
    · rw [if_pos h2]; simp only [Bool.false_eq_true, false_iff]; intro h; obtain ⟨_, _, h4, h5, _⟩ := h; omega
    · rw [if_neg h2]
      by_cases h3 : dd < 1
      · rw [if_pos h3]; simp only [Bool.false_eq_true, false_iff]; intro h; obtain ⟨_, _, _, _, h4, _⟩ := h; omega
      · rw [if_neg h3]
        have hm' : m = 1 ∨ m = 2 ∨ m = 3 ∨ m = 4 ∨ m = 5 ∨ m = 6 ∨ m = 7 ∨ m = 8 ∨ m = 9 ∨ m = 10 ∨ m = 11 ∨ m = 12 := by omega
        have hl : (if y % 4 ≠ 0 then false else if y % 100 ≠ 0 then true else if y % 400 ≠ 0 then false else true) = isLeap y := by
          unfold isLeap
          by_cases h4 : y % 4 = 0 <;> by_cases h5 : y % 100 = 0 <;> by_cases h6 : y % 400 = 0 <;> simp [h4, h5, h6] <;> omega
        rw [hl]
        simp only [IsDate]
        rcases hm' with rfl | rfl | rfl | rfl | rfl | rfl | rfl | rfl | rfl | rfl | rfl | rfl
        case inr.inl =>
          cases hb : isLeap y <;> simp [daysIn, hb] <;> omega
        all_goals simp [daysIn]; omega

theorem date_iff (y m d : Str) : (⟨y, m, d⟩ : Date).validate = true ↔ y.length = 4 ∧ m.length = 2 ∧ d.length = 2 ∧
    ∃ Y M D, Numeral y Y ∧ Numeral m M ∧ Numeral d D ∧ IsDate Y M D := by
  unfold Date.validate
  dsimp only
  constructor
  · intro h
    split at h
    · simp at h
    next hb =>
      have hl : y.length ≤ 4 ∧ m.length ≤ 4 ∧ d.length ≤ 4 := by
        have := blen_length y; have := blen_length m; have := blen_length d; omega
      cases hy : unsignedFromStr y with
      | none => simp [Date.validateNumbers, hy] at h
      | some Y =>
        cases hm : unsignedFromStr m with
        | none => simp [Date.validateNumbers, hy, hm] at h
        | some M =>
          cases hd : unsignedFromStr d with
          | none => simp [Date.validateNumbers, hy, hm, hd] at h
          | some D =>
            have hy' := (unsigned_short hl.1).mp hy
            have hm' := (unsigned_short hl.2.1).mp hm
            have hd' := (unsigned_short hl.2.2).mp hd
            rw [hy'.blen, hm'.blen, hd'.blen] at hb
            have := (dateNumbers (d := ⟨y, m, d⟩) hy hm hd).mp h
            exact ⟨by omega, by omega, by omega, Y, M, D, hy', hm', hd', this⟩
  · rintro ⟨h1, h2, h3, Y, M, D, hy, hm, hd, h⟩
    rw [hy.blen, hm.blen, hd.blen, if_neg (by omega)]
    exact (dateNumbers (d := ⟨y, m, d⟩) ((unsigned_short (by dsimp only; omega)).mpr hy) ((unsigned_short (by dsimp only; omega)).mpr hm)
      ((unsigned_short (by dsimp only; omega)).mpr hd)).mpr h

/-! ## Offsets and times -/

theorem offset_iff (p : PosNeg) (h m : Str) : (⟨p, h, m⟩ : OffsetAmount).validate = true ↔ h.length = 2 ∧ m.length = 2 ∧
    ∃ H M, Numeral h H ∧ Numeral m M ∧ H ≤ 23 ∧ M ≤ 59 := by
  unfold OffsetAmount.validate OffsetAmount.validateNumbers
  dsimp only
  constructor
  · intro h'
    split at h'
    · simp at h'
    next hb =>
      have hl : h.length ≤ 4 ∧ m.length ≤ 4 := by
        have := blen_length h; have := blen_length m; omega
      split at h'
      next H hh =>
        split at h'
        · simp at h'
        · split at h'
          next M hm =>
            split at h'
            · simp at h'
            · have hh' := (unsigned_short hl.1).mp hh
              have hm' := (unsigned_short hl.2).mp hm
              rw [hh'.blen, hm'.blen] at hb
              exact ⟨by omega, by omega, H, M, hh', hm', by omega, by omega⟩
          · simp at h'
      · simp at h'
  · rintro ⟨h1, h2, H, M, hh, hm, h3, h4⟩
    rw [hh.blen, hm.blen, if_neg (by omega), (unsigned_short (by omega)).mpr hh, (unsigned_short (by omega)).mpr hm]
    dsimp only
    rw [if_neg (by omega), if_neg (by omega)]

theorem time_iff (h m s : Str) (f : Option Str) (o : Option TimeOffset) : (⟨h, m, s, f, o⟩ : Time).validate = true ↔
    h.length = 2 ∧ m.length = 2 ∧ s.length = 2 ∧ (∃ H M S, Numeral h H ∧ Numeral m M ∧ Numeral s S ∧ IsTime H M S) ∧
    (∀ x, f = some x → ∃ F, Numeral x F ∧ F < 2 ^ 64) ∧ (∀ x, o = some x → x.validate = true) := by
  unfold Time.validate Time.validateNumbers
  dsimp only
  constructor
  · intro h'
    split at h'
    · simp at h'
    next hb =>
      have hl : h.length ≤ 4 ∧ m.length ≤ 4 ∧ s.length ≤ 4 := by
        have := blen_length h; have := blen_length m; have := blen_length s; omega
      cases hh : unsignedFromStr h with
      | none => simp [hh] at h'
      | some H =>
        rw [hh] at h'
        cases hm : unsignedFromStr m with
        | none => simp [hm] at h'
        | some M =>
          rw [hm] at h'
          cases hs : unsignedFromStr s with
          | none => simp [hs] at h'
          | some S =>
            rw [hs] at h'
            dsimp only at h'
            split at h'
            · simp at h'
            · split at h'
              · simp at h'
              · split at h'
                · simp at h'
                · have hh' := (unsigned_short hl.1).mp hh
                  have hm' := (unsigned_short hl.2.1).mp hm
                  have hs' := (unsigned_short hl.2.2).mp hs
                  rw [hh'.blen, hm'.blen, hs'.blen] at hb
                  refine ⟨by omega, by omega, by omega, ⟨H, M, S, hh', hm', hs', by unfold IsTime; omega⟩, ?_, ?_⟩
                  · rintro x rfl
                    dsimp only at h'
                    cases hx : unsignedFromStr x with
                    | none => simp [hx] at h'
                    | some F => exact ⟨F, unsigned_iff.mp hx⟩
                  · rintro x rfl
                    dsimp only at h'
                    cases f with
                    | none => simpa using h'
                    | some y => simp at h'; exact h'.2
  · rintro ⟨h1, h2, h3, ⟨H, M, S, hh, hm, hs, h4⟩, h5, h6⟩
    rw [hh.blen, hm.blen, hs.blen, if_neg (by omega), (unsigned_short (by omega)).mpr hh, (unsigned_short (by omega)).mpr hm,
      (unsigned_short (by omega)).mpr hs]
    dsimp only
    obtain ⟨g1, g2, g3⟩ := h4
    rw [if_neg (by omega), if_neg (by omega), if_neg (by omega)]
    have hF : (match f with | some f => (unsignedFromStr f).isSome | none => true) = true := by
      cases f with
      | none => rfl
      | some x =>
        obtain ⟨F, hF⟩ := h5 x rfl
        simp [unsigned_iff.mpr hF]
    cases f with
    | none => cases o with
      | none => rfl
      | some x => simp [h6 x rfl]
    | some y =>
      dsimp only at hF
      cases o with
      | none => simp [hF]
      | some x => simp [hF, h6 x rfl]

/-! ## Padded numbers -/

theorem pad0_ne (w n : Nat) : pad0 w n ≠ [] := by
  intro h
  simp [pad0] at h
  exact natStr_ne n h.2

theorem pad0_numeral (w n : Nat) : Numeral (pad0 w n) n := by
  obtain ⟨h1, h2⟩ := digitsVal_iff.mp (pad0_val w n)
  exact ⟨_, pad0_ne w n, h1, .inl rfl, h2⟩

theorem natStr_numeral (n : Nat) : Numeral (natStr n) n := by
  obtain ⟨h1, h2⟩ := digitsVal_iff.mp (natStr_val n)
  exact ⟨_, natStr_ne n, h1, .inl rfl, h2⟩

theorem pad0_length_iff (w n : Nat) : (pad0 (w + 1) n).length = w + 1 ↔ n < 10 ^ (w + 1) := by
  refine ⟨fun h => ?_, pad0_length⟩
  exact (pad0_numeral (w + 1) n).lt (by omega)

theorem date_pad (y m d : Nat) : (⟨pad0 4 y, pad0 2 m, pad0 2 d⟩ : Date).validate = true ↔ IsDate y m d := by
  rw [date_iff, pad0_length_iff 3, pad0_length_iff 1, pad0_length_iff 1]
  constructor
  · rintro ⟨_, _, _, Y, M, D, h1, h2, h3, h4⟩
    rw [h1.unique (pad0_numeral _ _), h2.unique (pad0_numeral _ _), h3.unique (pad0_numeral _ _)] at h4
    exact h4
  · intro h
    have h' := h
    obtain ⟨h1, h2, h3, h4, h5, h6⟩ := h'
    have := daysIn_le y m
    exact ⟨by omega, by omega, by omega, y, m, d, pad0_numeral _ _, pad0_numeral _ _, pad0_numeral _ _, h⟩

theorem time_pad (h m s : Nat) (f : Option Str) (o : Option TimeOffset) :
    (⟨pad0 2 h, pad0 2 m, pad0 2 s, f, o⟩ : Time).validate = true ↔ IsTime h m s ∧
    (∀ x, f = some x → ∃ F, Numeral x F ∧ F < 2 ^ 64) ∧ (∀ x, o = some x → x.validate = true) := by
  rw [time_iff, pad0_length_iff 1, pad0_length_iff 1, pad0_length_iff 1]
  constructor
  · rintro ⟨_, _, _, ⟨H, M, S, h1, h2, h3, h4⟩, h5, h6⟩
    rw [h1.unique (pad0_numeral _ _), h2.unique (pad0_numeral _ _), h3.unique (pad0_numeral _ _)] at h4
    exact ⟨h4, h5, h6⟩
  · rintro ⟨h1, h2, h3⟩
    obtain ⟨h4, h5, h6⟩ := h1
    exact ⟨by omega, by omega, by omega, ⟨h, m, s, pad0_numeral _ _, pad0_numeral _ _, pad0_numeral _ _, ⟨h4, h5, h6⟩⟩, h2, h3⟩

theorem offset_pad (p : PosNeg) (h m : Nat) : (⟨p, pad0 2 h, pad0 2 m⟩ : OffsetAmount).validate = true ↔ h ≤ 23 ∧ m ≤ 59 := by
  rw [offset_iff, pad0_length_iff 1, pad0_length_iff 1]
  constructor
  · rintro ⟨_, _, H, M, h1, h2, h3, h4⟩
    rw [h1.unique (pad0_numeral _ _)] at h3
    rw [h2.unique (pad0_numeral _ _)] at h4
    exact ⟨h3, h4⟩
  · rintro ⟨h1, h2⟩
    exact ⟨by omega, by omega, h, m, pad0_numeral _ _, pad0_numeral _ _, h1, h2⟩

end Tomllib
