import Verif.Spec.Float
import Verif.Lemmas.Fwd
import Verif.Lemmas.Dates
import Verif.Lemmas.Lang
import Verif.Spec.Valid
/-!
# The decimals of numbers with 64 bits
-/

namespace Tomllib.F64

theorem low_le (m a : Nat) : low m a + 1 ≤ 4 * m ∨ m = 0 := by unfold low; split <;> omega

theorem low_ge (m a : Nat) : 4 * m ≤ low m a + 2 := by unfold low; split <;> omega

/-- The number has neighbours at the doubled distances. -/
theorem bits_above {m a m' a' : Nat} (h : Bits m a) (h' : Bits m' a') (hx : m * 2 ^ a < m' * 2 ^ a') : m * 2 ^ a + 2 ^ a ≤ m' * 2 ^ a' := by
  obtain ⟨h1, h2, h3⟩ := h
  obtain ⟨h1', h2', h3'⟩ := h'
  by_cases hc : a ≤ a'
  · obtain ⟨t, rfl⟩ : ∃ t, a' = a + t := ⟨a' - a, by omega⟩
    have e : m' * 2 ^ (a + t) = m' * 2 ^ t * 2 ^ a := by rw [Nat.pow_add]; ac_rfl
    rw [e] at hx ⊢
    have : m < m' * 2 ^ t := Nat.lt_of_mul_lt_mul_right hx
    have := Nat.mul_le_mul_right (2 ^ a) this
    rw [Nat.succ_mul] at this
    exact this
  · obtain ⟨t, rfl⟩ : ∃ t, a = a' + 1 + t := ⟨a - a' - 1, by omega⟩
    have hm : 2 ^ 52 ≤ m := by rcases h3 with h | h <;> omega
    exfalso
    have e1 : m * 2 ^ (a' + 1 + t) = (m * 2) * 2 ^ t * 2 ^ a' := by rw [Nat.pow_add, Nat.pow_add, Nat.pow_one]; ac_rfl
    rw [e1] at hx
    have h4 : m * 2 * 2 ^ t < m' := Nat.lt_of_mul_lt_mul_right hx
    have h5 : m * 2 ≤ m * 2 * 2 ^ t := Nat.le_mul_of_pos_right _ (Nat.two_pow_pos t)
    omega

theorem bits_below {m a m' a' : Nat} (h : Bits m a) (h' : Bits m' a') (hx : m' * 2 ^ a' < m * 2 ^ a) :
    2 * (m' * 2 ^ a') + 2 * (m * 2 ^ a) ≤ low m a * 2 ^ a := by
  obtain ⟨h1, h2, h3⟩ := h
  obtain ⟨h1', h2', h3'⟩ := h'
  have key : 2 * (m' * 2 ^ a') + (4 * m - low m a) * 2 ^ a ≤ 2 * (m * 2 ^ a) := by
    by_cases hc : a ≤ a'
    · obtain ⟨t, rfl⟩ : ∃ t, a' = a + t := ⟨a' - a, by omega⟩
      have e : m' * 2 ^ (a + t) = m' * 2 ^ t * 2 ^ a := by rw [Nat.pow_add]; ac_rfl
      rw [e] at hx ⊢
      have h4 : m' * 2 ^ t + 1 ≤ m := Nat.lt_of_mul_lt_mul_right hx
      have h5 := low_ge m a
      have h6 : 2 * (m' * 2 ^ t) + (4 * m - low m a) ≤ 2 * m := by omega
      have := Nat.mul_le_mul_right (2 ^ a) h6
      rw [Nat.add_mul, Nat.mul_assoc, Nat.mul_assoc 2 m] at this
      exact this
    · obtain ⟨t, rfl⟩ : ∃ t, a = a' + 1 + t := ⟨a - a' - 1, by omega⟩
      have hm : 2 ^ 52 ≤ m := by rcases h3 with h | h <;> omega
      have e1 : ∀ n, n * 2 ^ (a' + 1 + t) = (n * 2) * 2 ^ t * 2 ^ a' := fun n => by rw [Nat.pow_add, Nat.pow_add, Nat.pow_one]; ac_rfl
      have ht : 1 ≤ 2 ^ t := Nat.two_pow_pos t
      have h4 : 2 * m' + (4 * m - low m (a' + 1 + t)) * 2 * 2 ^ t ≤ 2 * (m * 2 * 2 ^ t) := by
        unfold low
        by_cases hs : m = 2 ^ 52 ∧ a' + 1 + t ≠ 0
        · rw [if_pos hs, hs.1]; omega
        · rw [if_neg hs]
          have : 2 ^ 52 < m := by
            rcases Nat.lt_or_ge (2 ^ 52) m with h | h
            · exact h
            · exact absurd ⟨by omega, by omega⟩ hs
          have h7 : 4 * m - (4 * m - 2) = 2 := by omega
          rw [h7]
          have h8 : (2 ^ 52 + 1) * 2 * 2 ^ t ≤ m * 2 * 2 ^ t := Nat.mul_le_mul_right _ (by omega)
          omega
      have := Nat.mul_le_mul_right (2 ^ a') h4
      rw [Nat.add_mul, ← e1, Nat.mul_assoc 2 m', Nat.mul_assoc 2 (m * 2 * 2 ^ t), ← e1] at this
      exact this
  have h5 : low m a ≤ 4 * m := by unfold low; split <;> omega
  have h6 : (4 * m - low m a) * 2 ^ a + low m a * 2 ^ a = 4 * (m * 2 ^ a) := by
    rw [← Nat.add_mul, Nat.sub_add_cancel h5, Nat.mul_assoc]
  omega

theorem pow_units : quarters = 4 * units := by decide +kernel

theorem units_eq : units = 2 ^ 1074 := by unfold units; rfl

theorem quarters_pos : 0 < quarters := by decide +kernel

theorem pow_bottom : ∃ n, 10 ^ (-(-1076 : Int)).toNat = quarters * n := ⟨5 ^ 1076, by decide +kernel⟩

attribute [local irreducible] quarters units

theorem dec_neg (j N : Nat) : dec (-(j : Int)) N = 4 * (N * units) := by
  have : (-(j : Int)).toNat = 0 := by omega
  unfold dec
  rw [this, pow_units, Nat.pow_zero, Nat.mul_one]; ac_rfl



theorem bin_neg (a j n : Nat) : bin a (-(j : Int)) n = n * 2 ^ a * 10 ^ j := by
  have : (-(-(j : Int))).toNat = j := by omega
  unfold bin
  rw [this]

theorem high_eq (m a j : Nat) : (4 * m + 2) * 2 ^ a * 10 ^ j = 4 * (m * 2 ^ a * 10 ^ j) + 2 * (2 ^ a * 10 ^ j) := by
  rw [Nat.add_mul, Nat.add_mul, Nat.mul_assoc 4, Nat.mul_assoc 4, Nat.mul_assoc 2]

/-- What is in the interval is rounded to the number. -/
theorem rounds_of_inside {m a N j : Nat} (hb : Bits m a) (h : inside m a (-(j : Int)) N = true) : Rounds N j m a := by
  intro m' a' hb' hne
  have hp : 0 < 10 ^ j := Nat.pow_pos (by omega)
  unfold inside at h
  rw [dec_neg, bin_neg, bin_neg, high_eq] at h
  rcases Nat.lt_or_gt_of_ne hne with hx | hx
  · have h1 := Nat.mul_le_mul_right (10 ^ j) (bits_below hb hb' hx)
    rw [Nat.add_mul, Nat.mul_assoc 2, Nat.mul_assoc 2 (m * 2 ^ a)] at h1
    have h2 : m' * 2 ^ a' * 10 ^ j < m * 2 ^ a * 10 ^ j := Nat.mul_lt_mul_of_pos_right hx hp
    unfold off
    split at h <;> simp only [Bool.and_eq_true, decide_eq_true_eq] at h <;> omega
  · have h1 := Nat.mul_le_mul_right (10 ^ j) (bits_above hb hb' hx)
    rw [Nat.add_mul] at h1
    have h2 : m * 2 ^ a * 10 ^ j < m' * 2 ^ a' * 10 ^ j := Nat.mul_lt_mul_of_pos_right hx hp
    unfold off
    split at h <;> simp only [Bool.and_eq_true, decide_eq_true_eq] at h <;> omega

/-- The next number. -/
theorem next_above {m a : Nat} (h : Bits m a) (ha : a < 2045) : ∃ m' a', Bits m' a' ∧ m' * 2 ^ a' = m * 2 ^ a + 2 ^ a := by
  obtain ⟨h1, h2, h3⟩ := h
  by_cases hm : m + 1 < 2 ^ 53
  · exact ⟨m + 1, a, ⟨hm, h2, h3.imp_left (by omega)⟩, Nat.succ_mul _ _⟩
  · refine ⟨2 ^ 52, a + 1, ⟨by omega, by omega, .inl (by omega)⟩, ?_⟩
    obtain rfl : m = 2 ^ 53 - 1 := by omega
    rw [← Nat.succ_mul, Nat.pow_succ 2 a, ← Nat.mul_assoc, Nat.mul_right_comm]

/-- The number before. -/
theorem next_below {m a : Nat} (h : Bits m a) (hm : 0 < m) : ∃ m' a', Bits m' a' ∧ m' * 2 ^ a' < m * 2 ^ a ∧
    2 * (m' * 2 ^ a') + 2 * (m * 2 ^ a) = low m a * 2 ^ a := by
  obtain ⟨h1, h2, h3⟩ := h
  have h5 : low m a ≤ 4 * m := by unfold low; split <;> omega
  have h6 : (4 * m - low m a) * 2 ^ a + low m a * 2 ^ a = 4 * (m * 2 ^ a) := by
    rw [← Nat.add_mul, Nat.sub_add_cancel h5, Nat.mul_assoc]
  by_cases hs : m = 2 ^ 52 ∧ a ≠ 0
  · obtain ⟨hm, ha⟩ := hs
    obtain ⟨b, rfl⟩ : ∃ b, a = b + 1 := ⟨a - 1, by omega⟩
    refine ⟨2 ^ 53 - 1, b, ⟨by omega, by omega, .inl (by omega)⟩, ?_⟩
    have hp : 0 < 2 ^ b := Nat.two_pow_pos b
    have e : low m (b + 1) = 4 * m - 1 := by unfold low; rw [if_pos ⟨hm, ha⟩]
    rw [e] at h6 ⊢
    have e2 : 4 * m - (4 * m - 1) = 1 := by omega
    rw [e2] at h6
    have e3 : m * 2 ^ (b + 1) = 2 * (m * 2 ^ b) := by rw [Nat.pow_succ]; ac_rfl
    have e4 : (2 ^ 53 - 1) * 2 ^ b + 2 ^ b = 2 * (m * 2 ^ b) := by
      rw [← Nat.succ_mul, ← Nat.mul_assoc, hm]
    have e5 : 2 ^ (b + 1) = 2 * 2 ^ b := by rw [Nat.pow_succ]; omega
    omega
  · refine ⟨m - 1, a, ⟨by omega, h2, ?_⟩, ?_⟩
    · rcases h3 with h | h
      · by_cases ha : a = 0
        · exact .inr ha
        · refine .inl ?_
          rcases Nat.lt_or_ge (2 ^ 52) m with h' | h'
          · omega
          · exact absurd ⟨by omega, ha⟩ hs
      · exact .inr h
    have e : low m a = 4 * m - 2 := by unfold low; rw [if_neg hs]
    rw [e] at h6 ⊢
    have e2 : 4 * m - (4 * m - 2) = 2 := by omega
    rw [e2] at h6
    have hp : 0 < 2 ^ a := Nat.two_pow_pos a
    have e4 : (m - 1) * 2 ^ a + 2 ^ a = m * 2 ^ a := by
      rw [← Nat.succ_mul, Nat.succ_eq_add_one, Nat.sub_add_cancel hm]
    omega

/-- What is rounded to the number is in the interval. -/
theorem inside_of_rounds {m a N j : Nat} (hb : Bits m a) (hm : 0 < m) (ha : a < 2045) (h : Rounds N j m a) : inside m a (-(j : Int)) N = true := by
  have hp : 0 < 10 ^ j := Nat.pow_pos (by omega)
  have hp2 : 0 < 2 ^ a := Nat.two_pow_pos a
  obtain ⟨m1, a1, hb1, e1⟩ := next_above hb ha
  obtain ⟨m2, a2, hb2, h2, e2⟩ := next_below hb hm
  have r1 := h m1 a1 hb1 (by omega)
  have r2 := h m2 a2 hb2 (by omega)
  have l1 : m1 * 2 ^ a1 * 10 ^ j = m * 2 ^ a * 10 ^ j + 2 ^ a * 10 ^ j := by rw [e1, Nat.add_mul]
  have l2 : low m a * 2 ^ a * 10 ^ j = 2 * (m2 * 2 ^ a2 * 10 ^ j) + 2 * (m * 2 ^ a * 10 ^ j) := by
    rw [← e2, Nat.add_mul, Nat.mul_assoc 2, Nat.mul_assoc 2 (m * 2 ^ a)]
  have l3 : m2 * 2 ^ a2 * 10 ^ j < m * 2 ^ a * 10 ^ j := Nat.mul_lt_mul_of_pos_right h2 hp
  have l4 : 0 < 2 ^ a * 10 ^ j := Nat.mul_pos hp2 hp
  unfold inside
  rw [dec_neg, bin_neg, bin_neg, high_eq]
  unfold off at r1 r2
  split <;> simp only [Bool.and_eq_true, decide_eq_true_eq] <;> omega

/-! ## The search -/

theorem dec_mul (k : Int) (d : Nat) : dec k d = d * dec k 1 := by unfold dec; rw [Nat.one_mul, Nat.mul_assoc]

theorem dec_pos (k : Int) : 0 < dec k 1 := by
  unfold dec
  exact Nat.mul_pos (Nat.mul_pos (by omega) (Nat.pow_pos (by omega))) quarters_pos

theorem dec_mono (k : Int) {d d' : Nat} (h : d ≤ d') : dec k d ≤ dec k d' := by
  rw [dec_mul k d, dec_mul k d']; exact Nat.mul_le_mul_right _ h

theorem dec_lt (k : Int) {d d' : Nat} (h : d < d') : dec k d < dec k d' := by
  rw [dec_mul k d, dec_mul k d']; exact Nat.mul_lt_mul_of_pos_right h (dec_pos k)

theorem bin_mono (a : Nat) (k : Int) {n n' : Nat} (h : n ≤ n') : bin a k n ≤ bin a k n' := by
  unfold bin; exact Nat.mul_le_mul_right _ (Nat.mul_le_mul_right _ h)

theorem bin_lt (a : Nat) (k : Int) {n n' : Nat} (h : n < n') : bin a k n < bin a k n' := by
  unfold bin
  exact Nat.mul_lt_mul_of_pos_right (Nat.mul_lt_mul_of_pos_right h (Nat.two_pow_pos a)) (Nat.pow_pos (by omega))

/-- The quotient and the number after it enclose the number. -/
theorem floor_le (m a : Nat) (k : Int) : dec k (bin a k (4 * m) / dec k 1) ≤ bin a k (4 * m) := by
  rw [dec_mul]; exact Nat.div_mul_le_self _ _

theorem lt_floor (m a : Nat) (k : Int) : bin a k (4 * m) < dec k (bin a k (4 * m) / dec k 1 + 1) := by
  have h := Nat.lt_mul_div_succ (bin a k (4 * m)) (dec_pos k)
  rw [dec_mul k (_ + 1)]
  exact Nat.mul_comm (dec k 1) _ ▸ h

/-- What lies between something inside and the number is inside. -/
theorem inside_down {m a : Nat} {k : Int} {d d' : Nat} (h : inside m a k d = true) (h1 : d ≤ d') (h2 : dec k d' ≤ bin a k (4 * m)) : inside m a k d' = true := by
  have h3 := dec_mono k h1
  have h4 := bin_lt a k (show 4 * m < 4 * m + 2 by omega)
  unfold inside at h ⊢
  by_cases e : m % 2 = 0
  · rw [if_pos e] at h ⊢
    simp only [Bool.and_eq_true, decide_eq_true_eq] at h ⊢; omega
  · rw [if_neg e] at h ⊢
    simp only [Bool.and_eq_true, decide_eq_true_eq] at h ⊢; omega

theorem inside_up {m a : Nat} {k : Int} {d d' : Nat} (hm : 0 < m) (h : inside m a k d = true) (h1 : d' ≤ d) (h2 : bin a k (4 * m) ≤ dec k d') : inside m a k d' = true := by
  have h3 := dec_mono k h1
  have h4 := bin_lt a k (show low m a < 4 * m by have := low_le m a; omega)
  unfold inside at h ⊢
  by_cases e : m % 2 = 0
  · rw [if_pos e] at h ⊢
    simp only [Bool.and_eq_true, decide_eq_true_eq] at h ⊢; omega
  · rw [if_neg e] at h ⊢
    simp only [Bool.and_eq_true, decide_eq_true_eq] at h ⊢; omega

theorem inside_exact {m a : Nat} {k : Int} {d : Nat} (hm : 0 < m) (h : dec k d = bin a k (4 * m)) : inside m a k d = true := by
  have h3 := bin_lt a k (show 4 * m < 4 * m + 2 by omega)
  have h4 := bin_lt a k (show low m a < 4 * m by have := low_le m a; omega)
  unfold inside
  split <;> simp only [Bool.and_eq_true, decide_eq_true_eq] <;> omega

/-- The distance, in the units of the search. -/
def far (m a : Nat) (k : Int) (d : Nat) : Nat := (dec k d - bin a k (4 * m)) + (bin a k (4 * m) - dec k d)

theorem pick_none {m a : Nat} {k : Int} (hm : 0 < m) (h : pick m a k = none) (d : Nat) : inside m a k d = false := by
  unfold pick at h
  simp only at h
  split at h
  · split at h <;> simp at h
  next h1 =>
    split at h
    · simp at h
    next h2 =>
      cases hd : inside m a k d with
      | false => rfl
      | true =>
        rcases Nat.lt_or_ge (bin a k (4 * m) / dec k 1) d with hc | hc
        · exact absurd (inside_up hm hd hc (Nat.le_of_lt (lt_floor m a k))) h2
        · exact absurd (inside_down hd hc (floor_le m a k)) h1

theorem pick_some {m a : Nat} {k : Int} {d : Nat} (hm : 0 < m) (h : pick m a k = some d) :
    inside m a k d = true ∧ ∀ d', inside m a k d' = true → far m a k d ≤ far m a k d' := by
  have hf := floor_le m a k
  have hg := lt_floor m a k
  unfold pick at h
  simp only at h
  obtain ⟨d0, hd0⟩ : ∃ d0, bin a k (4 * m) / dec k 1 = d0 := ⟨_, rfl⟩
  rw [hd0] at h hf hg
  have e1 : dec k (2 * d0 + 1) = dec k d0 + dec k (d0 + 1) := by
    rw [dec_mul k d0, dec_mul k (d0 + 1), dec_mul, ← Nat.add_mul]; congr 1; omega
  have below : ∀ d', d' ≤ d0 → far m a k d0 ≤ far m a k d' := fun d' hd' => by
    have := dec_mono k hd'; unfold far; omega
  have above : ∀ d', d0 + 1 ≤ d' → far m a k (d0 + 1) ≤ far m a k d' := fun d' hd' => by
    have := dec_mono k hd'; unfold far; omega
  split at h
  next h1 =>
    split at h
    next h2 =>
      cases h
      simp only [Bool.and_eq_true, decide_eq_true_eq] at h2
      refine ⟨h2.1, fun d' _ => ?_⟩
      have : far m a k (d0 + 1) ≤ far m a k d0 := by unfold far; omega
      rcases Nat.lt_or_ge d0 d' with hc | hc
      · exact above d' hc
      · exact Nat.le_trans this (below d' hc)
    next h2 =>
      rw [← Option.some.inj h]
      refine ⟨h1, fun d' hd' => ?_⟩
      rcases Nat.lt_or_ge d0 d' with hc | hc
      · have h3 := inside_up hm hd' hc (Nat.le_of_lt hg)
        rw [h3, Bool.true_and, decide_eq_true_eq] at h2
        have : far m a k d0 ≤ far m a k (d0 + 1) := by unfold far; omega
        exact Nat.le_trans this (above d' hc)
      · exact below d' hc
  next h1 =>
    split at h
    next h2 =>
      cases h
      refine ⟨h2, fun d' hd' => ?_⟩
      rcases Nat.lt_or_ge d0 d' with hc | hc
      · exact above d' hc
      · exact absurd (inside_down hd' hc hf) h1
    · simp at h

/-- The outcome of the search. -/
structure Found (m a : Nat) (top : Int) (d : Nat) (k : Int) : Prop where
  le : k ≤ top
  inside : inside m a k d = true
  closest : ∀ d', F64.inside m a k d' = true → far m a k d ≤ far m a k d'
  first : ∀ k', k < k' → k' ≤ top → ∀ d', F64.inside m a k' d' = false

theorem exact_bottom (m a n : Nat) (k : Int) (hk : 10 ^ (-k).toNat = quarters * n) (h0 : k.toNat = 0) : dec k (bin a k (4 * m) / dec k 1) = bin a k (4 * m) := by
  rw [dec_mul]
  refine Nat.div_mul_cancel ?_
  have e1 : dec k 1 = quarters := by unfold dec; rw [h0, Nat.pow_zero, Nat.one_mul]
  have e2 : bin a k (4 * m) = quarters * (4 * m * 2 ^ a * n) := by
    unfold bin; rw [hk]; ac_rfl
  rw [e1, e2]
  exact Nat.dvd_mul_right _ _

theorem search_found {m a : Nat} (hm : 0 < m) : ∀ (n : Nat) (k : Int), k - n = -1076 → Found m a k (search m a n k).1 (search m a n k).2
  | 0, k, hk => by
    obtain rfl : k = -1076 := by omega
    obtain ⟨n, hn⟩ := pow_bottom
    have e := exact_bottom m a n (-1076) hn rfl
    have es : search m a 0 (-1076) = (bin a (-1076) (4 * m) / dec (-1076) 1, -1076) := by unfold search; rfl
    rw [es]
    generalize bin a (-1076) (4 * m) / dec (-1076) 1 = d at e
    refine ⟨Int.le_refl _, inside_exact hm e, fun d' _ => ?_, fun k' h1 h2 => absurd h1 (by simp only; omega)⟩
    show far m a (-1076) d ≤ _
    unfold far
    omega
  | n + 1, k, hk => by
    cases hp : pick m a k with
    | some d =>
      have e : search m a (n + 1) k = (d, k) := by unfold search; rw [hp]
      rw [e]
      exact ⟨Int.le_refl _, (pick_some hm hp).1, (pick_some hm hp).2, fun k' h1 h2 => by omega⟩
    | none =>
      have e : search m a (n + 1) k = search m a n (k - 1) := by rw [search, hp]
      rw [e]
      have ih := search_found (m := m) (a := a) hm n (k - 1) (by omega)
      refine ⟨by have := ih.le; omega, ih.inside, ih.closest, fun k' h1 h2 d' => ?_⟩
      by_cases hk' : k' = k
      · subst hk'; exact pick_none hm hp d'
      · exact ih.first k' h1 (by omega) d'

theorem shortest_found {m a : Nat} (hm : 0 < m) : Found m a 310 (shortest m a).1 (shortest m a).2 := search_found hm 1386 310 (by omega)

/-! ## Whole numbers -/

theorem inside_zero {m a d : Nat} {k : Int} (hk : 0 ≤ k) (h : inside m a k d = true) : inside m a (-((0 : Nat) : Int)) (d * 10 ^ k.toNat) = true := by
  have e1 : dec (-((0 : Nat) : Int)) (d * 10 ^ k.toNat) = dec k d := by
    unfold dec; simp
  have e2 : ∀ n, bin a (-((0 : Nat) : Int)) n = bin a k n := fun n => by
    have : (-k).toNat = 0 := by omega
    unfold bin; rw [this]; simp
  unfold inside at h ⊢
  rw [e1, e2, e2]
  exact h

/-- A whole number has no places. -/
theorem whole_iff {m a : Nat} (hm : 0 < m) : Whole m a ↔ 0 ≤ (shortest m a).2 := by
  have hf := shortest_found (a := a) hm
  constructor
  · rintro ⟨n, hn⟩
    rcases Int.lt_or_le (shortest m a).2 0 with hc | hc
    · have := hf.first 0 hc (by omega) n
      have e : inside m a 0 n = true := by
        refine inside_exact hm ?_
        have h1 := dec_neg 0 n
        have h2 := bin_neg a 0 (4 * m)
        simp only [Int.natCast_zero, Int.neg_zero, Nat.pow_zero, Nat.mul_one] at h1 h2
        rw [h1, h2, Nat.mul_assoc 4, hn, Nat.mul_comm n]
      rw [e] at this; simp at this
    · exact hc
  · intro hk
    have h := inside_zero hk hf.inside
    generalize (shortest m a).1 * 10 ^ (shortest m a).2.toNat = D at h
    unfold inside at h
    rw [dec_neg, bin_neg, bin_neg, high_eq] at h
    simp only [Nat.pow_zero, Nat.mul_one] at h
    have hl := Nat.mul_le_mul_right (2 ^ a) (low_ge m a)
    rw [Nat.add_mul, Nat.mul_assoc 4] at hl
    have hle : m * 2 ^ a * 4 ≤ 4 * (D * units) + 2 * 2 ^ a ∧ 4 * (D * units) ≤ 4 * (m * 2 ^ a) + 2 * 2 ^ a := by
      split at h <;> simp only [Bool.and_eq_true, decide_eq_true_eq] at h <;> omega
    by_cases ha : a < 1074
    · have hu : units = 2 ^ (1074 - a) * 2 ^ a := by
        rw [← Nat.pow_add, Nat.sub_add_cancel (by omega)]; exact units_eq
      have e : D * units = D * 2 ^ (1074 - a) * 2 ^ a := by rw [hu, Nat.mul_assoc]
      rw [e] at hle
      have hp : 0 < 2 ^ a := Nat.two_pow_pos a
      generalize hY : D * 2 ^ (1074 - a) = Y at e hle
      have : Y = m := by
        rcases Nat.lt_trichotomy Y m with hc | hc | hc
        · have := Nat.mul_le_mul_right (2 ^ a) hc
          rw [Nat.succ_mul] at this
          omega
        · exact hc
        · have := Nat.mul_le_mul_right (2 ^ a) hc
          rw [Nat.succ_mul] at this
          omega
      exact ⟨D, by rw [← this, ← e, Nat.mul_comm]⟩
    · obtain ⟨t, rfl⟩ : ∃ t, a = t + 1074 := ⟨a - 1074, by omega⟩
      refine ⟨m * 2 ^ t, ?_⟩
      rw [Nat.pow_add, ← units_eq]; ac_rfl

theorem whole_of_large {m a : Nat} (h : 1074 ≤ a) : Whole m a := by
  obtain ⟨t, rfl⟩ : ∃ t, a = t + 1074 := ⟨a - 1074, by omega⟩
  refine ⟨m * 2 ^ t, ?_⟩
  rw [Nat.pow_add, ← units_eq]; ac_rfl

theorem far_neg (m a j N : Nat) : far m a (-(j : Int)) N = 4 * off N j m a := by
  unfold far off
  rw [dec_neg, bin_neg, Nat.mul_assoc 4, Nat.mul_assoc 4]
  omega

/-! ## The text -/

theorem natStr_head {n : Nat} (h : 0 < n) : ∃ c t, natStr n = c :: t ∧ 49 ≤ c.toNat ∧ c.toNat ≤ 57 := natStrAux_head (n + 1) n (by omega) (by omega)

theorem unsigned_of {c : Char} {t : Str} (h1 : 49 ≤ c.toNat) (h2 : c.toNat ≤ 57) (ht : ∀ x ∈ t, 48 ≤ x.toNat ∧ x.toNat ≤ 57) : Unsigned (c :: t) := by
  cases t with
  | nil => exact .one c (anyDigit_of (by omega))
  | cons d t => exact Unsigned.many c [d] t h1 h2 (.digit d (anyDigit_of (ht d (by simp)))) (digits_pieces fun x hx => ht x (by simp [hx]))

theorem fraction_of {f : Str} (hf : f ≠ []) (h : ∀ x ∈ f, 48 ≤ x.toNat ∧ x.toNat ≤ 57) : Fraction ('.' :: f) := by
  cases f with
  | nil => exact absurd rfl hf
  | cons c f => exact .mk c f (anyDigit_of (h c (by simp))) (digits_pieces fun x hx => h x (by simp [hx]))

theorem signed_of {p : Str → Prop} {s : Str} (neg : Bool) (h : p s) : Signed p (signStr neg ++ s) := by
  cases neg with
  | false => exact .plain h
  | true => exact .minus h

/-- The digits of a decimal with places. -/
theorem digits_places {d n : Nat} (hd : 0 < d) (hn : 0 < n) : ∃ i f, digits d (-(n : Int)) = i ++ lit% "." ++ f ∧ f.length = n ∧ decVal (i ++ f) = d ∧
    (∀ c ∈ i ++ f, 48 ≤ c.toNat ∧ c.toNat ≤ 57) ∧ (i = lit% "0" ∨ ∃ c t, i = c :: t ∧ 49 ≤ c.toNat ∧ c.toNat ≤ 57) := by
  have hv := natStr_val d
  obtain ⟨h1, h2⟩ := digitsVal_iff.mp hv
  have e : digits d (-(n : Int)) = if (natStr d).length ≤ n then lit% "0." ++ List.replicate (n - (natStr d).length) '0' ++ natStr d
      else (natStr d).take ((natStr d).length - n) ++ lit% "." ++ (natStr d).drop ((natStr d).length - n) := by
    have h3 : ¬ (0 ≤ -(n : Int)) := by omega
    have h4 : (-(-(n : Int))).toNat = n := by omega
    unfold digits
    rw [h4, if_neg h3]
  rw [e]
  split
  next hc =>
    refine ⟨lit% "0", List.replicate (n - (natStr d).length) '0' ++ natStr d, by simp, by simp; omega, ?_, ?_, .inl rfl⟩
    · have h5 : lit% "0" ++ (List.replicate (n - (natStr d).length) '0' ++ natStr d) = List.replicate (n - (natStr d).length + 1) '0' ++ natStr d := by
        rw [List.replicate_succ]; rfl
      rw [h5]
      have h6 := digitsVal_zeros (n - (natStr d).length + 1) (natStr d)
      rw [hv] at h6
      exact (digitsVal_iff.mp h6).2.symm
    · intro c hc
      simp only [List.mem_append, List.mem_replicate] at hc
      rcases hc with hc | ⟨_, rfl⟩ | hc
      · simp at hc; subst hc; decide
      · decide
      · exact h1 c hc
  next hc =>
    refine ⟨(natStr d).take ((natStr d).length - n), (natStr d).drop ((natStr d).length - n), rfl, by simp; omega, ?_, ?_, .inr ?_⟩
    · rw [List.take_append_drop]; exact h2.symm
    · rw [List.take_append_drop]; exact h1
    · obtain ⟨c, t, h3, h4, h5⟩ := natStr_head hd
      obtain ⟨x, hx⟩ : ∃ x, (natStr d).length - n = x + 1 := ⟨(natStr d).length - n - 1, by omega⟩
      rw [hx, h3]
      exact ⟨c, t.take x, rfl, h4, h5⟩

theorem digits_whole {d : Nat} {k : Int} (hd : 0 < d) (hk : 0 ≤ k) : Unsigned (digits d k) ∧ ∀ c ∈ digits d k, 48 ≤ c.toNat ∧ c.toNat ≤ 57 := by
  have e : digits d k = natStr d ++ List.replicate k.toNat '0' := by unfold digits; rw [if_pos hk]
  obtain ⟨c, t, h3, h4, h5⟩ := natStr_head hd
  obtain ⟨h1, -⟩ := digitsVal_iff.mp (natStr_val d)
  have h6 : ∀ x ∈ natStr d ++ List.replicate k.toNat '0', 48 ≤ x.toNat ∧ x.toNat ≤ 57 := by
    intro x hx
    simp only [List.mem_append, List.mem_replicate] at hx
    rcases hx with hx | ⟨_, rfl⟩
    · exact h1 x hx
    · decide
  rw [e]
  refine ⟨?_, h6⟩
  rw [h3] at h6 ⊢
  exact unsigned_of h4 h5 fun x hx => h6 x (List.mem_cons_of_mem _ hx)

theorem found_pos {m a : Nat} {top k : Int} {d : Nat} (hm : 0 < m) (h : Found m a top d k) : 0 < d := by
  rcases Nat.eq_zero_or_pos d with rfl | hd
  · have h1 := h.inside
    have h2 : dec k 0 = 0 := by unfold dec; simp
    have h3 : 0 < bin a k (low m a) := by
      have : 0 < low m a := by unfold low; split <;> omega
      have h4 := bin_lt a k this
      omega
    unfold F64.inside at h1
    rw [h2] at h1
    split at h1 <;> simp only [Bool.and_eq_true, decide_eq_true_eq] at h1 <;> omega
  · exact hd

theorem decimal_of {m a : Nat} (neg : Bool) (hb : Bits m a) (hw : ¬ Whole m a) :
    ∃ i f, Decimal neg m a i f (shown (.fin neg m a)) ∧ FloatText (shown (.fin neg m a)) := by
  have hm : 0 < m := by
    rcases Nat.eq_zero_or_pos m with rfl | h
    · exact absurd ⟨0, by simp⟩ hw
    · exact h
  have ha : a < 1074 := by
    rcases Nat.lt_or_ge a 1074 with h | h
    · exact h
    · exact absurd (whole_of_large h) hw
  have hf := shortest_found (a := a) hm
  have hk : (shortest m a).2 < 0 := by
    rcases Int.lt_or_le (shortest m a).2 0 with h | h
    · exact h
    · exact absurd ((whole_iff hm).mpr h) hw
  have hs : shown (.fin neg m a) = signStr neg ++ digits (shortest m a).1 (shortest m a).2 := by
    show (if m = 0 then _ else _) = _
    rw [if_neg (by omega)]
  rw [hs]
  generalize (shortest m a).1 = d at hf
  generalize (shortest m a).2 = k at hf hk
  obtain ⟨n, rfl⟩ : ∃ n : Nat, k = -(n : Int) := ⟨(-k).toNat, by omega⟩
  obtain ⟨i, f, h1, h2, h3, h4, h5⟩ := digits_places (found_pos hm hf) (show 0 < n by omega)
  rw [h1]
  have hround : ∀ N j, Rounds N j m a → F64.inside m a (-(j : Int)) N = true := fun N j h => inside_of_rounds hb hm (by omega) h
  refine ⟨i, f, ⟨by simp [signStr], h4, ?_, ?_, ?_, ?_⟩, ?_⟩
  · rcases h5 with h | ⟨c, t, h, h6, h7⟩
    · exact .inl h
    · refine .inr ⟨c, t, h, ?_⟩
      rintro rfl
      revert h6; decide
  · rw [h3, h2]; exact rounds_of_inside hb hf.inside
  · intro N j hj hr
    have := hf.first (-(j : Int)) (by omega) (by omega) N
    rw [hround N j hr] at this
    simp at this
  · intro N hr
    rw [h2] at hr
    have := hf.closest N (hround N n hr)
    rw [far_neg, far_neg] at this
    rw [h2, h3]
    omega
  · have hi : Unsigned i := by
      rcases h5 with h | ⟨c, t, h, h6, h7⟩
      · rw [h]; exact .one '0' (anyDigit_of (by decide))
      · rw [h] at h4 ⊢
        exact unsigned_of h6 h7 fun x hx => h4 x (by simp [hx])
    have := FloatText.frac (signed_of neg hi) (fraction_of (f := f) (by intro h; rw [h] at h2; simp at h2; omega) fun x hx => h4 x (by simp [hx]))
    simpa using this

theorem mark_of {s : Str} (h : FloatText s) : ∃ c ∈ s, c = '.' ∨ c = 'e' ∨ c = 'E' := by
  have hf : ∀ {f}, Fraction f → ∃ c ∈ f, c = '.' ∨ c = 'e' ∨ c = 'E' := fun hf => by
    cases hf with | mk c s _ _ => exact ⟨'.', by simp, .inl rfl⟩
  have he : ∀ {f}, Exponent f → ∃ c ∈ f, c = '.' ∨ c = 'e' ∨ c = 'E' := fun hf => by
    cases hf with | mk e s h _ => exact ⟨e, by simp, .inr h⟩
  cases h with
  | both _ h _ => obtain ⟨c, h1, h2⟩ := hf h; exact ⟨c, by simp [h1], h2⟩
  | frac _ h => obtain ⟨c, h1, h2⟩ := hf h; exact ⟨c, by simp [h1], h2⟩
  | exp _ h => obtain ⟨c, h1, h2⟩ := he h; exact ⟨c, by simp [h1], h2⟩

/-- A whole number is written as an integer. -/
theorem whole_text {m a : Nat} (neg : Bool) (hw : Whole m a) : IntegerText (shown (.fin neg m a)) ∧
    ∀ c ∈ shown (.fin neg m a), c = '-' ∨ (48 ≤ c.toNat ∧ c.toNat ≤ 57) := by
  rcases Nat.eq_zero_or_pos m with rfl | hm
  · refine ⟨.plain (.one '0' (anyDigit_of (by decide))), ?_⟩
    intro c hc
    have : c = '0' := by simpa [shown] using hc
    subst this; exact .inr (by decide)
  · have hf := shortest_found (a := a) hm
    have hs : shown (.fin neg m a) = signStr neg ++ digits (shortest m a).1 (shortest m a).2 := by
      show (if m = 0 then _ else _) = _
      rw [if_neg (by omega)]
    have := digits_whole (found_pos hm hf) ((whole_iff hm).mp hw)
    rw [hs]
    refine ⟨signed_of neg this.1, fun c hc => ?_⟩
    rw [List.mem_append] at hc
    rcases hc with hc | hc
    · left
      cases neg with
      | false => simp [signStr] at hc
      | true => simpa [signStr] using hc
    · exact .inr (this.2 c hc)

theorem whole_not_valid {m a : Nat} (neg : Bool) (hw : Whole m a) : ¬ (Value.ofFloat (.fin neg m a)).Valid := by
  rintro ⟨u, w, h, hu⟩
  obtain ⟨c, h1, h2⟩ := mark_of hu
  have := (whole_text neg hw).2 c (by rw [h]; simp [h1])
  rcases this with rfl | h3
  · simp at h2
  · rcases h2 with rfl | rfl | rfl <;> revert h3 <;> decide

/-! ## Different numbers have different texts -/

theorem bits_unique {m a m' a' : Nat} (h : Bits m a) (h' : Bits m' a') (e : m * 2 ^ a = m' * 2 ^ a') : m = m' ∧ a = a' := by
  have key : ∀ {m a m' a' : Nat}, Bits m a → Bits m' a' → m * 2 ^ a = m' * 2 ^ a' → ¬ a < a' := by
    intro m a m' a' h h' e hlt
    obtain ⟨t, rfl⟩ : ∃ t, a' = a + 1 + t := ⟨a' - a - 1, by omega⟩
    have e2 : m' * 2 ^ (a + 1 + t) = m' * 2 * 2 ^ t * 2 ^ a := by rw [Nat.pow_add, Nat.pow_add, Nat.pow_one]; ac_rfl
    rw [e2] at e
    have e3 := Nat.eq_of_mul_eq_mul_right (Nat.two_pow_pos a) e
    have hm : 2 ^ 52 ≤ m' := by rcases h'.2.2 with h | h <;> omega
    have h5 : m' * 2 ≤ m' * 2 * 2 ^ t := Nat.le_mul_of_pos_right _ (Nat.two_pow_pos t)
    have := h.1
    omega
  have h1 := key h h' e
  have h2 := key h' h e.symm
  obtain rfl : a = a' := by omega
  exact ⟨Nat.eq_of_mul_eq_mul_right (Nat.two_pow_pos a) e, rfl⟩

/-- A decimal is rounded to one number only. -/
theorem rounds_unique {m a m' a' N j : Nat} (hb : Bits m a) (hb' : Bits m' a') (h : Rounds N j m a) (h' : Rounds N j m' a') : m = m' ∧ a = a' := by
  have key : ∀ {m a m' a' : Nat}, Bits m a → Bits m' a' → Rounds N j m a → Rounds N j m' a' → ¬ m * 2 ^ a < m' * 2 ^ a' := by
    intro m a m' a' hb hb' h h' hlt
    have r := h m' a' hb' (by omega)
    have r' := h' m a hb (by omega)
    have heq : off N j m a = off N j m' a' := by omega
    have hev : m % 2 = 0 := by omega
    have hev' : m' % 2 = 0 := by omega
    have hge := bits_above hb hb' hlt
    have hb1 : Bits (m + 1) a := ⟨by have := hb.1; omega, hb.2.1, hb.2.2.imp_left (by omega)⟩
    have hp : 0 < 10 ^ j := Nat.pow_pos (by omega)
    have e1 : (m + 1) * 2 ^ a = m * 2 ^ a + 2 ^ a := Nat.succ_mul _ _
    have hp2 : 0 < 2 ^ a := Nat.two_pow_pos a
    rcases Nat.lt_or_ge ((m + 1) * 2 ^ a) (m' * 2 ^ a') with hc | hc
    · have r1 := h (m + 1) a hb1 (by omega)
      have l1 : m * 2 ^ a * 10 ^ j < (m + 1) * 2 ^ a * 10 ^ j := Nat.mul_lt_mul_of_pos_right (by omega) hp
      have l2 : (m + 1) * 2 ^ a * 10 ^ j < m' * 2 ^ a' * 10 ^ j := Nat.mul_lt_mul_of_pos_right hc hp
      unfold off at heq r1
      omega
    · have := (bits_unique hb1 hb' (by omega)).1
      omega
  have h1 := key hb hb' h h'
  have h2 := key hb' hb h' h
  exact bits_unique hb hb' (by omega)

/-- The digits of a text, as a number, and the number of places. -/
def places (u : Str) : Nat × Nat := (decVal (u.filter (· ≠ '.')), (u.dropWhile (· ≠ '.')).length - 1)

theorem digit_ne_dot {s : Str} (h : ∀ c ∈ s, 48 ≤ c.toNat ∧ c.toNat ≤ 57) : ∀ c ∈ s, c ≠ '.' := by
  rintro c hc rfl
  have := h _ hc
  revert this; decide

theorem filter_digits {s : Str} (h : ∀ c ∈ s, 48 ≤ c.toNat ∧ c.toNat ≤ 57) : s.filter (· ≠ '.') = s :=
  List.filter_eq_self.mpr fun c hc => by simpa using digit_ne_dot h c hc

theorem places_point {i f : Str} (h : ∀ c ∈ i ++ f, 48 ≤ c.toNat ∧ c.toNat ≤ 57) : places (i ++ lit% "." ++ f) = (decVal (i ++ f), f.length) := by
  have h1 := filter_digits (s := i) fun c hc => h c (by simp [hc])
  have h2 := filter_digits (s := f) fun c hc => h c (by simp [hc])
  have h3 : (i ++ lit% "." ++ f).dropWhile (· ≠ '.') = '.' :: f := by
    rw [List.append_assoc, List.dropWhile_append_of_pos (fun c hc => by simpa using digit_ne_dot (s := i) (fun c hc => h c (by simp [hc])) c hc)]
    simp
  unfold places
  rw [h3, List.filter_append, List.filter_append, h1, h2]
  simp

theorem dropWhile_all {s : Str} {p : Char → Bool} (h : ∀ c ∈ s, p c = true) : s.dropWhile p = [] := by
  induction s with
  | nil => rfl
  | cons c s ih => rw [List.dropWhile_cons_of_pos (h c (by simp))]; exact ih fun x hx => h x (by simp [hx])

theorem places_plain {s : Str} (h : ∀ c ∈ s, 48 ≤ c.toNat ∧ c.toNat ≤ 57) : places s = (decVal s, 0) := by
  unfold places
  rw [filter_digits h, dropWhile_all fun c hc => by simpa using digit_ne_dot h c hc]
  rfl

theorem decVal_zeros (s : Str) (n : Nat) : decVal (s ++ List.replicate n '0') = decVal s * 10 ^ n := by
  induction n with
  | zero => simp
  | succ n ih =>
    rw [List.replicate_succ', ← List.append_assoc]
    have : decVal ((s ++ List.replicate n '0') ++ ['0']) = 10 * decVal (s ++ List.replicate n '0') + 0 := by
      unfold decVal; rw [List.foldl_append]; rfl
    rw [this, ih, Nat.pow_succ]
    rw [Nat.add_zero, Nat.mul_comm 10, Nat.mul_assoc]

/-- The text of a number without its sign is rounded to it. -/
theorem shown_rounds {m a : Nat} (hb : Bits m a) (hm : 0 < m) : ∃ u, (∀ neg, shown (.fin neg m a) = signStr neg ++ u) ∧ (∃ c t, u = c :: t ∧ 48 ≤ c.toNat ∧ c.toNat ≤ 57) ∧
    Rounds (places u).1 (places u).2 m a ∧ ∀ c ∈ u, c = '.' ∨ (48 ≤ c.toNat ∧ c.toNat ≤ 57) := by
  by_cases hw : Whole m a
  · have hf := shortest_found (a := a) hm
    have hk := (whole_iff hm).mp hw
    have hs : ∀ neg, shown (.fin neg m a) = signStr neg ++ digits (shortest m a).1 (shortest m a).2 := fun neg => by
      show (if m = 0 then _ else _) = _
      rw [if_neg (by omega)]
    have hd := found_pos hm hf
    generalize (shortest m a).1 = d at *
    generalize (shortest m a).2 = k at *
    obtain ⟨c, t, h3, h4, h5⟩ := natStr_head hd
    have e : digits d k = natStr d ++ List.replicate k.toNat '0' := by unfold digits; rw [if_pos hk]
    refine ⟨_, hs, ⟨c, t ++ List.replicate k.toNat '0', by rw [e, h3]; rfl, by omega, h5⟩, ?_, fun c hc => .inr ((digits_whole hd hk).2 c hc)⟩
    rw [places_plain (digits_whole hd hk).2, e, decVal_zeros, ← (digitsVal_iff.mp (natStr_val d)).2]
    exact rounds_of_inside hb (inside_zero hk hf.inside)
  · obtain ⟨i, f, h, -⟩ := decimal_of false hb hw
    have hs : shown (.fin false m a) = i ++ lit% "." ++ f := h.text
    have hn : ∀ neg, shown (.fin neg m a) = signStr neg ++ shown (.fin false m a) := fun neg => by
      show (if m = 0 then _ else _) = signStr neg ++ (if m = 0 then _ else _)
      rw [if_neg (by omega), if_neg (by omega)]; rfl
    refine ⟨i ++ lit% "." ++ f, fun neg => by rw [hn, hs], ?_, ?_, ?_⟩
    · rcases h.lead with h1 | ⟨c, t, h1, -⟩
      · exact ⟨'0', lit% "." ++ f, by rw [h1]; rfl, by decide, by decide⟩
      · exact ⟨c, t ++ lit% "." ++ f, by rw [h1]; simp, h.digits c (by rw [h1]; simp)⟩
    · rw [places_point h.digits]; exact h.rounds
    · intro c hc
      simp only [List.mem_append] at hc
      rcases hc with (hc | hc) | hc
      · exact .inr (h.digits c (by simp [hc]))
      · left; simpa using hc
      · exact .inr (h.digits c (by simp [hc]))

theorem sign_cancel {n n' : Bool} {u u' : Str} (h : ∃ c t, u = c :: t ∧ 48 ≤ c.toNat ∧ c.toNat ≤ 57) (h' : ∃ c t, u' = c :: t ∧ 48 ≤ c.toNat ∧ c.toNat ≤ 57)
    (e : signStr n ++ u = signStr n' ++ u') : n = n' ∧ u = u' := by
  obtain ⟨c, t, rfl, h1, h2⟩ := h
  obtain ⟨c', t', rfl, h1', h2'⟩ := h'
  cases n <;> cases n' <;> simp only [signStr, if_true, if_false, Bool.false_eq_true, List.nil_append, List.cons_append, List.cons.injEq] at e
  · exact ⟨rfl, by rw [e.1, e.2]⟩
  · rw [e.1] at h1; exact absurd h1 (by decide)
  · rw [← e.1] at h1'; exact absurd h1' (by decide)
  · exact ⟨rfl, by rw [e.2.1, e.2.2]⟩

theorem shown_inj {x y : F64} (hx : x.Wf) (hy : y.Wf) (e : x.shown = y.shown) : x = y ∨ ∃ n n' a a', x = .fin n 0 a ∧ y = .fin n' 0 a' := by
  have key : ∀ {n m a}, Bits m a → 0 < m → ∀ {z : F64}, (z = .nan ∨ (∃ n', z = .inf n') ∨ ∃ n' a', z = .fin n' 0 a') → (F64.fin n m a).shown ≠ z.shown := by
    intro n m a hb hm z hz e
    obtain ⟨u, h1, h2, h3, h4⟩ := shown_rounds hb hm
    rw [h1] at e
    have hall : ∀ c ∈ z.shown, c = '-' ∨ c = '.' ∨ (48 ≤ c.toNat ∧ c.toNat ≤ 57) := by
      intro c hc
      rw [← e, List.mem_append] at hc
      rcases hc with hc | hc
      · left; cases n <;> simp [signStr] at hc; exact hc
      · exact .inr (h4 c hc)
    rcases hz with rfl | ⟨n', rfl⟩ | ⟨n', a', rfl⟩
    · have := hall 'N' (by simp [shown])
      revert this; decide
    · have := hall 'i' (by simp [shown])
      revert this; decide
    · have e2 : signStr n ++ u = signStr false ++ lit% "0" := e
      obtain ⟨-, rfl⟩ := sign_cancel h2 ⟨'0', [], rfl, by decide, by decide⟩ e2
      have hr : Rounds 0 0 m a := by
        have : places (lit% "0") = (0, 0) := by decide
        rw [this] at h3; exact h3
      have := hr 0 0 ⟨by omega, by omega, .inr rfl⟩ (by
        have := Nat.mul_pos hm (Nat.two_pow_pos a); omega)
      unfold off at this
      have := Nat.mul_pos hm (Nat.two_pow_pos a)
      simp at *
      omega
  cases x with
  | nan =>
    cases y with
    | nan => exact .inl rfl
    | inf n => cases n <;> simp [shown, signStr] at e
    | fin n m a =>
      rcases Nat.eq_zero_or_pos m with rfl | hm
      · simp [shown] at e
      · exact absurd e.symm (key hy hm (.inl rfl))
  | inf n =>
    cases y with
    | nan => cases n <;> simp [shown, signStr] at e
    | inf n' => cases n <;> cases n' <;> simp [shown, signStr] at e ⊢
    | fin n' m a =>
      rcases Nat.eq_zero_or_pos m with rfl | hm
      · cases n <;> simp [shown, signStr] at e
      · exact absurd e.symm (key hy hm (.inr (.inl ⟨_, rfl⟩)))
  | fin n m a =>
    rcases Nat.eq_zero_or_pos m with rfl | hm
    · cases y with
      | nan => simp [shown] at e
      | inf n' => cases n' <;> simp [shown, signStr] at e
      | fin n' m' a' =>
        rcases Nat.eq_zero_or_pos m' with rfl | hm'
        · exact .inr ⟨_, _, _, _, rfl, rfl⟩
        · exact absurd e.symm (key hy hm' (.inr (.inr ⟨_, _, rfl⟩)))
    · cases y with
      | nan => exact absurd e (key hx hm (.inl rfl))
      | inf n' => exact absurd e (key hx hm (.inr (.inl ⟨_, rfl⟩)))
      | fin n' m' a' =>
        rcases Nat.eq_zero_or_pos m' with rfl | hm'
        · exact absurd e (key hx hm (.inr (.inr ⟨_, _, rfl⟩)))
        · obtain ⟨u, h1, h2, h3, _⟩ := shown_rounds hx hm
          obtain ⟨u', h1', h2', h3', _⟩ := shown_rounds hy hm'
          rw [h1, h1'] at e
          obtain ⟨rfl, rfl⟩ := sign_cancel h2 h2' e
          obtain ⟨rfl, rfl⟩ := rounds_unique hx hy h3 h3'
          exact .inl rfl

end Tomllib.F64
