import Verif.Values
/-!
# Decimal numbers
-/

namespace Tomllib

/-- An ASCII digit. -/
def IsDigit (c : Char) : Prop := 48 ≤ c.toNat ∧ c.toNat ≤ 57

theorem digitCh_toNat {n : Nat} (h : n < 10) : (digitCh n).toNat = 48 + n := by
  have : ∀ n : Fin 10, (digitCh n.val).toNat = 48 + n.val := by decide
  exact this ⟨n, h⟩

theorem digitVal_digitCh {n : Nat} (h : n < 10) : digitVal (digitCh n) = some n := by
  have := digitCh_toNat h
  have h1 : Nat.ble 48 (48 + n) = true := Nat.ble_eq.mpr (by omega)
  have h2 : Nat.ble (48 + n) 57 = true := Nat.ble_eq.mpr (by omega)
  simp [digitVal, this, h1, h2]

theorem digitVal_some {c : Char} {d : Nat} (h : digitVal c = some d) : IsDigit c ∧ d = c.toNat - 48 ∧ d < 10 := by
  simp only [digitVal] at h
  split at h
  next h' =>
    simp at h' h
    exact ⟨h', h.symm, by omega⟩
  · simp at h

theorem digitVal_of {c : Char} (h : IsDigit c) : digitVal c = some (c.toNat - 48) := by
  have h1 : Nat.ble 48 c.toNat = true := Nat.ble_eq.mpr h.1
  have h2 : Nat.ble c.toNat 57 = true := Nat.ble_eq.mpr h.2
  simp [digitVal, h1, h2]

theorem digitsVal_append : ∀ (s t : Str) (acc : Nat), digitsVal (s ++ t) acc = (digitsVal s acc).bind (digitsVal t)
  | [], t, acc => rfl
  | c :: s, t, acc => by
    simp only [List.cons_append, digitsVal]
    split
    · exact digitsVal_append s t _
    · rfl

theorem natStrAux_append : ∀ (f n : Nat) (acc : Str), natStrAux f n acc = natStrAux f n [] ++ acc
  | 0, n, acc => rfl
  | f + 1, n, acc => by
    rw [natStrAux, natStrAux]
    split
    · rfl
    · rw [natStrAux_append f _ (_ :: acc), natStrAux_append f _ [_]]
      simp

theorem natStrAux_val : ∀ (f n : Nat), n < f → digitsVal (natStrAux f n []) 0 = some n
  | 0, n, h => by omega
  | f + 1, n, h => by
    rw [natStrAux]
    split
    next h' => simp [digitsVal, digitVal_digitCh h']
    next h' =>
      rw [natStrAux_append, digitsVal_append, natStrAux_val f (n / 10) (by omega)]
      have : n % 10 < 10 := Nat.mod_lt _ (by omega)
      simp [digitsVal, digitVal_digitCh this]
      omega

/-- Reading back a printed number. -/
theorem natStr_val (n : Nat) : digitsVal (natStr n) 0 = some n := natStrAux_val _ _ (by omega)

theorem natStr_inj {m n : Nat} (h : natStr m = natStr n) : m = n := by
  have := natStr_val m
  rw [h, natStr_val] at this
  simpa using this.symm

theorem natStrAux_digits : ∀ (f n : Nat), ∀ c ∈ natStrAux f n [], IsDigit c
  | 0, n => by simp [natStrAux]
  | f + 1, n => by
    rw [natStrAux]
    split
    next h' =>
      intro c hc
      simp at hc; subst hc
      have := digitCh_toNat h'
      exact ⟨by omega, by omega⟩
    next h' =>
      rw [natStrAux_append]
      intro c hc
      rw [List.mem_append] at hc
      rcases hc with hc | hc
      · exact natStrAux_digits f _ c hc
      · simp at hc; subst hc
        have := digitCh_toNat (Nat.mod_lt n (show 0 < 10 by omega))
        exact ⟨by omega, by omega⟩

theorem natStr_digits (n : Nat) : ∀ c ∈ natStr n, IsDigit c := natStrAux_digits _ _

theorem natStr_ne (n : Nat) : natStr n ≠ [] := by
  intro h
  have : natStr n = natStrAux (n + 1) n [] := rfl
  rw [h, natStrAux] at this
  split at this
  · simp at this
  · rw [natStrAux_append] at this
    simp at this

theorem idxStr_inj {i j : Nat} (h : idxStr i = idxStr j) : i = j := by
  simp [idxStr] at h
  exact natStr_inj h

/-- A number of at most `k` digits has a decimal of at most `k` digits. -/
theorem natStrAux_length : ∀ (f n k : Nat), n < 10 ^ (k + 1) → (natStrAux f n []).length ≤ k + 1
  | 0, n, k, _ => by simp [natStrAux]
  | f + 1, n, k, h => by
    rw [natStrAux]
    split
    · simp
    next h' =>
      rw [natStrAux_append]
      cases k with
      | zero => simp at h; omega
      | succ k =>
        have := natStrAux_length f (n / 10) k (by rw [Nat.pow_succ] at h; omega)
        simp; omega

theorem natStr_length {n k : Nat} (h : n < 10 ^ (k + 1)) : (natStr n).length ≤ k + 1 := natStrAux_length _ _ _ h

theorem digitsVal_zeros (k : Nat) (s : Str) : digitsVal (List.replicate k '0' ++ s) 0 = digitsVal s 0 := by
  induction k with
  | zero => rfl
  | succ k ih => simpa [List.replicate_succ, digitsVal, digitVal] using ih

theorem pad0_val (w n : Nat) : digitsVal (pad0 w n) 0 = some n := by
  rw [pad0, digitsVal_zeros, natStr_val]

theorem pad0_length {w n : Nat} (h : n < 10 ^ (w + 1)) : (pad0 (w + 1) n).length = w + 1 := by
  have := natStr_length h
  simp [pad0]; omega

theorem pad0_digits (w n : Nat) : ∀ c ∈ pad0 w n, IsDigit c := by
  intro c hc
  simp only [pad0, List.mem_append] at hc
  rcases hc with hc | hc
  · have := List.eq_of_mem_replicate hc
    subst this
    exact ⟨by decide, by decide⟩
  · exact natStr_digits n c hc

end Tomllib
