import Verif.Spec.Spell
import Verif.Lemmas.Num
/-!
# Keys are spelled as in the specification
-/

namespace Tomllib

theorem digitChar_eq {n : Nat} (h : n < 10) : n.digitChar = digitCh n := by
  have : ∀ n : Fin 10, (n.val).digitChar = digitCh n.val := by decide
  exact this ⟨n, h⟩

theorem natStrAux_decimal : ∀ (f n : Nat), n < f → natStrAux f n [] = Nat.toDigits 10 n
  | 0, _, h => by omega
  | f + 1, n, h => by
    rw [natStrAux]
    split
    next hn => rw [Nat.toDigits_of_lt_base hn, digitChar_eq hn]
    next hn =>
      rw [Nat.toDigits_of_base_le (by decide) (by omega), natStrAux_append, natStrAux_decimal f (n / 10) (by omega), digitChar_eq (by omega)]

@[simp] theorem decimal_eq (n : Nat) : decimal n = natStr n := (natStrAux_decimal _ n (by omega)).symm

theorem dotted_eq : dotted = Children.combineKeys := by
  funext b s
  simp [dotted, Children.combineKeys]

theorem indexed_eq : indexed = Children.combineKeysIndex := by
  funext b i
  simp [indexed, Children.combineKeysIndex]

end Tomllib
