import Verif.Spec.Calendar
import Verif.Spec.Text
import Verif.Spec.Syntax
/-!
# What constructors of values do
-/

namespace Tomllib

/-- `n` as a decimal of exactly `w` digits. -/
def Padded (w n : Nat) (s : Str) : Prop := Digits w s ∧ decVal s = n

/-- The numeral of a fraction, as printed: nothing, or a dot and the number without leading zeros. -/
def fracShown (f : Option Nat) (s : Str) : Prop := match f with
  | none => s = []
  | some n => ∃ x, s = lit% "." ++ x ∧ Numeral x n ∧ ∀ c ∈ x, 48 ≤ c.toNat ∧ c.toNat ≤ 57

/-- What a constructor should do: succeed exactly when `ok`, with a value that prints as `YYYY-MM-DDTHH:MM:SS` and then `rest`. -/
def Prints (o : Option Value) (ok : Prop) (y m d h mi s : Nat) (rest : Str → Prop) : Prop :=
  (ok → ∃ v Y M D H I S R, o = some v ∧ Padded 4 y Y ∧ Padded 2 m M ∧ Padded 2 d D ∧ Padded 2 h H ∧ Padded 2 mi I ∧ Padded 2 s S ∧ rest R ∧
    v.disp = .ok (Y ++ lit% "-" ++ M ++ lit% "-" ++ D ++ lit% "T" ++ H ++ lit% ":" ++ I ++ lit% ":" ++ S ++ R)) ∧
  (¬ ok → o = none)

/-- The decimal text of an integer: digits without a leading zero, with a minus sign if it is negative. -/
def DecimalOf (n : Int) (s : Str) : Prop :=
  (0 ≤ n ∧ (∀ c ∈ s, 48 ≤ c.toNat ∧ c.toNat ≤ 57) ∧ (decVal s : Int) = n ∧ Unsigned s) ∨
  (n < 0 ∧ ∃ t, s = '-' :: t ∧ (∀ c ∈ t, 48 ≤ c.toNat ∧ c.toNat ≤ 57) ∧ (decVal t : Int) = -n ∧ Unsigned t)

/-- Equal up to the case of ASCII letters. -/
def SameLetters (s w : Str) : Prop := s.length = w.length ∧ ∀ p ∈ s.zip w, p.1 = p.2 ∨ (97 ≤ p.2.toNat ∧ p.2.toNat ≤ 122 ∧ p.1.toNat + 32 = p.2.toNat)

end Tomllib
