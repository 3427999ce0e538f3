import Verif.Float
import Verif.Spec.Calendar
/-!
# Numbers with 64 bits, and decimals that stand for them
-/

namespace Tomllib.F64

/-- The finite numbers are `m · 2^(a - 1074)` with at most 53 bits, all of them used unless the exponent is the least. -/
def Bits (m a : Nat) : Prop := m < 2 ^ 53 ∧ a ≤ 2045 ∧ (2 ^ 52 ≤ m ∨ a = 0)

/-- There is such a number. -/
def Wf : F64 → Prop
  | .fin _ m a => Bits m a
  | _ => True

/-- All numbers are multiples of `1 / units`. -/
def units : Nat := 2 ^ 1074

/-- `m · 2^(a - 1074)` is a whole number. -/
def Whole (m a : Nat) : Prop := units ∣ m * 2 ^ a

/-- Finite, and not a whole number. -/
def Fractional : F64 → Prop
  | .fin _ m a => ¬ Whole m a
  | _ => False

/-- How far `N / 10^j` is from `m · 2^(a - 1074)`; both are multiplied by `units · 10^j`. -/
def off (N j m a : Nat) : Nat := (N * units - m * 2 ^ a * 10 ^ j) + (m * 2 ^ a * 10 ^ j - N * units)

/-- `N / 10^j` is rounded to `m · 2^(a - 1074)`: every other number is farther from it, or as far and `m` is even. -/
def Rounds (N j m a : Nat) : Prop :=
  ∀ m' a', Bits m' a' → m' * 2 ^ a' ≠ m * 2 ^ a → off N j m a < off N j m' a' ∨ (off N j m a = off N j m' a' ∧ m % 2 = 0)

/-- The text `i.f`, with a minus sign if `neg`, is the decimal that one expects for the number: `i` has no leading zeros, it is rounded to the number, none with fewer
places is, and none with as many places is closer. -/
structure Decimal (neg : Bool) (m a : Nat) (i f s : Str) : Prop where
  text : s = (if neg then lit% "-" else []) ++ i ++ lit% "." ++ f
  digits : ∀ c ∈ i ++ f, 48 ≤ c.toNat ∧ c.toNat ≤ 57
  lead : i = lit% "0" ∨ ∃ c t, i = c :: t ∧ c ≠ '0'
  rounds : Rounds (decVal (i ++ f)) f.length m a
  fewest : ∀ N j, j < f.length → ¬ Rounds N j m a
  closest : ∀ N, Rounds N f.length m a → off (decVal (i ++ f)) f.length m a ≤ off N f.length m a

end Tomllib.F64
