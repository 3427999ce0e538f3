import Verif.Values
/-!
# `Value::float`: src/types.rs:358-360

The text comes from `Display` of `f64` (std): the decimal with the fewest digits that is nearest to no other number, and among these the one closest to the number.
-/

namespace Tomllib

/-- An `f64` (IEEE 754, 64 bits): not a number, an infinity, or `m · 2^(a - 1074)` with a sign. -/
inductive F64 where
  | nan
  | inf (neg : Bool)
  | fin (neg : Bool) (m a : Nat)
deriving DecidableEq, Repr

namespace F64

/-- The quarter of the least distance is `1 / quarters`. -/
def quarters : Nat := 2 ^ 1076

/-- `d · 10^k`, in the units of `bin`. -/
def dec (k : Int) (d : Nat) : Nat := d * 10 ^ k.toNat * quarters

/-- A quarter of the distance between numbers with exponent `a`, taken `n` times. -/
def bin (a : Nat) (k : Int) (n : Nat) : Nat := n * 2 ^ a * 10 ^ (-k).toNat

/-- The lower end of the interval of what is nearest to the number; numbers below a power of two are closer to each other. (core::num::flt2dec::decode) -/
def low (m a : Nat) : Nat := if m = 2 ^ 52 ∧ a ≠ 0 then 4 * m - 1 else 4 * m - 2

/-- Is `d · 10^k` in the interval? The ends belong to it if `m` is even. (core::num::flt2dec::decode) -/
def inside (m a : Nat) (k : Int) (d : Nat) : Bool :=
  if m % 2 = 0 then bin a k (low m a) ≤ dec k d && dec k d ≤ bin a k (4 * m + 2)
  else bin a k (low m a) < dec k d && dec k d < bin a k (4 * m + 2)

/-- The multiple of `10^k` in the interval that is closest to the number, if there is one; of two equally close ones the greater. (core::num::flt2dec::strategy::dragon) -/
def pick (m a : Nat) (k : Int) : Option Nat :=
  let d := bin a k (4 * m) / dec k 1
  if inside m a k d then
    if inside m a k (d + 1) && dec k (2 * d + 1) ≤ 2 * bin a k (4 * m) then some (d + 1) else some d
  else if inside m a k (d + 1) then some (d + 1) else none

/-- The greatest `k`, from the given one down, for which there is such a multiple. After the given number of steps the number itself is a multiple. -/
def search (m a : Nat) : Nat → Int → Nat × Int
  | 0, k => (bin a k (4 * m) / dec k 1, k)
  | n + 1, k => match pick m a k with
    | some d => (d, k)
    | none => search m a n (k - 1)

/-- All finite numbers are below `10^310` and multiples of `10^(-1076)`. (core::num::flt2dec::to_shortest_str) -/
def shortest (m a : Nat) : Nat × Int := search m a 1386 310

/-- The digits of `d · 10^k` with a decimal point where it is needed. (core::num::flt2dec::digits_to_dec_str, with no minimal number of places) -/
def digits (d : Nat) (k : Int) : Str :=
  let ds := natStr d
  let n := (-k).toNat
  if 0 ≤ k then ds ++ List.replicate k.toNat '0'
  else if ds.length ≤ n then lit% "0." ++ List.replicate (n - ds.length) '0' ++ ds
  else ds.take (ds.length - n) ++ lit% "." ++ ds.drop (ds.length - n)

/-- A minus sign if the number is negative. (core::num::flt2dec::determine_sign) -/
def signStr (neg : Bool) : Str := if neg then lit% "-" else []

/-- `format!("{}", x)`. Since Rust 1.53 the negative zero has a minus sign; here it has not, as at the time of the crate. -/
def shown : F64 → Str
  | .nan => lit% "NaN"
  | .inf neg => signStr neg ++ lit% "inf"
  | .fin neg m a => if m = 0 then lit% "0" else signStr neg ++ digits (shortest m a).1 (shortest m a).2

end F64

/-- src/types.rs:358-360 -/
def Value.ofFloat (x : F64) : Value := .float x.shown

end Tomllib
