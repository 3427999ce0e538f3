import Verif.Base
/-!
# How keys are spelled
-/

namespace Tomllib

/-- A number in decimal. -/
def decimal (n : Nat) : Str := Nat.toDigits 10 n

/-- The key of `s` in the table `b`: `b.s`, or `s` alone at the top level. -/
def dotted (b s : Str) : Str := if b ≠ [] then b ++ lit% "." ++ s else s

/-- The key of element `i` of the array `b`: `b[i]`. -/
def indexed (b : Str) (i : Nat) : Str := b ++ lit% "[" ++ decimal i ++ lit% "]"

end Tomllib
