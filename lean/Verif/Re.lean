import Verif.Base
/-!
# Regular expressions with leftmost-first (Perl) priority

Model of what `regex` 0.1 `Regex::find` computes for a pattern that starts with `^`: of all ways to match a prefix, the one
that Perl's backtracking would find first.
-/

namespace Tomllib

/-- Regular expressions; a class is a list of inclusive code point ranges. -/
inductive Re where
  | eps
  | cls (ranges : List (Nat × Nat))
  | seq (a b : Re)
  | alt (a b : Re)
  /-- `r*` when `greedy`, `r*?` otherwise. -/
  | star (greedy : Bool) (r : Re)
  deriving Repr

/-- Is the character in one of the ranges? -/
def inCls (rs : List (Nat × Nat)) (c : Char) : Bool :=
  rs.any fun r => Nat.ble r.1 c.toNat && Nat.ble c.toNat r.2

/-- Iterate a matcher: `greedy` prefers more iterations, otherwise fewer.  An iteration that consumes nothing is
not taken.  The first argument is a bound on the number of iterations. -/
def starK {α : Type} (greedy : Bool) (f : Str → (Str → Option α) → Option α) : Nat → Str → (Str → Option α) → Option α
  | 0, s, k => k s
  | n + 1, s, k =>
    if greedy then
      match f s fun r => if r.length < s.length then starK greedy f n r k else none with
      | some x => some x
      | none => k s
    else
      match k s with
      | some x => some x
      | none => f s fun r => if r.length < s.length then starK greedy f n r k else none

namespace Re

/-- Backtracking matcher: try the ways to match a prefix in priority order, handing the remainder to `k`, until `k` succeeds. -/
def run {α : Type} : Re → Str → (Str → Option α) → Option α
  | eps, s, k => k s
  | cls rs, s, k => match s with
    | [] => none
    | c :: t => if inCls rs c then k t else none
  | seq a b, s, k => run a s fun r => run b r k
  | alt a b, s, k => match run a s k with
    | some x => some x
    | none => run b s k
  | star g r, s, k => starK g (run r) s.length s k

/-- `Regex::find` for `^r`: the matched prefix and the remainder. -/
def find (r : Re) (s : Str) : Option (Str × Str) :=
  match run r s some with
  | none => none
  | some t => some (s.take (s.length - t.length), t)

/-- One character. -/
def ch (c : Char) : Re := cls [(c.toNat, c.toNat)]

/-- A literal string. -/
def lit : Str → Re
  | [] => eps
  | [c] => ch c
  | c :: s => seq (ch c) (lit s)

/-- Alternation of a list, first alternative preferred. -/
def alts : List Re → Re
  | [] => cls []
  | [r] => r
  | r :: rs => alt r (alts rs)

/-- Concatenation of a list. -/
def seqs : List Re → Re
  | [] => eps
  | [r] => r
  | r :: rs => seq r (seqs rs)

/-- `r?` -/
def opt (r : Re) : Re := alt r eps

/-- `r+` -/
def plus (r : Re) : Re := seq r (star true r)

/-- `r{n}` -/
def rep (r : Re) : Nat → Re
  | 0 => eps
  | 1 => r
  | n + 1 => seq r (rep r n)

end Re
end Tomllib
