import Verif.Spec.Entries
/-!
# Where a value comes from
-/

namespace Tomllib

/-- The key `K` is `k`, or something, a dot, and `k`. -/
def KeyEnds (k K : Str) : Prop := K = k ∨ ∃ q, K = q ++ lit% "." ++ k

/-- A line gives a key a value: the key is, or ends with a dot and, the key of an entry of the line (its own key, followed by the way into the value). -/
def Gives (K : Str) (v : Value) : ET → Prop
  | .kv _ k _ t _ _ => ∃ e ∈ t.allEntries k, e.2.value = v ∧ KeyEnds e.1 K
  | _ => False

end Tomllib
