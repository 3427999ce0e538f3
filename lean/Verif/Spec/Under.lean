import Verif.Api
/-!
# The keys that are met below a key
-/

namespace Tomllib

/-- The keys that are met by asking for the children of `key`, for their children, and so on, with `combine_child_keys`. -/
inductive Descends (p : Parser) (key : Str) : Str → Prop
  | child {k : Str} {c : Children} : p.getChildren key = some c → k ∈ c.combineChildKeys key → Descends p key k
  | next {b k : Str} {c : Children} : Descends p key b → p.getChildren b = some c → k ∈ c.combineChildKeys b → Descends p key k

end Tomllib
