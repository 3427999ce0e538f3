import Verif.Nom
import Verif.Spec.Syntax
import Verif.Spec.Spell
/-!
# Paths into a document

A path is a list of names and indices; its key is spelled with dots and brackets.
-/

namespace Tomllib

/-- The key of a child of the key `b`. -/
def Key.add (b : Str) : Key → Str
  | .str s => dotted b s
  | .idx i => indexed b i

/-- The key of a path below the key `b`. -/
def keyOf (b : Str) (path : List Key) : Str := path.foldl Key.add b

/-- A path starts with a name; names are bare or quoted keys. -/
def PathWf : List Key → Prop
  | [] => True
  | .str k :: ks => KeyWf k ∧ ∀ s, .str s ∈ ks → KeyWf s
  | .idx _ :: _ => False

end Tomllib
