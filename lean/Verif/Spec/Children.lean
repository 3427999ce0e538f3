import Verif.Spec.Edit
import Verif.Spec.Session
/-!
# Programs that change the children they are given
-/

namespace Tomllib

/-- A step of a program: it assigns a value to a key, or it changes the children that it got for a key. -/
inductive Step where
  | assign (key : Str) (v : Value)
  | change (key : Str) (c : Children)

/-- Steps one after the other. -/
def runSteps : Parser → List Step → Out Parser
  | p, [] => .ok p
  | p, .assign k v :: l => do
    let (p', _) ← p.setValue k v
    runSteps p' l
  | p, .change k c :: l => runSteps (p.putChildren k c) l

/-- The assignments among the steps. -/
def assignsOf : List Step → List (Str × Value)
  | [] => []
  | .assign k v :: l => (k, v) :: assignsOf l
  | .change _ _ :: l => assignsOf l

/-- Each assignment, when its turn comes, is of a value that is valid and has the structure of the value that the key has. -/
def Fitting : Parser → List (Str × Value) → Prop
  | _, [] => True
  | p, (k, v) :: l => (∃ w, p.getValue k = .ok (some w) ∧ w.sameShape v = true ∧ v.deepValid = true) ∧ ∀ p' b, p.setValue k v = .ok (p', b) → Fitting p' l

end Tomllib
