import Verif.Api
import Verif.Spec.Edit
import Verif.Spec.Print
/-!
# Histories of a document
-/

namespace Tomllib

/-- A program reads a document to its end (with or without errors reported) and then edits it: it replaces values by values of the same structure,
scalars by arrays and inline tables, and may try edits that are refused. -/
inductive Session : Parser → Prop
  | start {i : Str} {p : Parser} {r : ParseResult} (h : Parser.new.parse i = .ok (p, r)) (hr : r = .full ∨ ∃ e, r = .fullError e) : Session p
  | same {p p' : Parser} {k : Str} {w v : Value} {b : Bool} (hp : Session p) (hw : p.getValue k = .ok (some w)) (hs : w.sameShape v = true)
      (hv : v.deepValid = true) (h : p.setValue k v = .ok (p', b)) : Session p'
  | vector {p p' : Parser} {k : Str} {w v : Value} {b : Bool} (hp : Session p) (hw : p.getValue k = .ok (some w)) (hs : w.scalar?.isSome = true)
      (hv : v.scalar? = none) (h : p.setValue k v = .ok (p', b)) : Session p'
  | refused {p p' : Parser} {k : Str} {v : Value} (hp : Session p) (h : p.setValue k v = .ok (p', false)) : Session p'

/-- Edits one after the other, each replacing the value of a key by a properly written one, the two being related by `R`. -/
inductive Edits (R : Value → Value → Prop) (p : Parser) : Parser → Prop
  | none : Edits R p p
  | edit {p1 p2 : Parser} {k : Str} {w v : Value} {b : Bool} (hp : Edits R p p1) (hw : p1.getValue k = .ok (some w)) (hr : R w v) (hv : v.written)
      (h : p1.setValue k v = .ok (p2, b)) : Edits R p p2

/-- A text with slots named by keys. -/
abbrev Template := List (Str ⊕ Str)

/-- Fill each slot with the text for its key. -/
def Template.fill (f : Str → Str) : Template → Str
  | [] => []
  | .inl s :: T => s ++ Template.fill f T
  | .inr k :: T => f k ++ Template.fill f T

/-- The slots. -/
def Template.keys : Template → List Str
  | [] => []
  | .inl _ :: T => Template.keys T
  | .inr k :: T => k :: Template.keys T

/-- The parser prints the template, with each slot filled with the text of the scalar that is read at its key. -/
def Shows (p : Parser) (T : Template) : Prop :=
  ∃ f, (∀ k ∈ T.keys, ∃ w, p.getValue k = .ok (some w) ∧ w.scalar?.isSome = true ∧ w.disp = .ok (f k)) ∧ p.display = .ok (T.fill f)

/-- Assign values to keys one after the other. -/
def runSets : Parser → List (Str × Value) → Out Parser
  | p, [] => .ok p
  | p, (k, v) :: l => do
    let (p', _) ← p.setValue k v
    runSets p' l

/-- Read texts one after the other with the same parser; the result is that of the last. -/
def runReads : Parser × ParseResult → List Str → Out (Parser × ParseResult)
  | x, [] => .ok x
  | x, t :: ts => do
    let y ← x.1.parse t
    runReads y ts

/-- Read texts one after the other with the same parser, assigning values to keys after each. The result is that of the last text. -/
def runRounds : Parser × ParseResult → List (Str × List (Str × Value)) → Out (Parser × ParseResult)
  | x, [] => .ok x
  | x, (t, l) :: ts => do
    let (p, r) ← x.1.parse t
    let p' ← runSets p l
    runRounds (p', r) ts

/-- Two parsers that cannot be told apart: whatever is assigned to their keys, they print the same text and give the same answers for every key. -/
def SameAnswers (p q : Parser) : Prop :=
  ∀ l : List (Str × Value), (runSets p l).bind Parser.display = (runSets q l).bind Parser.display ∧
    ∀ key, (runSets p l).bind (·.getValue key) = (runSets q l).bind (·.getValue key) ∧
      (runSets p l).bind (fun x => .ok (x.getChildren key)) = (runSets q l).bind (fun x => .ok (x.getChildren key))

/-- The value assigned to the key last. -/
def lastAssigned : List (Str × Value) → Str → Option Value
  | [], _ => none
  | (k', v) :: l, k => match lastAssigned l k with
    | some w => some w
    | none => if k' = k then some v else none

end Tomllib
