import Verif.Lemmas.Tool
import Verif.Lemmas.Witness
/-!
# Lemmas for Props/Says
-/

namespace Tomllib

open Cli

/-- One command after the other. -/
theorem command_collect {results : List CmdRes} {given : Option (Option (List Str))} {states : List FS} {f : Option (List Str) → Out CmdRes}
    {k : List CmdRes → Run} {g : Out (List CmdRes) → Run} {more : List (Out CmdRes)}
    (hg : ∀ x, g (.panic x) = ⟨states, .panicked x⟩) (hgf : g .fuel = ⟨states, .outOfFuel⟩)
    (hr : ∀ s ∈ results, ∃ t, s = .ok t)
    (herr : ∀ rs e, k (rs ++ [.error e]) = g (.ok (rs ++ [.error e])))
    (hk : ∀ rs, (∀ s ∈ rs, ∃ t, s = .ok t) → k rs = g ((collect more).bind fun l => .ok (rs ++ l))) :
    command results given states f k = g ((collect (given.toList.map f ++ more)).bind fun l => .ok (results ++ l)) := by
  have hl : ∀ e, results.getLast? ≠ some (.error e) := by
    intro e h
    obtain ⟨t, ht⟩ := hr _ (List.mem_of_getLast? h)
    cases ht
  unfold command
  cases given with
  | none =>
    split
    next h => exact absurd h (hl _)
    next h _ => simp at h
    · simpa using hk results hr
  | some fields =>
    split
    next h => exact absurd h (hl _)
    next fs hfs _ =>
      cases hfs
      simp only [Option.toList_some, List.map_cons, List.map_nil, List.cons_append, List.nil_append, collect]
      cases hx : f fields with
      | panic x => simp [step, Out.bind, hg]
      | fuel => simp [step, Out.bind, hgf]
      | ok r =>
        simp only [step, Out.bind]
        cases r with
        | error e => exact herr _ _
        | ok s =>
          simp only []
          refine (hk (results ++ [.ok s]) ?_).trans ?_
          · intro t ht
            rw [List.mem_append, List.mem_singleton] at ht
            rcases ht with h | rfl
            · exact hr _ h
            · exact ⟨_, rfl⟩
          · congr 1
            cases collect more <;> simp [Out.bind]
    next h _ => simp at h

theorem command_error {results : List CmdRes} {e : CmdErr} {given : Option (Option (List Str))} {states : List FS} {f : Option (List Str) → Out CmdRes}
    {k : List CmdRes → Run} : command (results ++ [.error e]) given states f k = k (results ++ [.error e]) := by
  unfold command
  split
  · rfl
  next h => exact absurd (by simp) (h e)
  · rfl

/-- The commands that only read come first. -/
theorem processDocument_reading {o : Options} {c : Commands} {path text : Str} {fs : FS} {doc : Parser} (ht : fs.get? path = some text)
    (hp : Parser.new.parse text = .ok (doc, .full)) {g : Out (List CmdRes) → Run} (hg : ∀ x, g (.panic x) = ⟨[fs], .panicked x⟩)
    (hgf : g .fuel = ⟨[fs], .outOfFuel⟩) (hfin : ∀ rs, setAndFinish o c path rs doc fs = g (.ok rs)) :
    processDocument o c path fs = g (collect (reading o c doc)) := by
  unfold processDocument
  rw [ht]
  simp only [hp, step]
  unfold reading
  have e : ∀ x : Out (List CmdRes), x = x.bind fun l => .ok ([] ++ l) := by intro x; cases x <;> rfl
  rw [e (collect _), List.append_assoc, List.append_assoc]
  refine command_collect (g := g) hg hgf (by simp) ?_ ?_
  · intro rs e
    simp only [command_error, hfin]
  · intro rs hrs
    refine command_collect (g := g) hg hgf hrs ?_ ?_
    · intro rs e
      simp only [command_error, hfin]
    · intro rs' hrs'
      refine command_collect (g := g) hg hgf hrs' ?_ ?_
      · intro rs e
        simp only [command_error, hfin]
      · intro rs'' hrs''
        rw [← List.append_nil (List.map _ c.hasChildren.toList)]
        have goal : ∀ kc, kc = (match c.hasValue with | some (some l) => l.length | _ => 0) →
            command rs'' c.hasChildren [fs] (fun k => hasChildren o k kc doc) (fun r => setAndFinish o c path r doc fs) =
              g ((collect (c.hasChildren.toList.map (fun ks => hasChildren o ks (match c.hasValue with | some (some l) => l.length | _ => 0) doc) ++ [])).bind
                fun l => .ok (rs'' ++ l)) := by
          rintro kc rfl
          refine command_collect (g := g) hg hgf hrs'' ?_ ?_
          · intro rs e
            exact hfin _
          · intro rs3 _
            rw [hfin]
            simp [collect, Out.bind]
        refine goal _ ?_
        have hlast : ∀ e, rs.getLast? ≠ some (.error e) := by
          intro e h
          obtain ⟨t, ht⟩ := hrs _ (List.mem_of_getLast? h)
          cases ht
        split
        next h => exact absurd h (hlast _)
        next h _ => rw [h]
        next h1 h2 =>
          cases hv : c.hasValue with
          | none => rfl
          | some x => cases x with
            | none => rfl
            | some l => exact absurd hv (h2 l)

/-- A run in which everything is asked. -/
def asked : Commands := ⟨some (some [lit% "b.x", lit% "a"]), some (some [lit% "a", lit% "z"]), some (some [lit% "b", lit% "c"]), some (some [lit% "a", lit% "c"]), none, none⟩

/-- The texts of the results of a run that finishes. -/
def End.said : End → Option (List (Option Str))
  | .finished rs _ => some (rs.map fun r => match r with | .ok s => some s | .error _ => none)
  | _ => none

end Tomllib
