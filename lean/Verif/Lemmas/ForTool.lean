import Verif.Spec.Tool
import Verif.Cli
import Verif.Lemmas.Map
import Verif.Lemmas.Field
/-!
# Lemmas for Props/Tool
-/

namespace Tomllib

open Cli

theorem setLoop_applied (o : Options) : ∀ (n : Nat) (fields acc : List _) (doc : Parser) {doc' : Parser} {r : Str}, fields.length = 3 * n →
    setLoop o fields acc doc = .ok (doc', .ok r) → Applied fields doc doc' := by
  intro n
  induction n with
  | zero =>
    intro fields acc doc doc' r hl h
    have : fields = [] := List.length_eq_zero_iff.mp (by simpa using hl)
    subst this
    simp [setLoop] at h
    rw [← h.1]; exact .nil _
  | succ n ih =>
    intro fields acc doc doc' r hl h
    match fields, hl with
    | k :: v :: t :: rest, hl =>
      rw [setLoop] at h
      cases hf : fieldValue v t with
      | panic x => rw [hf] at h; simp [Out.bind_eq, Out.bind] at h
      | fuel => rw [hf] at h; simp [Out.bind_eq, Out.bind] at h
      | ok x =>
        rw [hf] at h
        cases x with
        | error e => simp [Out.bind_eq, Out.bind] at h
        | ok value =>
          simp only [Out.bind_eq, Out.bind] at h
          cases hs : doc.setValue k value with
          | panic x => rw [hs] at h; simp [Out.bind_eq, Out.bind] at h
          | fuel => rw [hs] at h; simp [Out.bind_eq, Out.bind] at h
          | ok y =>
            obtain ⟨doc1, b⟩ := y
            rw [hs] at h
            cases b with
            | false => simp [Out.bind_eq, Out.bind] at h
            | true =>
              simp only [Out.bind_eq, Out.bind, if_true] at h
              exact .cons ((fieldValue_iff _ _ _).mp hf) hs (ih rest _ doc1 (by simp at hl; omega) h)

theorem setValue_applied {o : Options} {fields : Option (List Str)} {doc doc' : Parser} {r : Str}
    (h : Cli.setValue o fields doc = .ok (doc', .ok r)) : ∃ fs, fields = some fs ∧ fs ≠ [] ∧ Applied fs doc doc' := by
  cases fields with
  | none => simp [Cli.setValue] at h
  | some fs =>
    simp only [Cli.setValue] at h
    split at h
    · simp at h
    next hl =>
      have h3 : fs.length = 3 * (fs.length / 3) := by omega
      exact ⟨fs, rfl, fun e => hl (.inr (by simp [e])), setLoop_applied o _ _ _ doc h3 h⟩

/-- A property of runs that holds whatever a command does. -/
theorem command_cases {Q : Run → Prop} {results : List CmdRes} {given : Option (Option (List Str))} {states : List FS}
    {f : Option (List Str) → Out CmdRes} {k : List CmdRes → Run} (h1 : ∀ r, Q (k r)) (h2 : ∀ e, (∀ rs d, e ≠ .finished rs d) → Q ⟨states, e⟩) :
    Q (command results given states f k) := by
  unfold command
  split
  · exact h1 _
  next fields _ =>
    unfold step
    split
    · exact h1 _
    · exact h2 _ (by simp)
    · exact h2 _ (by simp)
  · exact h1 _

theorem finish_states (o : Options) (c : Commands) (results : List CmdRes) (doc : Parser) (states : List FS) :
    (finish o c results doc states).states = states := by
  unfold finish
  split
  · rfl
  · split
    · unfold step; split <;> rfl
    · rfl

theorem finish_last {o : Options} {c : Commands} {results : List CmdRes} {doc : Parser} {states : List FS} {rs : List CmdRes} {d : Option Str}
    (h : (finish o c results doc states).last = .finished rs d) : rs = results := by
  unfold finish at h
  split at h
  · simp at h
  · split at h
    · unfold step at h; split at h <;> simp_all
    · simp at h; exact h.1.symm

end Tomllib
