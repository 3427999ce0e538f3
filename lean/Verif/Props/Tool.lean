import Verif.Spec.Tool
import Verif.Cli
import Verif.Lemmas.Map
import Verif.Lemmas.ForTool
/-!
# Properties of the command-line tool: C36, C41
-/

namespace Tomllib

open Cli

/-- C36. `tomlkit` touches a file only if the document was read completely and without errors, assignments were requested, and every one of
them succeeded.  Then it touches no other file than the output file (which is the input file unless another is named), whose contents are first
nothing and then the printed document after all assignments.  For every state of the files at every moment of every run. -/
theorem C36_writes_only_after_success (o : Options) (c : Commands) (path : Str) (fs : FS) :
    ∀ fs' ∈ (processDocument o c path fs).states, fs' = fs ∨ Written c path fs fs' := by
  have base : ∀ e, ∀ fs' ∈ (Run.mk [fs] e).states, fs' = fs ∨ Written c path fs fs' := by
    intro e fs' h; simp at h; exact .inl h
  unfold processDocument
  split
  · exact base _
  next text ht =>
    unfold step
    split
    next a hp =>
      obtain ⟨doc, res⟩ := a
      dsimp only
      cases res with
      | full =>
        refine command_cases (Q := fun r => ∀ fs' ∈ r.states, fs' = fs ∨ Written c path fs fs') (fun r => ?_) (fun e _ => base e)
        refine command_cases (Q := fun r => ∀ fs' ∈ r.states, fs' = fs ∨ Written c path fs fs') (fun r => ?_) (fun e _ => base e)
        refine command_cases (Q := fun r => ∀ fs' ∈ r.states, fs' = fs ∨ Written c path fs fs') (fun r => ?_) (fun e _ => base e)
        refine command_cases (Q := fun r => ∀ fs' ∈ r.states, fs' = fs ∨ Written c path fs fs') (fun r => ?_) (fun e _ => base e)
        unfold setAndFinish
        split
        · rw [finish_states]; intro fs' h; simp at h; exact .inl h
        · rw [finish_states]; intro fs' h; simp at h; exact .inl h
        next fields _ hset _ =>
          unfold step
          split
          next b hs =>
            obtain ⟨doc', r'⟩ := b
            dsimp only
            cases r' with
            | error e => dsimp only; rw [finish_states]; intro fs' h; simp at h; exact .inl h
            | ok msg =>
              dsimp only
              obtain ⟨flds, rfl, hne, ha⟩ := setValue_applied hs
              have w1 : Written c path fs (SMap.insert fs (c.outputFile.getD path) []) :=
                ⟨text, doc, flds, doc', ht, hp, hset, hne, ha, fun q hq => by rw [SMap.get?_insert, if_neg (fun h => hq h.symm)],
                  .inl (SMap.get?_insert_self _ _ _)⟩
              split
              next s hd =>
                rw [finish_states]
                intro fs' h
                simp only [List.mem_cons, List.not_mem_nil, or_false] at h
                rcases h with rfl | rfl | rfl
                · exact .inl rfl
                · exact .inr w1
                · refine .inr ⟨text, doc, flds, doc', ht, hp, hset, hne, ha, fun q hq => ?_, .inr ⟨s, hd, SMap.get?_insert_self _ _ _⟩⟩
                  rw [SMap.get?_insert, if_neg (fun h => hq h.symm), SMap.get?_insert, if_neg (fun h => hq h.symm)]
              · intro fs' h
                simp only [List.mem_cons, List.not_mem_nil, or_false] at h
                rcases h with rfl | rfl
                · exact .inl rfl
                · exact .inr w1
              · intro fs' h
                simp only [List.mem_cons, List.not_mem_nil, or_false] at h
                rcases h with rfl | rfl
                · exact .inl rfl
                · exact .inr w1
          · exact base _
          · exact base _
      | _ => exact base _
    · exact base _
    · exact base _

/-- C36. A run that ends normally and was told to change values has either reported an error and changed nothing, or has saved the printed
document after all assignments. -/
theorem C36_result_of_run (o : Options) (c : Commands) (path : Str) (fs : FS) : LeftBehind c path fs (processDocument o c path fs) := by
  have base : ∀ e : End, (∀ rs d, e ≠ .finished rs d) → ∀ st, LeftBehind c path fs ⟨st, e⟩ := fun e he st rs d h => absurd h (he rs d)
  unfold processDocument
  split
  · exact base _ (by simp) _
  next text ht =>
    unfold step
    split
    next a hp =>
      obtain ⟨doc, res⟩ := a
      dsimp only
      cases res with
      | full =>
        refine command_cases (Q := LeftBehind c path fs) (fun r => ?_) (fun e he => base e he _)
        refine command_cases (Q := LeftBehind c path fs) (fun r => ?_) (fun e he => base e he _)
        refine command_cases (Q := LeftBehind c path fs) (fun r => ?_) (fun e he => base e he _)
        refine command_cases (Q := LeftBehind c path fs) (fun r => ?_) (fun e he => base e he _)
        unfold setAndFinish
        split
        next e heq =>
          intro rs d h
          have := finish_last h
          subst this
          left
          rw [finish_states]
          refine ⟨.inl ⟨.error e, ?_, e, rfl⟩, rfl⟩
          exact List.mem_of_getLast? heq
        next hn _ =>
          intro rs d h
          left
          rw [finish_states]
          exact ⟨.inr hn, rfl⟩
        next fields _ hset _ =>
          unfold step
          split
          next b hs =>
            obtain ⟨doc', r'⟩ := b
            dsimp only
            cases r' with
            | error e =>
              dsimp only
              intro rs d h
              have := finish_last h
              subst this
              left
              rw [finish_states]
              exact ⟨.inl ⟨.error e, by simp, e, rfl⟩, rfl⟩
            | ok msg =>
              dsimp only
              obtain ⟨flds, rfl, hne, ha⟩ := setValue_applied hs
              split
              next s hd =>
                intro rs d h
                right
                rw [finish_states]
                refine ⟨text, doc, flds, doc', s, SMap.insert (SMap.insert fs (c.outputFile.getD path) []) (c.outputFile.getD path) s,
                  ht, hp, hset, ha, hd, rfl, SMap.get?_insert_self _ _ _, fun q hq => ?_⟩
                rw [SMap.get?_insert, if_neg (fun h => hq h.symm), SMap.get?_insert, if_neg (fun h => hq h.symm)]
              · exact base _ (by simp) _
              · exact base _ (by simp) _
          · exact base _ (by simp) _
          · exact base _ (by simp) _
      | _ => exact base _ (by simp) _
    · exact base _ (by simp) _
    · exact base _ (by simp) _

example : history (processDocument .default (setOne (lit% "a") (lit% "2") (lit% "int")) (lit% "f") [(lit% "f", lit% "a = 1 # one")]) (lit% "f") =
    [some (lit% "a = 1 # one"), some [], some (lit% "a = 2 # one")] := by decide +kernel

example : history (processDocument .default (setOne (lit% "b") (lit% "2") (lit% "int")) (lit% "f") [(lit% "f", lit% "a = 1 # one")]) (lit% "f") =
    [some (lit% "a = 1 # one")] := by decide +kernel

/-! ## C41 -/

/-- C41. The wish fails: a document with an empty inline table, which cannot be printed, is lost when a value is assigned.  The run panics after the
file has been emptied. -/
theorem C41_file_lost :
    let r := processDocument .default (setOne (lit% "a") (lit% "2") (lit% "int")) (lit% "f") [(lit% "f", lit% "a = 1\nb = {}\n")]
    history r (lit% "f") = [some (lit% "a = 1\nb = {}\n"), some []] ∧ End.code r.last = 2 := by decide +kernel

/-- C41. And during every run that saves, there is a moment when the file is empty. -/
theorem C41_empty_moment (o : Options) (c : Commands) (path : Str) (fs fs' : FS) (h : fs' ∈ (processDocument o c path fs).states) (hne : fs' ≠ fs) :
    ∃ fs1 ∈ (processDocument o c path fs).states, fs1.get? (c.outputFile.getD path) = some [] := by
  revert h
  have key : ∀ {r : Run}, (fs' ∈ r.states → ∃ fs1 ∈ r.states, fs1.get? (c.outputFile.getD path) = some []) →
      fs' ∈ r.states → ∃ fs1 ∈ r.states, fs1.get? (c.outputFile.getD path) = some [] := fun h => h
  have base : ∀ e, fs' ∈ (Run.mk [fs] e).states → ∃ fs1 ∈ (Run.mk [fs] e).states, fs1.get? (c.outputFile.getD path) = some [] := by
    intro e h; simp at h; exact absurd h hne
  have base' : fs' ∈ [fs] → ∃ fs1 ∈ [fs], fs1.get? (c.outputFile.getD path) = some [] := by
    intro h; simp at h; exact absurd h hne
  unfold processDocument
  split
  · exact base _
  next text ht =>
    unfold step
    split
    next a hp =>
      obtain ⟨doc, res⟩ := a
      dsimp only
      cases res with
      | full =>
        refine command_cases (Q := fun r => fs' ∈ r.states → ∃ fs1 ∈ r.states, fs1.get? (c.outputFile.getD path) = some []) (fun r => ?_) (fun e _ => base e)
        refine command_cases (Q := fun r => fs' ∈ r.states → ∃ fs1 ∈ r.states, fs1.get? (c.outputFile.getD path) = some []) (fun r => ?_) (fun e _ => base e)
        refine command_cases (Q := fun r => fs' ∈ r.states → ∃ fs1 ∈ r.states, fs1.get? (c.outputFile.getD path) = some []) (fun r => ?_) (fun e _ => base e)
        refine command_cases (Q := fun r => fs' ∈ r.states → ∃ fs1 ∈ r.states, fs1.get? (c.outputFile.getD path) = some []) (fun r => ?_) (fun e _ => base e)
        unfold setAndFinish
        split
        · rw [finish_states]; exact base'
        · rw [finish_states]; exact base'
        · unfold step
          split
          next b hs =>
            obtain ⟨doc', r'⟩ := b
            dsimp only
            cases r' with
            | error e => dsimp only; rw [finish_states]; exact base'
            | ok msg =>
              dsimp only
              intro _
              refine ⟨SMap.insert fs (c.outputFile.getD path) [], ?_, SMap.get?_insert_self _ _ _⟩
              split
              · rw [finish_states]; simp
              · simp
              · simp
          · exact base _
          · exact base _
      | _ => exact base _
    · exact base _
    · exact base _

/-- C41. A run that ends normally leaves behind the old text or the text of the changed document. -/
theorem C41_saved (o : Options) (c : Commands) (path : Str) (fs : FS) (results : List CmdRes) (d : Option Str)
    (h : (processDocument o c path fs).last = .finished results d) :
    ∃ fs', (processDocument o c path fs).states.getLast? = some fs' ∧
      (fs' = fs ∨ ∃ text doc fields doc' s, fs.get? path = some text ∧ Parser.new.parse text = .ok (doc, .full) ∧ c.setValue = some (some fields) ∧
        Applied fields doc doc' ∧ doc'.display = .ok s ∧ fs'.get? (c.outputFile.getD path) = some s) := by
  rcases C36_result_of_run o c path fs results d h with ⟨_, h1⟩ | ⟨text, doc, fields, doc', s, fs', h1, h2, h3, h4, h5, h6, h7, _⟩
  · exact ⟨fs, h1, .inl rfl⟩
  · exact ⟨fs', h6, .inr ⟨text, doc, fields, doc', s, h1, h2, h3, h4, h5, h7⟩⟩

end Tomllib
