import Verif.Lemmas.Lost
import Verif.Lemmas.ForSays
import Verif.Lemmas.Witness
/-!
# When saving loses the file: C41
-/

namespace Tomllib

open Cli

/-- C41, what the code does instead. Assignments that can all be made: the file is emptied, and then it depends on the text that was read. If there is
an empty inline table in it, the run panics and the file stays empty; otherwise the text of the changed document is written. -/
theorem C41_outcome {o : Options} {c : Commands} {path text : Str} {fs : FS} {doc doc' : Parser} {fields : List Str} {rs : List CmdRes}
    (ht : fs.get? path = some text) (hp : Parser.new.parse text = .ok (doc, .full))
    (hread : collect (reading o c doc) = .ok rs) (hok : ∀ r ∈ rs, ∃ t, r = .ok t)
    (hset : c.setValue = some (some fields)) (hne : fields ≠ []) (ha : Applied fields doc doc') :
    let out := c.outputFile.getD path
    let r := processDocument o c path fs
    ∃ ls, DocWf ls ∧ text = linesText ls ∧
      (hasEmptyTable ls = true → history r out = [fs.get? out, some []] ∧ r.last = .panicked .underflow) ∧
      (hasEmptyTable ls = false → ∃ s, doc'.display = .ok s ∧ history r out = [fs.get? out, some [], some s] ∧ End.code r.last = 0) := by
  intro out r
  obtain ⟨ls, s, hwf, htx, hd⟩ := applied_display hp ha
  refine ⟨ls, hwf, htx, ?_⟩
  have hl : ∀ e, rs.getLast? ≠ some (.error e) := by
    intro e h
    obtain ⟨t, ht⟩ := hok _ (List.mem_of_getLast? h)
    cases ht
  obtain ⟨n, hn⟩ := ha.length
  have hn0 : fields.length ≠ 0 := fun h => hne (List.length_eq_zero_iff.mp h)
  have hsv : Cli.setValue o (some fields) doc = .ok (doc', .ok (messages o (fields.length / 3) false)) := by
    have := setLoop_prefix o ha [] []
    simp only [List.append_nil, List.nil_append] at this
    rw [Cli.setValue, if_neg (by omega), this]
    simp [setLoop]
  have hr : r = step doc'.display [fs, fs.insert out []] fun s =>
      finish o c (rs ++ [.ok (messages o (fields.length / 3) false)]) doc' [fs, fs.insert out [], (fs.insert out []).insert out s] := by
    refine (processDocument_reading (g := fun x => match x with
      | .ok rs => setAndFinish o c path rs doc fs
      | .panic x => ⟨[fs], .panicked x⟩
      | .fuel => ⟨[fs], .outOfFuel⟩) ht hp (fun _ => rfl) rfl (fun _ => rfl)).trans ?_
    rw [hread]
    dsimp only
    unfold setAndFinish
    rw [hset]
    split
    next h => exact absurd h (hl _)
    next h _ => simp at h
    next f hf _ =>
      simp only [Option.some.injEq] at hf
      subst hf
      simp only [step, hsv]
      rfl
  refine ⟨fun he => ?_, fun he => ?_⟩
  · rw [he, if_pos rfl] at hd
    rw [hr, hd]
    simp [step, history, SMap.get?_insert_self]
  · rw [he, if_neg (by simp)] at hd
    refine ⟨s, hd, ?_⟩
    rw [hr, hd]
    simp only [step]
    rw [finish, if_neg (by simp [hset])]
    by_cases hpd : o.printDoc = true
    · rw [if_pos hpd, hd]
      simp [step, history, SMap.get?_insert_self, End.code]
    · rw [if_neg hpd]
      simp [history, SMap.get?_insert_self, End.code]

example : ∃ doc doc', Parser.new.parse (lit% "a = 1\n[t]\nb = {}\n") = .ok (doc, .full) ∧
    Applied [lit% "a", lit% "2", lit% "int", lit% "t", lit% "x", lit% "ls"] doc doc' ∧ doc'.display = .panic .underflow := by
  obtain ⟨doc, h1, doc1, h2, doc2, h3, h4⟩ : ∃ doc, Parser.new.parse (lit% "a = 1\n[t]\nb = {}\n") = .ok (doc, .full) ∧
      ∃ doc1, doc.setValue (lit% "a") (.int (lit% "2")) = .ok (doc1, true) ∧ ∃ doc2, doc1.setValue (lit% "t") (.str (lit% "x") .literal) = .ok (doc2, true) ∧
        doc2.display = .panic .underflow := Out.wit (by decide +kernel)
  exact ⟨doc, doc2, h1, .cons ((fieldValue_iff _ _ _).mp (by rfl)) h2 (.cons ((fieldValue_iff _ _ _).mp (by rfl)) h3 (.nil _)), h4⟩

/-- C41. How every run leaves the files: as they were, or all assignments have been made to the document, only the output file is touched, and it holds the text
of the changed document. Unless there is an empty inline table in the text that was read: then it is empty, and the run has panicked. -/
theorem C41_left_behind (o : Options) (c : Commands) (path : Str) (fs : FS) :
    let out := c.outputFile.getD path
    let r := processDocument o c path fs
    ∃ fs', r.states.getLast? = some fs' ∧
      (fs' = fs ∨ ∃ text ls doc fields doc', fs.get? path = some text ∧ DocWf ls ∧ text = linesText ls ∧ Parser.new.parse text = .ok (doc, .full) ∧
        c.setValue = some (some fields) ∧ fields ≠ [] ∧ Applied fields doc doc' ∧ (∀ q, q ≠ out → fs'.get? q = fs.get? q) ∧
        (hasEmptyTable ls = true → fs'.get? out = some [] ∧ r.last = .panicked .underflow) ∧
        (hasEmptyTable ls = false → ∃ s, doc'.display = .ok s ∧ fs'.get? out = some s)) := by
  dsimp only
  generalize hQ : (fun r : Run => ∃ fs', r.states.getLast? = some fs' ∧
      (fs' = fs ∨ ∃ text ls doc fields doc', fs.get? path = some text ∧ DocWf ls ∧ text = linesText ls ∧ Parser.new.parse text = .ok (doc, .full) ∧
        c.setValue = some (some fields) ∧ fields ≠ [] ∧ Applied fields doc doc' ∧ (∀ q, q ≠ c.outputFile.getD path → fs'.get? q = fs.get? q) ∧
        (hasEmptyTable ls = true → fs'.get? (c.outputFile.getD path) = some [] ∧ r.last = .panicked .underflow) ∧
        (hasEmptyTable ls = false → ∃ s, doc'.display = .ok s ∧ fs'.get? (c.outputFile.getD path) = some s))) = Q
  suffices h : Q (processDocument o c path fs) by rw [← hQ] at h; exact h
  have base : ∀ r : Run, r.states = [fs] → Q r := by
    intro r h
    rw [← hQ]
    exact ⟨fs, by rw [h]; rfl, .inl rfl⟩
  unfold processDocument
  split
  · exact base _ rfl
  next text ht =>
    unfold step
    split
    next a hp =>
      obtain ⟨doc, res⟩ := a
      dsimp only
      cases res with
      | full =>
        refine command_cases (fun r => ?_) (fun e _ => base _ rfl)
        refine command_cases (fun r => ?_) (fun e _ => base _ rfl)
        refine command_cases (fun r => ?_) (fun e _ => base _ rfl)
        refine command_cases (fun r => ?_) (fun e _ => base _ rfl)
        unfold setAndFinish
        split
        · exact base _ (finish_states ..)
        · exact base _ (finish_states ..)
        next fields _ hset _ =>
          unfold step
          split
          next b hs =>
            obtain ⟨doc', r'⟩ := b
            dsimp only
            cases r' with
            | error e => exact base _ (finish_states ..)
            | ok msg =>
              dsimp only
              obtain ⟨flds, rfl, hne, ha⟩ := setValue_applied hs
              obtain ⟨ls, s, hwf, htx, hd⟩ := applied_display hp ha
              rw [hd, ← hQ]
              cases he : hasEmptyTable ls with
              | true =>
                refine ⟨_, rfl, .inr ⟨text, ls, doc, flds, doc', ht, hwf, htx, hp, hset, hne, ha, fun q hq => ?_, fun _ => ⟨SMap.get?_insert_self _ _ _, rfl⟩,
                  fun h => ?_⟩⟩
                · show (SMap.insert fs _ []).get? q = _
                  rw [SMap.get?_insert, if_neg (fun h => hq h.symm)]
                · rw [he] at h; cases h
              | false =>
                rw [he] at hd
                refine ⟨_, by simp only [Bool.false_eq_true, if_false]; rw [finish_states]; rfl,
                  .inr ⟨text, ls, doc, flds, doc', ht, hwf, htx, hp, hset, hne, ha, fun q hq => ?_, fun h => ?_, fun _ => ⟨s, hd, SMap.get?_insert_self _ _ _⟩⟩⟩
                · rw [SMap.get?_insert, if_neg (fun h => hq h.symm), SMap.get?_insert, if_neg (fun h => hq h.symm)]
                · rw [he] at h; cases h
          · exact base _ rfl
          · exact base _ rfl
      | _ => exact base _ rfl
    · exact base _ rfl
    · exact base _ rfl

end Tomllib
