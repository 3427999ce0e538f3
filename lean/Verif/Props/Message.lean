import Verif.Lemmas.Message
import Verif.Lemmas.Witness
import Verif.Props.Line
/-!
# What the command-line tool says when something is wrong: C61

Spec/Message.lean says which message belongs to which mistake. `w` is the wording of the texts that come from elsewhere, whatever it is.
-/

namespace Tomllib

open Cli

/-- C61. A command fails: the results of the commands before it are printed, then the message with the name of the file. Later commands are not run. No file is
touched, and the exit status is 0. With `--print-doc` the document follows; it has the assignments made before the one that failed. -/
theorem C61_command_fails (w : Wording) {csv : Str → Option (List Str)} {m : Matches} {stdin out : List Str} {fs : FS} {path text command arg msg : Str}
    {doc doc' : Parser} (hh : ¬ isGiven m (lit% "help")) (hi : m.get? (lit% "input-file") = some path) (ht : fs.get? path = some text)
    (hp : Parser.new.parse text = .ok (doc, .full)) (hc : command ∈ order) (hg : m.get? command = some arg)
    (hr : Results csv (before m command) doc out) (hf : FailsWith w csv m doc command arg (csv arg) msg doc')
    {s : Str} (hd : isGiven m (lit% "print-doc") → doc'.display = .ok s) :
    let b := main csv m stdin fs
    said w (mainOutput csv m stdin fs) = out.flatMap (· ++ sep m) ++ lit% "Error \"" ++ path ++ lit% "\": " ++ msg ++ lit% "\n" ++
      (if isGiven m (lit% "print-doc") then s ++ lit% "\n" else []) ∧
    (∀ fs' ∈ b.states, fs' = fs) ∧ b.status = 0 := by
  obtain ⟨e, hl, hm⟩ : ∃ e, processDocument (Options.new csv m) (Commands.new csv m) path fs =
      finish (Options.new csv m) (Commands.new csv m) (out.map .ok ++ [.error e]) doc' [fs] ∧ said w (e.message m command) = msg := by
    have hrd := reading_results hr
    rw [before_options] at hrd
    have key := processDocument_reading (o := Options.new csv m) (c := Commands.new csv m) (path := path) (g := fun x => match x with
      | .ok rs => setAndFinish (Options.new csv m) (Commands.new csv m) path rs doc fs
      | .panic x => ⟨[fs], .panicked x⟩
      | .fuel => ⟨[fs], .outOfFuel⟩) ht hp (fun _ => rfl) rfl (fun _ => rfl)
    by_cases hs : command = lit% "set-value"
    · subst hs
      obtain ⟨e, he, hm⟩ := fails_sets hg hf (Options.new csv m)
      refine ⟨e, key.trans ?_, hm⟩
      rw [← reading_before_set, hrd, collect_oks]
      exact setAndFinish_error (by intro e h; have := List.mem_of_getLast? h; simp at this) (by simp [Commands.new, hg]) he
    · obtain ⟨rfl, e, rest, he, hm⟩ := fails_reads hg hf hs
      refine ⟨e, key.trans ?_, hm⟩
      rw [he, hrd, collect_error]
      exact setAndFinish_last (e := e) (by simp)
  have hno : finish (Options.new csv m) (Commands.new csv m) (out.map .ok ++ [.error e]) doc' [fs] =
      ⟨[fs], .finished (out.map .ok ++ [.error e]) (if isGiven m (lit% "print-doc") then some s else none)⟩ := by
    have hpr : ((Options.new csv m).printDoc = true) ↔ isGiven m (lit% "print-doc") := isGiven_iff m _
    rw [finish, if_neg (not_all_none hc hg)]
    by_cases hg : isGiven m (lit% "print-doc")
    · rw [if_pos (hpr.mpr hg), hd hg, if_pos hg]; rfl
    · rw [if_neg (fun h => hg (hpr.mp h)), if_neg hg]
  rw [hno] at hl
  obtain ⟨h1, h2⟩ := main_alone (stdin := stdin) hh hi hl
  have h3 := main_states (stdin := stdin) hh hi hl
  intro b
  refine ⟨?_, ?_, ?_⟩
  · rw [h1]
    rw [C54_printed_failure rfl, said_append, said_append, said_append, said_append, name_at hc hg hr, hm, said_texts,
      show (Options.new csv m).separator = sep m from given_eq m _ _]
    by_cases hg : isGiven m (lit% "print-doc")
    · simp [if_pos hg, said]
    · simp [if_neg hg, said]
  · intro fs' h
    rw [show b.states = _ from h3] at h
    simpa using h
  · exact h2

/-- C61. Work on a file cannot begin: that is said, and the program stops with the exit status 255. No file is touched. -/
theorem C61_stops (w : Wording) {csv : Str → Option (List Str)} {m : Matches} {stdin : List Str} {fs : FS} {path msg : Str}
    (hh : ¬ isGiven m (lit% "help")) (hi : m.get? (lit% "input-file") = some path) (hs : StopsWith w m fs path msg) :
    let b := main csv m stdin fs
    said w (mainOutput csv m stdin fs) = lit% "Error \"" ++ path ++ lit% "\": " ++ msg ∧ b.states = [fs] ∧ b.status = 255 := by
  have hr : ∃ r, processDocument (Options.new csv m) (Commands.new csv m) path fs = ⟨[fs], .exited r⟩ ∧
      said w (r.message path) = lit% "Error \"" ++ path ++ lit% "\": " ++ msg := by
    cases hs with
    | noFile h => exact ⟨.noFile, by rw [processDocument, h], by simp [Reason.message, said, errorIn]⟩
    | partly h hp => exact ⟨.notRead _, by rw [processDocument, h]; simp only [hp, step]; rfl, by simp [Reason.message, said, errorIn]⟩
    | partlyErrors h hp => exact ⟨.notRead _, by rw [processDocument, h]; simp only [hp, step]; rfl, by simp [Reason.message, said, errorIn]⟩
    | failed h hp => exact ⟨.notRead _, by rw [processDocument, h]; simp only [hp, step]; rfl, by simp [Reason.message, said, errorIn]⟩
    | errors h hp => exact ⟨.notRead _, by rw [processDocument, h]; simp only [hp, step]; rfl, by simp [Reason.message, said, errorIn]⟩
    | noCommand h hp hn =>
      refine ⟨.noCommand, ?_, by simp [Reason.message, said, errorIn]⟩
      have hz : ∀ x ∈ order, m.get? x = none := fun x hx => by
        cases hm : m.get? x with
        | none => rfl
        | some a => exact absurd ⟨a, hm⟩ (hn x hx)
      rw [processDocument, h]
      simp [hp, step, command, setAndFinish, finish, Commands.new, hz _ (by decide : lit% "get-value" ∈ order), hz _ (by decide : lit% "has-value" ∈ order),
        hz _ (by decide : lit% "get-children" ∈ order), hz _ (by decide : lit% "has-children" ∈ order), hz _ (by decide : lit% "set-value" ∈ order)]
  obtain ⟨r, h, hm⟩ := hr
  have hb := main_exits (stdin := stdin) hh hi h
  intro b
  have e : b = _ := hb
  refine ⟨?_, by rw [e], by rw [e]; rfl⟩
  rw [mainOutput, if_neg (by rw [isGiven_iff]; exact hh), hb, ← hm]
  simp [Batch.output]

/-- C61. With `--help` the help text is printed and nothing else happens. -/
theorem C61_help (w : Wording) {csv : Str → Option (List Str)} {m : Matches} {stdin : List Str} {fs : FS} (hh : isGiven m (lit% "help")) :
    said w (mainOutput csv m stdin fs) = w.usage ∧ (main csv m stdin fs).states = [fs] ∧ (main csv m stdin fs).status = 0 := by
  have h : m.contains (lit% "help") = true := by rw [isGiven_iff]; exact hh
  refine ⟨?_, ?_, ?_⟩
  · rw [mainOutput, if_pos h]; simp [said]
  · rw [main, if_pos h]
  · rw [main, if_pos h]; rfl

/-- C61. Several files: what is printed is what is printed for each of the files that are reached, one after the other. -/
theorem C61_several (w : Wording) {csv : Str → Option (List Str)} {m : Matches} {names : List Str} {fs : FS} (hh : ¬ isGiven m (lit% "help"))
    (hi : ¬ isGiven m (lit% "input-file")) (ho : ¬ isGiven m (lit% "output-file")) (hd : names.Nodup) :
    said w (mainOutput csv m names fs) =
      ((main csv m names fs).ends.map Prod.fst).flatMap fun p => said w (mainOutput csv (m.insert (lit% "input-file") p) [] fs) := by
  have h1 : m.contains (lit% "help") = false := by rw [← Bool.not_eq_true, isGiven_iff]; exact hh
  have h2 : m.get? (lit% "input-file") = none := by
    cases h : m.get? (lit% "input-file") with
    | none => rfl
    | some a => exact absurd ⟨a, h⟩ hi
  have h3 : (Commands.new csv m).outputFile = none := by
    simp only [Commands.new]
    cases h : m.get? (lit% "output-file") with
    | none => rfl
    | some a => exact absurd ⟨a, h⟩ ho
  have hm : main csv m names fs = batch (Options.new csv m) (Commands.new csv m) names fs := by
    rw [main, h1, h2]; rfl
  rw [mainOutput, h1, hm]
  simp only [Bool.false_eq_true, if_false]
  rw [output_eq, List.flatMap_map]
  simp only [mainOutput_input hh]
  have key : ∀ x ∈ (batch (Options.new csv m) (Commands.new csv m) names fs).ends,
      x = (x.1, (processDocument (Options.new csv m) (Commands.new csv m) x.1 fs).last) := fun x hx =>
    Prod.ext rfl (C53_as_if_alone hd h3 hx).1
  revert key
  generalize (batch (Options.new csv m) (Commands.new csv m) names fs).ends = l
  intro key
  induction l with
  | nil => rfl
  | cons x l ih =>
    rw [List.flatMap_cons, List.flatMap_cons, said_append, ih fun y hy => key y (List.mem_cons_of_mem _ hy), ← key x (by simp)]

/-! ## The hypotheses are met -/

/-- One field, the whole argument. -/
abbrev whole : Str → Option (List Str) := fun s => some [s]

/-- `has-value` works, then `get-children` fails; the assignment after it is not made. -/
def failing : Matches :=
  [(lit% "input-file", lit% "f"), (lit% "has-value", lit% "a"), (lit% "get-children", lit% "b"), (lit% "set-value", lit% "a"), (lit% "print-doc", [])]

example : ∃ doc, Parser.new.parse (lit% "a = 1") = .ok (doc, .full) ∧ doc.display = .ok (lit% "a = 1") ∧
    Results whole (before failing (lit% "get-children")) doc [lit% "true"] ∧
    ∀ w, FailsWith w whole failing doc (lit% "get-children") (lit% "b") (whole (lit% "b")) (lit% "Key \"b\" not found.") doc := by
  have h : ∃ doc, Parser.new.parse (lit% "a = 1") = .ok (doc, .full) ∧ doc.display = .ok (lit% "a = 1") ∧ doc.getValue (lit% "a") = .ok (some (.int (lit% "1"))) ∧
      doc.getChildren (lit% "b") = none := by decide +kernel
  obtain ⟨doc, h1, h2, h3, h4⟩ := h
  refine ⟨doc, h1, h2, ⟨[], [lit% "true"], [], [], rfl, rfl, ?_, rfl, rfl⟩, fun w => ?_⟩
  · refine ⟨[lit% "a"], _, rfl, by simp, ⟨[lit% "true"], [lit% "false"], rfl, rfl, .inl rfl, .inl rfl, ?_, ?_⟩, rfl⟩
    · intro k hk
      simp only [List.mem_singleton] at hk
      subst hk
      exact ⟨_, h3⟩
    · simp only [List.zipIdx_cons, List.zipIdx_nil, List.map_cons, List.map_nil, h3]
      decide
  · exact .noEntry (a := []) (b := []) (by simp) h4

example (w : Wording) : said w (mainOutput whole failing [] [(lit% "f", lit% "a = 1")]) = lit% "true, Error \"f\": Key \"b\" not found.\na = 1\n" := by
  have h : mainOutput whole failing [] [(lit% "f", lit% "a = 1")] =
      [.text (lit% "true"), .text (lit% ", "), .text (lit% "Error \"f\": "), .text (lit% "Key \"b\" not found."), .text (lit% "\n"), .text (lit% "a = 1"), .text (lit% "\n")] := by
    decide +kernel
  rw [h]; rfl

/-- Two assignments, the second one of an unknown type. -/
def halfway : Matches := [(lit% "input-file", lit% "f"), (lit% "set-value", lit% "a,2,int,b,3,number"), (lit% "print-doc", [])]

example : ∃ doc doc', Parser.new.parse (lit% "a = 1\nb = 1") = .ok (doc, .full) ∧ doc'.display = .ok (lit% "a = 2\nb = 1") ∧
    Results (fun s => some (commas s)) (before halfway (lit% "set-value")) doc [] ∧
    ∀ w, FailsWith w (fun s => some (commas s)) halfway doc (lit% "set-value") (lit% "a,2,int,b,3,number") (some (commas (lit% "a,2,int,b,3,number")))
      (lit% "Type \"number\" not recognized for key: \"b\"") doc' := by
  have h : ∃ doc, Parser.new.parse (lit% "a = 1\nb = 1") = .ok (doc, .full) ∧
      ∃ doc', doc.setValue (lit% "a") (.int (lit% "2")) = .ok (doc', true) ∧ doc'.display = .ok (lit% "a = 2\nb = 1") := by decide +kernel
  obtain ⟨doc, h1, doc', h2, h3⟩ := h
  refine ⟨doc, doc', h1, h3, ⟨[], [], [], [], rfl, rfl, rfl, rfl, rfl⟩, fun w => ?_⟩
  have e : commas (lit% "a,2,int,b,3,number") = [lit% "a", lit% "2", lit% "int"] ++ lit% "b" :: lit% "3" :: lit% "number" :: [] := by decide
  rw [e]
  refine .noType (by simp) (.cons ?_ h2 (.nil _)) (by decide)
  exact .int (lit% "2") [] (by simp) rfl ((lang_integer _).mp (Re.find_some (r := Rx.integer) (s := lit% "2") (m := lit% "2") (t := []) (by decide +kernel)).2)

example (w : Wording) : said w (mainOutput (fun s => some (commas s)) halfway [] [(lit% "f", lit% "a = 1\nb = 1")]) =
    lit% "Error \"f\": Type \"number\" not recognized for key: \"b\"\na = 2\nb = 1\n" := by
  have h : mainOutput (fun s => some (commas s)) halfway [] [(lit% "f", lit% "a = 1\nb = 1")] =
      [.text (lit% "Error \"f\": "), .text (lit% "Type \"number\" not recognized for key: \"b\""), .text (lit% "\n"), .text (lit% "a = 2\nb = 1"), .text (lit% "\n")] := by
    decide +kernel
  rw [h]; rfl

example (w : Wording) : ∃ msg, StopsWith w [] [(lit% "f", lit% "a = 1\na = 2")] (lit% "f") msg := by
  have h : ∃ doc, Parser.new.parse (lit% "a = 1\na = 2") = .ok (doc, .fullError [.duplicateKey (lit% "a") 2 0 (.int (lit% "2"))]) := Out.wit' (by decide +kernel)
  obtain ⟨doc, h⟩ := h
  exact ⟨_, .errors rfl h⟩

example (w : Wording) : ∃ msg, StopsWith w [] [(lit% "f", lit% "a = 1\nb = ")] (lit% "f") msg := by
  have h : ∃ doc, Parser.new.parse (lit% "a = 1\nb = ") = .ok (doc, .partialRes [] 2 0) := Out.wit' (by decide +kernel)
  obtain ⟨doc, h⟩ := h
  exact ⟨_, .partly rfl h⟩

example (w : Wording) : StopsWith w [(lit% "output-file", lit% "g")] [(lit% "f", lit% "a = 1")] (lit% "f") (lit% "No command was specified.\n" ++ w.usage) := by
  have h : ∃ doc, Parser.new.parse (lit% "a = 1") = .ok (doc, .full) := Out.wit' (by decide +kernel)
  obtain ⟨doc, h⟩ := h
  exact .noCommand rfl h (by decide)

end Tomllib
