import Verif.Lemmas.Line
import Verif.Lemmas.Witness
import Verif.Props.Parse
/-!
# What the options of the command-line tool do: C60

Spec/Line.lean says what the options stand for.
-/

namespace Tomllib

open Cli

/-- C60. The commands that read, in any combination, from the command line to the output: their results with the separator between them and a line break, then the
document if it is to be printed. No file is touched, and the exit status is 0. -/
theorem C60_reads {csv : Str → Option (List Str)} {m : Matches} {stdin out : List Str} {fs : FS} {path text : Str} {doc : Parser}
    (hh : ¬ isGiven m (lit% "help")) (hs : ¬ isGiven m (lit% "set-value")) (hi : m.get? (lit% "input-file") = some path)
    (ht : fs.get? path = some text) (hp : Parser.new.parse text = .ok (doc, .full)) (hr : Results csv m doc out) (hne : out ≠ [])
    (hd : isGiven m (lit% "print-doc") → ∃ t, doc.display = .ok t) :
    let b := main csv m stdin fs
    textOf (b.output (Options.new csv m) m) = some ((sep m).intercalate out ++ lit% "\n" ++ if isGiven m (lit% "print-doc") then text ++ lit% "\n" else []) ∧
    (∀ fs' ∈ b.states, fs' = fs) ∧ b.status = 0 := by
  intro b
  have hrd := reading_results hr
  have hset : (Commands.new csv m).setValue = none := by
    simp only [Commands.new]
    cases hm : m.get? (lit% "set-value") with
    | none => rfl
    | some arg => exact absurd ⟨arg, hm⟩ hs
  have hpr : ((Options.new csv m).printDoc = true) ↔ isGiven m (lit% "print-doc") := isGiven_iff m _
  have hpd := C49_order (o := Options.new csv m) hset ht hp (by rw [hrd]; simpa using hne)
  rw [hrd, collect_oks, lastOf] at hpd
  by_cases hg : isGiven m (lit% "print-doc")
  · obtain ⟨t, hd⟩ := hd hg
    rw [if_pos (hpr.mpr hg), hd] at hpd
    obtain ⟨k1, k2, k3⟩ := main_one (stdin := stdin) hh hi hpd rfl hne
    refine ⟨?_, ?_, k3⟩
    · rw [if_pos hg, ← C03_display_full .new hp (.inl rfl) hd]
      exact k1
    · show ∀ fs' ∈ (main csv m stdin fs).states, _
      rw [k2]
      simp [step, Run.final]
  · rw [if_neg (fun h => hg (hpr.mp h))] at hpd
    obtain ⟨k1, k2, k3⟩ := main_one (stdin := stdin) hh hi hpd rfl hne
    refine ⟨?_, ?_, k3⟩
    · rw [if_neg hg]
      exact k1
    · show ∀ fs' ∈ (main csv m stdin fs).states, _
      rw [k2]
      simp [Run.final]

/-- C60. The same with assignments, which come last: the results are those of the document before them, the document printed and written is the one after them.
It goes to the output file, or back to the input file. -/
theorem C60_sets {csv : Str → Option (List Str)} {m : Matches} {stdin out fields : List Str} {fs : FS} {path arg text s : Str} {doc doc' : Parser}
    (hh : ¬ isGiven m (lit% "help")) (hi : m.get? (lit% "input-file") = some path) (hg : m.get? (lit% "set-value") = some arg) (hk : csv arg = some fields)
    (hne : fields ≠ []) (ht : fs.get? path = some text) (hp : Parser.new.parse text = .ok (doc, .full)) (hr : Results csv m doc out)
    (ha : Applied fields doc doc') (hs : doc'.display = .ok s) :
    let b := main csv m stdin fs
    let file := given m (lit% "output-file") path
    textOf (b.output (Options.new csv m) m) = some ((sep m).intercalate (out ++ [(sep m).intercalate (List.replicate (fields.length / 3) (lit% "Success"))]) ++
      lit% "\n" ++ if isGiven m (lit% "print-doc") then s ++ lit% "\n" else []) ∧
    (b.final fs).get? file = some s ∧ (∀ q, q ≠ file → (b.final fs).get? q = fs.get? q) ∧ b.status = 0 := by
  intro b file
  have hsep : (Options.new csv m).separator = sep m := given_eq m _ _
  have hpr : ((Options.new csv m).printDoc = true) ↔ isGiven m (lit% "print-doc") := isGiven_iff m _
  obtain ⟨k1, k2⟩ := C50_assigned (o := Options.new csv m) (c := Commands.new csv m) (rs := out.map .ok) ht hp (by rw [reading_results hr, collect_oks])
    (by simp) (by simp [Commands.new, hg, hk]) hne ha hs
  have hq : (Options.new csv m).quiet = false := rfl
  rw [hq, hsep] at k2
  simp only [Bool.false_eq_true, if_false, hpr] at k2
  obtain ⟨j1, j2, j3⟩ := main_one (stdin := stdin) (texts := out ++ [(sep m).intercalate (List.replicate (fields.length / 3) (lit% "Success"))]) hh hi rfl
    (k2.trans (by rw [List.map_append]; rfl)) (by simp)
  have hfin : b.final fs = (processDocument (Options.new csv m) (Commands.new csv m) path fs).final fs := by
    unfold Batch.final
    rw [show b.states = _ from j2]
    simp
  have hfile : (Commands.new csv m).outputFile.getD path = file := given_eq m _ _
  refine ⟨?_, ?_, ?_, j3⟩
  · refine Eq.trans j1 ?_
    by_cases hg : isGiven m (lit% "print-doc")
    · rw [if_pos hg, if_pos hg]; rfl
    · rw [if_neg hg, if_neg hg]; rfl
  · have := getLastD_map (·.get? file) (states_ne_nil (Options.new csv m) (Commands.new csv m) path fs) fs none
    rw [hfin, Run.final]
    refine this.trans ?_
    rw [hfile] at k1
    have k1' : (processDocument (Options.new csv m) (Commands.new csv m) path fs).states.map (·.get? file) = [fs.get? file, some [], some s] := k1
    rw [k1']; rfl
  · intro q hq
    rw [hfin]
    exact states_other _ _ path (by rw [hfile]; exact hq) fs _ (getLastD_mem (states_ne_nil _ _ _ _) _)

/-- Fields between commas. -/
def commas : Str → List Str
  | [] => [[]]
  | ',' :: s => [] :: commas s
  | ch :: s => match commas s with
    | [] => [[ch]]
    | f :: fs => (ch :: f) :: fs

/-- A command line with everything that reads, and a document. -/
def everything : Matches :=
  [(lit% "input-file", lit% "f"), (lit% "get-value", lit% "b.x,a"), (lit% "has-value", lit% "a,q"), (lit% "get-children", lit% "b,l"),
   (lit% "has-children", lit% "b,a"), (lit% "set-true", lit% "1,2,3,4"), (lit% "set-false", lit% "no"), (lit% "array-begin", lit% "<"), (lit% "array-end", lit% ">"),
   (lit% "array-separator", lit% "/"), (lit% "separator", lit% " | "), (lit% "strip-quotes", []), (lit% "print-doc", [])]

def everythingOf : Str := lit% "a = 1\nl = [3, 4]\n[b]\nx = 'y'\nz = 2"

/-- The hypotheses of C60 are met by all the commands at once. -/
example : ∃ doc, Parser.new.parse everythingOf = .ok (doc, .full) ∧ (∃ t, doc.display = .ok t) ∧
    Results (fun s => some (commas s)) everything doc [lit% "y | 1", lit% "1 | no", lit% "<x/z> | 2", lit% "3 | no"] := by
  have h : ∃ doc, Parser.new.parse everythingOf = .ok (doc, .full) ∧ doc.display = .ok everythingOf ∧
      doc.getValue (lit% "b.x") = .ok (some (.str (lit% "y") .literal)) ∧ doc.getValue (lit% "a") = .ok (some (.int (lit% "1"))) ∧
      doc.getValue (lit% "q") = .ok none ∧ doc.getChildren (lit% "b") = some (.keys [lit% "x", lit% "z"]) ∧ doc.getChildren (lit% "l") = some (.count 2) ∧
      doc.getChildren (lit% "a") = some (.count 0) := by decide +kernel
  obtain ⟨doc, h1, h2, h3, h4, h5, h6, h7, h8⟩ := h
  have e1 : commas (lit% "b.x,a") = [lit% "b.x", lit% "a"] := by decide
  have e2 : commas (lit% "a,q") = [lit% "a", lit% "q"] := by decide
  have e3 : commas (lit% "b,l") = [lit% "b", lit% "l"] := by decide
  have e4 : commas (lit% "b,a") = [lit% "b", lit% "a"] := by decide
  have hc1 : HasChildren doc (lit% "b") := ⟨_, h6, by simp, by simp⟩
  have hc2 : ¬ HasChildren doc (lit% "a") := by
    rintro ⟨c, h, h', _⟩
    rw [h8] at h
    exact h' (Option.some.inj h).symm
  refine ⟨doc, h1, ⟨_, h2⟩, [lit% "y | 1"], [lit% "1 | no"], [lit% "<x/z> | 2"], [lit% "3 | no"], rfl, ?_, ?_, ?_, ?_⟩
  · refine ⟨_, _, congrArg some e1, by simp, ⟨fun k => if k = lit% "a" then lit% "1" else lit% "y", ?_, ?_⟩, rfl⟩
    · intro k hk
      simp only [List.mem_cons, List.not_mem_nil, or_false] at hk
      rcases hk with rfl | rfl
      · refine ⟨_, lit% "'y'", h3, by decide, ?_⟩
        rw [if_pos (by decide)]
        show Unquoted (lit% "'y'") (lit% "y")
        refine ⟨⟨lit% "'", lit% "'", by simp, rfl⟩, ?_⟩
        rintro c x (h | h)
        · simp at h; rw [← h.1]; decide
        · cases x <;> simp at h; rw [← h]; decide
      · refine ⟨_, lit% "1", h4, by decide, ?_⟩
        rw [if_pos (by decide)]
        show Unquoted (lit% "1") (lit% "1")
        refine ⟨⟨[], [], by simp, rfl⟩, ?_⟩
        rintro c x (h | h)
        · simp at h; rw [← h.1]; decide
        · cases x <;> simp at h; rw [← h]; decide
    · decide
  · refine ⟨_, _, congrArg some e2, by simp, ⟨_, _, rfl, rfl, .inr (by decide), .inl (by decide), ?_, ?_⟩, rfl⟩
    · intro k hk
      simp only [List.mem_cons, List.not_mem_nil, or_false] at hk
      rcases hk with rfl | rfl
      · exact ⟨_, h4⟩
      · exact ⟨_, h5⟩
    · simp only [List.zipIdx_cons, List.zipIdx_nil, List.map_cons, List.map_nil, h4, h5]
      decide
  · refine ⟨_, _, congrArg some e3, by simp, ⟨fun k => if k = lit% "b" then lit% "<x/z>" else lit% "2", ?_, ?_⟩, rfl⟩
    · intro k hk
      simp only [List.mem_cons, List.not_mem_nil, or_false] at hk
      rcases hk with rfl | rfl
      · refine .inl ⟨_, h6, ?_⟩
        decide
      · refine .inr ⟨_, h7, by decide, ?_⟩
        decide
    · decide
  · refine ⟨_, _, congrArg some e4, by simp, ⟨_, _, rfl, rfl, .inr (by decide), .inl (by decide), ?_⟩, rfl⟩
    simp only [List.zipIdx_cons, List.zipIdx_nil, List.map_cons, List.map_nil, if_pos hc1, if_neg hc2]
    decide

example : let b := main (fun s => some (commas s)) everything [] [(lit% "f", everythingOf)]
    textOf (b.output (Options.new (fun s => some (commas s)) everything) everything) = some (lit% "y | 1 | 1 | no | <x/z> | 2 | 3 | no\n" ++ everythingOf ++ lit% "\n") ∧ b.status = 0 := by
  decide +kernel

end Tomllib
