import Verif.Props.Batch
import Verif.Spec.Line
/-!
# Lemmas for C60: from the command line to the commands
-/

namespace Tomllib.Cli

theorem given_eq (m : Matches) (a b : Str) : (m.get? a).getD b = given m a b := by
  unfold given; cases m.get? a <;> rfl

theorem isGiven_iff (m : Matches) (a : Str) : m.contains a = true ↔ isGiven m a := by
  unfold SMap.contains isGiven; cases m.get? a <;> simp

theorem reading_results {csv : Str → Option (List Str)} {m : Matches} {doc : Parser} {out : List Str} (h : Results csv m doc out) :
    reading (Options.new csv m) (Commands.new csv m) doc = out.map fun s => .ok (.ok s) := by
  obtain ⟨o1, o2, o3, o4, rfl, h1, h2, h3, h4⟩ := h
  have hsep : (Options.new csv m).separator = sep m := given_eq m _ _
  have htv : (Options.new csv m).trueVals = csv (given m (lit% "set-true") (lit% "true")) := by rw [← given_eq]; rfl
  have hfv : (Options.new csv m).falseVals = csv (given m (lit% "set-false") (lit% "false")) := by rw [← given_eq]; rfl
  simp only [reading, List.map_append]
  congr 1
  · congr 1
    · congr 1
      · unfold Result at h1
        simp only [Commands.new]
        cases hm : m.get? (lit% "get-value") with
        | none => rw [hm] at h1; simp only at h1; simp [h1]
        | some arg =>
          rw [hm] at h1
          obtain ⟨ks, s, e1, e2, ⟨f, e3, e4⟩, rfl⟩ := h1
          simp only [Option.map_some, e1, Option.toList_some, List.map_cons, List.map_nil]
          rw [C49_get_value e2 (f := f), hsep, e4]
          intro k hk
          obtain ⟨v, t, a1, a2, a3⟩ := e3 k hk
          refine ⟨v, t, a1, a2, ?_⟩
          have : ((Options.new csv m).stripQuotes = true) ↔ isGiven m (lit% "strip-quotes") := isGiven_iff m _
          simp only [this]
          exact a3
      · unfold Result at h2
        simp only [Commands.new]
        cases hm : m.get? (lit% "has-value") with
        | none => rw [hm] at h2; simp only at h2; simp [h2]
        | some arg =>
          rw [hm] at h2
          obtain ⟨ks, s, e1, e2, ⟨ts, fs, e3, e4, e5, e6, e7, e8⟩, rfl⟩ := h2
          simp only [Option.map_some, e1, Option.toList_some, List.map_cons, List.map_nil]
          rw [C49_has_value e2 (htv.trans e3) (hfv.trans e4) e5 e6 e7, hsep, e8]
          rfl
    · unfold Result at h3
      simp only [Commands.new]
      cases hm : m.get? (lit% "get-children") with
      | none => rw [hm] at h3; simp only at h3; simp [h3]
      | some arg =>
        rw [hm] at h3
        obtain ⟨ks, s, e1, e2, ⟨f, e3, e4⟩, rfl⟩ := h3
        simp only [Option.map_some, e1, Option.toList_some, List.map_cons, List.map_nil]
        rw [C49_get_children e2 (f := f), hsep, e4]
        intro k hk
        refine (e3 k hk).imp ?_ id
        rintro ⟨l, a1, a2⟩
        refine ⟨l, a1, ?_⟩
        have : ((Options.new csv m).arrLen = true) ↔ isGiven m (lit% "array-length") := isGiven_iff m _
        simp only [this]
        rw [a2, ← given_eq, ← given_eq, ← given_eq]
        rfl
  · unfold Result at h4
    have hn : ∀ z : Nat → Out CmdRes, z (match (Commands.new csv m).hasValue with | some (some l) => l.length | _ => 0) = z (asked csv m) := by
      intro z
      simp only [Commands.new, asked]
      cases m.get? (lit% "has-value") with
      | none => rfl
      | some arg =>
        simp only [Option.map_some]
        cases csv arg <;> rfl
    have hn' : ∀ ks, hasChildren (Options.new csv m) ks (match (Commands.new csv m).hasValue with | some (some l) => l.length | _ => 0) doc =
        hasChildren (Options.new csv m) ks (asked csv m) doc := fun ks => hn fun n => hasChildren (Options.new csv m) ks n doc
    refine (List.map_congr_left fun ks _ => hn' ks).trans ?_
    simp only [Commands.new]
    cases hm : m.get? (lit% "has-children") with
    | none => rw [hm] at h4; simp only at h4; simp [h4]
    | some arg =>
      rw [hm] at h4
      obtain ⟨ks, s, e1, e2, ⟨ts, fs, e3, e4, e5, e6, e8⟩, rfl⟩ := h4
      simp only [Option.map_some, e1, Option.toList_some, List.map_cons, List.map_nil]
      rw [C49_has_children e2 _ (htv.trans e3) (hfv.trans e4) e5 e6, hsep, e8]

theorem collect_oks (out : List Str) : collect (out.map fun s => .ok (.ok s)) = .ok (out.map .ok) := by
  induction out with
  | nil => rfl
  | cons s out ih => rw [List.map_cons, collect, ih]; rfl

/-- The document at the end of the output. -/
def lineOf : Option Str → Str
  | some s => s ++ lit% "\n"
  | none => []

/-- What one file worked on prints, and the exit status. -/
theorem main_one {csv : Str → Option (List Str)} {m : Matches} {stdin texts : List Str} {fs : FS} {path : Str} {d : Option Str} {r : Run}
    (hh : ¬ isGiven m (lit% "help")) (hi : m.get? (lit% "input-file") = some path) (hr : processDocument (Options.new csv m) (Commands.new csv m) path fs = r)
    (hl : r.last = .finished (texts.map .ok) d) (hne : texts ≠ []) :
    let b := main csv m stdin fs
    textOf (b.output (Options.new csv m) m) = some ((sep m).intercalate texts ++ lit% "\n" ++ lineOf d) ∧
    b.states = r.states ++ [r.final fs] ∧ b.status = 0 := by
  intro b
  have hb : b = ⟨r.states ++ [r.final fs], [(path, .finished (texts.map .ok) d)]⟩ := by
    show main csv m stdin fs = _
    unfold main
    have h1 : m.contains (lit% "help") = false := by rw [← Bool.not_eq_true, isGiven_iff]; exact hh
    rw [h1, hi]
    simp [batch, hr, hl, Run.final]
  rw [hb]
  refine ⟨?_, rfl, rfl⟩
  have := C54_printed (o := Options.new csv m) rfl m path (texts := texts) hne d
  rw [show (Options.new csv m).separator = sep m from given_eq m _ _] at this
  cases d <;> simpa [Batch.output, lineOf] using this

end Tomllib.Cli
