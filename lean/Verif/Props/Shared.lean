import Verif.Lemmas.Shared
import Verif.Lemmas.Witness
/-!
# C63: results that are kept
-/

namespace Tomllib

/-- The results that show a list of errors. -/
def Held.Lists (h : Held) : Prop := h = .fullError ∨ ∃ s l c, h = .partialError s l c

theorem Held.Lists.iff {h : Held} : h.Lists ↔ h.hasList = true := by
  constructor
  · rintro (rfl | ⟨s, l, c, rfl⟩) <;> rfl
  · intro e
    cases h <;> simp [Held.hasList] at e
    · exact .inl rfl
    · exact .inr ⟨_, _, _, rfl⟩

/-- C63. A result is what `parse` says it is at the moment it returns. -/
theorem C63_when_returned {p p' : Parser} {text : Str} {r : ParseResult} (h : p.parse text = .ok (p', r)) : r.held.look p' = r :=
  (parse_adds h).2

/-- C63. Later, after any further reading and assigning, an earlier result is of the same kind, with the same leftover, line and column. Its list of errors has what it
had (but for the pairs of an `InvalidTable` error), and behind it everything that was reported since, on the same lines or later ones. All results that have a list
show the same one. -/
theorem C63_later {g g' : Program} {cs cs' : List Call} (hc : ∀ c ∈ cs, c.leavesErrors) (hc' : ∀ c ∈ cs', c.leavesErrors)
    (hg : Program.start.run cs = .ok g) (hg' : g.run cs' = .ok g') {n : Nat} {h : Held} (hh : g.held[n]? = some h) :
    g'.held[n]? = some h ∧ (h.look g'.parser).held = h ∧
    (∃ new, (h.look g'.parser).errs.map ParseError.lessPairs = (h.look g.parser).errs.map ParseError.lessPairs ++ new ∧
      ∀ e ∈ (h.look g.parser).errs, ∀ e' ∈ new, e.line ≤ e'.line) ∧
    ∀ (m : Nat) (h' : Held), g'.held[m]? = some h' → h.Lists → h'.Lists → (h'.look g'.parser).errs = (h.look g'.parser).errs := by
  obtain ⟨_, _, hr⟩ := Program.run_adds hc hg
  obtain ⟨⟨⟨l, h1, h2⟩, _⟩, ⟨more, h3⟩, _⟩ := Program.run_adds hc' hg'
  have hI := (hr .new).inv.inv
  refine ⟨?_, ?_, ?_, ?_⟩
  · rw [h3, List.getElem?_append_left (List.getElem?_eq_some_iff.mp hh).1]; exact hh
  · cases h <;> rfl
  · have : ∀ x : Parser, (h.look x).errs = if h.hasList then x.st.errors else [] := by intro x; cases h <;> rfl
    rw [this, this]
    cases h.hasList with
    | false => exact ⟨[], by simp, by simp⟩
    | true => exact ⟨l, h1, fun e he e' he' => Nat.le_trans (hI.lines e he).2 (h2 e' he').2.1⟩
  · intro m h' _ h4 h5
    rw [Held.Lists.iff] at h4 h5
    cases h <;> cases h' <;> first | rfl | simp [Held.hasList] at h4 h5

/-- The calls `a` and then `b` do not panic, and `Q` holds between them. -/
def ranOn (a b : List Call) (Q : Program → Prop) [DecidablePred Q] : Bool :=
  match Program.start.run a with
  | .ok g => match g.run b with
    | .ok _ => decide (Q g)
    | _ => false
  | _ => false

/-- The hypotheses are met: two texts, then an assignment and a third text. -/
example : ∃ g g', Program.start.run [.parse (lit% "a = 1\na = 2"), .parse (lit% "b = 1")] = .ok g ∧
    g.run [.set (lit% "b") (.int (lit% "7")), .parse (lit% "a = 3")] = .ok g' ∧ g.held[0]? = some .fullError := by
  have h : ∀ a b, ranOn a b (fun g => g.held[0]? = some .fullError) = true → ∃ g g', Program.start.run a = .ok g ∧ g.run b = .ok g' ∧ g.held[0]? = some .fullError := by
    intro a b hh
    unfold ranOn at hh
    split at hh
    · split at hh
      · exact ⟨_, _, by assumption, by assumption, of_decide_eq_true hh⟩
      · simp at hh
    · simp at hh
  exact h _ _ (by decide +kernel)

/-- What a program sees in the end when it looks at all the results it holds. -/
def Program.seen (cs : List Call) : Out (List ParseResult) := do
  let g ← Program.start.run cs
  .ok (g.held.map (·.look g.parser))

/-- C63. So the wish that a result stays as it was returned is false: it shows the errors of a text that was read later. -/
theorem C63_wish_fails :
    Program.seen [.parse (lit% "a = 1\na = 2")] = .ok [.fullError [.duplicateKey (lit% "a") 2 0 (.int (lit% "2"))]] ∧
    Program.seen [.parse (lit% "a = 1\na = 2"), .parse (lit% "a = 3")] =
      .ok [.fullError [.duplicateKey (lit% "a") 2 0 (.int (lit% "2")), .duplicateKey (lit% "a") 2 0 (.int (lit% "3"))],
        .fullError [.duplicateKey (lit% "a") 2 0 (.int (lit% "2")), .duplicateKey (lit% "a") 2 0 (.int (lit% "3"))]] := by
  decide +kernel

/-- C63. A program that empties the list through a result it holds, and then reads a text without a panic, sees in all its results only what this text
reported: errors on no earlier line than any error it saw before. -/
theorem C63_emptied {g g1 g2 : Program} {cs : List Call} (hc : ∀ c ∈ cs, c.leavesErrors) (hg : Program.start.run cs = .ok g) {h : Held} (hh : h ∈ g.held)
    (hL : h.Lists) (h1 : g.step (.errors fun _ => []) = .ok g1) {text : Str} (h2 : g1.step (.parse text) = .ok g2) :
    (h.look g1.parser).errs = [] ∧
    ∀ h' ∈ g2.held, ∀ e' ∈ (h'.look g2.parser).errs, ∀ e ∈ (h.look g.parser).errs, e.line ≤ e'.line := by
  obtain ⟨_, _, hr⟩ := Program.run_adds hc hg
  have hI := (hr .new).inv.inv
  have hl := Held.Lists.iff.mp hL
  have hany : g.held.any Held.hasList = true := List.any_eq_true.mpr ⟨h, hh, hl⟩
  simp only [Program.step, hany, if_true, Out.ok.injEq] at h1
  subst h1
  obtain ⟨⟨⟨l, h3, h4⟩, _⟩, _, _⟩ := Program.step_adds (c := .parse text) trivial h2
  have hlook : ∀ (k : Held) (x : Parser), ∀ e ∈ (k.look x).errs, e ∈ x.st.errors := by
    intro k x e he
    cases k <;> simp [Held.look, ParseResult.errs] at he <;> exact he
  refine ⟨by cases h <;> first | rfl | simp [Held.hasList] at hl, ?_⟩
  intro h' _ e' he' e he
  have h5 := List.mem_map_of_mem (f := ParseError.lessPairs) (hlook _ _ _ he')
  rw [h3] at h5
  simp at h5
  have h6 := (h4 _ h5).2.1
  rw [show e'.lessPairs.line = e'.line by cases e' <;> rfl] at h6
  exact Nat.le_trans (hI.lines e (hlook _ _ _ he)).2 h6

/-- C63. The hypotheses are met: the duplicate `a = 3`. -/
example : Program.seen [.parse (lit% "a = 1\na = 2"), .errors (fun _ => []), .parse (lit% "a = 3")] =
    .ok [.fullError [.duplicateKey (lit% "a") 2 0 (.int (lit% "3"))], .fullError [.duplicateKey (lit% "a") 2 0 (.int (lit% "3"))]] := by
  decide +kernel

/-- C63. But emptying the list is not safe: after a bad header, the next pair is put into the last error of the list, and there is none. -/
theorem C63_emptied_panics :
    Program.seen [.parse (lit% "[a]\n[a]"), .errors (fun _ => []), .parse (lit% "x = 1")] = .panic .unwrapNone := by
  decide +kernel

end Tomllib
