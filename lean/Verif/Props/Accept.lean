import Verif.Lemmas.Accept
import Verif.Lemmas.Walk
import Verif.Lemmas.Witness
import Verif.Lemmas.ForTables
import Verif.Props.Read
/-!
# Which documents are accepted, arrays of tables included: C58

Spec/Tables.lean says which lines are in order (`Sections.fits`), Spec/Accept.lean which lines are either in order or refused (`Sections.regular`).
-/

namespace Tomllib

/-- C58. A document whose lines are taken (any text that is read to the end, C70) is accepted without an error exactly if all its lines are in order. -/
theorem C58_accepted_iff {ls : List (Str × ET)} (h : DocTaken ls) (hr : Sections.Regular {} ls) :
    (∃ p, Parser.new.parse (linesText ls) = .ok (p, .full)) ↔ Sections.Fits {} ls := by
  constructor
  · rintro ⟨p, hp⟩
    rw [parse_fwd h] at hp
    obtain ⟨⟨st, es⟩, e, hp⟩ := Out.bind_ok.mp hp
    refine Sections.Sim.all_clean ls Sections.Sim.new h.wf.lines hr e ?_
    simp at hp
    exact hp.2
  · intro hf
    obtain ⟨st, es, e, hs⟩ := Sections.Fits.linesEff h.wf hf
    have hp := parse_fwd h
    rw [e] at hp
    simp only [Out.bind, hs.errs, ne_eq, not_true, if_false] at hp
    exact ⟨_, hp⟩

/-- The header `[fruit]` after the arrays of tables `fruit` and `fruit.kind`. -/
def orchardAgain : Str × ET := (lit% "\n", .table [] (.std ⟨[⟨⟨[], []⟩, lit% "fruit"⟩]⟩) [] none)

example : Sections.Regular {} orchard ∧ Sections.Fits {} orchard ∧ Sections.Regular {} (orchard ++ [orchardAgain]) ∧ ¬ Sections.Fits {} (orchard ++ [orchardAgain]) := by decide +kernel

theorem orchardAgain_strict : DocStrict (orchard ++ [orchardAgain]) := by
  obtain ⟨h1, h2, h3⟩ := orchard_strict
  refine ⟨h1, h2, fun l hl => ?_⟩
  rcases List.mem_append.mp hl with hl | hl
  · exact h3 l hl
  · have hk : KeyWf (lit% "fruit") := .inl ⟨by simp, by decide⟩
    rw [List.mem_singleton.mp hl]
    simp [orchardAgain, ET.strict, TableType.strict, TableType.table, CommentWf, WSSep.wf, Blank, hk]

/-- The same document with one line more is refused. -/
example : ¬ ∃ p, Parser.new.parse (linesText (orchard ++ [orchardAgain])) = .ok (p, .full) := by
  rw [C58_accepted_iff orchardAgain_strict.taken (by decide +kernel)]
  decide +kernel

/-- C58, on any text that is read to its end. -/
theorem C58_any_text {i : Str} {p : Parser} {r : ParseResult} (h : Parser.new.parse i = .ok (p, r)) (hl : p.leftover = []) :
    ∃ ls, DocWf ls ∧ i = linesText ls ∧ (Sections.Regular {} ls → (r = .full ↔ Sections.Fits {} ls)) := by
  obtain ⟨ls, px, st1, hP⟩ := parse_parsed h
  obtain ⟨-, h1, h2⟩ := hP.full hl
  refine ⟨ls, hP.wf, h2, fun hr => ⟨fun hf => ?_, fun hf => ?_⟩⟩
  · have e' := hP.eff
    rw [show Parser.new.st = PState.new from rfl] at e'
    refine Sections.Sim.all_clean ls Sections.Sim.new hP.wf.lines hr e' ?_
    have := hP.res
    rw [hf, resultOf] at this
    rw [h1]
    simp [hl, Parser.new] at this
    exact this
  · obtain ⟨st, es, e, hs⟩ := Sections.Fits.linesEff hP.wf hf
    have e' := hP.eff
    rw [show Parser.new.st = PState.new from rfl, e] at e'
    cases e'
    rw [h1] at hs
    rw [hP.res, resultOf]
    simp [hl, hs.errs, Parser.new]

/-- C58, where the first error is. If the lines before a line are in order and that line is regular but not in order, then whatever follows, the first error
reported is one that such a line can cause, and its line number is that of one of the lines that the line occupies. -/
theorem C58_first_error {pre post : List (Str × ET)} {l : Str × ET} (h : DocTaken (pre ++ l :: post)) (hf : Sections.Fits {} pre)
    (hr : (Sections.read pre).regular l.2) (hn : ¬ (Sections.read pre).fits l.2) {p : Parser} {r : ParseResult}
    (hp : Parser.new.parse (linesText (pre ++ l :: post)) = .ok (p, r)) :
    ∃ e es, r.errs = e :: es ∧ l.2.mayCause e ∧ 1 + linesCounted pre + nlCount l.1 ≤ e.line ∧ e.line ≤ 1 + linesCounted pre + nlCount l.1 + l.2.counted := by
  rw [parse_fwd h] at hp
  obtain ⟨⟨st, ns⟩, e, hp⟩ := Out.bind_ok.mp hp
  have hre : r.errs = st.errors := by
    simp at hp; rw [← hp.2]; split <;> simp_all [ParseResult.errs]
  have hw := h.wf.lines
  obtain ⟨s1, e1, e2, g1, g2⟩ := linesEff_split e
  obtain ⟨s1', e1', g1', hS⟩ := Sections.Sim.all pre Sections.Sim.new (fun l hl => hw l (by simp [hl])) hf
  rw [g1] at g1'
  cases g1'
  rw [linesEff] at g2
  obtain ⟨sa, k1, g2⟩ := Out.bind_ok.mp g2
  obtain ⟨⟨sb, nb⟩, k2, g2⟩ := Out.bind_ok.mp g2
  simp at g2
  obtain ⟨rfl, _⟩ := g2
  have hne : sa.errors ≠ [] := fun h0 => hn (Sections.Sim.line_clean (hS.lines (nlCount l.1)) (hw l (by simp)) hr k1 h0)
  obtain ⟨⟨l1, a1, a2⟩, -⟩ := ET.eff_adds k1
  obtain ⟨⟨l2, b1, b2⟩, -⟩ := linesEff_adds k2
  have hl1 := linesEff_line g1
  have hl2 := ET.eff_line k1
  have hz : (s1.lines (nlCount l.1)).errors = [] := hS.errs
  rw [hz, List.map_nil, List.nil_append] at a1
  cases hes : sb.errors with
  | nil =>
    rw [hes] at b1
    simp at b1
    exact absurd b1.1 hne
  | cons x xs =>
    cases l1 with
    | nil => simp at a1; exact absurd a1 hne
    | cons y ys =>
      rw [a1, hes] at b1
      simp only [List.map_cons, List.cons_append, List.cons.injEq] at b1
      obtain ⟨c1, c2, c3⟩ := a2 y (by simp)
      rw [← b1.1] at c1 c2 c3
      refine ⟨x, xs, by rw [hre, hes], ?_, ?_⟩
      · cases hl : l.2 <;> rw [hl] at c1 <;> cases x <;> simpa [ET.mayCause, ParseError.lessPairs, ParseError.table?] using c1
      · have hx : x.lessPairs.line = x.line := by cases x <;> rfl
        rw [hx] at c2 c3
        simp only [PState.lines, PState.new] at *
        omega

example : (Sections.read orchard).regular orchardAgain.2 ∧ ¬ (Sections.read orchard).fits orchardAgain.2 ∧ linesText (orchard ++ [orchardAgain]) =
      lit% "n=1\n[[fruit]]\nn=2\n[fruit.p.q]\nc=3\n[[fruit.kind]]\n[[fruit.kind]]\nn=4\n[[fruit]]\n[[fruit.kind]]\nn=5\n[fruit]" ∧
    1 + linesCounted orchard + nlCount orchardAgain.1 = 12 ∧ orchardAgain.2.counted = 0 ∧
    (Parser.new.parse (linesText (orchard ++ [orchardAgain]))).map' (·.2) = .ok (.fullError [.invalidTable (lit% "fruit[1].fruit") 12 0 []]) := by decide +kernel

/-! ### Lines that are not in order and not refused -/

/-- C58: a table has the name of the array of tables that has just been opened. -/
theorem C58_table_after_array : (Parser.new.parse (lit% "[[a]]\nx = 1\n[a]\ny = 2")).map' (·.2) = .ok .full := by decide +kernel

/-- C58: an array of tables inside of an inline table. -/
theorem C58_inline_extended : (Parser.new.parse (lit% "a = {b = {x = 1}}\n[[a.b.c]]\ny = 2")).map' (·.2) = .ok .full := by decide +kernel

/-- C58: an array of tables with the name of a value is not reported: `parse` panics. -/
theorem C58_value_panics : Parser.new.parse (lit% "a = 1\n[[a]]") = .panic .underflow ∧ Parser.new.parse (lit% "a = 1\n[[a.b]]") = .panic .implicitStd := by
  decide +kernel

end Tomllib
