import Verif.Lemmas.TakenStop
import Verif.Lemmas.Witness
/-!
# C62: where reading stops, what stands before is answered for
-/

namespace Tomllib

/-- C62. However a text is read that makes no panic: it consists of lines that are taken (Spec/Taken.lean, Spec/Stop.lean) and of something that could not be read
(the `leftover`). The lines are printed and nothing else, and alone they are read to the end. -/
theorem C62_stops {i : Str} {p : Parser} {r : ParseResult} (hp : Parser.new.parse i = .ok (p, r)) :
    ∃ ls, DocUpTo ls p.leftover ∧ DocTaken ls ∧ i = linesText ls ++ p.leftover ∧ p.display = textOr (hasEmptyTable ls) (linesText ls) ∧
      ∃ p0 r0, Parser.new.parse (linesText ls) = .ok (p0, r0) ∧ r0.whole ∧ p0.display = p.display := by
  obtain ⟨ls, p0, r0, px, r', h1', h2, h3, h4, h5, h6, h7, h8, h9, h10, h11, h12, h13, h14, h15⟩ := parse_stop hp
  have h1 := h1'.taken
  refine ⟨ls, h1', h1, h2, h15, p0, r0, h3, ?_, ((h1.parsed h3).1.display h13).trans h15.symm⟩
  rw [h10]
  unfold resultOf
  rw [if_neg (by simp)]
  split
  · exact .inr ⟨_, rfl⟩
  · exact .inl rfl

/-- C62. Reading goes as far as it can: there are no lines at the beginning of the text that are taken, in view of what follows them, and reach further. This holds for a
parser in whatever state. -/
theorem C62_longest {q p : Parser} {i : Str} {r : ParseResult} (hp : q.parse i = .ok (p, r)) {ls : List (Str × ET)} {rest : Str} (hl : DocUpTo ls rest)
    (hi : i = linesText ls ++ rest) : p.leftover <:+ rest := by
  obtain ⟨ht, _⟩ := toml_of_parse hp
  rw [hi] at ht
  exact toml_least hl ht

/-- There are such lines, before something that is not read. -/
example : ∃ ls, DocUpTo ls (lit% "c = ?\nd = 4") ∧ lit% "b = 1\nb = 2\n  c = ?\nd = 4" = linesText ls ++ lit% "c = ?\nd = 4" := by
  have : ∃ p, Parser.new.parse (lit% "b = 1\nb = 2\n  c = ?\nd = 4") = .ok (p, .partialError [] 3 0 [.duplicateKey (lit% "b") 2 0 (.int (lit% "2"))]) ∧
      p.leftover = lit% "c = ?\nd = 4" := by decide +kernel
  obtain ⟨p, hp, e⟩ := this
  obtain ⟨ls, h1, _, h2, _⟩ := C62_stops hp
  rw [e] at h1 h2
  exact ⟨ls, h1, h2⟩

/-- In view of what follows: `a = ['''']` is read to the end, as an array of two empty strings, but not before a line with three quotes, which are taken to close a
string that begins in the array. -/
example : (∃ p, Parser.new.parse (lit% "a = ['''']") = .ok (p, .full) ∧ p.getValue (lit% "a") = .ok (some (.arr [.str [] .literal, .str [] .literal]))) ∧
    ∃ p, Parser.new.parse (lit% "a = ['''']\nb = ''''''") = .ok (p, .partialRes [] 2 0) ∧ p.leftover = lit% "a = ['''']\nb = ''''''" := by
  refine ⟨by decide +kernel, by decide +kernel⟩

/-- C62. Unless what could not be read begins with a key, an equals sign and an array or inline table, the parser cannot be told apart from one that read the lines
alone; it reports the same errors, and the line number it reports is that of the line on which it stopped. -/
theorem C62_as_if_alone {ls : List (Str × ET)} (hs : DocTaken ls) {i : Str} {p p0 : Parser} {r r0 : ParseResult} (hp : Parser.new.parse i = .ok (p, r))
    (hi : i = linesText ls ++ p.leftover) (h0 : Parser.new.parse (linesText ls) = .ok (p0, r0)) (hn : ¬ BeginsValue p.leftover) :
    SameAnswers p p0 ∧ r.errs = r0.errs ∧ (p.leftover ≠ [] → r.line? = some (1 + linesCounted ls)) := by
  obtain ⟨px, r', g1, g2, g3, g4, g5, g6, g7, g8, _, _⟩ := parse_stop_any' PInv.new hs hp hi h0
  obtain ⟨e1, e2, e3, e4⟩ := px.eff_clean g2 g5 g3 hn g4
  refine ⟨.of g1.symm e1 e2, by rw [g6, g7, resultOf_errs, resultOf_errs, e3], fun hb => ?_⟩
  rw [g7]
  unfold resultOf
  rw [if_pos hb]
  split <;> simp [ParseResult.line?, e4, g8, Parser.new, PState.new]

/-- C62. Whatever it is that could not be read, every key that had a value keeps it, names of children are only added after those there were and counts only grow, and
the errors reported for the lines come first. -/
theorem C62_before_is_kept {ls : List (Str × ET)} (hs : DocTaken ls) {i : Str} {p p0 : Parser} {r r0 : ParseResult} (hp : Parser.new.parse i = .ok (p, r))
    (hi : i = linesText ls ++ p.leftover) (h0 : Parser.new.parse (linesText ls) = .ok (p0, r0)) :
    (∀ k v, p0.getValue k = .ok (some v) → p.getValue k = .ok (some v)) ∧
    (∀ k c, p0.getChildren k = some c → ∃ c', p.getChildren k = some c' ∧ c.grown c') ∧
    ∃ new, r.errs.map ParseError.lessPairs = r0.errs.map ParseError.lessPairs ++ new ∧ ∀ e ∈ new, e.table? = none ∧ 1 + linesCounted ls ≤ e.line := by
  obtain ⟨px, r', g1, g2, g3, g4, g5, g6, g7, g8, hP0, hP⟩ := parse_stop_any' PInv.new hs hp hi h0
  obtain ⟨k1, ⟨new, k2, k3⟩, k4⟩ := px.eff_kept g5 g4
  obtain ⟨l, hl⟩ := PX.eff_heap g4
  refine ⟨fun k v h => k1.getValue hP0 hP hl h, fun k c h => k1.getChildren h, new, ?_, fun e he => ?_⟩
  · rw [g6, g7, resultOf_errs, resultOf_errs, k2]
  · have := k3 e he
    exact ⟨this.1, by have : Parser.new.st.lineCount = 1 := rfl; omega⟩

/-- Three lines, the last of them blank. -/
private def exLines : List (Str × ET) :=
  [([], .kv [] (lit% "b") ⟨lit% " ", lit% " "⟩ (.leaf (.int (lit% "1"))) [] none),
   (lit% "\n", .kv [] (lit% "b") ⟨lit% " ", lit% " "⟩ (.leaf (.int (lit% "2"))) [] none),
   (lit% "\n", .blank (lit% "  "))]

/-- Reading stops in the third line, at a pair without a value; a key was given twice before. -/
example : DocTaken exLines ∧ ¬ BeginsValue (lit% "c = ?\nd = 4") ∧
    (∃ p, Parser.new.parse (linesText exLines) = .ok (p, .fullError [.duplicateKey (lit% "b") 2 0 (.int (lit% "2"))])) ∧
    ∃ p, Parser.new.parse (lit% "b = 1\nb = 2\n  c = ?\nd = 4") = .ok (p, .partialError [] 3 0 [.duplicateKey (lit% "b") 2 0 (.int (lit% "2"))]) ∧
      p.leftover = lit% "c = ?\nd = 4" ∧ lit% "b = 1\nb = 2\n  c = ?\nd = 4" = linesText exLines ++ p.leftover := by
  have it : ∀ i, Re.find Rx.integer i = some (i, []) → IntegerText i := fun i h => (lang_integer _).mp (Re.find_some h).2
  have i1 := it (lit% "1") (by decide +kernel)
  have i2 := it (lit% "2") (by decide +kernel)
  have kb : KeyWf (lit% "b") := .inl ⟨by simp, by decide⟩
  refine ⟨DocStrict.taken ?_, ?_, Out.wit' (by decide +kernel), by decide +kernel⟩
  · simp [exLines, DocStrict, LinesStrict, ET.strict, VT.strict, Scalar.strict, CommentWf, WSSep.wf, Blank, i1, i2, kb]
  · rintro ⟨k, w1, w2, c, t, _, _, _, e, hc⟩
    have : c ∈ lit% "c = ?\nd = 4" := by rw [e]; simp
    rcases hc with rfl | rfl <;> simp at this

/-- Reading stops in the middle of a line, after a header; and within a number. -/
example : (∃ p, Parser.new.parse (lit% "[t] x\ny = 1") = .ok (p, .partialRes [] 1 0) ∧ p.leftover = lit% "x\ny = 1" ∧ p.display = .ok (lit% "[t] ") ∧
      p.getChildren [] = some (.keys [lit% "t"])) ∧
    ∃ p, Parser.new.parse (lit% "a = 01\ny = 1") = .ok (p, .partialRes [] 1 0) ∧ p.leftover = lit% "1\ny = 1" ∧
      p.getValue (lit% "a") = .ok (some (.int (lit% "0"))) := by
  refine ⟨by decide +kernel, by decide +kernel⟩

/-- C62. All of this at any time, for a parser that has read other texts before and whose keys have been assigned to: `p0` is the parser that, instead of the whole
text, read just the lines. -/
theorem C62_any_time {q : Parser} (hq : Reachable q) {i : Str} {p : Parser} {r : ParseResult} (hp : q.parse i = .ok (p, r)) :
    ∃ ls, DocUpTo ls p.leftover ∧ DocTaken ls ∧ i = linesText ls ++ p.leftover ∧ p.display = textOr (hasEmptyTable ls) (linesText ls) ∧
      ∃ p0 r0, q.parse (linesText ls) = .ok (p0, r0) ∧ r0.whole ∧ p0.display = p.display ∧
        (¬ BeginsValue p.leftover → SameAnswers p p0 ∧ r.errs = r0.errs) ∧
        (∀ k v, p0.getValue k = .ok (some v) → p.getValue k = .ok (some v)) ∧
        (∀ k c, p0.getChildren k = some c → ∃ c', p.getChildren k = some c' ∧ c.grown c') ∧
        ∃ new, r.errs.map ParseError.lessPairs = r0.errs.map ParseError.lessPairs ++ new ∧ ∀ e ∈ new, e.table? = none := by
  obtain ⟨ls, p0, r0, px, r', h1, h2, h3, h4, h5, h6, h7, h8, h9, h10, h11, h12, hP0, hP, h15, h16⟩ := parse_stop_any hq.inv hp
  obtain ⟨k1, ⟨new, k2, k3⟩, k4⟩ := px.eff_kept h9 h8
  obtain ⟨l, hl⟩ := PX.eff_heap h8
  refine ⟨ls, h1, h1.taken, h2, h15, p0, r0, h3, ?_, h16, fun hn => ?_, fun k v h => k1.getValue hP0 hP hl h, fun k c h => k1.getChildren h, new, ?_,
    fun e he => (k3 e he).1⟩
  · rw [h10]
    unfold resultOf
    rw [if_neg (by simp)]
    split
    · exact .inr ⟨_, rfl⟩
    · exact .inl rfl
  · obtain ⟨e1, e2, e3, e4⟩ := px.eff_clean h6 h9 h7 hn h8
    exact ⟨.of h4.symm e1 e2, by rw [h10, h11, resultOf_errs, resultOf_errs, e3]⟩
  · rw [h10, h11, resultOf_errs, resultOf_errs, k2]

/-- A second text, after an assignment: it is read up to its second line; the pair before goes to the table the first text ended in. The result reports what the first
text left. -/
example : ¬ BeginsValue (lit% "? = 3") ∧ ∃ q, Parser.new.parse (lit% "[t]\na = 1\n?") = .ok (q, .partialRes [] 3 0) ∧
    ∃ q', q.setValue (lit% "t.a") (.int (lit% "7")) = .ok (q', true) ∧ ∃ p, q'.parse (lit% "b = 2\n? = 3") = .ok (p, .partialRes (lit% "?") 4 0) ∧
      p.leftover = lit% "? = 3" ∧ p.display = .ok (lit% "b = 2\n") ∧ p.getValue (lit% "t.b") = .ok (some (.int (lit% "2"))) ∧
      p.getValue (lit% "t.a") = .ok (some (.int (lit% "7"))) := by
  refine ⟨?_, by decide +kernel⟩
  rintro ⟨k, w1, w2, c, t, _, _, _, e, hc⟩
  have : c ∈ lit% "? = 3" := by rw [e]; simp
  rcases hc with rfl | rfl <;> simp at this

/-- C62. An array that is not closed: it is not printed and has no value, but its elements can be looked up; the children of another value of the same name
change. -/
theorem C62_unfinished_leaks :
    (∃ p, Parser.new.parse (lit% "b = 1\na = [1, 2") = .ok (p, .partialRes [] 2 0) ∧ p.display = .ok (lit% "b = 1\n") ∧ p.getValue (lit% "a") = .ok none ∧
      p.getChildren [] = some (.keys [lit% "b"]) ∧ p.getValue (lit% "a[1]") = .ok (some (.int (lit% "2")))) ∧
    ∃ p, Parser.new.parse (lit% "a = [9]\na = [1, 2") = .ok (p, .partialError [] 2 0 [.duplicateKey (lit% "a[0]") 2 0 (.int (lit% "1"))]) ∧
      p.display = .ok (lit% "a = [9]\n") ∧ p.getValue (lit% "a") = .ok (some (.arr [.int (lit% "9")])) ∧ p.getChildren (lit% "a") = some (.count 2) ∧
      p.getValue (lit% "a[1]") = .ok (some (.int (lit% "2"))) := by
  refine ⟨by decide +kernel, by decide +kernel⟩

end Tomllib
