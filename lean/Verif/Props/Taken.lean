import Verif.Props.Read
import Verif.Lemmas.TakenBack
import Verif.Lemmas.TakenOne
import Verif.Lemmas.Stop
/-!
# C70: which texts are read to the end

`C70_taken` and `C70_meaning` (every text of lines that are taken is read to the end, and what it means) stand in Props/Read.lean.
-/

namespace Tomllib

/-- C70. A text that is read to the end, by a parser in whatever state, is the text of lines that are taken. -/
theorem C70_read {p p' : Parser} {i : Str} {r : ParseResult} (h : p.parse i = .ok (p', r)) (hr : r.whole) : ∃ ls, DocTaken ls ∧ i = linesText ls := by
  obtain ⟨ht, he⟩ := toml_of_parse h
  have hl : p'.leftover = [] := by
    by_cases hl : p'.leftover = []
    · exact hl
    · rw [resultOf, if_pos hl] at he
      rcases hr with hr | ⟨es, hr⟩ <;> rw [hr] at he <;> split at he <;> simp at he
  rw [hl] at ht
  exact toml_back ht

/-- C70. Unless it makes the parser panic, a text is read to the end exactly when it is the text of lines that are taken. -/
theorem C70_iff {i : Str} {p : Parser} {r : ParseResult} (h : Parser.new.parse i = .ok (p, r)) : r.whole ↔ ∃ ls, DocTaken ls ∧ i = linesText ls := by
  refine ⟨C70_read h, ?_⟩
  rintro ⟨ls, hl, rfl⟩
  rcases C70_taken hl with ⟨p', r', h1, h2, _⟩ | ⟨x, hx⟩
  · rw [h] at h1; simp at h1; rw [h1.2]; exact h2
  · rw [h] at hx; simp at hx

/-- C70. There are no two ways to take a text, so a text has one meaning. -/
theorem C70_unique {ls ls' : List (Str × ET)} (h : DocTaken ls) (h' : DocTaken ls') (e : linesText ls = linesText ls') : ls = ls' := h.one h' e

/-- C70. In a text that is read to the end without a panic, without `[[` headers and with headers in order, every key stands for the first of its entries, whatever
the text looks like. -/
theorem C70_read_means {i : Str} {p : Parser} {r : ParseResult} (h : Parser.new.parse i = .ok (p, r)) (hr : r.whole) :
    ∃ ls, DocTaken ls ∧ i = linesText ls ∧ (hasArrayTable ls = false → HeadersOk [] [] ls → ∀ k, p.getValue k = readEntry (lookup k (docEntries [] ls))) := by
  obtain ⟨ls, h1, rfl⟩ := C70_read h hr
  refine ⟨ls, h1, rfl, fun h2 h3 => ?_⟩
  obtain ⟨p', r', g1, _, g2, _⟩ := C70_meaning h1 h2 h3
  rw [h] at g1; simp at g1; rw [g1.1]; exact g2

/-- Texts that are not properly written and are read to the end: elements that are not set apart, strings that stop at the first closing quotes, digits that are
separate numbers. -/
example : (∃ p, Parser.new.parse (lit% "a = [01]") = .ok (p, .full) ∧ p.getValue (lit% "a") = .ok (some (.arr [.int (lit% "0"), .int (lit% "1")]))) ∧
    (∃ p, Parser.new.parse (lit% "a = [\"x\"\"y\"]") = .ok (p, .full) ∧ p.getValue (lit% "a") = .ok (some (.arr [.str (lit% "x") .basic, .str (lit% "y") .basic]))) ∧
    (∃ p, Parser.new.parse (lit% "a = {b = 1c = 2}") = .ok (p, .full) ∧ p.getValue (lit% "a.c") = .ok (some (.int (lit% "2")))) ∧
    ∃ p, Parser.new.parse (lit% "a = [truefalse]") = .ok (p, .full) ∧ p.getValue (lit% "a") = .ok (some (.arr [.bool true, .bool false])) := by
  refine ⟨Out.wit (by decide +kernel), Out.wit (by decide +kernel), Out.wit (by decide +kernel), Out.wit (by decide +kernel)⟩

/-- A number is taken as long as it can be, and then nothing fits: `1e` is a `1`, and `1e5x` a float before something else. -/
example : (∃ p, Parser.new.parse (lit% "a = 1e") = .ok (p, .partialRes [] 1 0) ∧ p.getValue (lit% "a") = .ok (some (.int (lit% "1")))) ∧
    ∃ p, Parser.new.parse (lit% "a = 1e5x") = .ok (p, .partialRes [] 1 0) ∧ p.getValue (lit% "a") = .ok (some (.float (lit% "1e5"))) := by
  refine ⟨Out.wit (by decide +kernel), Out.wit (by decide +kernel)⟩

end Tomllib
