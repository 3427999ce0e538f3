import Verif.Lemmas.Grow
import Verif.Lemmas.Witness
import Verif.Props.Report
/-!
# C66: reading on changes nothing that is there
-/

namespace Tomllib

/-- C66. After any history of reading and assigning, one more text is read, in which no line begins with `[[`. However faulty it is, and wherever reading stops, every key
that had a value has the same value afterwards. -/
theorem C66_values_stay {p p' : Parser} {i : Str} {r : ParseResult} (hr : Reachable p) (hi : ¬ HasArrayHeaderLine i) (h : p.parse i = .ok (p', r)) {k : Str} {v : Value}
    (hv : p.getValue k = .ok (some v)) : p'.getValue k = .ok (some v) := parse_stay hr hi h hv

/-- There are no two opening brackets in a row. -/
def noArrays : Str → Bool
  | [] => true
  | '[' :: '[' :: _ => false
  | _ :: s => noArrays s

theorem noArrays_spec : ∀ {s : Str}, noArrays s = true → ∀ a b, s ≠ a ++ lit% "[[" ++ b
  | [], _, a, b, e => by simp at e
  | c :: s, h, [], b, e => by
    simp at e
    obtain ⟨rfl, rfl⟩ := e
    simp [noArrays] at h
  | c :: s, h, x :: a, b, e => by
    simp only [List.cons_append, List.cons.injEq] at e
    have hs : noArrays s = true := by
      unfold noArrays at h
      split at h
      next e => simp at e
      · simp at h
      next e1 => simp at e1; rw [e1.2]; exact h
    exact noArrays_spec hs a b (by simpa using e.2)

/-- The hypotheses are met: an array of tables has been read and a value assigned; then come a duplicate key, a header that is there already, a new table, and something that
cannot be read. -/
example : ∃ p p1 p2 r, Parser.new.parse (lit% "[[a]]\nx = 1\n[b]\ny = [1, 2]") = .ok (p, .full) ∧ p.setValue (lit% "a[0].x") (.int (lit% "5")) = .ok (p1, true) ∧
    Reachable p1 ∧ p1.parse (lit% "y = 3\n[b]\ny = 4\n[c.d]\ny = 2\n?") = .ok (p2, r) ∧ ¬ HasArrayHeaderLine (lit% "y = 3\n[b]\ny = 4\n[c.d]\ny = 2\n?") ∧ r.errs.length = 2 ∧
    p1.getValue (lit% "a[0].x") = .ok (some (.int (lit% "5"))) ∧ p2.getValue (lit% "a[0].x") = .ok (some (.int (lit% "5"))) ∧
    p2.getValue (lit% "b.y[1]") = .ok (some (.int (lit% "2"))) := by
  have h : ∃ p, Parser.new.parse (lit% "[[a]]\nx = 1\n[b]\ny = [1, 2]") = .ok (p, .full) ∧ ∃ p1, p.setValue (lit% "a[0].x") (.int (lit% "5")) = .ok (p1, true) ∧
    ∃ p2, p1.parse (lit% "y = 3\n[b]\ny = 4\n[c.d]\ny = 2\n?") = .ok (p2, .partialError [] 9 0
      [.duplicateKey (lit% "b.y") 4 0 (.int (lit% "3")), .invalidTable (lit% "b") 5 0 [(lit% "y", .int (lit% "4"))]]) ∧
    p1.getValue (lit% "a[0].x") = .ok (some (.int (lit% "5"))) ∧ p2.getValue (lit% "a[0].x") = .ok (some (.int (lit% "5"))) ∧
    p2.getValue (lit% "b.y[1]") = .ok (some (.int (lit% "2"))) := by decide +kernel
  obtain ⟨p, h1, p1, h2, p2, h3, h4, h5, h6⟩ := h
  refine ⟨p, p1, p2, _, h1, h2, (Reachable.new.parse h1).set h2, h3, ?_, rfl, h4, h5, h6⟩
  rintro ⟨a, w, b, e, _⟩
  exact noArrays_spec (s := lit% "y = 3\n[b]\ny = 4\n[c.d]\ny = 2\n?") (by decide) (a ++ w) b e

/-- C66, for one document: lines are added at the end of a text that is read to the end (C70), none of them the header of an array of tables. -/
theorem C66_lines_added {ls more : List (Str × ET)} (h : DocTaken ls) (h' : DocTaken (ls ++ more)) (hm : hasArrayTable more = false) {p p' : Parser}
    {r r' : ParseResult} (hp : Parser.new.parse (linesText ls) = .ok (p, r)) (hp' : Parser.new.parse (linesText (ls ++ more)) = .ok (p', r')) {k : Str} {v : Value}
    (hv : p.getValue k = .ok (some v)) : p'.getValue k = .ok (some v) := by
  refine plain_grows h h' (fun l hl => ?_) hp hp' hv
  have := List.any_eq_false.mp hm l hl
  obtain ⟨nl, e⟩ := l
  cases e with
  | table w1 t w2 c =>
    cases t with
    | std => trivial
    | arr => simp at this
  | _ => trivial

/-- C66, with arrays of tables: in a text that is read to the end (C70) and whose only faults are those of Spec/Report.lean, the lines at the end change no value, names of children
are only added after those there were, and counts only grow. -/
theorem C66_in_order {ls more : List (Str × ET)} (h : DocTaken ls) (h' : DocTaken (ls ++ more)) (ha : ({} : Account).Allows 1 (ls ++ more)) {p p' : Parser}
    {r r' : ParseResult} (hp : Parser.new.parse (linesText ls) = .ok (p, r)) (hp' : Parser.new.parse (linesText (ls ++ more)) = .ok (p', r')) :
    (∀ k v, p.getValue k = .ok (some v) → p'.getValue k = .ok (some v)) ∧
    ∀ k c, p.getChildren k = some c → ∃ c', p'.getChildren k = some c' ∧ c.grown c' := allows_grows h h' ha hp hp'

/-- The hypotheses are met by a document with every kind of fault, after any number of its lines. -/
example (n : Nat) : DocStrict (faulty.take (n + 1)) ∧ DocStrict (faulty.take (n + 1) ++ faulty.drop (n + 1)) ∧
    ({} : Account).Allows 1 (faulty.take (n + 1) ++ faulty.drop (n + 1)) ∧ (∃ p r, Parser.new.parse (linesText (faulty.take (n + 1))) = .ok (p, r)) ∧
    ∃ p r, Parser.new.parse (linesText (faulty.take (n + 1) ++ faulty.drop (n + 1))) = .ok (p, r) := by
  rw [List.take_append_drop]
  have h : DocStrict (faulty.take (n + 1)) := by
    have := faulty_strict
    obtain ⟨l, ls, e⟩ : ∃ l ls, faulty = l :: ls := ⟨_, _, rfl⟩
    rw [e] at this ⊢
    exact ⟨this.1, this.2.1, fun x hx => this.2.2 x (List.mem_of_mem_take hx)⟩
  have ha : ({} : Account).Allows 1 faulty := by decide +kernel
  have hb : ({} : Account).Allows 1 (faulty.take (n + 1)) := by
    refine Account.Allows.left (more := faulty.drop (n + 1)) ?_
    rw [List.take_append_drop]; exact ha
  obtain ⟨p, h1, _⟩ := C59_report (DocStrict.taken h) hb
  obtain ⟨p', h2, _⟩ := C59_report faulty_strict.taken ha
  exact ⟨h, faulty_strict, ha, ⟨p, _, h1⟩, p', _, h2⟩

/-- C66. After any history, and whatever text is read, the names at the top level stay, in their order, and others are only added after them. -/
theorem C66_top_names {p p' : Parser} {i : Str} {r : ParseResult} (hr : Reachable p) (h : p.parse i = .ok (p', r)) {l : List Str} (hl : p.getChildren [] = some (.keys l)) :
    ∃ l', p'.getChildren [] = some (.keys l') ∧ l <+: l' := parse_top hr h hl

/-- A text that goes wrong in most ways adds one name at the top level. -/
example : ∃ p, Parser.new.parse (lit% "[[a]]\nx = 1\n[b]\n[[a]]") = .ok (p, .full) ∧ p.getChildren [] = some (.keys [lit% "a", lit% "b"]) ∧
    ∃ p', p.parse (lit% "[[a.x.y]]\n[a]\n[b]\nb = [1]\n[[c]]\n{") = .ok (p', .partialError [] 9 0
      [.invalidTable (lit% "a[0].a") 5 0 [], .invalidTable (lit% "b") 6 0 [(lit% "b", .arr [.int (lit% "1")])]]) ∧
    p'.getChildren [] = some (.keys [lit% "a", lit% "b", lit% "c"]) := by decide +kernel

/-- C66, what does not hold: with arrays of tables that are opened again, a value can be lost, without any error: `a[0].x` is `1` after the first four lines. -/
theorem C66_wish_fails :
    (∃ p, Parser.new.parse (lit% "[[a]]\nx = 1\n[b]\n[[a]]") = .ok (p, .full) ∧ p.getValue (lit% "a[0].x") = .ok (some (.int (lit% "1")))) ∧
    ∃ p, Parser.new.parse (lit% "[[a]]\nx = 1\n[b]\n[[a]]\n[[a.x.y]]") = .ok (p, .full) ∧ p.getValue (lit% "a[0].x") = .ok none := by
  decide +kernel

/-- C66, the same for two texts: the second one is a single header, and there is no error. -/
theorem C66_wish_fails_later :
    ∃ p, Parser.new.parse (lit% "[[a]]\nx = 1\n[b]\n[[a]]") = .ok (p, .full) ∧ p.getValue (lit% "a[0].x") = .ok (some (.int (lit% "1"))) ∧
    ∃ p', p.parse (lit% "[[a.x.y]]") = .ok (p', .full) ∧ p'.getValue (lit% "a[0].x") = .ok none := by
  decide +kernel

end Tomllib
