import Verif.Lemmas.Walk
import Verif.Lemmas.Witness
import Verif.Props.Read
import Verif.Lemmas.ForTables
import Verif.Lemmas.HistWalk
/-!
# Tables and arrays of tables: C46, C47

What the answers to `get_value` and `get_children` are after a document with tables, arrays of tables, and tables inside of these. Spec/Tables.lean says what such
a document means, and which documents are in order.
-/

namespace Tomllib

/-! ## C47 -/

/-- C47. A document whose lines are taken (any text that is read to the end, C70) and in order is read to its end, nothing is reported, and what the parser answers afterwards is what the document
says: for every path, with or without indices, the value there, or the number of elements, or the names in the table, or that there is nothing. -/
theorem C47_meaning {ls : List (Str × ET)} (h : DocTaken ls) (hf : Sections.Fits {} ls) :
    ∃ p, Parser.new.parse (linesText ls) = .ok (p, .full) ∧ p.leftover = [] ∧ (Sections.read ls).Answers p := by
  obtain ⟨st, es, e, hs⟩ := Sections.Fits.linesEff h.wf hf
  have hp := parse_fwd h
  rw [e] at hp
  simp only [Out.bind, hs.errs, ne_eq, not_true, if_false] at hp
  exact ⟨_, hp, rfl, Sections.Sim.answers hs (Reachable.new.parse hp).inv.inv⟩

/-- C47, on any text: whatever has been read to its end has been read as lines, and if these are in order, then nothing is reported and the answers are what the
lines say. -/
theorem C47_any_text {i : Str} {p : Parser} {r : ParseResult} (h : Parser.new.parse i = .ok (p, r)) (hl : p.leftover = []) :
    ∃ ls, DocWf ls ∧ i = linesText ls ∧ (Sections.Fits {} ls → r = .full ∧ (Sections.read ls).Answers p) := by
  obtain ⟨ls, px, st1, hP⟩ := parse_parsed h
  obtain ⟨-, h1, h2⟩ := hP.full hl
  refine ⟨ls, hP.wf, h2, fun hf => ?_⟩
  obtain ⟨st, es, e, hs⟩ := Sections.Fits.linesEff hP.wf hf
  have e' := hP.eff
  rw [show Parser.new.st = PState.new from rfl, e] at e'
  cases e'
  rw [h1] at hs
  refine ⟨?_, Sections.Sim.answers hs (Reachable.new.parse h).inv.inv⟩
  rw [hP.res, resultOf]
  simp [hl, hs.errs, Parser.new]

example : ∃ p, Parser.new.parse (lit% "n=1\n[[fruit]]\nn=2\n[fruit.p.q]\nc=3\n[[fruit.kind]]\n[[fruit.kind]]\nn=4\n[[fruit]]\n[[fruit.kind]]\nn=5") = .ok (p, .full) ∧
    p.getValue (lit% "fruit[0].kind[1].n") = .ok (some (.int (lit% "4"))) ∧ p.getChildren (lit% "fruit") = some (.count 2) := by
  obtain ⟨p, h1, -, h3⟩ := C47_meaning orchard_strict.taken orchard_fits.2.1
  refine ⟨p, h1, ?_, ?_⟩
  · have := h3.value [.str (lit% "fruit"), .idx 0, .str (lit% "kind"), .idx 1, .str (lit% "n")] ⟨.inl ⟨by simp, by decide⟩, fun s hs => .inl (by
      simp only [List.mem_cons, List.not_mem_nil, or_false, Key.str.injEq, reduceCtorEq, false_or] at hs
      rcases hs with rfl | rfl <;> exact ⟨by simp, by decide⟩)⟩ (by simp)
    rw [orchard_fits.2.2.2.1] at this
    exact this
  · have := h3.children [.str (lit% "fruit")] ⟨.inl ⟨by simp, by decide⟩, by simp⟩ (by simp)
    rw [orchard_fits.2.2.2.2.2.1] at this
    exact this

/-- What is not in order may be read otherwise than TOML says: the text of the name of an open array of tables begins that of another. -/
theorem C47_prefix : ∃ p, Parser.new.parse (lit% "[[a]]\n[[ab]]\nx = 1") = .ok (p, .full) ∧
    (p.getChildren (lit% "ab") = none ∧ p.getValue (lit% "ab[0].x") = .ok none ∧ p.getValue (lit% "a[0].ab[0].x") = .ok (some (.int (lit% "1")))) :=
  Out.wit (by decide +kernel)

/-- An array of tables that is gone on with after another table begins again at its first element: the first value of a key is kept, the second is reported. -/
theorem C47_reopened : ∃ p, Parser.new.parse (lit% "[[a]]\nx = 1\n[b]\n[[a]]\nx = 2") = .ok (p, .fullError [.duplicateKey (lit% "a[0].x") 5 0 (.int (lit% "2"))]) ∧
    (p.getChildren (lit% "a") = some (.count 1) ∧ p.getValue (lit% "a[0].x") = .ok (some (.int (lit% "1")))) :=
  Out.wit (by decide +kernel)

/-- A second array of tables inside of the same element makes `parse` panic. -/
theorem C47_siblings : Parser.new.parse (lit% "[[a]]\n[[a.b]]\n[[a.c]]") = .panic .implicitStd := by decide +kernel

/-- A table after a key/value pair of the table above is reported, and its keys are not entered. -/
theorem C47_subtable : ∃ p, Parser.new.parse (lit% "[a]\nk = 1\n[a.b]\nx = 2") = .ok (p, .fullError [.invalidTable (lit% "a.b") 3 0 [(lit% "x", .int (lit% "2"))]]) ∧
    p.getValue (lit% "a.b.x") = .ok none := Out.wit (by decide +kernel)

/-! ## C46 -/

/-- C46, below the top level. After a document in order, a key exists exactly when it is among the keys of the children of the key above, by `combine_child_keys`. -/
theorem C46_listed_exactly {ls : List (Str × ET)} (h : DocTaken ls) (hf : Sections.Fits {} ls) {p : Parser} {r : ParseResult}
    (hp : Parser.new.parse (linesText ls) = .ok (p, r)) {q : List Key} {k : Key} (hq : PathWf (q ++ [k])) (hs : q ≠ [] ∨ (Sections.read ls).stray = []) :
    p.getChildren (keyOf [] (q ++ [k])) ≠ none ↔
      ∃ c, p.getChildren (keyOf [] q) = some c ∧ keyOf [] (q ++ [k]) ∈ c.combineChildKeys (keyOf [] q) :=
  (walks_of h hf hp).child hq hs

/-- C46. A walk from the top level over all children visits exactly the keys that exist, and every key that has a value. This is on documents in order, and without
a header such as `[a.b]` directly below an array of tables `a`: see `C46_stray`. -/
theorem C46_walk {ls : List (Str × ET)} (h : DocTaken ls) (hf : Sections.Fits {} ls) (hs : (Sections.read ls).stray = []) {p : Parser} {r : ParseResult}
    (hp : Parser.new.parse (linesText ls) = .ok (p, r)) {k : Str} (hr : k ≠ root) :
    (Visited p k ↔ p.getChildren k ≠ none) ∧ (k ≠ [] → p.getValue k ≠ .ok none → Visited p k) := by
  have hw := walks_of h hf hp
  have := hw.visited hs hr
  exact ⟨this, fun hk hv => this.mpr (hw.value hk hr hv)⟩

example : ∃ p, Parser.new.parse (linesText orchard) = .ok (p, .full) ∧ Visited p (lit% "fruit[1].kind[0].n") := by
  obtain ⟨p, h1, -, h3⟩ := C47_meaning orchard_strict.taken orchard_fits.2.1
  refine ⟨p, h1, (C46_walk orchard_strict.taken orchard_fits.2.1 orchard_fits.2.2.1 h1 (by decide)).2 (by simp) ?_⟩
  have := h3.value [.str (lit% "fruit"), .idx 1, .str (lit% "kind"), .idx 0, .str (lit% "n")] ⟨.inl ⟨by simp, by decide⟩, fun s hs => .inl (by
      simp only [List.mem_cons, List.not_mem_nil, or_false, Key.str.injEq, reduceCtorEq, false_or] at hs
      rcases hs with rfl | rfl <;> exact ⟨by simp, by decide⟩)⟩ (by simp)
  rw [orchard_fits.2.2.2.2.1] at this
  rw [show lit% "fruit[1].kind[0].n" = keyOf [] [.str (lit% "fruit"), .idx 1, .str (lit% "kind"), .idx 0, .str (lit% "n")] by rfl, this]
  simp

/-- C46, at every moment of a history of assignments (Spec/History.lean) after reading a document in order: a key exists exactly when it is listed, and a walk
from the top level visits exactly the keys that exist, and every key that has a value. -/
theorem C46_any_time {P : VT → Prop} {ls : List (Str × ET)} {p : Parser} (h : History DocTaken P ls p) :
    (∀ {q : List Key} {k : Key}, PathWf (q ++ [k]) → q ≠ [] ∨ (Sections.read ls).stray = [] →
      (p.getChildren (keyOf [] (q ++ [k])) ≠ none ↔ ∃ c, p.getChildren (keyOf [] q) = some c ∧ keyOf [] (q ++ [k]) ∈ c.combineChildKeys (keyOf [] q))) ∧
    ((Sections.read ls).stray = [] → ∀ {k : Str}, k ≠ root → (Visited p k ↔ p.getChildren k ≠ none) ∧ (k ≠ [] → p.getValue k ≠ .ok none → Visited p k)) := by
  obtain ⟨fp, hh⟩ := h.hist
  have hw := (hh.walks h.down)
  exact ⟨fun hq hs => hw.child hq hs, fun hs k hr => ⟨hw.visited hs hr, fun hk hv => (hw.visited hs hr).mpr (hw.value hk hr hv)⟩⟩

/-- C46, with headers such as `[a.b]` directly below an array of tables `a` too, and at every moment of a history of assignments after reading a document in order: a
walk visits exactly the keys that exist and the stray names, which are the last names of such headers; and every key that has a value. -/
theorem C46_walk_strays {P : VT → Prop} {ls : List (Str × ET)} {p : Parser} (h : History DocTaken P ls p) {k : Str} (hr : k ≠ root) :
    (Visited p k ↔ p.getChildren k ≠ none ∨ k ∈ (Sections.read ls).stray) ∧ (k ≠ [] → p.getValue k ≠ .ok none → Visited p k) := by
  obtain ⟨fp, hh⟩ := h.hist
  have hw := (hh.walks h.down)
  have hs := h.stray
  exact ⟨hw.visited_all hs hr, fun hk hv => (hw.visited_all hs hr).mpr (.inl (hw.value hk hr hv))⟩

/-- C46, at the top level. The names that are listed there are those that exist and the stray names. -/
theorem C46_listed_top {P : VT → Prop} {ls : List (Str × ET)} {p : Parser} (h : History DocTaken P ls p) :
    ∃ names, p.getChildren [] = some (.keys names) ∧ ∀ k, k ∈ names ↔ KeyWf k ∧ p.getChildren k ≠ none ∨ k ∈ (Sections.read ls).stray := by
  obtain ⟨fp, hh⟩ := h.hist
  have hw := (hh.walks h.down)
  obtain ⟨l, e1, _, e2⟩ := hw.ans.top
  refine ⟨l, e1, fun k => (e2 k).trans (or_congr_left ?_)⟩
  have hc : PathWf [Key.str k] → p.getChildren k = (Sections.read ls).childrenAt [.str k] := fun hk => hw.ans.children [.str k] hk (by simp)
  constructor
  · intro hk
    have hwf := hw.wf [] k trivial _ hw.noTop hk
    have hp : PathWf [Key.str k] := PathWf.push (kc := []) trivial hwf
    exact ⟨hwf, by rw [hc hp]; exact (hw.listed [] (.str k) hp).mpr ⟨_, hw.noTop, hk⟩⟩
  · rintro ⟨hwf, hk⟩
    have hp : PathWf [Key.str k] := PathWf.push (kc := []) trivial hwf
    rw [hc hp] at hk
    obtain ⟨c, h1, h2⟩ := (hw.listed [] (.str k) hp).mp hk
    rw [hw.noTop] at h1
    cases h1
    exact h2

/-- C46 fails after a header directly below an array of tables: its last name is listed at the top level, where there is nothing of that name. -/
theorem C46_stray : ∃ p, Parser.new.parse (lit% "[[a]]\n[a.b]\nc = 1") = .ok (p, .full) ∧
    (p.getChildren [] = some (.keys [lit% "a", lit% "b"]) ∧ p.getChildren (lit% "b") = none ∧
      p.getChildren (lit% "a[0]") = some (.keys [lit% "b"]) ∧ p.getValue (lit% "a[0].b.c") = .ok (some (.int (lit% "1")))) :=
  Out.wit (by decide +kernel)

end Tomllib
