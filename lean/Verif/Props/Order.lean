import Verif.Lemmas.Order
import Verif.Lemmas.Groups
import Verif.Lemmas.ForTables
import Verif.Props.Parse
/-!
# C74: the order of the lines

Which answers depend on the order of the lines of a document, and which do not.
-/

namespace Tomllib

theorem read_order {ls ls' : List (Str × ET)} (h : DocTaken ls) (h' : DocTaken ls') (hf : Sections.Fits {} ls) (hf' : Sections.Fits {} ls')
    (hs : (Sections.read ls).Says (Sections.read ls')) (hs' : (Sections.read ls').Says (Sections.read ls)) :
    ∃ p p', Parser.new.parse (linesText ls) = .ok (p, .full) ∧ Parser.new.parse (linesText ls') = .ok (p', .full) ∧
      ∀ k, p.getValue k = p'.getValue k ∧ SameKids (p.getChildren k) (p'.getChildren k) := by
  have hr : ∀ {ls : List (Str × ET)}, DocTaken ls → Sections.Fits {} ls → ∃ p, Parser.new.parse (linesText ls) = .ok (p, .full) := fun {ls} h hf => by
    obtain ⟨st, es, e, hs⟩ := Sections.Fits.linesEff h.wf hf
    have hp := parse_fwd h
    rw [e] at hp
    simp only [Out.bind, hs.errs, ne_eq, not_true, if_false] at hp
    exact ⟨_, hp⟩
  obtain ⟨p, hp⟩ := hr h hf
  obtain ⟨p', hp'⟩ := hr h' hf'
  obtain ⟨fp, hh⟩ := Hist.read h hf hp
  obtain ⟨fp', hh'⟩ := Hist.read h' hf' hp'
  exact ⟨p, p', hp, hp', hs.answers hs' hh hh' (fun k l e => C27_children_nodup (.parse .new hp) e) (fun k l e => C27_children_nodup (.parse .new hp') e)⟩

/-- C74, inside of sections. The lines of a document that is in order are put into another order, and no line goes past a header. Then the document is still in
order, nothing is reported, every value is the same at every key, and every key has the same children, though names may be listed in another order. Arrays of tables
and the tables in them are included. -/
theorem C74_inside_sections {ls ls' : List (Str × ET)} (h : DocTaken ls) (h' : DocTaken ls') (hf : Sections.Fits {} ls) (hs : Shuffled (ls.map (·.2)) (ls'.map (·.2))) :
    Sections.Fits {} ls' ∧ ∃ p p', Parser.new.parse (linesText ls) = .ok (p, .full) ∧ Parser.new.parse (linesText ls') = .ok (p', .full) ∧
      ∀ k, p.getValue k = p'.getValue k ∧ SameKids (p.getChildren k) (p'.getChildren k) := by
  obtain ⟨g1, g2⟩ := Sections.Shuffled.mixed hs (.refl {}) ((Sections.fitsE ls).mp hf)
  have hf' := (Sections.fitsE ls').mpr g1
  rw [← Sections.readE_eq, ← Sections.readE_eq] at g2
  exact ⟨hf', read_order h h' hf hf' g2.says.1 g2.says.2⟩

/-- C74, whole sections. Two documents without arrays of tables are in order, and they put the same values under the same keys of the same tables and have the same
headers, in whatever order and layout. Then both give the same value at every key, and the same children, though names may be listed in another order. -/
theorem C74_sections {ls ls' : List (Str × ET)} (h : DocTaken ls) (h' : DocTaken ls') (hf : Sections.Fits {} ls) (hf' : Sections.Fits {} ls')
    (ha : ∀ l ∈ ls, l.2.noArray = true) (ha' : ∀ l ∈ ls', l.2.noArray = true) (hs : ∀ x, x ∈ filed [] (ls.map (·.2)) ↔ x ∈ filed [] (ls'.map (·.2))) :
    ∃ p p', Parser.new.parse (linesText ls) = .ok (p, .full) ∧ Parser.new.parse (linesText ls') = .ok (p', .full) ∧
      ∀ k, p.getValue k = p'.getValue k ∧ SameKids (p.getChildren k) (p'.getChildren k) :=
  read_order h h' hf hf' (Sections.says_filed h.wf h'.wf ha ha' hs) (Sections.says_filed h'.wf h.wf ha' ha fun x => (hs x).symm)

/-- C74, arrays of tables. Two documents are in order, and for every name of the top level the lines that are about it say the same in the same order, whatever other
lines are between them and whatever the layout is. Then both give the same value at every key, and the same children, though names may be listed in another order. So
whole groups of sections, with arrays of tables and everything inside of them, may change places. -/
theorem C74_groups {ls ls' : List (Str × ET)} (h : DocTaken ls) (h' : DocTaken ls') (hf : Sections.Fits {} ls) (hf' : Sections.Fits {} ls')
    (hs : ∀ N, about N none (content ls) = about N none (content ls')) :
    ∃ p p', Parser.new.parse (linesText ls) = .ok (p, .full) ∧ Parser.new.parse (linesText ls') = .ok (p', .full) ∧
      ∀ k, p.getValue k = p'.getValue k ∧ SameKids (p.getChildren k) (p'.getChildren k) :=
  read_order h h' hf hf' (Sections.says_about h.wf h'.wf hf hf' hs) (Sections.says_about h'.wf h.wf hf' hf fun N => (hs N).symm)

/-- C74, where the order matters.
* The names are listed in the order of the lines.
* Of two pairs with one key the first counts.
* A pair that goes past a header is in another table.
* A section must come before the pairs of the table above it: TOML allows both, the library reports one.
* Elements of arrays of tables are counted in the order of their headers. -/
theorem C74_otherwise :
    (∃ p, Parser.new.parse (lit% "a = 1\nb = 2") = .ok (p, .full) ∧ p.getChildren [] = some (.keys [lit% "a", lit% "b"])) ∧
    (∃ p, Parser.new.parse (lit% "b = 2\na = 1") = .ok (p, .full) ∧ p.getChildren [] = some (.keys [lit% "b", lit% "a"])) ∧
    (∃ p, Parser.new.parse (lit% "a = 1\na = 2") = .ok (p, .fullError [.duplicateKey (lit% "a") 2 0 (.int (lit% "2"))]) ∧ p.getValue (lit% "a") = .ok (some (.int (lit% "1")))) ∧
    (∃ p, Parser.new.parse (lit% "a = 2\na = 1") = .ok (p, .fullError [.duplicateKey (lit% "a") 2 0 (.int (lit% "1"))]) ∧ p.getValue (lit% "a") = .ok (some (.int (lit% "2")))) ∧
    (∃ p, Parser.new.parse (lit% "[t]\na = 1") = .ok (p, .full) ∧ p.getValue (lit% "a") = .ok none ∧ p.getValue (lit% "t.a") = .ok (some (.int (lit% "1")))) ∧
    (∃ p, Parser.new.parse (lit% "a = 1\n[t]") = .ok (p, .full) ∧ p.getValue (lit% "a") = .ok (some (.int (lit% "1"))) ∧ p.getValue (lit% "t.a") = .ok none) ∧
    (∃ p, Parser.new.parse (lit% "[a.b]\nx = 2\n[a]\nk = 1") = .ok (p, .full) ∧ p.getValue (lit% "a.b.x") = .ok (some (.int (lit% "2")))) ∧
    (∃ p, Parser.new.parse (lit% "[a]\nk = 1\n[a.b]\nx = 2") = .ok (p, .fullError [.invalidTable (lit% "a.b") 3 0 [(lit% "x", .int (lit% "2"))]]) ∧
      p.getValue (lit% "a.b.x") = .ok none) ∧
    (∃ p, Parser.new.parse (lit% "[[a]]\nx = 1\n[[a]]\nx = 2") = .ok (p, .full) ∧ p.getValue (lit% "a[0].x") = .ok (some (.int (lit% "1")))) ∧
    (∃ p, Parser.new.parse (lit% "[[a]]\nx = 2\n[[a]]\nx = 1") = .ok (p, .full) ∧ p.getValue (lit% "a[0].x") = .ok (some (.int (lit% "2")))) := by
  refine ⟨?_, ?_, ?_, ?_, ?_, ?_, ?_, ?_, ?_, ?_⟩ <;> decide +kernel

/-! ### The hypotheses are met -/

private def one (k v : Str) : ET := .kv [] k ⟨[], []⟩ (.leaf (.int v)) [] none
private def head (b : Bool) (k : Str) : ET := .table [] (if b then .arr ⟨[⟨⟨[], []⟩, k⟩]⟩ else .std ⟨[⟨⟨[], []⟩, k⟩]⟩) [] none

/-- An element of an array of tables with two pairs and a comment. -/
private def exA : List (Str × ET) :=
  [([], head true (lit% "n")), (lit% "\n", one (lit% "a") (lit% "1")), (lit% "\n", .comment [] (lit% " hi")), (lit% "\n", one (lit% "b") (lit% "2"))]
private def exB : List (Str × ET) :=
  [([], head true (lit% "n")), (lit% "\n", one (lit% "b") (lit% "2")), (lit% "\n", one (lit% "a") (lit% "1")), (lit% "\n", .comment [] (lit% " hi"))]
/-- Two sections. -/
private def exC : List (Str × ET) :=
  [([], one (lit% "a") (lit% "1")), (lit% "\n", head false (lit% "n")), (lit% "\n", one (lit% "b") (lit% "2")), (lit% "\n", head false (lit% "p")), (lit% "\n", one (lit% "a") (lit% "3"))]
private def exD : List (Str × ET) :=
  [([], one (lit% "a") (lit% "1")), (lit% "\n", head false (lit% "p")), (lit% "\n", one (lit% "a") (lit% "3")), (lit% "\n", head false (lit% "n")), (lit% "\n", one (lit% "b") (lit% "2"))]

/-- An array of tables with two elements, and a table. -/
private def exE : List (Str × ET) :=
  [([], head true (lit% "n")), (lit% "\n", one (lit% "a") (lit% "1")), (lit% "\n", head true (lit% "n")), (lit% "\n", one (lit% "b") (lit% "2")), (lit% "\n", head false (lit% "p")),
   (lit% "\n", one (lit% "a") (lit% "3"))]
private def exF : List (Str × ET) :=
  [([], .comment [] (lit% " hi")), (lit% "\n", head false (lit% "p")), (lit% "\n", one (lit% "a") (lit% "3")), (lit% "\n", head true (lit% "n")), (lit% "\n", one (lit% "a") (lit% "1")),
   (lit% "\n", head true (lit% "n")), (lit% "\n", one (lit% "b") (lit% "2"))]

private theorem ex_strict : DocStrict exA ∧ DocStrict exB ∧ DocStrict exC ∧ DocStrict exD ∧ DocStrict exE ∧ DocStrict exF := by
  have i1 : ∀ s ∈ [lit% "1", lit% "2", lit% "3"], IntegerText s := by
    intro s hs
    have h := Re.find_some (r := Rx.integer) (s := s) (m := s) (t := []) (by
      simp only [List.mem_cons, List.not_mem_nil, or_false] at hs
      rcases hs with rfl | rfl | rfl <;> decide +kernel)
    exact (lang_integer _).mp h.2
  have ks : ∀ k ∈ [lit% "n", lit% "p", lit% "a", lit% "b"], KeyWf k := by
    intro k hk
    left
    simp only [List.mem_cons, List.not_mem_nil, or_false] at hk
    rcases hk with rfl | rfl | rfl | rfl <;> exact ⟨by simp, by decide⟩
  have hc : CommentText (lit% " hi") := by unfold CommentText; decide
  simp only [List.mem_cons, List.not_mem_nil, or_false, forall_eq_or_imp, forall_eq] at i1 ks
  refine ⟨?_, ?_, ?_, ?_, ?_, ?_⟩ <;>
    simp [exA, exB, exC, exD, exE, exF, one, head, DocStrict, LinesStrict, ET.strict, TableType.strict, TableType.table, VT.strict, Scalar.strict, CommentWf, WSSep.wf, Blank, i1, ks, hc]

example : ∃ p p', Parser.new.parse (lit% "[[n]]\na=1\n# hi\nb=2") = .ok (p, .full) ∧ Parser.new.parse (lit% "[[n]]\nb=2\na=1\n# hi") = .ok (p', .full) ∧
    ∀ k, p.getValue k = p'.getValue k ∧ SameKids (p.getChildren k) (p'.getChildren k) := by
  have h := (C74_inside_sections ex_strict.1.taken ex_strict.2.1.taken (by decide +kernel)
    (.cons _ (.trans (.cons _ (.swap [] rfl rfl)) (.swap _ rfl rfl)))).2
  rwa [show linesText exA = lit% "[[n]]\na=1\n# hi\nb=2" by decide +kernel, show linesText exB = lit% "[[n]]\nb=2\na=1\n# hi" by decide +kernel] at h

example : ∃ p p', Parser.new.parse (lit% "a=1\n[n]\nb=2\n[p]\na=3") = .ok (p, .full) ∧ Parser.new.parse (lit% "a=1\n[p]\na=3\n[n]\nb=2") = .ok (p', .full) ∧
    ∀ k, p.getValue k = p'.getValue k ∧ SameKids (p.getChildren k) (p'.getChildren k) := by
  have h := C74_sections ex_strict.2.2.1.taken ex_strict.2.2.2.1.taken (by decide +kernel) (by decide +kernel) (by decide) (by decide) (by
    intro x
    simp [exC, exD, one, head, filed, TableType.table, Table.names]
    grind)
  rwa [show linesText exC = lit% "a=1\n[n]\nb=2\n[p]\na=3" by decide +kernel, show linesText exD = lit% "a=1\n[p]\na=3\n[n]\nb=2" by decide +kernel] at h

example : ∃ p p', Parser.new.parse (lit% "[[n]]\na=1\n[[n]]\nb=2\n[p]\na=3") = .ok (p, .full) ∧ Parser.new.parse (lit% "# hi\n[p]\na=3\n[[n]]\na=1\n[[n]]\nb=2") = .ok (p', .full) ∧
    ∀ k, p.getValue k = p'.getValue k ∧ SameKids (p.getChildren k) (p'.getChildren k) := by
  have h := C74_groups ex_strict.2.2.2.2.1.taken ex_strict.2.2.2.2.2.taken (by decide +kernel) (by decide +kernel) (by
    intro N
    have e1 : content exE = [.header true [lit% "n"], .pair (lit% "a") (.int (lit% "1")), .header true [lit% "n"], .pair (lit% "b") (.int (lit% "2")), .header false [lit% "p"],
      .pair (lit% "a") (.int (lit% "3"))] := rfl
    have e2 : content exF = [.header false [lit% "p"], .pair (lit% "a") (.int (lit% "3")), .header true [lit% "n"], .pair (lit% "a") (.int (lit% "1")), .header true [lit% "n"],
      .pair (lit% "b") (.int (lit% "2"))] := rfl
    rw [e1, e2]
    simp only [about, Item.owner, Item.below, List.headD_cons, Option.getD_some]
    by_cases h1 : lit% "n" = N
    · subst h1; rfl
    · by_cases h2 : lit% "p" = N
      · subst h2; rfl
      · simp only [h1, h2, if_false])
  rwa [show linesText exE = lit% "[[n]]\na=1\n[[n]]\nb=2\n[p]\na=3" by decide +kernel, show linesText exF = lit% "# hi\n[p]\na=3\n[[n]]\na=1\n[[n]]\nb=2" by decide +kernel] at h

end Tomllib
