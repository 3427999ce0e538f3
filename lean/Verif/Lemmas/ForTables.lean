import Verif.Lemmas.Walk
import Verif.Lemmas.Witness
import Verif.Lemmas.ForRead
/-!
# Lemmas for Props/Tables
-/

namespace Tomllib

/-- A document with arrays of tables inside of an array of tables, and tables in their elements. -/
def orchard : List (Str × ET) :=
  [([], .kv [] (lit% "n") ⟨[], []⟩ (.leaf (.int (lit% "1"))) [] none),
   (lit% "\n", .table [] (.arr ⟨[⟨⟨[], []⟩, lit% "fruit"⟩]⟩) [] none),
   (lit% "\n", .kv [] (lit% "n") ⟨[], []⟩ (.leaf (.int (lit% "2"))) [] none),
   (lit% "\n", .table [] (.std ⟨[⟨⟨[], []⟩, lit% "fruit"⟩, ⟨⟨[], []⟩, lit% "p"⟩, ⟨⟨[], []⟩, lit% "q"⟩]⟩) [] none),
   (lit% "\n", .kv [] (lit% "c") ⟨[], []⟩ (.leaf (.int (lit% "3"))) [] none),
   (lit% "\n", .table [] (.arr ⟨[⟨⟨[], []⟩, lit% "fruit"⟩, ⟨⟨[], []⟩, lit% "kind"⟩]⟩) [] none),
   (lit% "\n", .table [] (.arr ⟨[⟨⟨[], []⟩, lit% "fruit"⟩, ⟨⟨[], []⟩, lit% "kind"⟩]⟩) [] none),
   (lit% "\n", .kv [] (lit% "n") ⟨[], []⟩ (.leaf (.int (lit% "4"))) [] none),
   (lit% "\n", .table [] (.arr ⟨[⟨⟨[], []⟩, lit% "fruit"⟩]⟩) [] none),
   (lit% "\n", .table [] (.arr ⟨[⟨⟨[], []⟩, lit% "fruit"⟩, ⟨⟨[], []⟩, lit% "kind"⟩]⟩) [] none),
   (lit% "\n", .kv [] (lit% "n") ⟨[], []⟩ (.leaf (.int (lit% "5"))) [] none)]

theorem orchard_fits : linesText orchard = lit% "n=1\n[[fruit]]\nn=2\n[fruit.p.q]\nc=3\n[[fruit.kind]]\n[[fruit.kind]]\nn=4\n[[fruit]]\n[[fruit.kind]]\nn=5" ∧
    Sections.Fits {} orchard ∧ (Sections.read orchard).stray = [] ∧
    (Sections.read orchard).valueAt [.str (lit% "fruit"), .idx 0, .str (lit% "kind"), .idx 1, .str (lit% "n")] = some (.leaf (.int (lit% "4"))) ∧
    (Sections.read orchard).valueAt [.str (lit% "fruit"), .idx 1, .str (lit% "kind"), .idx 0, .str (lit% "n")] = some (.leaf (.int (lit% "5"))) ∧
    (Sections.read orchard).childrenAt [.str (lit% "fruit")] = some (.count 2) ∧
    (Sections.read orchard).childrenAt [.str (lit% "fruit"), .idx 0] = some (.keys [lit% "n", lit% "p", lit% "kind"]) :=
  ⟨by decide +kernel, by decide +kernel, by decide +kernel, rfl, rfl, by decide +kernel, by decide +kernel⟩

theorem orchard_strict : DocStrict orchard := by
  have i1 : ∀ s ∈ [lit% "1", lit% "2", lit% "3", lit% "4", lit% "5"], IntegerText s := by
    intro s hs
    have h := Re.find_some (r := Rx.integer) (s := s) (m := s) (t := []) (by
      simp only [List.mem_cons, List.not_mem_nil, or_false] at hs
      rcases hs with rfl | rfl | rfl | rfl | rfl <;> decide +kernel)
    exact (lang_integer _).mp h.2
  have ks : ∀ k ∈ [lit% "n", lit% "fruit", lit% "p", lit% "q", lit% "c", lit% "kind"], KeyWf k := by
    intro k hk
    left
    simp only [List.mem_cons, List.not_mem_nil, or_false] at hk
    rcases hk with rfl | rfl | rfl | rfl | rfl | rfl <;> exact ⟨by simp, by decide⟩
  simp only [List.mem_cons, List.not_mem_nil, or_false, forall_eq_or_imp, forall_eq] at i1 ks
  simp [orchard, DocStrict, LinesStrict, ET.strict, TableType.strict, TableType.table, VT.strict, Scalar.strict, CommentWf, WSSep.wf, Blank, i1, ks]

theorem walks_of {ls : List (Str × ET)} (h : DocTaken ls) (hf : Sections.Fits {} ls) {p : Parser} {r : ParseResult} (hp : Parser.new.parse (linesText ls) = .ok (p, r)) :
    (Sections.read ls).Walks p := by
  obtain ⟨st, es, e, hs⟩ := Sections.Fits.linesEff h.wf hf
  have hp' := parse_fwd h
  rw [e] at hp'
  simp only [Out.bind] at hp'
  rw [hp] at hp'
  cases hp'
  exact Sections.Sim.walks h.wf hf (Reachable.new.parse hp).inv.inv hs

end Tomllib
