import Verif.Lemmas.Report
import Verif.Lemmas.Witness
import Verif.Lemmas.ForTables
import Verif.Props.Read
/-!
# What is reported about a document, arrays of tables included: C59

Spec/Report.lean says which faults are described (`Account.Allows`), which errors they cause, and what the document says all the same (`Account.of`).
-/

namespace Tomllib

/-- C59. A document whose lines are taken (any text that is read to the end, C70), with the faults of Spec/Report.lean is read to its end. The errors are, one by one, with their keys, line numbers, texts and lost
pairs, those of the account, and the document can be asked for everything else. -/
theorem C59_report {ls : List (Str × ET)} (h : DocTaken ls) (ha : ({} : Account).Allows 1 ls) :
    ∃ p, Parser.new.parse (linesText ls) = .ok (p, if (Account.of ls).errors = [] then .full else .fullError (Account.of ls).errors) ∧
      p.leftover = [] ∧ (Account.of ls).doc.Answers p := by
  obtain ⟨st, es, e, hs⟩ := Sections.RSim.all ls Sections.RSim.new h.wf.lines ha
  have hp := parse_fwd h
  rw [e] at hp
  simp only [Out.bind] at hp
  have he : st.errors = (Account.of ls).errors := hs.errs
  have hr : (if st.errors ≠ [] then ParseResult.fullError st.errors else .full) = if (Account.of ls).errors = [] then .full else .fullError (Account.of ls).errors := by
    rw [he]
    by_cases h0 : (Account.of ls).errors = []
    · rw [if_pos h0, if_neg (by simp [h0])]
    · rw [if_neg h0, if_pos h0]
  rw [hr] at hp
  exact ⟨_, hp, rfl, hs.answers (Reachable.new.parse hp).inv.inv⟩

/-- C59, on any text that is read to its end. -/
theorem C59_any_text {i : Str} {p : Parser} {r : ParseResult} (h : Parser.new.parse i = .ok (p, r)) (hl : p.leftover = []) :
    ∃ ls, DocWf ls ∧ i = linesText ls ∧ (({} : Account).Allows 1 ls → r.errs = (Account.of ls).errors ∧ (Account.of ls).doc.Answers p) := by
  obtain ⟨ls, px, st1, hP⟩ := parse_parsed h
  obtain ⟨-, h1, h2⟩ := hP.full hl
  refine ⟨ls, hP.wf, h2, fun ha => ?_⟩
  obtain ⟨st, es, e, hs⟩ := Sections.RSim.all ls Sections.RSim.new hP.wf.lines ha
  have e' := hP.eff
  rw [show Parser.new.st = PState.new from rfl, e] at e'
  cases e'
  rw [h1] at hs
  have he : p.st.errors = (Account.of ls).errors := hs.errs
  refine ⟨?_, hs.answers (Reachable.new.parse h).inv.inv⟩
  rw [hP.res, resultOf, ← he]
  simp only [hl, Parser.new, ne_eq, not_true, if_false]
  by_cases h0 : p.st.errors = []
  · rw [if_neg (by simp [h0]), h0]; rfl
  · rw [if_pos h0]; rfl

/-- A document with every kind of fault. -/
def faulty : List (Str × ET) :=
  [([], .table [] (.arr ⟨[⟨⟨[], []⟩, lit% "fruit"⟩]⟩) [] none),
   (lit% "\n", .kv [] (lit% "a") ⟨[], []⟩
     (.arr (.cons (.leaf (.int (lit% "1"))) (some ⟨[], []⟩) [.newlines []] (.cons (.leaf (.bool true)) none [.newlines []] .nil)) [.newlines []] [.newlines []]) [] none),
   (lit% "\n", .table [] (.std ⟨[⟨⟨[], []⟩, lit% "fruit"⟩, ⟨⟨[], []⟩, lit% "p"⟩]⟩) [] none),
   (lit% "\n", .kv [] (lit% "d") ⟨[], []⟩ (.leaf (.dt ⟨⟨lit% "2015", lit% "02", lit% "30"⟩, none⟩)) [] none),
   (lit% "\n", .kv [] (lit% "d") ⟨[], []⟩ (.leaf (.int (lit% "2"))) [] none),
   (lit% "\n", .table [] (.std ⟨[⟨⟨[], []⟩, lit% "fruit"⟩]⟩) [] none),
   (lit% "\n", .kv [] (lit% "x") ⟨[], []⟩ (.itab (.cons (lit% "u") ⟨[], []⟩ (.leaf (.int (lit% "3"))) none [.newlines []] .nil) ⟨[], []⟩) [] none),
   (lit% "\n", .kv [] (lit% "y") ⟨[], []⟩ (.leaf (.int (lit% "4"))) [] none),
   (lit% "\n", .table [] (.arr ⟨[⟨⟨[], []⟩, lit% "fruit"⟩]⟩) [] none),
   (lit% "\n", .kv [] (lit% "a") ⟨[], []⟩ (.leaf (.int (lit% "5"))) [] none),
   (lit% "\n", .table [] (.std ⟨[⟨⟨[], []⟩, lit% "fruit"⟩, ⟨⟨[], []⟩, lit% "a"⟩]⟩) [] none),
   (lit% "\n", .kv [] (lit% "d") ⟨[], []⟩ (.leaf (.dt ⟨⟨lit% "2015", lit% "02", lit% "31"⟩, none⟩)) [] none),
   (lit% "\n", .kv [] (lit% "z") ⟨[], []⟩ (.leaf (.int (lit% "6"))) [] none),
   (lit% "\n", .table [] (.std ⟨[⟨⟨[], []⟩, lit% "fruit"⟩, ⟨⟨[], []⟩, lit% "p"⟩]⟩) [] none),
   (lit% "\n", .kv [] (lit% "z") ⟨[], []⟩ (.leaf (.int (lit% "7"))) [] none)]

theorem faulty_strict : DocStrict faulty := by
  have it : ∀ i, Re.find Rx.integer i = some (i, []) → IntegerText i := fun i h => (lang_integer _).mp (Re.find_some h).2
  have i1 : ∀ s ∈ [lit% "1", lit% "2", lit% "3", lit% "4", lit% "5", lit% "6", lit% "7"], IntegerText s := by
    intro s hs
    refine it s ?_
    simp only [List.mem_cons, List.not_mem_nil, or_false] at hs
    rcases hs with rfl | rfl | rfl | rfl | rfl | rfl | rfl <;> decide +kernel
  have ks : ∀ k ∈ [lit% "fruit", lit% "a", lit% "p", lit% "d", lit% "x", lit% "y", lit% "z", lit% "u"], KeyWf k := by
    intro k hk
    left
    simp only [List.mem_cons, List.not_mem_nil, or_false] at hk
    rcases hk with rfl | rfl | rfl | rfl | rfl | rfl | rfl | rfl <;> exact ⟨by simp, by decide⟩
  have d1 : (⟨⟨lit% "2015", lit% "02", lit% "30"⟩, none⟩ : DateTime).shape := ⟨⟨⟨rfl, by decide⟩, ⟨rfl, by decide⟩, ⟨rfl, by decide⟩⟩, by simp⟩
  have d2 : (⟨⟨lit% "2015", lit% "02", lit% "31"⟩, none⟩ : DateTime).shape := ⟨⟨⟨rfl, by decide⟩, ⟨rfl, by decide⟩, ⟨rfl, by decide⟩⟩, by simp⟩
  have s0 : Spaces [] := .nil
  simp only [List.mem_cons, List.not_mem_nil, or_false, forall_eq_or_imp, forall_eq] at i1 ks
  simp [faulty, DocStrict, LinesStrict, ET.strict, TableType.strict, TableType.table, VT.strict, Elems.strict, Pairs.strict, Scalar.strict, Apart, SepWf, Gap, CommentText,
    CommentWf, WSSep.wf, Blank, NoBlank, gapText, CNL.text, i1, s0, ks, d1, d2]

/-- The faults of the document and its errors. What the table `fruit[1].p` says after them is read. -/
example : linesText faulty = lit% "[[fruit]]\na=[1,true]\n[fruit.p]\nd=2015-02-30\nd=2\n[fruit]\nx={u=3}\ny=4\n[[fruit]]\na=5\n[fruit.a]\nd=2015-02-31\nz=6\n[fruit.p]\nz=7" ∧
    ({} : Account).Allows 1 faulty ∧
    (Account.of faulty).errors =
      [.mixedArray (lit% "fruit[0].a") 2 0, .invalidDateTime (lit% "fruit[0].p.d") 4 0 (lit% "2015-02-30"), .duplicateKey (lit% "fruit[0].p.d") 5 0 (.int (lit% "2")),
       .invalidTable (lit% "fruit[0].fruit") 6 0 [(lit% "u", .int (lit% "3")), (lit% "x", .itab [(lit% "u", .int (lit% "3"))]), (lit% "y", .int (lit% "4"))], .invalidTable (lit% "fruit[1].a") 11 0 [],
       .invalidDateTime (lit% "fruit[1].d") 12 0 (lit% "2015-02-31")] := ⟨by decide +kernel, by decide +kernel, by decide +kernel⟩

example : (Account.of faulty).doc.valueAt [.str (lit% "fruit"), .idx 1, .str (lit% "p"), .str (lit% "z")] = some (.leaf (.int (lit% "7"))) ∧
    (Account.of faulty).doc.valueAt [.str (lit% "fruit"), .idx 1, .str (lit% "z")] = none ∧
    (Account.of faulty).doc.childrenAt [.str (lit% "fruit"), .idx 1] = some (.keys [lit% "a", lit% "p"]) := ⟨rfl, rfl, by decide +kernel⟩

/-- C59: a second value that is an array is reported, and its elements are entered among those of the first. -/
theorem C59_elements_leak : ∃ p, Parser.new.parse (lit% "a = [1]\na = [2, 3]") =
      .ok (p, .fullError [.duplicateKey (lit% "a[0]") 2 0 (.int (lit% "2")), .duplicateKey (lit% "a") 2 0 (.arr [.int (lit% "2"), .int (lit% "3")])]) ∧
    p.getValue (lit% "a") = .ok (some (.arr [.int (lit% "1")])) ∧ p.getValue (lit% "a[1]") = .ok (some (.int (lit% "3"))) := Out.wit (by decide +kernel)

end Tomllib
