import Verif.Lemmas.Opens
import Verif.Props.Leak
/-!
# What a section adds, after any lines: C32

Together with `C45_leaks` this gives the values after any document without arrays of tables, section by section: which of the two holds for a header is told by
`Parser.refuses` (Spec/Wall.lean). `sectionValues` is in Spec/Leak.lean.
-/

namespace Tomllib

/-- C32. In a document without arrays of tables, after any lines, faulty ones too: the lines below a header that is in order (and not a panic, C30) add exactly their
values, the first for each key, under the name of the table, where there was none. Every value that was there is still there. -/
theorem C32_section {pre sec : List (Str × ET)} {nl w1 : Str} {t : Table} {w2 : Str} {c : Option Str} (h : DocTaken (pre ++ (nl, .table w1 (.std t) w2 c) :: sec))
    (hne : pre ≠ []) (hn : hasArrayTable pre = false) (hb : ∀ l ∈ sec, l.2.below) {p : Parser} {r : ParseResult} (hp : Parser.new.parse (linesText pre) = .ok (p, r))
    (hr : ¬ p.refuses (t.keys.map (·.key))) (hbar : ¬ p.barred (t.keys.map (·.key))) :
    ∃ p' r', Parser.new.parse (linesText (pre ++ (nl, .table w1 (.std t) w2 c) :: sec)) = .ok (p', r') ∧ r'.whole ∧ p'.leftover = [] ∧
      p'.getValue (tableKey (t.keys.map (·.key))) = .panic .tableToVal ∧
      (∀ k v, p.getValue k = .ok (some v) → p'.getValue k = .ok (some v)) ∧
      ∀ k, k ≠ tableKey (t.keys.map (·.key)) → p.getValue k = .ok none →
        p'.getValue k = .ok ((lookup k (sectionValues (tableKey (t.keys.map (·.key))) sec)).map (·.value)) := by
  obtain ⟨hF, ⟨es0, he⟩, hre, ht, n1, n2⟩ := before_header h hne hn hp
  have hT : ¬ Turned p.st.map p.st.heap t.names := fun hx => hr ((refuses_iff hF.inv n1 n2).mpr hx)
  have hB : ¬ Barred p.st.map p.st.heap t.names := fun hx => hbar ((barred_iff hF.inv n1 n2).mpr hx)
  have hF1 := hF.lines (nlCount nl)
  have hkl : ((p.st.lines (nlCount nl)).pushKs (t.keys.map (·.key))).keychain.length = t.keys.length := by simp [PState.pushKs, hF1.kc]
  have hwt : (ET.table w1 (.std t) w2 c).wf := h.wf.lines (nl, .table w1 (.std t) w2 c) (by simp)
  rcases hF1.next hwt trivial with ⟨⟨_, t', _, _, e, hb'⟩, _⟩ | ⟨_, s1, q1, hF2⟩
  · simp at e
    rw [← e.2.1] at hb'
    exact absurd hb' hB
  · have q1' : TableType.eff (.std t) (p.st.lines (nlCount nl)) = .ok s1 := q1
    rw [TableType.eff] at q1'
    obtain ⟨x, hx, q2⟩ : ∃ x, stdTableAct t ((p.st.lines (nlCount nl)).pushKs (t.keys.map (·.key))) = .ok x ∧ x.1 = s1 := by
      cases hs : stdTableAct t ((p.st.lines (nlCount nl)).pushKs (t.keys.map (·.key))) with
      | panic y => rw [hs] at q1'; simp [Out.bind] at q1'
      | fuel => rw [hs] at q1'; simp [Out.bind] at q1'
      | ok x => rw [hs] at q1'; simp [Out.bind] at q1'; exact ⟨x, rfl, q1'⟩
    obtain ⟨o1, o2, o3, o4⟩ := stdTableAct_opens (st := (p.st.lines (nlCount nl)).pushKs (t.keys.map (·.key))) ht (by rw [hkl]; exact Nat.le_refl _) (hF1.pop _) hT hx
    have o5 := (stdTableAct_stay (st := (p.st.lines (nlCount nl)).pushKs (t.keys.map (·.key))) ht hF1.flat hF1.inv.stack hx).1
    rw [q2] at o1 o2 o3 o4 o5
    have hws : ∀ l ∈ sec, l.2.wf := fun l hl => h.wf.lines l (by simp [hl])
    obtain ⟨st', ns, a1, a2, a3⟩ := hF2.section sec o4 hws hb
    have hpa := parse_fwd h
    rw [linesEff_app pre he, linesEff, q1, Out.bind, a1] at hpa
    simp only [Out.bind] at hpa
    let p1 : Parser := { p with st := s1 }
    have hh1 : s1.heap = p.st.heap ++ [.table] := o1
    have ho3 : ∀ k, k ≠ nkey t.names → valOf p.st.map k = none → valOf s1.map k = none := o3
    have ho2 : valOf s1.map (nkey t.names) = some p.st.heap.length := o2
    have hcell : s1.heap[p.st.heap.length]? = some .table := by rw [hh1]; simp
    have hleft := fun (p' : Parser) (hs : p'.st = st') (k : Str) => getValue_left (p := p1) (p' := p') hF2.inv (by rw [hs]; exact a2.inv) (l := sectionValues (nkey t.names) sec) (by rw [hs]; exact a3) k
    refine ⟨_, _, hpa, ?_, rfl, ?_, fun k v hv => ?_, fun k hk hv => ?_⟩
    · split
      · exact .inr ⟨_, rfl⟩
      · exact .inl rfl
    · rw [hleft _ rfl]
      have : p1.getValue (nkey t.names) = .panic .tableToVal := by
        obtain ⟨c, hg⟩ := valOf_some.mp ho2
        simp only [Parser.getValue, show p1.st = s1 from rfl, hg, Out.bind_eq, toVal_table hcell]; rfl
      rw [show tableKey (t.keys.map (·.key)) = nkey t.names from rfl, this]
    · rw [hleft _ rfl]
      have : p1.getValue k = .ok (some v) := by
        rcases hF.inv.getValue_cases k with ⟨h1, h2⟩ | ⟨a, h1, h2, h3⟩ | ⟨a, t, fp, h1, h2, h3⟩
        · rw [h2] at hv; simp at hv
        · rw [h3] at hv; simp at hv
        · rw [← hv, h3]
          have hnt := Rep_not_table h2
          have hex : ∃ c, p.st.heap[a]? = some c ∧ c ≠ .table := by
            obtain ⟨c, hc, _⟩ := h2.kind
            exact ⟨c, hc, fun e => hnt (by rw [hc, e])⟩
          exact Inv.getValue_rep (p := p1) hF2.inv (o5 k a h1 hex) (by show _; rw [show p1.st.heap = s1.heap from rfl, hh1]; exact h2.append _)
      rw [this]
    · rw [hleft _ rfl]
      have h1 : valOf p.st.map k = none := (hF.inv.getValue_none).mp hv
      have : p1.getValue k = .ok none := (Inv.getValue_none (p := p1) hF2.inv).mpr (ho3 k hk h1)
      rw [this]
      rfl

/-- C28. In a document without arrays of tables, after any lines, faulty ones too, and a header that is in order: of the lines below it exactly the values are reported
as a `DuplicateKey` whose key had a value (or a header) before, in the order of the text, and exactly the dates and times that do not exist; no header is. -/
theorem C28_section {pre sec : List (Str × ET)} {nl w1 : Str} {t : Table} {w2 : Str} {c : Option Str} (h : DocTaken (pre ++ (nl, .table w1 (.std t) w2 c) :: sec))
    (hne : pre ≠ []) (hn : hasArrayTable pre = false) (hb : ∀ l ∈ sec, l.2.below) {p p1 : Parser} {r r1 : ParseResult} (hp : Parser.new.parse (linesText pre) = .ok (p, r))
    (hp1 : Parser.new.parse (linesText (pre ++ [(nl, .table w1 (.std t) w2 c)])) = .ok (p1, r1)) (hr : ¬ p.refuses (t.keys.map (·.key))) :
    ∃ p' r' seen D, Parser.new.parse (linesText (pre ++ (nl, .table w1 (.std t) w2 c) :: sec)) = .ok (p', r') ∧ r'.errs = r.errs ++ D ∧
      (∀ k, k ∈ seen ↔ p1.getValue k ≠ .ok none) ∧
      D.filterMap ParseError.dup? = repeats seen ((sectionValues (tableKey (t.keys.map (·.key))) sec).map fun e => (e.1, .val e.2)) ∧
      D.filterMap ParseError.date? = ((sectionValues (tableKey (t.keys.map (·.key))) sec).map fun e => (e.1, .val e.2)).filterMap badDate ∧
      ∀ e ∈ D, e.table? = none := by
  obtain ⟨hF, ⟨es0, he⟩, hre, ht, n1, n2⟩ := before_header h hne hn hp
  have hT : ¬ Turned p.st.map p.st.heap t.names := fun hx => hr ((refuses_iff hF.inv n1 n2).mpr hx)
  have hF1 := hF.lines (nlCount nl)
  have hkl : ((p.st.lines (nlCount nl)).pushKs (t.keys.map (·.key))).keychain.length = t.keys.length := by simp [PState.pushKs, hF1.kc]
  have hwt : (ET.table w1 (.std t) w2 c).wf := h.wf.lines (nl, .table w1 (.std t) w2 c) (by simp)
  have h1 : DocTaken (pre ++ [(nl, .table w1 (.std t) w2 c)]) := by
    have : DocTaken ((pre ++ [(nl, .table w1 (.std t) w2 c)]) ++ sec) := by simpa using h
    exact this.left (by simp)
  rw [parse_fwd h1, linesEff_app pre he] at hp1
  rcases hF1.next hwt trivial with ⟨_, y, hy⟩ | ⟨_, s1, q1, hF2⟩
  · rw [linesEff, hy] at hp1; simp [Out.bind] at hp1
  · have q1' : TableType.eff (.std t) (p.st.lines (nlCount nl)) = .ok s1 := q1
    rw [TableType.eff] at q1'
    obtain ⟨x, hx, q2⟩ : ∃ x, stdTableAct t ((p.st.lines (nlCount nl)).pushKs (t.keys.map (·.key))) = .ok x ∧ x.1 = s1 := by
      cases hs : stdTableAct t ((p.st.lines (nlCount nl)).pushKs (t.keys.map (·.key))) with
      | panic y => rw [hs] at q1'; simp [Out.bind] at q1'
      | fuel => rw [hs] at q1'; simp [Out.bind] at q1'
      | ok x => rw [hs] at q1'; simp [Out.bind] at q1'; exact ⟨x, rfl, q1'⟩
    obtain ⟨_, _, _, o4⟩ := stdTableAct_opens (st := (p.st.lines (nlCount nl)).pushKs (t.keys.map (·.key))) ht (by rw [hkl]; exact Nat.le_refl _) (hF1.pop _) hT hx
    have o6 := ((stdTableAct_turned (st := (p.st.lines (nlCount nl)).pushKs (t.keys.map (·.key))) ht (by rw [hkl]; exact Nat.le_refl _) (hF1.pop _)).2 hT x hx).1
    rw [q2] at o4 o6
    have ho6 : s1.errors = p.st.errors := o6
    have hws : ∀ l ∈ sec, l.2.wf := fun l hl => h.wf.lines l (by simp [hl])
    obtain ⟨st', ns, a1, a2, a3⟩ := hF2.section sec o4 hws hb
    obtain ⟨seen, hseen⟩ := Seen.exists s1.map
    obtain ⟨D, d1, d2, d3, d4, d5, d6⟩ := hF2.section_issues sec o4 hseen hws hb a1
    have hpa := parse_fwd h
    rw [linesEff_app pre he, linesEff, q1, Out.bind, a1] at hpa
    simp only [Out.bind] at hpa
    rw [linesEff, q1] at hp1
    simp [Out.bind, linesEff] at hp1
    have hst : p1.st = s1 := by rw [← hp1.1]
    refine ⟨_, _, seen, D, hpa, ?_, fun k => ?_, d2, d3, d5⟩
    · rw [hre, ← ho6, ← d1]
      split
      · rfl
      next h => simp at h; simp [ParseResult.errs, h]
    · rw [← hseen k, ← hst, ne_eq, ne_eq, Inv.getValue_none (by rw [hst]; exact hF2.inv)]

/-- The hypotheses of `C32_section` are met, after an array below a header that is not in order: its element is at `a[0]`. A table `a` takes the pair `x`. -/
example : linesText (turnedPre ++ (lit% "\n", .table [] (.std ⟨[⟨⟨[], []⟩, lit% "a"⟩]⟩) [] none) :: turnedSec) = lit% "[t]\n[t]\na = [1]\n[a]\nx = 2" ∧
    DocTaken (turnedPre ++ (lit% "\n", .table [] (.std ⟨[⟨⟨[], []⟩, lit% "a"⟩]⟩) [] none) :: turnedSec) ∧ hasArrayTable turnedPre = false ∧ (∀ l ∈ turnedSec, l.2.below) ∧
    (sectionValues (lit% "a") turnedSec).map (fun e => (e.1, e.2.value)) = [(lit% "a.x", .int (lit% "2"))] ∧
    ∃ p, Parser.new.parse (linesText turnedPre) = .ok (p, .fullError [.invalidTable (lit% "t") 2 0 [(lit% "a", .arr [.int (lit% "1")])]]) ∧
      ¬ p.refuses [lit% "a"] ∧ ¬ p.barred [lit% "a"] ∧ p.getValue (lit% "a[0]") = .ok (some (.int (lit% "1"))) ∧ p.getValue (lit% "a.x") = .ok none := by
  refine ⟨by decide +kernel, DocStrict.taken ?_, rfl, by simp [turnedSec, ET.below], by decide +kernel, ?_⟩
  · have i1 : IntegerText (lit% "1") := (lang_integer _).mp (Re.find_some (r := Rx.integer) (s := lit% "1") (m := lit% "1") (t := []) (by decide +kernel)).2
    have i2 : IntegerText (lit% "2") := (lang_integer _).mp (Re.find_some (r := Rx.integer) (s := lit% "2") (m := lit% "2") (t := []) (by decide +kernel)).2
    have ks : ∀ k ∈ [lit% "a", lit% "x", lit% "t"], KeyWf k := by
      intro k hk
      left
      simp only [List.mem_cons, List.not_mem_nil, or_false] at hk
      rcases hk with rfl | rfl | rfl <;> exact ⟨by simp, by decide⟩
    have s0 : Spaces [] := .nil
    simp only [List.mem_cons, List.not_mem_nil, or_false, forall_eq_or_imp, forall_eq] at ks
    simp [turnedPre, turnedSec, DocStrict, LinesStrict, ET.strict, TableType.strict, TableType.table, VT.strict, Elems.strict, Scalar.strict, Apart, SepWf, Gap, CommentWf, WSSep.wf, Blank,
      i1, i2, s0, ks]
  · obtain ⟨p, hp, h1, h2, h3, l, h4, h5⟩ : ∃ p, Parser.new.parse (linesText turnedPre) = .ok (p, .fullError [.invalidTable (lit% "t") 2 0 [(lit% "a", .arr [.int (lit% "1")])]]) ∧
      p.getValue (lit% "a") = .ok none ∧ p.getValue (lit% "a[0]") = .ok (some (.int (lit% "1"))) ∧ p.getValue (lit% "a.x") = .ok none ∧
      ∃ l, p.getChildren (tableKey []) = some (.keys l) ∧ lit% "a" ∉ l := by
      obtain ⟨p, hp, h1, h2, h3, h4⟩ : ∃ p, Parser.new.parse (linesText turnedPre) = .ok (p, .fullError [.invalidTable (lit% "t") 2 0 [(lit% "a", .arr [.int (lit% "1")])]]) ∧
        p.getValue (lit% "a") = .ok none ∧ p.getValue (lit% "a[0]") = .ok (some (.int (lit% "1"))) ∧ p.getValue (lit% "a.x") = .ok none ∧
        p.getChildren [] = some (.keys [lit% "t"]) := Out.wit (by decide +kernel)
      exact ⟨p, hp, h1, h2, h3, _, h4, by decide⟩
    refine ⟨p, hp, ?_, ?_, h2, h3⟩
    · rintro (⟨a, b, g2, g3, g4⟩ | ⟨g2, _⟩ | g2)
      · match a, g3 with
        | [x], g3 =>
          simp at g3; obtain ⟨rfl, _⟩ := g3
          exact Parser.not_filled h1 g4
        | x :: y :: a, g3 => simp at g3
      · exact g2 rfl
      · exact g2 h1
    · rintro ⟨_, ⟨g, _⟩ | ⟨_, _, g⟩⟩
      · exact g rfl
      · rw [Parser.blocked, h4] at g
        exact h5 g.1

/-- `x = 2`, `x = 3`. -/
def twiceSec : List (Str × ET) :=
  [(lit% "\n", .kv [] (lit% "x") ⟨lit% " ", lit% " "⟩ (.leaf (.int (lit% "2"))) [] none), (lit% "\n", .kv [] (lit% "x") ⟨lit% " ", lit% " "⟩ (.leaf (.int (lit% "3"))) [] none)]

/-- The hypotheses of `C28_section` are met, after an array below a header that is not in order, and one pair is reported. -/
example : linesText (turnedPre ++ (lit% "\n", .table [] (.std ⟨[⟨⟨[], []⟩, lit% "a"⟩]⟩) [] none) :: twiceSec) = lit% "[t]\n[t]\na = [1]\n[a]\nx = 2\nx = 3" ∧
    DocTaken (turnedPre ++ (lit% "\n", .table [] (.std ⟨[⟨⟨[], []⟩, lit% "a"⟩]⟩) [] none) :: twiceSec) ∧ turnedPre ≠ [] ∧ hasArrayTable turnedPre = false ∧ (∀ l ∈ twiceSec, l.2.below) ∧
    repeats [] ((sectionValues (tableKey [lit% "a"]) twiceSec).map fun e => (e.1, .val e.2)) = [(lit% "a.x", .int (lit% "3"))] ∧
    (∃ p, Parser.new.parse (linesText turnedPre) = .ok (p, .fullError [.invalidTable (lit% "t") 2 0 [(lit% "a", .arr [.int (lit% "1")])]]) ∧ ¬ p.refuses [lit% "a"]) ∧
    ∃ p1 r1, Parser.new.parse (linesText (turnedPre ++ [(lit% "\n", .table [] (.std ⟨[⟨⟨[], []⟩, lit% "a"⟩]⟩) [] none)])) = .ok (p1, r1) ∧ p1.getValue (lit% "a.x") = .ok none := by
  refine ⟨by decide +kernel, DocStrict.taken ?_, by simp [turnedPre], rfl, by simp [twiceSec, ET.below], by decide +kernel, ?_, ?_⟩
  · have i1 : IntegerText (lit% "1") := (lang_integer _).mp (Re.find_some (r := Rx.integer) (s := lit% "1") (m := lit% "1") (t := []) (by decide +kernel)).2
    have i2 : IntegerText (lit% "2") := (lang_integer _).mp (Re.find_some (r := Rx.integer) (s := lit% "2") (m := lit% "2") (t := []) (by decide +kernel)).2
    have i3 : IntegerText (lit% "3") := (lang_integer _).mp (Re.find_some (r := Rx.integer) (s := lit% "3") (m := lit% "3") (t := []) (by decide +kernel)).2
    have ks : ∀ k ∈ [lit% "a", lit% "x", lit% "t"], KeyWf k := by
      intro k hk
      left
      simp only [List.mem_cons, List.not_mem_nil, or_false] at hk
      rcases hk with rfl | rfl | rfl <;> exact ⟨by simp, by decide⟩
    have s0 : Spaces [] := .nil
    simp only [List.mem_cons, List.not_mem_nil, or_false, forall_eq_or_imp, forall_eq] at ks
    simp [turnedPre, twiceSec, DocStrict, LinesStrict, ET.strict, TableType.strict, TableType.table, VT.strict, Elems.strict, Scalar.strict, Apart, SepWf, Gap, CommentWf, WSSep.wf, Blank,
      i1, i2, i3, s0, ks]
  · obtain ⟨p, hp, h1⟩ : ∃ p, Parser.new.parse (linesText turnedPre) = .ok (p, .fullError [.invalidTable (lit% "t") 2 0 [(lit% "a", .arr [.int (lit% "1")])]]) ∧
      p.getValue (lit% "a") = .ok none := Out.wit (by decide +kernel)
    refine ⟨p, hp, ?_⟩
    rintro (⟨a, b, g2, g3, g4⟩ | ⟨g2, _⟩ | g2)
    · match a, g3 with
      | [x], g3 =>
        simp at g3; obtain ⟨rfl, _⟩ := g3
        exact Parser.not_filled h1 g4
      | x :: y :: a, g3 => simp at g3
    · exact g2 rfl
    · exact g2 h1
  · obtain ⟨p, hp, h1⟩ : ∃ p, Parser.new.parse (linesText (turnedPre ++ [(lit% "\n", .table [] (.std ⟨[⟨⟨[], []⟩, lit% "a"⟩]⟩) [] none)])) =
      .ok (p, .fullError [.invalidTable (lit% "t") 2 0 [(lit% "a", .arr [.int (lit% "1")])]]) ∧ p.getValue (lit% "a.x") = .ok none := Out.wit (by decide +kernel)
    exact ⟨p, _, hp, h1⟩

end Tomllib
