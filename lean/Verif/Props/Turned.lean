import Verif.Lemmas.Turned
import Verif.Props.Wall
/-!
# Table headers that are not in order, whatever comes before: C45

`Parser.refuses` (Spec/Wall.lean) says it of a header by what the parser answers that has read the lines before. These may hold arrays below other such headers, whose
elements are entered all the same.
-/

namespace Tomllib

/-- The state after the lines before a header, which is not a panic. -/
theorem before_header {pre sec : List (Str × ET)} {nl w1 : Str} {t : Table} {w2 : Str} {c : Option Str} (h : DocTaken (pre ++ (nl, .table w1 (.std t) w2 c) :: sec))
    (hne : pre ≠ []) (hn : hasArrayTable pre = false) {p : Parser} {r : ParseResult} (hp : Parser.new.parse (linesText pre) = .ok (p, r)) :
    Flow p.st ∧ (∃ es, linesEff pre PState.new = .ok (p.st, es)) ∧ r.errs = p.st.errors ∧ (TableType.std t).wf ∧ NamesWf t.names ∧ t.names ≠ [] := by
  have hd : DocTaken pre := DocTaken.left h hne
  have hw := h.wf.lines
  have ht : (TableType.std t).wf := (hw (nl, .table w1 (.std t) w2 c) (by simp)).2.1
  have hk : t.keys ≠ [] := ht.1
  have he : linesEff pre PState.new = _ := (hd.parsed hp).1.eff
  refine ⟨?_, ⟨_, he⟩, ?_, ht, Table.namesWf ht.2, by simpa [Table.names] using hk⟩
  · rcases Flow.run Flow.new hd.wf.lines (plain_of hn) with ⟨⟨x, hx⟩, _⟩ | ⟨st', es, g1, g2⟩
    · rw [he] at hx; simp at hx
    · rw [he] at g1
      simp at g1
      rw [g1.1]; exact g2
  · rw [parse_fwd hd, he] at hp
    simp [Out.bind] at hp
    rw [← hp.2]
    split
    next h => simp [ParseResult.errs, h]
    · rfl

/-- C45. In a document without arrays of tables, after any lines: a header that is not in order is reported exactly with its key, and with the pairs below it up to the next header
(the last value for each name, up to the first date that does not exist; these are reported on their own). Nothing else changes: every key has the value it had, and the
children it had. The lines below must hold no array. -/
theorem C45_section {pre sec : List (Str × ET)} {nl w1 : Str} {t : Table} {w2 : Str} {c : Option Str} (h : DocTaken (pre ++ (nl, .table w1 (.std t) w2 c) :: sec))
    (hne : pre ≠ []) (hn : hasArrayTable pre = false) (hb : ∀ l ∈ sec, l.2.bare) {p : Parser} {r : ParseResult} (hp : Parser.new.parse (linesText pre) = .ok (p, r))
    (hr : p.refuses (t.keys.map (·.key))) (hbar : ¬ p.barred (t.keys.map (·.key))) :
    ∃ p' r' n m D, Parser.new.parse (linesText (pre ++ (nl, .table w1 (.std t) w2 c) :: sec)) = .ok (p', r') ∧ r'.whole ∧ p'.leftover = [] ∧
      (∀ k, p'.getValue k = p.getValue k) ∧ (∀ k, p'.getChildren k = p.getChildren k) ∧
      r'.errs = r.errs ++ .invalidTable (tableKey (t.keys.map (·.key))) n 0 m :: D ∧ (∀ x, m.get? x = lastGiven x (pairsUpTo (sectionTold sec))) ∧
      (∀ e ∈ D, e.date? ≠ none) ∧ D.filterMap ParseError.date? = sectionDates sec := by
  obtain ⟨hF, ⟨es0, he⟩, hre, ht, n1, n2⟩ := before_header h hne hn hp
  have hT : Turned p.st.map p.st.heap t.names := (refuses_iff hF.inv n1 n2).mp hr
  have hB : ¬ Barred p.st.map p.st.heap t.names := fun hx => hbar ((barred_iff hF.inv n1 n2).mpr hx)
  have hF1 := hF.lines (nlCount nl)
  have hkl : ((p.st.lines (nlCount nl)).pushKs (t.keys.map (·.key))).keychain.length = t.keys.length := by simp [PState.pushKs, hF1.kc]
  have hch := Turned.kids hB
  have hact := (stdTableAct_turned (st := (p.st.lines (nlCount nl)).pushKs (t.keys.map (·.key))) ht (by rw [hkl]; exact Nat.le_refl _) (hF1.pop _)).1 hT hch
  have heff : ∃ s1, ET.eff (.table w1 (.std t) w2 c) (p.st.lines (nlCount nl)) = .ok s1 ∧ Lost p.st.errors (nkey t.names) (p.st.lines (nlCount nl)).lineCount [] [] s1 ∧ s1.keychain = [] ∧
      s1.map = p.st.map ∧ s1.heap = p.st.heap := by
    have he : ET.eff (.table w1 (.std t) w2 c) (p.st.lines (nlCount nl)) = TableType.eff (.std t) (p.st.lines (nlCount nl)) := rfl
    rw [TableType.eff, hact] at he
    have hi := (ET.table w1 (.std t) w2 c).eff_all hF1.inv
    rw [he] at hi
    exact ⟨_, he, ⟨hi, rfl, rfl, rfl, rfl, by simp⟩, by simp [PState.pushKs, PState.lines, hF.kc], rfl, rfl⟩
  obtain ⟨s1, q1, q2, q3, q4, q5⟩ := heff
  have hws : ∀ l ∈ sec, l.2.wf := fun l hl => h.wf.lines l (by simp [hl])
  obtain ⟨st', ns, m, D, a1, a2, a3, a4, ⟨x, a5⟩, a6, a7⟩ := q2.run sec q3 hws hb
  have hpa := parse_fwd h
  rw [linesEff_app pre he, linesEff, q1, Out.bind, a1] at hpa
  have hen : st'.errors ≠ [] := by rw [a2.errs]; simp
  simp only [Out.bind, if_pos hen] at hpa
  refine ⟨_, _, (p.st.lines (nlCount nl)).lineCount, m, D, hpa, .inr ⟨_, rfl⟩, rfl, ?_, ?_, ?_, ?_, a2.dates, ?_⟩
  · exact getValue_more hF.inv a2.inv (a4.trans q4) (x := x) (by rw [a5, q5])
  · exact getChildren_more (a4.trans q4)
  · show st'.errors = _
    rw [hre, a2.errs]; rfl
  · intro k
    have h1 : m = (tell [] false (sectionTold sec)).1 := by
      have := congrArg Prod.fst a6
      simpa using this
    rw [h1, tell_get, show SMap.get? ([] : SMap Value) k = none from rfl, Option.or_none]
  · rw [a7]; simp

/-- C45. A header that is in order (and not a panic, C30) is not reported. -/
theorem C45_in_order {pre : List (Str × ET)} {nl w1 : Str} {t : Table} {w2 : Str} {c : Option Str} (h : DocTaken (pre ++ [(nl, .table w1 (.std t) w2 c)]))
    (hne : pre ≠ []) (hn : hasArrayTable pre = false) {p p' : Parser} {r r' : ParseResult} (hp : Parser.new.parse (linesText pre) = .ok (p, r))
    (hr : ¬ p.refuses (t.keys.map (·.key))) (hp' : Parser.new.parse (linesText (pre ++ [(nl, .table w1 (.std t) w2 c)])) = .ok (p', r')) : r'.errs = r.errs := by
  obtain ⟨hF, ⟨es0, he⟩, hre, ht, n1, n2⟩ := before_header h hne hn hp
  have hT : ¬ Turned p.st.map p.st.heap t.names := fun hx => hr ((refuses_iff hF.inv n1 n2).mpr hx)
  have hF1 := hF.lines (nlCount nl)
  have hkl : ((p.st.lines (nlCount nl)).pushKs (t.keys.map (·.key))).keychain.length = t.keys.length := by simp [PState.pushKs, hF1.kc]
  have hact := (stdTableAct_turned (st := (p.st.lines (nlCount nl)).pushKs (t.keys.map (·.key))) ht (by rw [hkl]; exact Nat.le_refl _) (hF1.pop _)).2 hT
  rw [parse_fwd h, linesEff_app pre he] at hp'
  cases hs : stdTableAct t ((p.st.lines (nlCount nl)).pushKs (t.keys.map (·.key))) with
  | panic x => rw [linesEff, ET.eff, TableType.eff, hs] at hp'; simp [Out.bind] at hp'
  | fuel => rw [linesEff, ET.eff, TableType.eff, hs] at hp'; simp [Out.bind] at hp'
  | ok x =>
    have := (hact x hs).1
    rw [linesEff, ET.eff, TableType.eff, hs] at hp'
    simp [Out.bind, linesEff] at hp'
    rw [← hp'.2, hre]
    have hx : x.1.errors = p.st.errors := this
    rw [hx]
    split
    next h => simp [ParseResult.errs, h]
    · rfl

/-- A table twice, with an array below the second header: an element is entered. -/
def turnedPre : List (Str × ET) :=
  [([], .table [] (.std ⟨[⟨⟨[], []⟩, lit% "t"⟩]⟩) [] none), (lit% "\n", .table [] (.std ⟨[⟨⟨[], []⟩, lit% "t"⟩]⟩) [] none),
    (lit% "\n", .kv [] (lit% "a") ⟨lit% " ", lit% " "⟩ (.arr (.cons (.leaf (.int (lit% "1"))) none [.newlines []] .nil) [.newlines []] [.newlines []]) [] none)]

/-- Then a third time, with a pair. -/
def turnedSec : List (Str × ET) := [(lit% "\n", .kv [] (lit% "x") ⟨lit% " ", lit% " "⟩ (.leaf (.int (lit% "2"))) [] none)]

/-- The hypotheses of `C45_section` are met, after an array below a header that is not in order too. -/
example : linesText (turnedPre ++ (lit% "\n", .table [] (.std ⟨[⟨⟨[], []⟩, lit% "t"⟩]⟩) [] none) :: turnedSec) = lit% "[t]\n[t]\na = [1]\n[t]\nx = 2" ∧
    DocTaken (turnedPre ++ (lit% "\n", .table [] (.std ⟨[⟨⟨[], []⟩, lit% "t"⟩]⟩) [] none) :: turnedSec) ∧ hasArrayTable turnedPre = false ∧ (∀ l ∈ turnedSec, l.2.bare) ∧
    ∃ p, Parser.new.parse (linesText turnedPre) = .ok (p, .fullError [.invalidTable (lit% "t") 2 0 [(lit% "a", .arr [.int (lit% "1")])]]) ∧
      p.refuses [lit% "t"] ∧ ¬ p.barred [lit% "t"] ∧ p.getValue (lit% "a[0]") = .ok (some (.int (lit% "1"))) := by
  refine ⟨by decide +kernel, DocStrict.taken ?_, rfl, by simp [turnedSec, ET.bare, VT.arrayless], ?_⟩
  · have i1 : IntegerText (lit% "1") := (lang_integer _).mp (Re.find_some (r := Rx.integer) (s := lit% "1") (m := lit% "1") (t := []) (by decide +kernel)).2
    have i2 : IntegerText (lit% "2") := (lang_integer _).mp (Re.find_some (r := Rx.integer) (s := lit% "2") (m := lit% "2") (t := []) (by decide +kernel)).2
    have ks : ∀ k ∈ [lit% "a", lit% "x", lit% "t"], KeyWf k := by
      intro k hk
      left
      simp only [List.mem_cons, List.not_mem_nil, or_false] at hk
      rcases hk with rfl | rfl | rfl <;> exact ⟨by simp, by decide⟩
    have s0 : Spaces [] := .nil
    simp only [List.mem_cons, List.not_mem_nil, or_false, forall_eq_or_imp, forall_eq] at ks
    simp [turnedPre, turnedSec, DocStrict, LinesStrict, ET.strict, TableType.strict, TableType.table, VT.strict, Elems.strict, Scalar.strict, Apart, SepWf, Gap, CommentWf, WSSep.wf, Blank,
      i1, i2, s0, ks]
  · obtain ⟨p, hp, h1, h2⟩ : ∃ p, Parser.new.parse (linesText turnedPre) = .ok (p, .fullError [.invalidTable (lit% "t") 2 0 [(lit% "a", .arr [.int (lit% "1")])]]) ∧
      p.getValue (lit% "t") = .panic .tableToVal ∧ p.getValue (lit% "a[0]") = .ok (some (.int (lit% "1"))) := Out.wit (by decide +kernel)
    have h1' : p.getValue (tableKey [lit% "t"]) = .panic .tableToVal := h1
    refine ⟨p, hp, .inr (.inr (by rw [h1']; simp)), ?_, h2⟩
    rintro ⟨_, ⟨h, _⟩ | ⟨h, _⟩⟩
    · exact h rfl
    · rw [h1'] at h; simp at h

/-- A header in order, after an array below one that is not. -/
example : ∃ p p', Parser.new.parse (linesText turnedPre) = .ok (p, .fullError [.invalidTable (lit% "t") 2 0 [(lit% "a", .arr [.int (lit% "1")])]]) ∧ ¬ p.refuses [lit% "a"] ∧
    Parser.new.parse (linesText (turnedPre ++ [(lit% "\n", .table [] (.std ⟨[⟨⟨[], []⟩, lit% "a"⟩]⟩) [] none)])) =
      .ok (p', .fullError [.invalidTable (lit% "t") 2 0 [(lit% "a", .arr [.int (lit% "1")])]]) := by
  obtain ⟨p, hp, h1⟩ : ∃ p, Parser.new.parse (linesText turnedPre) = .ok (p, .fullError [.invalidTable (lit% "t") 2 0 [(lit% "a", .arr [.int (lit% "1")])]]) ∧
    p.getValue (lit% "a") = .ok none := Out.wit (by decide +kernel)
  obtain ⟨p', hp', _⟩ : ∃ p', Parser.new.parse (linesText (turnedPre ++ [(lit% "\n", .table [] (.std ⟨[⟨⟨[], []⟩, lit% "a"⟩]⟩) [] none)])) =
      .ok (p', .fullError [.invalidTable (lit% "t") 2 0 [(lit% "a", .arr [.int (lit% "1")])]]) ∧ p'.leftover = [] := Out.wit (by decide +kernel)
  refine ⟨p, p', hp, ?_, hp'⟩
  rintro (⟨a, b, h2, h3, h4⟩ | ⟨h2, _⟩ | h2)
  · match a, h3 with
    | [x], h3 =>
      simp at h3; obtain ⟨rfl, _⟩ := h3
      exact Parser.not_filled h1 h4
    | x :: y :: a, h3 => simp at h3
  · exact h2 rfl
  · exact h2 h1

end Tomllib
