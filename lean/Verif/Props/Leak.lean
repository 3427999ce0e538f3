import Verif.Lemmas.Leak
import Verif.Lemmas.Reads
import Verif.Props.Turned
/-!
# What the lines below a refused header leave behind: C45

`VT.leaks` and `sectionLeaks` are in Spec/Leak.lean.
-/

namespace Tomllib

/-- C45. In a document without arrays of tables, after any lines, with any lines below: the text is read to the end, a header that is not in order is reported with its
key, after all that was reported before, and every key has the value it had. A key without one has that of the first element of an array below the header which would
have this key if its pair were outside of all tables; so it is exactly the elements of arrays that are entered, and they are entered at the wrong place. -/
theorem C45_leaks {pre sec : List (Str × ET)} {nl w1 : Str} {t : Table} {w2 : Str} {c : Option Str} (h : DocTaken (pre ++ (nl, .table w1 (.std t) w2 c) :: sec))
    (hne : pre ≠ []) (hn : hasArrayTable pre = false) (hb : ∀ l ∈ sec, l.2.below) {p : Parser} {r : ParseResult} (hp : Parser.new.parse (linesText pre) = .ok (p, r))
    (hr : p.refuses (t.keys.map (·.key))) (hbar : ¬ p.barred (t.keys.map (·.key))) :
    ∃ p' r' n E, Parser.new.parse (linesText (pre ++ (nl, .table w1 (.std t) w2 c) :: sec)) = .ok (p', r') ∧ r'.whole ∧ p'.leftover = [] ∧
      r'.errs.map ParseError.lessPairs = r.errs.map ParseError.lessPairs ++ .invalidTable (tableKey (t.keys.map (·.key))) n 0 [] :: E ∧
      ∀ k, p'.getValue k = match p.getValue k with
        | .ok none => .ok ((lookup k (sectionLeaks sec)).map (·.value))
        | x => x := by
  obtain ⟨hF, ⟨es0, he⟩, hre, ht, n1, n2⟩ := before_header h hne hn hp
  have hT : Turned p.st.map p.st.heap t.names := (refuses_iff hF.inv n1 n2).mp hr
  have hB : ¬ Barred p.st.map p.st.heap t.names := fun hx => hbar ((barred_iff hF.inv n1 n2).mpr hx)
  have hF1 := hF.lines (nlCount nl)
  have hkl : ((p.st.lines (nlCount nl)).pushKs (t.keys.map (·.key))).keychain.length = t.keys.length := by simp [PState.pushKs, hF1.kc]
  have hch := Turned.kids hB
  have hact := (stdTableAct_turned (st := (p.st.lines (nlCount nl)).pushKs (t.keys.map (·.key))) ht (by rw [hkl]; exact Nat.le_refl _) (hF1.pop _)).1 hT hch
  have heff : ∃ s1, ET.eff (.table w1 (.std t) w2 c) (p.st.lines (nlCount nl)) = .ok s1 ∧ Muted none [] s1 ∧ s1.keychain = [] ∧
      s1.map = p.st.map ∧ s1.heap = p.st.heap ∧ s1.errors = p.st.errors ++ [.invalidTable (nkey t.names) (p.st.lines (nlCount nl)).lineCount 0 []] := by
    have he : ET.eff (.table w1 (.std t) w2 c) (p.st.lines (nlCount nl)) = TableType.eff (.std t) (p.st.lines (nlCount nl)) := rfl
    rw [TableType.eff, hact] at he
    have hi := (ET.table w1 (.std t) w2 c).eff_all hF1.inv
    rw [he] at hi
    exact ⟨_, he, ⟨⟨Inv.virt hi none, Stack.at (cts := []) (cis := []) (A := []) (b := []) (here := [])
      ⟨.nil, .inr ⟨rfl, rfl, rfl, fun _ => rfl, fun e => absurd rfl e⟩, rfl⟩, fun _ => rfl, rfl⟩, rfl, by simp, fun _ => rfl⟩,
      by simp [PState.pushKs, PState.lines, hF.kc], rfl, rfl, rfl⟩
  obtain ⟨s1, q1, q2, q3, q4, q5, q6⟩ := heff
  have hws : ∀ l ∈ sec, l.2.wf := fun l hl => h.wf.lines l (by simp [hl])
  obtain ⟨st', ns, a1, a2, a3, a4⟩ := q2.run sec q3 hws hb
  have hpa := parse_fwd h
  rw [linesEff_app pre he, linesEff, q1, Out.bind, a1] at hpa
  simp only [Out.bind, if_pos a2.ne] at hpa
  obtain ⟨⟨E, g1, _⟩, _⟩ := linesEff_adds a1
  refine ⟨_, _, (p.st.lines (nlCount nl)).lineCount, E, hpa, .inr ⟨_, rfl⟩, rfl, ?_, ?_⟩
  · show st'.errors.map _ = _
    rw [hre, g1, q6]
    simp [ParseError.lessPairs]; rfl
  · exact getValue_left hF.inv a2.inv (l := sectionLeaks sec) ⟨by obtain ⟨x, hx⟩ := a4.heap; exact ⟨x, by rw [hx, q5]⟩, by
      obtain ⟨al, g1, g2, g3⟩ := a4.val; exact ⟨al, g1, g2, fun x => by rw [g3, q4]⟩⟩

/-- An array, and an inline table with an array and another pair. -/
def leakSec : List (Str × ET) :=
  [(lit% "\n", .kv [] (lit% "a") ⟨lit% " ", lit% " "⟩ (.arr (.cons (.leaf (.int (lit% "1"))) none [.newlines []] .nil) [.newlines []] [.newlines []]) [] none),
    (lit% "\n", .kv [] (lit% "x") ⟨lit% " ", lit% " "⟩ (.itab (.cons (lit% "y") ⟨[], []⟩ (.arr (.cons (.leaf (.int (lit% "2"))) none [.newlines []] .nil) [.newlines []] [.newlines []])
      (some ⟨[], []⟩) [.newlines []] (.cons (lit% "a") ⟨[], []⟩ (.leaf (.int (lit% "1"))) none [.newlines []] .nil)) ⟨[], []⟩) [] none)]

/-- The hypotheses of `C45_leaks` are met, after a first array below a header that is not in order: `a[0]` has its value already, and the second array of that name
leaves nothing; the pair `x.a` leaves nothing; `x.y[0]` gets a value. -/
example : linesText (turnedPre ++ (lit% "\n", .table [] (.std ⟨[⟨⟨[], []⟩, lit% "t"⟩]⟩) [] none) :: leakSec) = lit% "[t]\n[t]\na = [1]\n[t]\na = [1]\nx = {y=[2],a=1}" ∧
    DocTaken (turnedPre ++ (lit% "\n", .table [] (.std ⟨[⟨⟨[], []⟩, lit% "t"⟩]⟩) [] none) :: leakSec) ∧ hasArrayTable turnedPre = false ∧ (∀ l ∈ leakSec, l.2.below) ∧
    (sectionLeaks leakSec).map (fun e => (e.1, e.2.value)) = [(lit% "a[0]", .int (lit% "1")), (lit% "x.y[0]", .int (lit% "2"))] ∧
    ∃ p, Parser.new.parse (linesText turnedPre) = .ok (p, .fullError [.invalidTable (lit% "t") 2 0 [(lit% "a", .arr [.int (lit% "1")])]]) ∧
      p.refuses [lit% "t"] ∧ ¬ p.barred [lit% "t"] ∧ p.getValue (lit% "a[0]") = .ok (some (.int (lit% "1"))) ∧ p.getValue (lit% "x.y[0]") = .ok none := by
  refine ⟨by decide +kernel, DocStrict.taken ?_, rfl, by simp [leakSec, ET.below], by decide +kernel, ?_⟩
  · have i1 : IntegerText (lit% "1") := (lang_integer _).mp (Re.find_some (r := Rx.integer) (s := lit% "1") (m := lit% "1") (t := []) (by decide +kernel)).2
    have i2 : IntegerText (lit% "2") := (lang_integer _).mp (Re.find_some (r := Rx.integer) (s := lit% "2") (m := lit% "2") (t := []) (by decide +kernel)).2
    have ks : ∀ k ∈ [lit% "a", lit% "x", lit% "t", lit% "y"], KeyWf k := by
      intro k hk
      left
      simp only [List.mem_cons, List.not_mem_nil, or_false] at hk
      rcases hk with rfl | rfl | rfl | rfl <;> exact ⟨by simp, by decide⟩
    have s0 : Spaces [] := .nil
    simp only [List.mem_cons, List.not_mem_nil, or_false, forall_eq_or_imp, forall_eq] at ks
    simp [turnedPre, leakSec, DocStrict, LinesStrict, ET.strict, TableType.strict, TableType.table, VT.strict, Elems.strict, Pairs.strict, Scalar.strict, Apart, SepWf, Gap, CommentWf,
      WSSep.wf, Blank, i1, i2, s0, ks]
    intro x
    simp [gapText, CNL.text]
  · obtain ⟨p, hp, h1, h2, h3⟩ : ∃ p, Parser.new.parse (linesText turnedPre) = .ok (p, .fullError [.invalidTable (lit% "t") 2 0 [(lit% "a", .arr [.int (lit% "1")])]]) ∧
      p.getValue (lit% "t") = .panic .tableToVal ∧ p.getValue (lit% "a[0]") = .ok (some (.int (lit% "1"))) ∧ p.getValue (lit% "x.y[0]") = .ok none := Out.wit (by decide +kernel)
    have h1' : p.getValue (tableKey [lit% "t"]) = .panic .tableToVal := h1
    refine ⟨p, hp, .inr (.inr (by rw [h1']; simp)), ?_, h2, h3⟩
    rintro ⟨_, ⟨h, _⟩ | ⟨h, _⟩⟩
    · exact h rfl
    · rw [h1'] at h; simp at h

end Tomllib
