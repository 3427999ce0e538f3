import Verif.Lemmas.Spots
import Verif.Lemmas.Shared
import Verif.Lemmas.TakenStop
import Verif.Lemmas.Reads
import Verif.Lemmas.Witness
import Verif.Props.Taken
import Verif.Props.Report
/-!
# Every error is about a place of the text: C33, C34, C71

For every text, with arrays of tables, headers that are not in order and lines that the library cannot place. Spec/Spots.lean says which places there are.
-/

namespace Tomllib

theorem ParseError.spot_lessPairs (e : ParseError) : e.lessPairs.spot = e.spot := by cases e <;> rfl

theorem map_spot_lessPairs (l : List ParseError) : (l.map ParseError.lessPairs).map ParseError.spot = l.map ParseError.spot := by
  rw [List.map_map, show ParseError.spot ∘ ParseError.lessPairs = ParseError.spot from funext ParseError.spot_lessPairs]

/-- What is reported about the lines that are read, and behind it. -/
theorem read_tells {ls : List (Str × ET)} (hs : DocTaken ls) {i : Str} {p : Parser} {r : ParseResult} (hp : Parser.new.parse i = .ok (p, r))
    (hi : i = linesText ls ++ p.leftover) :
    ∃ a b, r.errs = a ++ b ∧ Tells [] (docSpots 1 ls) (a.map ParseError.spot) ∧ (∀ e ∈ b, e.table? = none ∧ 1 + linesCounted ls ≤ e.line) ∧ (p.leftover = [] → b = []) := by
  obtain ⟨ls', p0, r0, _, _, k1, k2, h0, _⟩ := parse_stop hp
  have := k1.taken.one hs (List.append_cancel_right (k2.symm.trans hi))
  subst this
  obtain ⟨px, r', g1, g2, g3, g4, g5, g6, g7, g8, _, _⟩ := parse_stop_any' PInv.new hs hp hi h0
  have h1 := (linesEff_blames (hs.parsed h0).1.eff).tells
  obtain ⟨_, ⟨m, e1, e2⟩, _⟩ := px.eff_kept g5 g4
  have f1 : (p.st.errors.take p0.st.errors.length).map ParseError.lessPairs = p0.st.errors.map ParseError.lessPairs := by
    rw [List.map_take, e1, List.take_left' (by simp)]
  have f2 : (p.st.errors.drop p0.st.errors.length).map ParseError.lessPairs = m := by
    rw [List.map_drop, e1, List.drop_left' (by simp)]
  refine ⟨p.st.errors.take p0.st.errors.length, p.st.errors.drop p0.st.errors.length, by rw [g7, resultOf_errs, List.take_append_drop], ?_, ?_, ?_⟩
  · have := congrArg (List.map ParseError.spot) f1
    rw [map_spot_lessPairs, map_spot_lessPairs] at this
    rw [this]
    exact h1
  · intro e he'
    have hm : e.lessPairs ∈ m := by rw [← f2]; exact List.mem_map_of_mem he'
    obtain ⟨n1, n2, _⟩ := e2 _ hm
    rw [g8] at n2
    refine ⟨?_, ?_⟩
    · cases e <;> first | rfl | exact n1
    · have hx : e.lessPairs.line = e.line := by cases e <;> rfl
      rwa [hx] at n2
  · intro hl
    rw [hl, List.append_nil] at hi
    subst hi
    rw [hp] at h0
    simp at h0
    rw [← h0.1]
    simp

/-- C71. The errors about the lines of a text that are read are about places in these lines, in their order, each about another one, and with the right line number. Errors
that come after them are about the line at which reading stops; there are none if the text is read to its end. -/
theorem C71_places {ls : List (Str × ET)} (hs : DocTaken ls) {i : Str} {p : Parser} {r : ParseResult} (hp : Parser.new.parse i = .ok (p, r))
    (hi : i = linesText ls ++ p.leftover) :
    ∃ a b, r.errs = a ++ b ∧ (a.map ParseError.spot).Sublist (docSpots 1 ls) ∧ (∀ e ∈ b, e.table? = none ∧ 1 + linesCounted ls ≤ e.line) ∧ (p.leftover = [] → b = []) := by
  obtain ⟨a, b, h1, h2, h3⟩ := read_tells hs hp hi
  obtain ⟨l, g1, g2, _⟩ := h2.added
  rw [List.nil_append] at g1
  exact ⟨a, b, h1, g1 ▸ g2, h3⟩

/-- Assigning to keys reports no error and counts no line. -/
theorem runSets_errors : ∀ {l : List (Str × Value)} {p p' : Parser}, runSets p l = .ok p' → p'.st.errors = p.st.errors ∧ p'.st.lineCount = p.st.lineCount
  | [], p, p', h => by simp [runSets] at h; subst h; exact ⟨rfl, rfl⟩
  | (k, v) :: l, p, p', h => by
    simp only [runSets, Out.bind_eq, Out.bind_ok] at h
    obtain ⟨⟨p1, b⟩, h1, h2⟩ := h
    obtain ⟨a, b⟩ := setValue_errors h1
    obtain ⟨c, d⟩ := runSets_errors h2
    exact ⟨c.trans a, d.trans b⟩

/-- C71. At any time, when a text is read to the end after another: behind the errors there were (as to what they are about) come errors about places of the new text, in
their order, each about another one, and all its dates and times that do not exist. Lines are counted on from `n`, the line at which the text before was left. -/
theorem C71_reading_on {q q1 q2 p : Parser} {t : Str} {r1 r : ParseResult} {l : List (Str × Value)} (h1 : q.parse t = .ok (q1, r1))
    (h2 : runSets q1 l = .ok q2) {ls : List (Str × ET)} (hs : DocTaken ls) (hp : q2.parse (linesText ls) = .ok (p, r)) :
    ∃ n new, (∀ m, r1.line? = some m → n = m) ∧ r.errs.map ParseError.spot = r1.errs.map ParseError.spot ++ new ∧ new.Sublist (docSpots n ls) ∧
      datesOf new = datesOf (docSpots n ls) := by
  obtain ⟨_, k1⟩ := toml_of_parse h1
  obtain ⟨k2, k3⟩ := runSets_errors h2
  rw [parse_fwd_any hs, Out.bind_ok] at hp
  obtain ⟨⟨st, ns⟩, h3, h4⟩ := hp
  simp only [Out.ok.injEq, Prod.mk.injEq] at h4
  obtain ⟨rfl, rfl⟩ := h4
  obtain ⟨new, e1, e2, e3⟩ := (linesEff_blames h3).added
  refine ⟨q2.st.lineCount, new, fun m hm => ?_, ?_, e2, e3⟩
  · rw [k3]
    rw [k1] at hm
    unfold resultOf at hm
    split at hm <;> split at hm <;> simp [ParseResult.line?] at hm <;> exact hm
  · rw [k1, resultOf_errs, ← k2, ← e1]
    congr 1
    by_cases he : st.errors = [] <;> simp [he, ParseResult.errs]

theorem docSpots_append : ∀ (a b : List (Str × ET)) (n : Nat), docSpots n (a ++ b) = docSpots n a ++ docSpots (n + linesCounted a) b
  | [], b, n => by simp [docSpots, linesCounted]
  | (nl, e) :: a, b, n => by
    have := docSpots_append a b (n + nlCount nl + e.counted)
    simp only [List.cons_append, docSpots, linesCounted, this, List.append_assoc]
    congr 3
    omega

/-- Reading and assigning in turn reports what is wrong in the lines of all the texts. -/
theorem runRounds_blames : ∀ {l : List (List (Str × ET) × List (Str × Value))} {x y : Parser × ParseResult}, (∀ d ∈ l, DocTaken d.1) → x.2.errs = x.1.st.errors →
    runRounds x (l.map fun d => (linesText d.1, d.2)) = .ok y →
    Blames (docSpots x.1.st.lineCount (l.flatMap (·.1))) x.1.st y.1.st ∧ y.2.errs = y.1.st.errors ∧ y.1.st.lineCount = x.1.st.lineCount + linesCounted (l.flatMap (·.1))
  | [], x, y, _, hx, h => by
    simp [runRounds] at h
    subst h
    exact ⟨.same rfl, hx, by simp [linesCounted]⟩
  | (ls, l) :: ds, x, y, hd, hx, h => by
    simp only [List.map_cons, runRounds, Out.bind_eq, Out.bind_ok] at h
    obtain ⟨⟨p, r⟩, h1, p', h2, h3⟩ := h
    rw [parse_fwd_any (hd (ls, l) (by simp) : DocTaken ls), Out.bind_ok] at h1
    obtain ⟨⟨st, ns⟩, g1, g2⟩ := h1
    simp only [Out.ok.injEq, Prod.mk.injEq] at g2
    obtain ⟨rfl, rfl⟩ := g2
    obtain ⟨k1, k2⟩ := runSets_errors h2
    dsimp only at k1 k2
    have hl := linesEff_line g1
    obtain ⟨a1, a2, a3⟩ := runRounds_blames (fun d hd' => hd d (by simp [hd'])) (by
      dsimp only
      rw [k1]
      by_cases he : st.errors = [] <;> simp [he, ParseResult.errs]) h3
    dsimp only at a1 a3
    rw [k2, hl] at a1 a3
    refine ⟨?_, a2, ?_⟩
    · rw [List.flatMap_cons, docSpots_append]
      exact ((linesEff_blames g1).congr rfl k1).trans a1
    · rw [a3, List.flatMap_cons, linesCounted_append]
      omega

/-- C71. Texts are read one after the other, each to its end, and anything is assigned in between. All that is reported is about places of the lines of all the texts, in
their order, each about another one, with the line counted through all the texts from 1; and all dates and times that do not exist are among it. -/
theorem C71_in_turn {l : List (List (Str × ET) × List (Str × Value))} (hd : ∀ d ∈ l, DocTaken d.1) {p : Parser} {r : ParseResult}
    (hp : runRounds (Parser.new, .full) (l.map fun d => (linesText d.1, d.2)) = .ok (p, r)) :
    (r.errs.map ParseError.spot).Sublist (docSpots 1 (l.flatMap (·.1))) ∧ datesOf (r.errs.map ParseError.spot) = datesOf (docSpots 1 (l.flatMap (·.1))) := by
  obtain ⟨h1, h2, _⟩ := runRounds_blames hd rfl hp
  obtain ⟨new, e1, e2, e3⟩ := h1.added
  have : Parser.new.st.errors.map ParseError.spot = [] := rfl
  rw [this, List.nil_append] at e1
  rw [h2, e1]
  exact ⟨e2, e3⟩

/-- C34, for every text: the dates and times that do not exist are all reported, with their text and line, in the order of the text, and nothing else is reported as such. -/
theorem C34_every_text {ls : List (Str × ET)} (hs : DocTaken ls) {p : Parser} {r : ParseResult} (hp : Parser.new.parse (linesText ls) = .ok (p, r)) :
    datesOf (r.errs.map ParseError.spot) = datesOf (docSpots 1 ls) := by
  obtain ⟨hP, _⟩ := hs.parsed hp
  obtain ⟨l, h1, _, h3⟩ := (linesEff_blames hP.eff).added
  rw [hP.res, resultOf_errs, h1]
  exact h3

/-- C33, for every text: if it is reported as `Full`, all arrays are of one type (and all dates and times exist). -/
theorem C33_never_full {ls : List (Str × ET)} (hs : DocTaken ls) {p : Parser} (hp : Parser.new.parse (linesText ls) = .ok (p, .full)) :
    ∀ x ∈ docSpots 1 ls, x.1 ≠ .mixed ∧ ∀ s, x.1 ≠ .date s := by
  obtain ⟨hP, _⟩ := hs.parsed hp
  have hb := linesEff_blames hP.eff
  have he : p.st.errors = [] := by rw [← resultOf_errs Parser.new.leftover p.st p.leftover, ← hP.res]; rfl
  refine fun x hx => ⟨(hb.clean he).2 x hx, fun s hx' => ?_⟩
  have h3 := C34_every_text hs hp
  have : (s, x.2) ∈ datesOf (docSpots 1 ls) := List.mem_filterMap.mpr ⟨x, hx, by rw [hx']⟩
  rw [← h3] at this
  simp [ParseResult.errs, datesOf] at this

/-- C33, for every text, wherever reading stops: the errors about the lines that are read come in two parts. All of the first are `MixedArray` errors, none of the second is. Behind
them are errors about the line at which reading stops; there are none if the text is read to its end. -/
theorem C33_first {ls : List (Str × ET)} (hs : DocTaken ls) {i : Str} {p : Parser} {r : ParseResult} (hp : Parser.new.parse i = .ok (p, r))
    (hi : i = linesText ls ++ p.leftover) :
    ∃ a b c, r.errs = a ++ b ++ c ∧ (∀ e ∈ a, e.spot.1 = .mixed) ∧ (∀ e ∈ b, e.spot.1 ≠ .mixed) ∧ (∀ e ∈ c, 1 + linesCounted ls ≤ e.line) ∧ (p.leftover = [] → c = []) := by
  obtain ⟨l, c, h1, h2, h3, h4⟩ := read_tells hs hp hi
  obtain ⟨a', b', g1, g2, g3⟩ := h2.first (by simp)
  obtain ⟨a, b, rfl, ha, hb⟩ := List.map_eq_append_iff.mp g1
  subst ha hb
  exact ⟨a, b, c, h1, fun e he => g2 _ (List.mem_map_of_mem he), fun e he => g3 _ (List.mem_map_of_mem he), fun e he => (h3 e he).2, h4⟩

/-- C33, for every text, about the first element of an array that is of another type than the one before it: it is reported, as the first of all, unless something before it in the
text (`s1`) is reported. If so, no `MixedArray` error is reported about the lines that are read. -/
theorem C33_reported {ls : List (Str × ET)} (hs : DocTaken ls) {i : Str} {p : Parser} {r : ParseResult} (hp : Parser.new.parse i = .ok (p, r))
    (hi : i = linesText ls ++ p.leftover) {s1 s2 : List (Spot × Nat)} {n : Nat} (hd : docSpots 1 ls = s1 ++ (.mixed, n) :: s2) (h1 : ∀ x ∈ s1, x.1 ≠ .mixed) :
    ∃ a b c, r.errs = a ++ b ++ c ∧ (a.map ParseError.spot).Sublist s1 ∧ (b.map ParseError.spot).Sublist ((.mixed, n) :: s2) ∧
      (a = [] → (b.map ParseError.spot).head? = some (.mixed, n)) ∧ (a ≠ [] → ∀ e ∈ b, e.spot.1 ≠ .mixed) ∧
      (∀ e ∈ c, 1 + linesCounted ls ≤ e.line) ∧ (p.leftover = [] → c = []) := by
  obtain ⟨l, c, g0, h2, h3, h4⟩ := read_tells hs hp hi
  obtain ⟨a', b', g1, g2, g3, g4, g5⟩ := h2.reached hd h1 rfl
  obtain ⟨a, b, rfl, ha, hb⟩ := List.map_eq_append_iff.mp (g1.trans (List.nil_append _))
  subst ha hb
  exact ⟨a, b, c, g0, g2, g3, fun e => g4 rfl (by simp [e]), fun e x hx => g5 (by simpa using e) _ (List.mem_map_of_mem hx), fun e he => (h3 e he).2, h4⟩

/-- C33, at any time: after an error of another kind, no `MixedArray` error is reported about any text that is read to its end, whatever is assigned in between. -/
theorem C33_never_again {q q1 q2 p : Parser} {t : Str} {r1 r : ParseResult} {l : List (Str × Value)} (h1 : q.parse t = .ok (q1, r1))
    (h2 : runSets q1 l = .ok q2) {ls : List (Str × ET)} (hs : DocTaken ls) (hp : q2.parse (linesText ls) = .ok (p, r)) {e : ParseError}
    (he : r1.errs.getLast? = some e) (hm : e.spot.1 ≠ .mixed) :
    ∃ new, r.errs.map ParseError.spot = r1.errs.map ParseError.spot ++ new ∧ ∀ x ∈ new, x.1 ≠ .mixed := by
  obtain ⟨_, k1⟩ := toml_of_parse h1
  obtain ⟨k2, _⟩ := runSets_errors h2
  rw [parse_fwd_any hs, Out.bind_ok] at hp
  obtain ⟨⟨st, ns⟩, h3, h4⟩ := hp
  simp only [Out.ok.injEq, Prod.mk.injEq] at h4
  obtain ⟨rfl, rfl⟩ := h4
  have hq : q2.st.errors = r1.errs := by rw [k1, resultOf_errs, ← k2]
  obtain ⟨new, e1, e2⟩ := (linesEff_blames h3).tells.other (y := e.spot) (by rw [hq, List.getLast?_map, he]; rfl) hm
  refine ⟨new, ?_, e2⟩
  rw [← hq, ← e1]
  congr 1
  by_cases he : st.errors = [] <;> simp [he, ParseResult.errs]

/-! ### The hypotheses are met -/

/-- The places in the document of C59. -/
example : DocTaken faulty ∧ linesText faulty = lit% "[[fruit]]\na=[1,true]\n[fruit.p]\nd=2015-02-30\nd=2\n[fruit]\nx={u=3}\ny=4\n[[fruit]]\na=5\n[fruit.a]\nd=2015-02-31\nz=6\n[fruit.p]\nz=7" ∧
    (docSpots 1 faulty).take 7 = [(.header, 1), (.value (.int (lit% "1")), 2), (.mixed, 2), (.value (.bool true), 2), (.value (.arr [.int (lit% "1"), .bool true]), 2), (.header, 3),
      (.date (lit% "2015-02-30"), 4)] ∧
    datesOf (docSpots 1 faulty) = [(lit% "2015-02-30", 4), (lit% "2015-02-31", 12)] := ⟨faulty_strict.taken, rfl, by decide +kernel, by decide +kernel⟩

/-- Reading goes on after a line that the library accepts by mistake (`[a]` after `[[a]]`). -/
example : (Parser.new.parse (lit% "[[a]]\nx = [1, 'x', 2]\n[a]\n[a]\ny = 2015-02-30\nx = {y = 1, y = 2}\n[[a]]\nx = \"\"\"\n\"\"\"\nx = 3")).map' (·.2) =
    .ok (.fullError [.mixedArray (lit% "a[0].x") 2 0, .invalidTable (lit% "a") 4 0 [], .invalidDateTime (lit% "y") 5 0 (lit% "2015-02-30"), .invalidTable (lit% "a[0]") 7 0 [],
      .duplicateKey (lit% "a[0].x") 9 0 (.str (lit% "\n") .mlBasic), .duplicateKey (lit% "a[0].x") 10 0 (.int (lit% "3"))]) := by decide +kernel

/-- A second text, after an assignment: its lines are counted on. -/
example : ∃ q, Parser.new.parse (lit% "a = 1\na = 2\n?") = .ok (q, .partialError [] 3 0 [.duplicateKey (lit% "a") 2 0 (.int (lit% "2"))]) ∧
    ∃ q', q.setValue (lit% "a") (.int (lit% "7")) = .ok (q', true) ∧ ∃ p, q'.parse (lit% "\na = 3\nb = 2015-02-30") =
      .ok (p, .fullError [.duplicateKey (lit% "a") 2 0 (.int (lit% "2")), .duplicateKey (lit% "a") 4 0 (.int (lit% "3")), .invalidDateTime (lit% "b") 5 0 (lit% "2015-02-30")]) ∧
      p.leftover = [] := by decide +kernel

/-- Two texts without anything wrong in the first, and an assignment in between: lines are counted through both. -/
example : (runRounds (Parser.new, .full) [(lit% "a = 1\nb = 2", [(lit% "a", .int (lit% "5"))]), (lit% "\na = 3\nb = 2015-02-30", [])]).map' (·.2) =
    .ok (.fullError [.duplicateKey (lit% "a") 3 0 (.int (lit% "3")), .invalidDateTime (lit% "b") 4 0 (lit% "2015-02-30"), .duplicateKey (lit% "b") 4 0 (.dt ⟨⟨lit% "2015", lit% "02", lit% "30"⟩, none⟩)]) := by
  decide +kernel

/-- The first place of a mixed array in the document of C59. -/
example : DocTaken faulty ∧ docSpots 1 faulty = [(.header, 1), (.value (.int (lit% "1")), 2)] ++ (.mixed, 2) :: (docSpots 1 faulty).drop 3 ∧
    (Parser.new.parse (linesText faulty)).map' (fun x => ((x.2.errs.map ParseError.spot).head?, x.1.leftover)) = .ok (some (.mixed, 2), []) :=
  ⟨faulty_strict.taken, by decide +kernel, by decide +kernel⟩

/-- Of three arrays of mixed types the first is reported; the others, behind an error of another kind, are not. -/
example : ∃ p, Parser.new.parse (lit% "a = [1, true]\na = 1\nb = [true, 1]\nc = [[1], 1]") =
    .ok (p, .fullError [.mixedArray (lit% "a") 1 0, .duplicateKey (lit% "a") 2 0 (.int (lit% "1"))]) ∧ p.leftover = [] := by decide +kernel

/-- A second text after such an error. -/
example : ∃ q, Parser.new.parse (lit% "a = 1\na = 2") = .ok (q, .fullError [.duplicateKey (lit% "a") 2 0 (.int (lit% "2"))]) ∧
    ∃ p, q.parse (lit% "\nb = [1, true]") = .ok (p, .fullError [.duplicateKey (lit% "a") 2 0 (.int (lit% "2"))]) ∧ p.leftover = [] := by decide +kernel

end Tomllib
