import Verif.Lemmas.Within
import Verif.Lemmas.Witness
import Verif.Props.Report
/-!
# The line at which `parse` panics, and what it says about a bad header of an array of tables: C31, C59

The lines before have no faults but those of C59 (`Account.Allows`, Spec/Report.lean). The next line is in order or refused (`Sections.regular`, Spec/Accept.lean), which
also says at which lines the library panics (`Sections.crashes`).
-/

namespace Tomllib

/-- The state before a line. -/
theorem Account.before {pre post : List (Str × ET)} (h : DocTaken (pre ++ post)) (ha : ({} : Account).Allows 1 pre) :
    ∃ st es, linesEff pre PState.new = .ok (st, es) ∧ Sections.RSim (Account.of pre) st ∧ Inv st ∧ st.lineCount = 1 + linesCounted pre ∧ (∀ l ∈ post, l.2.wf) := by
  have hw := h.wf.lines
  obtain ⟨st, es, e, hs⟩ := Sections.RSim.all pre Sections.RSim.new (fun l hl => hw l (by simp [hl])) ha
  have hall := linesEff_all pre Inv.new
  rw [e] at hall
  have hl := linesEff_line e
  exact ⟨st, es, e, hs, hall, hl, fun l hl => hw l (by simp [hl])⟩

theorem linesEff_app : ∀ (pre : List (Str × ET)) {post : List (Str × ET)} {st s1 : PState} {es : List NLExpression}, linesEff pre st = .ok (s1, es) →
    linesEff (pre ++ post) st = (linesEff post s1).bind fun x => .ok (x.1, es ++ x.2)
  | [], post, st, s1, es, h => by
    simp [linesEff] at h
    obtain ⟨rfl, rfl⟩ := h
    cases he : linesEff post st with
    | ok x => obtain ⟨a, b⟩ := x; simp [he, Out.bind]
    | panic x => simp [he, Out.bind]
    | fuel => simp [he, Out.bind]
  | (nl, e) :: pre, post, st, s1, es, h => by
    rw [linesEff] at h
    obtain ⟨sa, h1, h⟩ := Out.bind_ok.mp h
    obtain ⟨⟨sb, nb⟩, h2, h⟩ := Out.bind_ok.mp h
    simp at h
    obtain ⟨rfl, rfl⟩ := h
    rw [List.cons_append, linesEff, h1]
    simp only [Out.bind]
    rw [linesEff_app pre h2]
    cases linesEff post sb with
    | ok x => rfl
    | panic x => rfl
    | fuel => rfl

/-- C31. `parse` panics at such a line, whatever follows. -/
theorem C31_panics_there {pre post : List (Str × ET)} {l : Str × ET} (h : DocTaken (pre ++ l :: post)) (ha : ({} : Account).Allows 1 pre)
    (hr : (Account.of pre).doc.regular l.2) (hc : (Account.of pre).doc.crashes l.2) : ∃ x, Parser.new.parse (linesText (pre ++ l :: post)) = .panic x := by
  obtain ⟨st, es, e, hs, _, _, hw⟩ := Account.before h ha
  have hwl := hw l (by simp)
  have hnf : ¬ (Account.of pre).doc.fits l.2 := fun hf => Sections.fits_calm hwl hf hc
  rw [parse_fwd h, linesEff_app pre e, linesEff]
  have : ∃ x, l.2.eff (st.lines (nlCount l.1)) = .panic x := by
    generalize l.2 = e at *
    cases e with
    | table w1 t w2 c =>
      cases t with
      | std t => exact absurd hc id
      | arr t =>
        have := (hs.lines (nlCount l.1)).arrBad hwl.2.1 hr hnf
        rw [if_pos hc] at this
        exact this
    | blank w => exact absurd hc id
    | comment w c => exact absurd hc id
    | kv w1 k s v w2 c => exact absurd hc id
  obtain ⟨x, hx⟩ := this
  rw [hx]
  exact ⟨x, rfl⟩

/-- C31. `parse` also panics at a header that leads into an array of tables which is not open any more, whatever follows. -/
theorem C31_panics_shut {pre post : List (Str × ET)} {l : Str × ET} (h : DocTaken (pre ++ l :: post)) (ha : ({} : Account).Allows 1 pre)
    (hs : (Account.of pre).doc.shut l.2) : ∃ x, Parser.new.parse (linesText (pre ++ l :: post)) = .panic x := by
  obtain ⟨st, es, e, hs', _, _, hw⟩ := Account.before h ha
  rw [parse_fwd h, linesEff_app pre e, linesEff]
  obtain ⟨x, hx⟩ := (hs'.lines (nlCount l.1)).shut (hw l (by simp)) hs
  rw [hx]
  exact ⟨x, rfl⟩

/-- C31. With a document of such lines, `parse` panics exactly if the last line is one at which it does. Below a header that is not in order, this is said for headers only. -/
theorem C31_panics_iff {pre : List (Str × ET)} {l : Str × ET} (h : DocTaken (pre ++ [l])) (ha : ({} : Account).Allows 1 pre)
    (hr : (Account.of pre).doc.regular l.2) (hl : l.2.keyed → (Account.of pre).lost = false) :
    (∃ x, Parser.new.parse (linesText (pre ++ [l])) = .panic x) ↔ (Account.of pre).doc.crashes l.2 := by
  refine ⟨?_, C31_panics_there h ha hr⟩
  rintro ⟨x, hx⟩
  refine Classical.byContradiction fun hc => ?_
  obtain ⟨st, es, e, hs, hi, _, hw⟩ := Account.before h ha
  obtain ⟨st', e1⟩ := (hs.lines (nlCount l.1)).calm (hi.linesN (nlCount l.1)) (hw l (by simp)) hr hl hc
  rw [parse_fwd h, linesEff_app pre e, linesEff, e1] at hx
  simp [linesEff, Out.bind] at hx

/-- C31. No pair is a panic, not even below a header that is not in order. -/
theorem C31_pairs {pre : List (Str × ET)} {l : Str × ET} (h : DocTaken (pre ++ [l])) (ha : ({} : Account).Allows 1 pre) (hk : l.2.keyed) (x : Panic) :
    Parser.new.parse (linesText (pre ++ [l])) ≠ .panic x := by
  obtain ⟨st, es, e, hsim, hi, _, hw⟩ := Account.before h ha
  have hwl := hw l (by simp)
  have hr : Rooted st := Sections.RSim.all_rooted pre Sections.RSim.new (fun _ => rfl) (fun l hl => h.wf.lines l (by simp [hl])) ha e
  have hcalm : ∃ st', l.2.eff (st.lines (nlCount l.1)) = .ok st' := by
    generalize l.2 = e at *
    cases e with
    | kv w1 k s v w2 c =>
      rw [ET.wf] at hwl
      exact (hsim.lines (nlCount l.1)).pair hr (hi.linesN _) hwl.2.1 hwl.2.2.2.1
    | _ => exact absurd hk id
  obtain ⟨st', e1⟩ := hcalm
  rw [parse_fwd h, linesEff_app pre e, linesEff, e1]
  simp [linesEff, Out.bind]

/-- C31. The same, for lines that the library can not place as well, and for pairs below a header that is not in order: no pair is a panic. Of headers, only
those are left out whose text begins with the name of an open array of tables, but not name by name. -/
theorem C31_panics_exactly {pre : List (Str × ET)} {l : Str × ET} (h : DocTaken (pre ++ [l])) (ha : ({} : Account).Allows 1 pre)
    (hr : (Account.of pre).doc.settled l.2) :
    (∃ x, Parser.new.parse (linesText (pre ++ [l])) = .panic x) ↔
      (Account.of pre).doc.crashes l.2 ∨ (Account.of pre).doc.shut l.2 ∨ (Account.of pre).doc.astray l.2 := by
  by_cases hs : (Account.of pre).doc.shut l.2
  · exact ⟨fun _ => .inr (.inl hs), fun _ => C31_panics_shut h ha hs⟩
  by_cases hk : l.2.keyed
  · have hno : ∀ D : Sections, ¬ (D.crashes l.2 ∨ D.shut l.2 ∨ D.astray l.2) := by
      intro D
      generalize l.2 = e at hk
      cases e with
      | kv w1 k s v w2 c => simp [Sections.crashes, Sections.shut, Sections.astray]
      | _ => exact absurd hk id
    refine ⟨?_, fun h => absurd h (hno _)⟩
    rintro ⟨x, hx⟩
    exact absurd hx (C31_pairs h ha hk x)
  by_cases hreg : (Account.of pre).doc.regular l.2
  · rw [C31_panics_iff h ha hreg (fun h => absurd h hk)]
    refine ⟨.inl, fun h => ?_⟩
    rcases h with h | h | h
    · exact h
    · exact absurd h hs
    · generalize l.2 = e at *
      cases e with
      | table w1 t w2 c =>
        cases t with
        | std t => exact absurd h id
        | arr t => exact absurd hreg.2.2.2 h
      | _ => exact absurd h id
  obtain ⟨st, es, e, hsim, hi, _, hw⟩ := Account.before h ha
  have hwl := hw l (by simp)
  have hcalm : (((Account.of pre).doc.crashes l.2 ∨ (Account.of pre).doc.astray l.2) ∧ ∃ x, l.2.eff (st.lines (nlCount l.1)) = .panic x) ∨
      ((∃ st', l.2.eff (st.lines (nlCount l.1)) = .ok st') ∧ ¬ (Account.of pre).doc.crashes l.2 ∧ ¬ (Account.of pre).doc.astray l.2) := by
    generalize l.2 = e at *
    cases e with
    | blank w => exact absurd trivial hreg
    | comment w c => exact absurd trivial hreg
    | kv w1 k s v w2 c =>
      exact absurd trivial hk
    | table w1 t w2 c =>
      have hap : (Account.of pre).doc.apart t.table.names := hr
      by_cases hcl : (Account.of pre).doc.clear t.table.names
      · by_cases hin : ∃ u, t = .arr u ∧ ∃ a ∈ Sections.onWay u.names, a ≠ u.names ∧ Sections.inlined ((Account.of pre).doc.valueAt ((Account.of pre).doc.target a)) = true
        · obtain ⟨u, rfl, hin⟩ := hin
          have := (hsim.lines (nlCount l.1)).within (Account.plain_of ha) (w1 := w1) (w2 := w2) (c := c) hwl.2.1 hap hcl hin hs
          split at this
          next hc => exact .inl ⟨.inl hc, this⟩
          next hc => exact .inr ⟨this, hc, fun h => h hcl⟩
        right
        have := (hsim.lines (nlCount l.1)).reopen hwl.2.1 hap hcl (fun u hu a ha' hne => by
          cases hb : Sections.inlined ((Account.of pre).doc.valueAt ((Account.of pre).doc.target a)) with
          | false => rfl
          | true => exact absurd ⟨u, hu, a, ha', hne, hb⟩ hin) hs hreg
        refine ⟨this.1, this.2, ?_⟩
        cases t with
        | std t => exact id
        | arr t => exact fun h => h hcl
      · rcases (hsim.lines (nlCount l.1)).astray hwl.2.1 hap hcl with ⟨h1, h2⟩ | h1
        · exact .inl ⟨.inr h1, h2⟩
        · exact .inr h1
  rw [parse_fwd h, linesEff_app pre e, linesEff]
  rcases hcalm with ⟨h1, x, e1⟩ | ⟨⟨st', e1⟩, hnc, hna⟩
  · rw [e1]
    exact ⟨fun _ => h1.elim .inl fun h => .inr (.inr h), fun _ => ⟨x, rfl⟩⟩
  · rw [e1]
    refine ⟨?_, fun h => absurd h (not_or.mpr ⟨hnc, not_or.mpr ⟨hs, hna⟩⟩)⟩
    rintro ⟨x, hx⟩
    simp [linesEff, Out.bind] at hx

/-- C59. The header of an array of tables that is not in order, where `parse` does not panic: one error is added, with the index that the next element would have, and no pairs. -/
theorem C59_array_header {pre : List (Str × ET)} {nl w1 w2 : Str} {t : Table} {c : Option Str} (h : DocTaken (pre ++ [(nl, .table w1 (.arr t) w2 c)]))
    (ha : ({} : Account).Allows 1 pre) (hr : (Account.of pre).doc.regular (.table w1 (.arr t) w2 c)) (hf : ¬ (Account.of pre).doc.fits (.table w1 (.arr t) w2 c))
    (hc : ¬ (Account.of pre).doc.crashes (.table w1 (.arr t) w2 c)) :
    ∃ p, Parser.new.parse (linesText (pre ++ [(nl, .table w1 (.arr t) w2 c)])) = .ok (p, .fullError ((Account.of pre).errors ++
      [.invalidTable (keyOf [] ((Account.of pre).doc.target t.names ++ [.idx ((Account.of pre).doc.badIndex t.names)])) (1 + linesCounted pre + nlCount nl) 0 []])) := by
  obtain ⟨st, es, e, hs, hi, hlc, hw⟩ := Account.before h ha
  have hwl := hw (nl, .table w1 (.arr t) w2 c) (by simp)
  have := (hs.lines (nlCount nl)).arrBad hwl.2.1 hr hf
  rw [if_neg hc] at this
  obtain ⟨st', e1, e2⟩ := this
  rw [parse_fwd h, linesEff_app pre e, linesEff, e1]
  have hlc' : (st.lines (nlCount nl)).lineCount = 1 + linesCounted pre + nlCount nl := by rw [← hlc]; rfl
  simp only [linesEff, Out.bind, e2, hlc', ne_eq, List.append_eq_nil_iff, List.cons_ne_self, and_false, not_false_eq_true, if_true, reduceCtorEq]
  exact ⟨_, rfl⟩

/-- C59: the pairs below such a header are not lost: they are entered under the index of the error. The array above it, a value with two elements, has three children from then on. -/
theorem C59_array_header_enters : ∃ p, Parser.new.parse (lit% "a = [1, 2]\n[[b]]\n[[a]]\nx = 3") = .ok (p, .fullError [.invalidTable (lit% "a[2]") 3 0 []]) ∧
    p.getValue (lit% "a") = .ok (some (.arr [.int (lit% "1"), .int (lit% "2")])) ∧ p.getChildren (lit% "a") = some (.count 3) ∧
    p.getValue (lit% "a[2].x") = .ok (some (.int (lit% "3"))) := Out.wit (by decide +kernel)

/-! ### The hypotheses are met -/

/-- An array of values, and an array of tables with a pair. -/
def untimely : List (Str × ET) :=
  [([], .kv [] (lit% "a") ⟨[], []⟩ (.arr (.cons (.leaf (.int (lit% "1"))) none [.newlines []] .nil) [.newlines []] [.newlines []]) [] none),
   (lit% "\n", .table [] (.arr ⟨[⟨⟨[], []⟩, lit% "b"⟩]⟩) [] none),
   (lit% "\n", .kv [] (lit% "x") ⟨[], []⟩ (.leaf (.int (lit% "1"))) [] none)]

/-- `[[a]]` is refused, `[[b.x]]` is a panic. -/
def refusedHeader : Str × ET := (lit% "\n", .table [] (.arr ⟨[⟨⟨[], []⟩, lit% "a"⟩]⟩) [] none)
def fatalHeader : Str × ET := (lit% "\n", .table [] (.arr ⟨[⟨⟨[], []⟩, lit% "b"⟩, ⟨⟨[], []⟩, lit% "x"⟩]⟩) [] none)

theorem untimely_strict (l : Str × ET) (hl : l = refusedHeader ∨ l = fatalHeader) : DocStrict (untimely ++ [l]) := by
  have i1 : IntegerText (lit% "1") := (lang_integer _).mp (Re.find_some (show Re.find Rx.integer (lit% "1") = some (lit% "1", []) by decide +kernel)).2
  have ks : ∀ k ∈ [lit% "a", lit% "b", lit% "x"], KeyWf k := by
    intro k hk
    left
    simp only [List.mem_cons, List.not_mem_nil, or_false] at hk
    rcases hk with rfl | rfl | rfl <;> exact ⟨by simp, by decide⟩
  have s0 : Spaces [] := .nil
  simp only [List.mem_cons, List.not_mem_nil, or_false, forall_eq_or_imp, forall_eq] at ks
  rcases hl with rfl | rfl <;>
  simp [untimely, refusedHeader, fatalHeader, DocStrict, LinesStrict, ET.strict, TableType.strict, TableType.table, VT.strict, Elems.strict, Scalar.strict, Apart, SepWf, Gap, CommentText,
    CommentWf, WSSep.wf, Blank, NoBlank, gapText, CNL.text, i1, s0, ks]

example : linesText (untimely ++ [refusedHeader]) = lit% "a=[1]\n[[b]]\nx=1\n[[a]]" ∧ DocTaken (untimely ++ [refusedHeader]) ∧ ({} : Account).Allows 1 untimely ∧
    (Account.of untimely).doc.regular refusedHeader.2 ∧ ¬ (Account.of untimely).doc.fits refusedHeader.2 ∧ ¬ (Account.of untimely).doc.crashes refusedHeader.2 ∧
    (Account.of untimely).doc.badIndex [lit% "a"] = 1 :=
  ⟨rfl, (untimely_strict _ (.inl rfl)).taken, by decide +kernel, by decide +kernel, by decide +kernel, by decide +kernel, by decide +kernel⟩

example : linesText (untimely ++ [fatalHeader]) = lit% "a=[1]\n[[b]]\nx=1\n[[b.x]]" ∧ DocTaken (untimely ++ [fatalHeader]) ∧ ({} : Account).Allows 1 untimely ∧
    (Account.of untimely).doc.regular fatalHeader.2 ∧ (Account.of untimely).doc.crashes fatalHeader.2 :=
  ⟨rfl, (untimely_strict _ (.inr rfl)).taken, by decide +kernel, by decide +kernel, by decide +kernel⟩

/-- Two arrays of tables, a table, and a header into the first array, which is not open any more: of an array of tables, and of a table. -/
def shutDoc (arr : Bool) : List (Str × ET) × (Str × ET) :=
  ([([], .table [] (.arr ⟨[⟨⟨[], []⟩, lit% "a"⟩]⟩) [] none), (lit% "\n", .kv [] (lit% "x") ⟨[], []⟩ (.leaf (.int (lit% "1"))) [] none),
    (lit% "\n", .table [] (.arr ⟨[⟨⟨[], []⟩, lit% "b"⟩]⟩) [] none)],
   (lit% "\n", .table [] (if arr then .arr ⟨[⟨⟨[], []⟩, lit% "a"⟩, ⟨⟨[], []⟩, lit% "c"⟩]⟩ else .std ⟨[⟨⟨[], []⟩, lit% "a"⟩, ⟨⟨[], []⟩, lit% "c"⟩]⟩) [] none))

theorem shutDoc_strict (arr : Bool) : DocStrict ((shutDoc arr).1 ++ [(shutDoc arr).2]) := by
  have i1 : IntegerText (lit% "1") := (lang_integer _).mp (Re.find_some (show Re.find Rx.integer (lit% "1") = some (lit% "1", []) by decide +kernel)).2
  have ks : ∀ k ∈ [lit% "a", lit% "b", lit% "c", lit% "x"], KeyWf k := by
    intro k hk
    left
    simp only [List.mem_cons, List.not_mem_nil, or_false] at hk
    rcases hk with rfl | rfl | rfl | rfl <;> exact ⟨by simp, by decide⟩
  have s0 : Spaces [] := .nil
  simp only [List.mem_cons, List.not_mem_nil, or_false, forall_eq_or_imp, forall_eq] at ks
  cases arr <;>
  simp [shutDoc, DocStrict, LinesStrict, ET.strict, TableType.strict, TableType.table, VT.strict, Scalar.strict, Apart, SepWf, Gap, CommentText,
    CommentWf, WSSep.wf, Blank, NoBlank, gapText, CNL.text, i1, s0, ks]

example : linesText ((shutDoc true).1 ++ [(shutDoc true).2]) = lit% "[[a]]\nx=1\n[[b]]\n[[a.c]]" ∧ DocTaken ((shutDoc true).1 ++ [(shutDoc true).2]) ∧ ({} : Account).Allows 1 (shutDoc true).1 ∧
    (Account.of (shutDoc true).1).doc.shut (shutDoc true).2.2 :=
  ⟨rfl, (shutDoc_strict true).taken, by decide +kernel, by decide +kernel⟩

/-- `[b]` would be fine with the same lines before: it is not in order, but no panic. -/
example : (Account.of (shutDoc true).1).doc.settled (shutDoc true).2.2 ∧ (Account.of (shutDoc true).1).lost = false ∧
    (Account.of (shutDoc true).1).doc.settled (.table [] (.std ⟨[⟨⟨[], []⟩, lit% "b"⟩]⟩) [] none) ∧ ¬ (Account.of (shutDoc true).1).doc.regular (.table [] (.std ⟨[⟨⟨[], []⟩, lit% "b"⟩]⟩) [] none) ∧
    ¬ (Account.of (shutDoc true).1).doc.shut (.table [] (.std ⟨[⟨⟨[], []⟩, lit% "b"⟩]⟩) [] none) := by decide +kernel

example : linesText ((shutDoc false).1 ++ [(shutDoc false).2]) = lit% "[[a]]\nx=1\n[[b]]\n[a.c]" ∧ DocTaken ((shutDoc false).1 ++ [(shutDoc false).2]) ∧ ({} : Account).Allows 1 (shutDoc false).1 ∧
    (Account.of (shutDoc false).1).doc.shut (shutDoc false).2.2 :=
  ⟨rfl, (shutDoc_strict false).taken, by decide +kernel, by decide +kernel⟩

/-- An array of tables, a table in its element, and a header that begins with the name of that table, which is a stray name. -/
def astrayDoc : List (Str × ET) × (Str × ET) :=
  ([([], .table [] (.arr ⟨[⟨⟨[], []⟩, lit% "a"⟩]⟩) [] none), (lit% "\n", .table [] (.std ⟨[⟨⟨[], []⟩, lit% "a"⟩, ⟨⟨[], []⟩, lit% "b"⟩]⟩) [] none)],
   (lit% "\n", .table [] (.arr ⟨[⟨⟨[], []⟩, lit% "b"⟩, ⟨⟨[], []⟩, lit% "c"⟩]⟩) [] none))

theorem astrayDoc_strict : DocStrict (astrayDoc.1 ++ [astrayDoc.2]) := by
  have ks : ∀ k ∈ [lit% "a", lit% "b", lit% "c"], KeyWf k := by
    intro k hk
    left
    simp only [List.mem_cons, List.not_mem_nil, or_false] at hk
    rcases hk with rfl | rfl | rfl <;> exact ⟨by simp, by decide⟩
  have s0 : Spaces [] := .nil
  simp only [List.mem_cons, List.not_mem_nil, or_false, forall_eq_or_imp, forall_eq] at ks
  simp [astrayDoc, DocStrict, LinesStrict, ET.strict, TableType.strict, TableType.table, Apart, SepWf, Gap, CommentText,
    CommentWf, WSSep.wf, Blank, NoBlank, gapText, CNL.text, s0, ks]

example : linesText (astrayDoc.1 ++ [astrayDoc.2]) = lit% "[[a]]\n[a.b]\n[[b.c]]" ∧ DocTaken (astrayDoc.1 ++ [astrayDoc.2]) ∧ ({} : Account).Allows 1 astrayDoc.1 ∧
    (Account.of astrayDoc.1).doc.settled astrayDoc.2.2 ∧ (Account.of astrayDoc.1).doc.astray astrayDoc.2.2 ∧ ¬ (Account.of astrayDoc.1).doc.crashes astrayDoc.2.2 ∧
    ¬ (Account.of astrayDoc.1).doc.shut astrayDoc.2.2 :=
  ⟨rfl, astrayDoc_strict.taken, by decide +kernel, by decide +kernel, by decide +kernel, by decide +kernel, by decide +kernel⟩

/-- A table that is defined twice, and an array of inline tables below the second header. -/
def mutedDoc : List (Str × ET) × (Str × ET) :=
  ([([], .table [] (.std ⟨[⟨⟨[], []⟩, lit% "a"⟩]⟩) [] none), (lit% "\n", .table [] (.std ⟨[⟨⟨[], []⟩, lit% "a"⟩]⟩) [] none)],
   (lit% "\n", .kv [] (lit% "x") ⟨[], []⟩ (.arr (.cons (.itab (.cons (lit% "y") ⟨[], []⟩ (.leaf (.int (lit% "1"))) none [.newlines []] .nil) ⟨[], []⟩) none [.newlines []] .nil) [.newlines []] [.newlines []]) [] none))

theorem mutedDoc_strict : DocStrict (mutedDoc.1 ++ [mutedDoc.2]) := by
  have i1 : IntegerText (lit% "1") := (lang_integer _).mp (Re.find_some (show Re.find Rx.integer (lit% "1") = some (lit% "1", []) by decide +kernel)).2
  have ks : ∀ k ∈ [lit% "a", lit% "x", lit% "y"], KeyWf k := by
    intro k hk
    left
    simp only [List.mem_cons, List.not_mem_nil, or_false] at hk
    rcases hk with rfl | rfl | rfl <;> exact ⟨by simp, by decide⟩
  have s0 : Spaces [] := .nil
  simp only [List.mem_cons, List.not_mem_nil, or_false, forall_eq_or_imp, forall_eq] at ks
  simp [mutedDoc, DocStrict, LinesStrict, ET.strict, TableType.strict, TableType.table, VT.strict, Elems.strict, Pairs.strict, Scalar.strict, Apart, SepWf, Gap, CommentText,
    CommentWf, WSSep.wf, Blank, NoBlank, gapText, CNL.text, i1, s0, ks]

example : linesText (mutedDoc.1 ++ [mutedDoc.2]) = lit% "[a]\n[a]\nx=[{y=1}]" ∧ DocTaken (mutedDoc.1 ++ [mutedDoc.2]) ∧ ({} : Account).Allows 1 mutedDoc.1 ∧
    mutedDoc.2.2.keyed ∧ (Account.of mutedDoc.1).lost = true :=
  ⟨rfl, mutedDoc_strict.taken, by decide +kernel, trivial, by decide +kernel⟩

/-- An inline table, and a header that goes into it, or through one of its values. -/
def withinDoc (through : Bool) : List (Str × ET) × (Str × ET) :=
  ([([], .kv [] (lit% "a") ⟨[], []⟩ (.itab (.cons (lit% "y") ⟨[], []⟩ (.leaf (.int (lit% "1"))) none [.newlines []] .nil) ⟨[], []⟩) [] none)],
   (lit% "\n", .table [] (.arr ⟨⟨⟨[], []⟩, lit% "a"⟩ :: (if through then [⟨⟨[], []⟩, lit% "y"⟩] else []) ++ [⟨⟨[], []⟩, lit% "b"⟩]⟩) [] none))

theorem withinDoc_strict (through : Bool) : DocStrict ((withinDoc through).1 ++ [(withinDoc through).2]) := by
  have i1 : IntegerText (lit% "1") := (lang_integer _).mp (Re.find_some (show Re.find Rx.integer (lit% "1") = some (lit% "1", []) by decide +kernel)).2
  have ks : ∀ k ∈ [lit% "a", lit% "b", lit% "y"], KeyWf k := by
    intro k hk
    left
    simp only [List.mem_cons, List.not_mem_nil, or_false] at hk
    rcases hk with rfl | rfl | rfl <;> exact ⟨by simp, by decide⟩
  have s0 : Spaces [] := .nil
  simp only [List.mem_cons, List.not_mem_nil, or_false, forall_eq_or_imp, forall_eq] at ks
  cases through <;> simp [withinDoc, DocStrict, LinesStrict, ET.strict, TableType.strict, TableType.table, VT.strict, Elems.strict, Pairs.strict, Scalar.strict, Apart, SepWf, Gap, CommentText,
    CommentWf, WSSep.wf, Blank, NoBlank, gapText, CNL.text, i1, s0, ks]

/-- The one is a panic, the other is not, though it is not in order. -/
example : linesText ((withinDoc true).1 ++ [(withinDoc true).2]) = lit% "a={y=1}\n[[a.y.b]]" ∧ DocTaken ((withinDoc true).1 ++ [(withinDoc true).2]) ∧ ({} : Account).Allows 1 (withinDoc true).1 ∧
    (Account.of (withinDoc true).1).doc.settled (withinDoc true).2.2 ∧ (Account.of (withinDoc true).1).doc.crashes (withinDoc true).2.2 ∧ ¬ (Account.of (withinDoc true).1).doc.regular (withinDoc true).2.2 :=
  ⟨rfl, (withinDoc_strict true).taken, by decide +kernel, by decide +kernel, by decide +kernel, by decide +kernel⟩

example : linesText ((withinDoc false).1 ++ [(withinDoc false).2]) = lit% "a={y=1}\n[[a.b]]" ∧ DocTaken ((withinDoc false).1 ++ [(withinDoc false).2]) ∧ ({} : Account).Allows 1 (withinDoc false).1 ∧
    (Account.of (withinDoc false).1).doc.settled (withinDoc false).2.2 ∧ ¬ (Account.of (withinDoc false).1).doc.crashes (withinDoc false).2.2 ∧
    ¬ (Account.of (withinDoc false).1).doc.regular (withinDoc false).2.2 :=
  ⟨rfl, (withinDoc_strict false).taken, by decide +kernel, by decide +kernel, by decide +kernel, by decide +kernel⟩

end Tomllib
