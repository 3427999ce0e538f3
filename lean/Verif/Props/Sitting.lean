import Verif.Lemmas.SittingAll
import Verif.Lemmas.Witness
import Verif.Props.Parse
/-!
# Several texts read with the same parser, with assignments in between: C75
-/

namespace Tomllib

/-- C75. Whatever texts have been read with a parser, and whatever was assigned before, in between and after: it answers every question as the lines of all the texts do, in
the form that the assignments have given them; and it prints the lines of the last text (unless there is an empty inline table in them, which cannot be printed). -/
theorem C75_answers {P : VT → Prop} {all : List (Str × ET)} {n : Nat} {p : Parser} (h : Sitting P all n p) :
    (Sections.read all).Answers p ∧ (all ≠ [] → p.display = textOr (hasEmptyTable (all.drop n)) (linesText (all.drop n))) :=
  ⟨h.answers, h.display⟩

/-- C75. At any time, a text whose lines are in order after all those before is read to its end without complaint; and every key that had a value has it still. -/
theorem C75_read {P : VT → Prop} {all ls : List (Str × ET)} {n : Nat} {p : Parser} (h : Sitting P all n p) (hs : DocTaken ls) (hf : (Sections.read all).Fits ls) :
    ∃ p', p.parse (linesText ls) = .ok (p', .full) ∧ ∀ k v, p.getValue k = .ok (some v) → p'.getValue k = .ok (some v) := by
  obtain ⟨hm, hh⟩ := h.inv
  obtain ⟨st, ns, e, hm'⟩ := Sections.Sim.all ls hm hs.wf.lines hf
  have hp := parse_fwd_any hs p
  rw [e] at hp
  simp only [Out.bind, hm'.errs, ne_eq, not_true, if_false] at hp
  refine ⟨_, hp, fun k v hv => ?_⟩
  have ha := h.answers
  have ha' := (Sitting.read h hs hf hp).answers
  by_cases hk : k = []
  · rcases hh with ⟨rfl, rfl, rfl⟩ | ⟨ns', fp, _, _, hh⟩
    · subst hk
      simp [Parser.new, PState.new, Parser.getValue, SMap.get?, root] at hv
    · subst hk
      have : (p.whole ns').getValue [] = .ok (some v) := hv
      rw [hh.nil_value] at this
      simp at this
  by_cases hr : k = root
  · rcases hh with ⟨rfl, rfl, rfl⟩ | ⟨ns', fp, _, _, hh⟩
    · subst hr
      simp [Parser.new, PState.new, Parser.getValue, SMap.get?] at hv
    · subst hr
      have : (p.whole ns').getValue root = .ok (some v) := hv
      rw [hh.root_value] at this
      split at this <;> simp at this
  by_cases hq : ∃ q, PathWf q ∧ k = keyOf [] q
  · obtain ⟨q, hq, rfl⟩ := hq
    have hne : q ≠ [] := by rintro rfl; exact hk rfl
    rw [ha.value q hq hne] at hv
    rw [ha'.value q hq hne]
    cases hva : (Sections.read all).valueAt q with
    | none =>
      rw [hva] at hv
      dsimp only at hv
      split at hv <;> simp at hv
    | some t =>
      rw [hva] at hv
      have : (Sections.read (all ++ ls)).valueAt q = some t := by
        rw [Sections.read_append]
        unfold Sections.valueAt at hva ⊢
        rw [Sections.vals_all, List.findSome?_append, hva]
        rfl
      rw [this]
      exact hv
  · rw [(ha.other k hk hr fun q h1 h2 => hq ⟨q, h1, h2⟩).1] at hv
    simp at hv

/-- C75. At any time, assigning to a path that has a value, in whichever of the texts, is taken: the path has the new value and what is below it are the parts of that
value; at every path that is neither above nor below everything is as before. If the value is in the last text, it is exchanged in the text that is printed; if it
is in one of those before, the printed text stays the same. -/
theorem C75_assign {P : VT → Prop} {all : List (Str × ET)} {n : Nat} {p : Parser} (h : Sitting P all n p) {q : List Key} (hq : PathWf q) {t : VT}
    (ht : (Sections.read all).valueAt q = some t) {v : Value} (hv : v.deepValid = true) (hc : Assignable t v) :
    ∃ p', p.setValue (keyOf [] q) v = .ok (p', true) ∧ p'.getValue (keyOf [] q) = .ok (some v) ∧
      (∀ s, PathWf (q ++ s) → p'.getValue (keyOf [] (q ++ s)) = .ok (((t.assigned v).part s).map VT.value) ∧
        p'.getChildren (keyOf [] (q ++ s)) = ((t.assigned v).part s).map VT.children) ∧
      (∀ r, PathWf r → r ≠ [] → ¬ q <+: r → ¬ r <+: q → p'.getValue (keyOf [] r) = p.getValue (keyOf [] r)) ∧
      (∀ r, PathWf r → ¬ q <+: r → p'.getChildren (keyOf [] r) = p.getChildren (keyOf [] r)) ∧
      ((Sections.read (all.take n)).valueAt q = none → ∃ pre post, linesText (all.drop n) = pre ++ t.text ++ post ∧
        linesText ((putLines {} q (t.assigned v) all).drop n) = pre ++ (t.assigned v).text ++ post) ∧
      ((Sections.read (all.take n)).valueAt q ≠ none → p'.display = p.display) := by
  rcases h.inv.2 with ⟨rfl, _⟩ | ⟨ns, fp, e1, e2, hh⟩
  · simp [Sections.read, Sections.valueAt] at ht
  have hP : PInv (p.whole ns) := ⟨hh.anch.inv, _, _, hh.anch.rep, hh.anch.nodup⟩
  obtain ⟨g', h1, h2, h3, h4, h5, _⟩ := hh.effect hP hq ht hv hc
  have hset : ∃ p', p.setValue (keyOf [] q) v = .ok (p', true) ∧ g' = { p' with tree := ⟨ns ++ p.tree.exprs⟩ } := by
    obtain ⟨_, h6⟩ := setValue_frame h1
    refine ⟨{ g' with tree := p.tree }, h6 p.tree, ?_⟩
    obtain ⟨⟨m, x, rfl⟩, _⟩ := setValue_frame h1
    rfl
  obtain ⟨p', h6, rfl⟩ := hset
  have hh' : Hist (all.take n ++ all.drop n) (p.whole ns) fp := by rw [List.take_append_drop]; exact hh
  have ht' : (Sections.read (all.take n ++ all.drop n)).valueAt q = some t := by rw [List.take_append_drop]; exact ht
  obtain ⟨a1, a2⟩ := hh'.textAfter hq ht'
  rw [List.take_append_drop] at a1 a2
  have hl : (all.take n).length = n := by rw [List.length_take]; omega
  refine ⟨p', h6, h2, h3, h4, h5, fun hn => ?_, fun hn => ?_⟩
  · obtain ⟨pre, post, b1, b2⟩ := a2 hn
    obtain ⟨b', b3, b4⟩ := b2 (t.assigned v)
    refine ⟨pre, post, b1, ?_⟩
    rw [b3, List.drop_left' hl, b4]
  · have b1 := a1 hn (t.assigned v)
    have hs' := Sitting.assign (P := fun _ => True) (p := p) (p' := p') (all := all) (n := n) (q := q) (t := t) (v := v) (b := true)
    have hd : (putLines {} q (t.assigned v) all).drop n = all.drop n := by
      rw [b1, List.drop_left' (by rw [putLines_length, hl])]
    have hT : Sitting (fun _ => True) all n p := h.any
    have h7 := (hs' hT hq ht hv hc trivial h6).display (fun h8 => by
      have := putLines_length q (t.assigned v) all {}
      rw [h8] at this
      simp at this
      omega)
    rw [h7, hd, hT.display (fun h8 => by rw [h8] at e2; simp at e2)]

/-- C75. It does not matter whether a value is assigned before or after one more text is read: the parser gives the same answers and prints the same text. (The names at
the top level are listed in the same order, unless there are stray ones.) -/
theorem C75_either_order {P : VT → Prop} {all ls : List (Str × ET)} {n : Nat} {p : Parser} (h : Sitting P all n p) (hs : DocTaken ls) (hf : (Sections.read all).Fits ls)
    {q : List Key} (hq : PathWf q) {t : VT} (ht : (Sections.read all).valueAt q = some t) {v : Value} (hv : v.deepValid = true) (hc : Assignable t v) :
    ∃ p1 p2 p3 p4, p.setValue (keyOf [] q) v = .ok (p1, true) ∧ p1.parse (linesText ls) = .ok (p2, .full) ∧
      p.parse (linesText ls) = .ok (p3, .full) ∧ p3.setValue (keyOf [] q) v = .ok (p4, true) ∧
      p2.display = p4.display ∧ (∀ k, k ≠ [] → k ≠ root → p2.getValue k = p4.getValue k ∧ p2.getChildren k = p4.getChildren k) ∧
      ∃ l l', p2.getChildren [] = some (.keys l) ∧ p4.getChildren [] = some (.keys l') ∧ (∀ n, n ∈ l ↔ n ∈ l') ∧ ((Sections.read (all ++ ls)).stray = [] → l = l') := by
  have hT : Sitting (fun _ => True) all n p := h.any
  obtain ⟨p1, h1, _⟩ := C75_assign hT hq ht hv hc
  have H1 := hT.assign hq ht hv hc trivial h1
  have hf1 : (Sections.read (putLines {} q (t.assigned v) all)).Fits ls := by
    rw [Sections.read_put]
    exact hf.put hs.wf.lines h.keyed q _
  obtain ⟨p2, h2, _⟩ := C75_read H1 hs hf1
  have H2 := H1.read hs hf1 h2
  obtain ⟨p3, h3, _⟩ := C75_read hT hs hf
  have H3 := hT.read hs hf h3
  have ht3 : (Sections.read (all ++ ls)).valueAt q = some t := by
    rw [Sections.read_append]
    unfold Sections.valueAt at ht ⊢
    rw [Sections.vals_all, List.findSome?_append, ht]
    rfl
  obtain ⟨p4, h4, _⟩ := C75_assign H3 hq ht3 hv hc
  have H4 := H3.assign hq ht3 hv hc trivial h4
  have hput : putLines {} q (t.assigned v) (all ++ ls) = putLines {} q (t.assigned v) all ++ ls := by
    obtain ⟨e, s, he, rfl, _⟩ := Sections.valueAt_entry ht
    rw [Sections.vals_read] at he
    exact putLines_left ls ⟨e, he, List.prefix_append _ _⟩
  rw [hput] at H4
  have hlen := putLines_length q (t.assigned v) all {}
  have hne : ls ≠ [] := by rintro rfl; exact hs
  obtain ⟨a1, l, l', a2, a3, a4, a5⟩ := Sections.Rel.equal (D := Sections.read (putLines {} q (t.assigned v) all ++ ls)) ⟨.refl _, ValsRel.equal _⟩ H4.answers H2.answers
  refine ⟨p1, p2, p3, p4, h1, h2, h3, h4, ?_, a1, l', l, a3, a2, a4, fun hst => a5 ?_⟩
  · rw [H2.display (by simp [hne]), H4.display (by simp [hne]), hlen]
  · rw [← hput, Sections.read_put]; exact hst

/-- C75. The parser gives the same answers as a new one that has read a single document that says, in one text, all that the texts now say. -/
theorem C75_one_document {P : VT → Prop} {all ks : List (Str × ET)} {n : Nat} {p : Parser} (h : Sitting P all n p) (hk : DocTaken ks) (hf : Sections.Fits {} ks)
    (hc : content ks = content all) :
    ∃ p', Parser.new.parse (linesText ks) = .ok (p', .full) ∧
      (∀ k, k ≠ [] → k ≠ root → p'.getValue k = p.getValue k ∧ p'.getChildren k = p.getChildren k) ∧
      ∃ l l', p.getChildren [] = some (.keys l) ∧ p'.getChildren [] = some (.keys l') ∧ (∀ n, n ∈ l' ↔ n ∈ l) ∧ ((Sections.read all).stray = [] → l' = l) := by
  obtain ⟨p', h1, _⟩ := C75_read (Sitting.new (P := P)) hk hf
  have h2 := (Sitting.new (P := P)).read hk hf h1
  rw [List.nil_append] at h2
  exact ⟨p', h1, Sections.Rel.equal (Sections.Rel.content (D := {}) (D' := {}) hc.symm ⟨.refl _, rfl⟩) h.answers h2.answers⟩

/-- C75. At any time, a walk from the top level over all children visits exactly the keys that exist and the stray names, and every key that has a value. -/
theorem C75_walk {P : VT → Prop} {all : List (Str × ET)} {n : Nat} {p : Parser} (h : Sitting P all n p) (hne : all ≠ []) {k : Str} (hr : k ≠ root) :
    (Visited p k ↔ p.getChildren k ≠ none ∨ k ∈ (Sections.read all).stray) ∧ (k ≠ [] → p.getValue k ≠ .ok none → Visited p k) := by
  have hw : (Sections.read all).Walks p := by
    rcases h.inv.2 with ⟨h1, _⟩ | ⟨ns, fp, _, _, hh⟩
    · exact absurd h1 hne
    · have := hh.walks h.inv.1.down
      exact ⟨h.answers, this.listed, this.wf, this.noTop⟩
  exact ⟨hw.visited_all h.stray hr, fun hk hv => (hw.visited_all h.stray hr).mpr (.inl (hw.value hk hr hv))⟩

private def line (nl : Str) (k v : Str) : Str × ET := (nl, .kv [] k ⟨lit% " ", lit% " "⟩ (.leaf (.int v)) [] none)
private def headLine (nl : Str) (b : Bool) (k : Str) : Str × ET := (nl, .table [] (if b then .arr ⟨[⟨⟨[], []⟩, k⟩]⟩ else .std ⟨[⟨⟨[], []⟩, k⟩]⟩) [] none)

/-- The lines of two texts. -/
private def first : List (Str × ET) := [line [] (lit% "x") (lit% "1"), headLine (lit% "\n") true (lit% "t"), line (lit% "\n") (lit% "a") (lit% "2")]
private def second : List (Str × ET) := [line [] (lit% "b") (lit% "3"), headLine (lit% "\n") true (lit% "t"), line (lit% "\n") (lit% "a") (lit% "4")]

private theorem both_strict : DocStrict first ∧ DocStrict second := by
  have it : ∀ i, Re.find Rx.integer i = some (i, []) → IntegerText i := fun i h => (lang_integer _).mp (Re.find_some h).2
  have i1 := it (lit% "1") (by decide +kernel)
  have i2 := it (lit% "2") (by decide +kernel)
  have i3 := it (lit% "3") (by decide +kernel)
  have i4 := it (lit% "4") (by decide +kernel)
  have ks : ∀ k ∈ [lit% "a", lit% "b", lit% "t", lit% "x"], KeyWf k := by
    intro k hk
    left
    simp at hk
    rcases hk with rfl | rfl | rfl | rfl <;> exact ⟨by simp, by decide⟩
  have s0 : Spaces [] := .nil
  have s1 : Spaces (lit% " ") := Pieces.one SpacePiece.blank
  constructor <;> simp [first, second, line, headLine, DocStrict, LinesStrict, ET.strict, TableType.strict, TableType.table, VT.strict, Scalar.strict, CommentWf, WSSep.wf, Blank, NoBlank, i1, i2, i3, i4, s0, s1, ks]

set_option synthInstance.maxSize 1024 in
/-- Two texts are read, the second of which goes on in the table where the first has ended; a value of the first is changed before, and another after the second is read, and then one
of the second. -/
theorem exSitting : linesText first = lit% "x = 1\n[[t]]\na = 2" ∧ linesText second = lit% "b = 3\n[[t]]\na = 4" ∧
    ∃ all p, Sitting (fun _ => True) all 3 p ∧ linesText (all.take 3) = lit% "x = 5\n[[t]]\na = 6" ∧ linesText (all.drop 3) = lit% "b = 3\n[[t]]\na = [7, 8]" ∧
      p.display = .ok (lit% "b = 3\n[[t]]\na = [7, 8]") ∧ p.getValue (lit% "x") = .ok (some (.int (lit% "5"))) ∧
      p.getValue (lit% "t[0].b") = .ok (some (.int (lit% "3"))) ∧ p.getValue (lit% "t[1].a[1]") = .ok (some (.int (lit% "8"))) ∧
      p.getChildren (lit% "t") = some (.count 2) ∧ p.getValue (lit% "t[1].a") = .ok (some (.arr [.int (lit% "7"), .int (lit% "8")])) := by
  refine ⟨by decide +kernel, by decide +kernel, ?_⟩
  have v5 : (Value.int (lit% "5")).validate = true := by decide +kernel
  have v6 : (Value.int (lit% "6")).validate = true := by decide +kernel
  have v7 : (Value.int (lit% "7")).validate = true := by decide +kernel
  have v8 : (Value.int (lit% "8")).validate = true := by decide +kernel
  have ks : ∀ k ∈ [lit% "a", lit% "b", lit% "t", lit% "x"], KeyWf k := by
    intro k hk
    left
    simp at hk
    rcases hk with rfl | rfl | rfl | rfl <;> exact ⟨by simp, by decide⟩
  have h : ∃ p, Parser.new.parse (linesText first) = .ok (p, .full) ∧ ∃ p1, p.setValue (lit% "x") (.int (lit% "5")) = .ok (p1, true) ∧
      ∃ p2, p1.parse (linesText second) = .ok (p2, .full) ∧ ∃ p3, p2.setValue (lit% "t[0].a") (.int (lit% "6")) = .ok (p3, true) ∧
      ∃ p4, p3.setValue (lit% "t[1].a") (.arr [.int (lit% "7"), .int (lit% "8")]) = .ok (p4, true) ∧
      p4.display = .ok (lit% "b = 3\n[[t]]\na = [7, 8]") ∧ p4.getValue (lit% "x") = .ok (some (.int (lit% "5"))) ∧
      p4.getValue (lit% "t[0].b") = .ok (some (.int (lit% "3"))) ∧ p4.getValue (lit% "t[1].a[1]") = .ok (some (.int (lit% "8"))) ∧
      p4.getChildren (lit% "t") = some (.count 2) ∧ p4.getValue (lit% "t[1].a") = .ok (some (.arr [.int (lit% "7"), .int (lit% "8")])) := by
    decide +kernel
  obtain ⟨p, h0, p1, h1, p2, h2, p3, h3, p4, h4, h5⟩ := h
  have H0 : Sitting (fun _ => True) first 0 p := Sitting.new.read both_strict.1.taken (by decide +kernel) h0
  have H1 := H0.assign (q := [.str (lit% "x")]) ⟨ks _ (by simp), by simp⟩ (t := .leaf (.int (lit% "1"))) (by rfl) (v := .int (lit% "5"))
    (by simp [Value.deepValid, v5]) (.inl rfl) trivial h1
  have H2 := H1.read both_strict.2.taken (by decide +kernel) h2
  have H3 := H2.assign (q := [.str (lit% "t"), .idx 0, .str (lit% "a")]) ⟨ks _ (by simp), by simp [ks]⟩ (t := .leaf (.int (lit% "2"))) (by rfl) (v := .int (lit% "6"))
    (by simp [Value.deepValid, v6]) (.inl rfl) trivial h3
  have H4 := H3.assign (q := [.str (lit% "t"), .idx 1, .str (lit% "a")]) ⟨ks _ (by simp), by simp [ks]⟩ (t := .leaf (.int (lit% "4"))) (by rfl)
    (v := .arr [.int (lit% "7"), .int (lit% "8")]) (by simp [Value.deepValid, deepValids, v7, v8]) (.inr (.inl ⟨_, rfl, by simp [Value.scalar?]⟩)) trivial h4
  exact ⟨_, p4, H4, by decide +kernel, by decide +kernel, h5⟩

/-- A text that says what both texts say. -/
private def together : List (Str × ET) := first ++ (lit% "\n", .blank []) :: line (lit% "\n") (lit% "b") (lit% "3") :: second.tail

example : DocStrict together ∧ Sections.Fits {} together ∧ content together = content (first ++ second) ∧
    linesText together = lit% "x = 1\n[[t]]\na = 2\n\nb = 3\n[[t]]\na = 4" := by
  refine ⟨?_, by decide +kernel, rfl, by decide +kernel⟩
  have it : ∀ i, Re.find Rx.integer i = some (i, []) → IntegerText i := fun i h => (lang_integer _).mp (Re.find_some h).2
  have i1 := it (lit% "1") (by decide +kernel)
  have i2 := it (lit% "2") (by decide +kernel)
  have i3 := it (lit% "3") (by decide +kernel)
  have i4 := it (lit% "4") (by decide +kernel)
  have ks : ∀ k ∈ [lit% "a", lit% "b", lit% "t", lit% "x"], KeyWf k := by
    intro k hk
    left
    simp at hk
    rcases hk with rfl | rfl | rfl | rfl <;> exact ⟨by simp, by decide⟩
  have s0 : Spaces [] := .nil
  have s1 : Spaces (lit% " ") := Pieces.one SpacePiece.blank
  simp [together, first, second, line, headLine, DocStrict, LinesStrict, ET.strict, TableType.strict, TableType.table, VT.strict, Scalar.strict, CommentWf, WSSep.wf, Blank, NoBlank,
    i1, i2, i3, i4, s0, s1, ks]

end Tomllib
