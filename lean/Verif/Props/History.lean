import Verif.Lemmas.Commute
import Verif.Lemmas.Witness
/-!
# Histories of assignments: C55, C56
-/

namespace Tomllib

/-- C55. After any history of assignments the parser answers every question as the document does, in the form that the assignments have given it; and it prints that
document (unless there is an empty inline table in it, which cannot be printed). -/
theorem C55_answers {P : VT → Prop} {ls : List (Str × ET)} {p : Parser} (h : History DocTaken P ls p) :
    (Sections.read ls).Answers p ∧ p.display = textOr (hasEmptyTable ls) (linesText ls) := by
  obtain ⟨fp, hh⟩ := h.hist
  exact ⟨hh.answers, hh.anch.display⟩

/-- C55. At any time, assigning to a path that has a value is taken, and does the following: the path has the new value and what is below it are the parts of that value;
at every path that is neither above nor below everything is as before; and in the text the new value stands where the old one stood. -/
theorem C55_assign {P : VT → Prop} {ls : List (Str × ET)} {p : Parser} (h : History DocTaken P ls p) {q : List Key} (hq : PathWf q) {t : VT}
    (ht : (Sections.read ls).valueAt q = some t) {v : Value} (hv : v.deepValid = true) (hc : Assignable t v) :
    ∃ p', p.setValue (keyOf [] q) v = .ok (p', true) ∧ p'.getValue (keyOf [] q) = .ok (some v) ∧
      (∀ s, PathWf (q ++ s) → p'.getValue (keyOf [] (q ++ s)) = .ok (((t.assigned v).part s).map VT.value) ∧
        p'.getChildren (keyOf [] (q ++ s)) = ((t.assigned v).part s).map VT.children) ∧
      (∀ r, PathWf r → r ≠ [] → ¬ q <+: r → ¬ r <+: q → p'.getValue (keyOf [] r) = p.getValue (keyOf [] r)) ∧
      (∀ r, PathWf r → ¬ q <+: r → p'.getChildren (keyOf [] r) = p.getChildren (keyOf [] r)) ∧
      ∃ pre post, linesText ls = pre ++ t.text ++ post ∧ linesText (putLines {} q (t.assigned v) ls) = pre ++ (t.assigned v).text ++ post := by
  obtain ⟨fp, hh⟩ := h.hist
  exact hh.effect h.reachable.inv hq ht hv hc

/-- C56. After any history of assignments of properly written values that has left nothing wrong in any value, the text printed is read to its end without complaint;
the parser that read it gives the same answers (the names at the top level are listed in the same order, unless there are stray ones), and itself has the
history of having read a document with this text, so that C55 holds of it and of all assignments that follow. -/
theorem C56_read_again {ls : List (Str × ET)} {p : Parser} (h : History DocStrict (fun x => x.value.written) ls p) (hs : ∀ e ∈ (Sections.read ls).vals, e.2.sound = true)
    {s : Str} (hd : p.display = .ok s) :
    ∃ p2 ls2, Parser.new.parse s = .ok (p2, .full) ∧
      (∀ k, k ≠ [] → k ≠ root → p2.getValue k = p.getValue k ∧ p2.getChildren k = p.getChildren k) ∧
      (∃ l l2, p.getChildren [] = some (.keys l) ∧ p2.getChildren [] = some (.keys l2) ∧ (∀ n, n ∈ l2 ↔ n ∈ l) ∧ ((Sections.read ls).stray = [] → l2 = l)) ∧
      linesText ls2 = s ∧ History DocStrict (fun x => x.value.written) ls2 p2 := by
  obtain ⟨ha, ht⟩ := C55_answers h.taken
  have hs' : s = linesText ls := by
    rw [ht] at hd
    unfold textOr at hd
    split at hd
    · cases hd
    · cases hd; rfl
  obtain ⟨ls2, h1, h2, h3⟩ := h.tidy.fits hs
  obtain ⟨st, es, e, hsim⟩ := Sections.Fits.linesEff h1.wf h3
  have hp := parse_fwd h1.taken
  rw [e] at hp
  simp only [Out.bind, hsim.errs, ne_eq, not_true, if_false] at hp
  have hA := Sections.Sim.answers hsim (Reachable.new.parse hp).inv.inv
  obtain ⟨a1, a2⟩ := (Sections.Rel.read h2).answers ha hA
  exact ⟨_, ls2, by rw [hs', h2.text]; exact hp, a1, a2, by rw [hs', h2.text], .read h1 h3 hp⟩

/-- A document of three lines. -/
def exLines : List (Str × ET) :=
  [([], .kv [] (lit% "x") ⟨lit% " ", lit% " "⟩ (.leaf (.int (lit% "1"))) [] none),
   (lit% "\n", .table [] (.std ⟨[⟨⟨[], []⟩, lit% "t"⟩]⟩) [] none),
   (lit% "\n", .kv [] (lit% "a") ⟨lit% " ", lit% " "⟩
     (.arr (.cons (.leaf (.int (lit% "1"))) (some ⟨[], lit% " "⟩) [.newlines []] (.cons (.leaf (.int (lit% "2"))) none [.newlines []] .nil)) [.newlines []] [.newlines []]) [] none)]

set_option synthInstance.maxSize 1024 in
/-- A history of it: a scalar becomes an array, one of the elements of which is then replaced; an element of another array becomes an array; a wrong value is refused. -/
theorem exHistory : linesText exLines = lit% "x = 1\n[t]\na = [1, 2]" ∧ ∃ ls p, History DocTaken (fun _ => True) ls p ∧ linesText ls = lit% "x = [5, 7]\n[t]\na = [1, [6]]" ∧
    p.getValue (lit% "x[1]") = .ok (some (.int (lit% "7"))) ∧ p.getValue (lit% "x") = .ok (some (.arr [.int (lit% "5"), .int (lit% "7")])) ∧
    p.getValue (lit% "t") = .panic .tableToVal := by
  refine ⟨by decide +kernel, ?_⟩
  have it : ∀ i, Re.find Rx.integer i = some (i, []) → IntegerText i := fun i h => (lang_integer _).mp (Re.find_some h).2
  have i1 := it (lit% "1") (by decide +kernel)
  have i2 := it (lit% "2") (by decide +kernel)
  have v5 : (Value.int (lit% "5")).validate = true := by decide +kernel
  have v6 : (Value.int (lit% "6")).validate = true := by decide +kernel
  have v7 : (Value.int (lit% "7")).validate = true := by decide +kernel
  have ks : ∀ k ∈ [lit% "a", lit% "t", lit% "x"], KeyWf k := by
    intro k hk
    left
    simp at hk
    rcases hk with rfl | rfl | rfl <;> exact ⟨by simp, by decide⟩
  have hs : DocStrict exLines := by
    have s0 : Spaces [] := .nil
    have s1 : Spaces (lit% " ") := Pieces.one SpacePiece.blank
    simp [exLines, DocStrict, LinesStrict, ET.strict, TableType.strict, TableType.table, VT.strict, Elems.strict, Scalar.strict, Apart, SepWf, Gap, MoreComments, CommentText,
      CommentWf, WSSep.wf, Blank, NoBlank, gapText, CNL.text, remark, i1, i2, s0, s1, ks]
  have hf : Sections.Fits {} exLines := by decide +kernel
  have h : ∃ p, Parser.new.parse (linesText exLines) = .ok (p, .full) ∧
      ∃ p1, p.setValue (lit% "x") (.arr [.int (lit% "5"), .int (lit% "6")]) = .ok (p1, true) ∧
      ∃ p2, p1.setValue (lit% "x[1]") (.int (lit% "7")) = .ok (p2, true) ∧
      ∃ p3, p2.setValue (lit% "t.a[1]") (.arr [.int (lit% "6")]) = .ok (p3, true) ∧
      p3.getValue (lit% "x[0]") = .ok (some (.int (lit% "5"))) ∧
      ∃ p4, p3.setValue (lit% "x[0]") (.int (lit% "?")) = .ok (p4, false) ∧ p4.getValue (lit% "x[1]") = .ok (some (.int (lit% "7"))) ∧
        p4.getValue (lit% "x") = .ok (some (.arr [.int (lit% "5"), .int (lit% "7")])) ∧ p4.getValue (lit% "t") = .panic .tableToVal := by
    decide +kernel
  obtain ⟨p, h0, p1, h1, p2, h2, p3, h3, h4, p4, h5, h6⟩ := h
  have H0 : History DocTaken (fun _ => True) exLines p := .read hs.taken hf h0
  have H1 := H0.assign (q := [.str (lit% "x")]) ⟨ks _ (by simp), by simp⟩ (t := .leaf (.int (lit% "1"))) (by rfl) (v := .arr [.int (lit% "5"), .int (lit% "6")])
    (by simp [Value.deepValid, deepValids, v5, v6]) (.inr (.inl ⟨_, rfl, by simp [Value.scalar?]⟩)) trivial h1
  have H2 := H1.assign (q := [.str (lit% "x"), .idx 1]) ⟨ks _ (by simp), by simp⟩ (t := .leaf (.int (lit% "6"))) (by rfl) (v := .int (lit% "7"))
    (by simp [Value.deepValid, v7]) (.inl rfl) trivial h2
  have H3 := H2.assign (q := [.str (lit% "t"), .str (lit% "a"), .idx 1]) ⟨ks _ (by simp), by simp [ks]⟩ (t := .leaf (.int (lit% "2"))) (by rfl) (v := .arr [.int (lit% "6")])
    (by simp [Value.deepValid, deepValids, v6]) (.inr (.inl ⟨_, rfl, by simp [Value.scalar?]⟩)) trivial h3
  have H4 := H3.refused (.inr ⟨_, h4, rfl⟩) h5
  exact ⟨_, _, H4, by decide +kernel, h6⟩

set_option synthInstance.maxSize 1024 in
/-- A history that is printed and read again: a scalar becomes an array, whose last element is then replaced. -/
example : ∃ ls p, History DocStrict (fun x => x.value.written) ls p ∧ (∀ e ∈ (Sections.read ls).vals, e.2.sound = true) ∧ p.display = .ok (lit% "x = [5, 7]\n[t]\na = [1, 2]") := by
  have it : ∀ i, Re.find Rx.integer i = some (i, []) → IntegerText i := fun i h => (lang_integer _).mp (Re.find_some h).2
  have i1 := it (lit% "1") (by decide +kernel)
  have i2 := it (lit% "2") (by decide +kernel)
  have i5 := it (lit% "5") (by decide +kernel)
  have i6 := it (lit% "6") (by decide +kernel)
  have i7 := it (lit% "7") (by decide +kernel)
  have v5 : (Value.int (lit% "5")).validate = true := by decide +kernel
  have v6 : (Value.int (lit% "6")).validate = true := by decide +kernel
  have v7 : (Value.int (lit% "7")).validate = true := by decide +kernel
  have ks : ∀ k ∈ [lit% "a", lit% "t", lit% "x"], KeyWf k := by
    intro k hk
    left
    simp at hk
    rcases hk with rfl | rfl | rfl <;> exact ⟨by simp, by decide⟩
  have hs : DocStrict exLines := by
    have s0 : Spaces [] := .nil
    have s1 : Spaces (lit% " ") := Pieces.one SpacePiece.blank
    simp [exLines, DocStrict, LinesStrict, ET.strict, TableType.strict, TableType.table, VT.strict, Elems.strict, Scalar.strict, Apart, SepWf, Gap, MoreComments, CommentText,
      CommentWf, WSSep.wf, Blank, NoBlank, gapText, CNL.text, remark, i1, i2, s0, s1, ks]
  have hf : Sections.Fits {} exLines := by decide +kernel
  have h : ∃ p, Parser.new.parse (linesText exLines) = .ok (p, .full) ∧
      ∃ p1, p.setValue (lit% "x") (.arr [.int (lit% "5"), .int (lit% "6")]) = .ok (p1, true) ∧
      ∃ p2, p1.setValue (lit% "x[1]") (.int (lit% "7")) = .ok (p2, true) ∧ p2.display = .ok (lit% "x = [5, 7]\n[t]\na = [1, 2]") := by
    decide +kernel
  obtain ⟨p, h0, p1, h1, p2, h2, h3⟩ := h
  have H0 : History DocStrict (fun x => x.value.written) exLines p := .read hs hf h0
  have H1 := H0.assign (q := [.str (lit% "x")]) ⟨ks _ (by simp), by simp⟩ (t := .leaf (.int (lit% "1"))) (by rfl) (v := .arr [.int (lit% "5"), .int (lit% "6")])
    (by simp [Value.deepValid, deepValids, v5, v6]) (.inr (.inl ⟨_, rfl, by simp [Value.scalar?]⟩)) ⟨i5, i6, trivial⟩ h1
  have H2 := H1.assign (q := [.str (lit% "x"), .idx 1]) ⟨ks _ (by simp), by simp⟩ (t := .leaf (.int (lit% "6"))) (by rfl) (v := .int (lit% "7"))
    (by simp [Value.deepValid, v7]) (.inl rfl) i7 h2
  exact ⟨_, _, H2, by decide +kernel, h3⟩

/-- Why nothing may be wrong in a value: an array of mixed kinds can be made by assignments, and is reported when the text is read. -/
theorem C56_sound_needed : ∃ p p', Parser.new.parse (lit% "a = [1, 2]") = .ok (p, .full) ∧ p.setValue (lit% "a[1]") (.arr [.int (lit% "6")]) = .ok (p', true) ∧
    p'.display = .ok (lit% "a = [1, [6]]") ∧
    (Parser.new.parse (lit% "a = [1, [6]]")).map' (·.2) = .ok (.fullError [.mixedArray (lit% "a") 1 0]) := by
  have h : ∃ p, Parser.new.parse (lit% "a = [1, 2]") = .ok (p, .full) ∧ ∃ p', p.setValue (lit% "a[1]") (.arr [.int (lit% "6")]) = .ok (p', true) ∧
      p'.display = .ok (lit% "a = [1, [6]]") := by decide +kernel
  obtain ⟨p, h1, p', h2, h3⟩ := h
  exact ⟨p, p', h1, h2, h3, by decide +kernel⟩

/-- Why the document must be properly written: elements that were not set apart can become one. -/
theorem C56_strict_needed : ∃ p, Parser.new.parse (lit% "a = [01]") = .ok (p, .full) ∧ p.getValue (lit% "a") = .ok (some (.arr [.int (lit% "0"), .int (lit% "1")])) ∧
    ∃ p', p.setValue (lit% "a[0]") (.int (lit% "5")) = .ok (p', true) ∧ p'.getValue (lit% "a") = .ok (some (.arr [.int (lit% "5"), .int (lit% "1")])) ∧
      p'.display = .ok (lit% "a = [51]") ∧ ∃ p2, Parser.new.parse (lit% "a = [51]") = .ok (p2, .full) ∧ p2.getValue (lit% "a") = .ok (some (.arr [.int (lit% "51")])) := by
  decide +kernel

end Tomllib
