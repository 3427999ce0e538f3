import Verif.Lemmas.Commute
import Verif.Lemmas.Witness
/-!
# Several assignments: C57
-/

namespace Tomllib

/-- C57. Assignments to two paths of which neither begins with the other can be made in either order: the text printed and all answers are the same. -/
theorem C57_commute {P : VT → Prop} {ls : List (Str × ET)} {p : Parser} (h : History DocTaken P ls p) {q r : List Key} (hq : PathWf q) (hr : PathWf r)
    (hqr : ¬ q <+: r) (hrq : ¬ r <+: q) {t u : VT} (ht : (Sections.read ls).valueAt q = some t) (hu : (Sections.read ls).valueAt r = some u)
    {v w : Value} (hv : v.deepValid = true) (hw : w.deepValid = true) (hc : Assignable t v) (hd : Assignable u w) :
    ∃ p1 p2 p12 p21, p.setValue (keyOf [] q) v = .ok (p1, true) ∧ p1.setValue (keyOf [] r) w = .ok (p12, true) ∧
      p.setValue (keyOf [] r) w = .ok (p2, true) ∧ p2.setValue (keyOf [] q) v = .ok (p21, true) ∧ LooksSame p12 p21 := by
  obtain ⟨fp, hh⟩ := h.hist
  have hap := hh.apart
  obtain ⟨p1, e1, f1, h1⟩ := hh.assign h.reachable.inv hq ht hv hc
  obtain ⟨p2, e2, f2, h2⟩ := hh.assign h.reachable.inv hr hu hw hd
  have hu1 : (Sections.read (putLines {} q (t.assigned v) ls)).valueAt r = some u := by
    rw [Sections.read_put, Sections.valueAt_put_apart hap _ hqr hrq, hu]
  have ht2 : (Sections.read (putLines {} r (u.assigned w) ls)).valueAt q = some t := by
    rw [Sections.read_put, Sections.valueAt_put_apart hap _ hrq hqr, ht]
  obtain ⟨p12, e12, f12, h12⟩ := h1.assign (h.reachable.set e1).inv hr hu1 hw hd
  obtain ⟨p21, e21, f21, h21⟩ := h2.assign (h.reachable.set e2).inv hq ht2 hv hc
  refine ⟨p1, p2, p12, p21, e1, e12, e2, e21, ?_⟩
  rw [putLines_comm hqr hrq] at h12
  refine h12.looks h21 ?_
  rw [setValue_top hq (hh.ne ht) e21, setValue_top hr (hh.ne hu) e2, setValue_top hr (hh.ne hu) e12, setValue_top hq (hh.ne ht) e1]

/-- C57. Assigning a value of the same structure and then what was read there before leaves everything as it was, also the layout of the text. -/
theorem C57_undo {P : VT → Prop} {ls : List (Str × ET)} {p : Parser} (h : History DocTaken P ls p) {q : List Key} (hq : PathWf q) (hne : q ≠ []) {x v : Value}
    (hx : p.getValue (keyOf [] q) = .ok (some x)) (hv : v.deepValid = true) (hs : x.sameShape v = true) :
    ∃ p1 p2, p.setValue (keyOf [] q) v = .ok (p1, true) ∧ p1.setValue (keyOf [] q) x = .ok (p2, true) ∧ LooksSame p p2 := by
  obtain ⟨fp, hh⟩ := h.hist
  have hap := hh.apart
  obtain ⟨t, ht, rfl⟩ : ∃ t, (Sections.read ls).valueAt q = some t ∧ t.value = x := by
    rw [hh.answers.value q hq hne] at hx
    cases e : (Sections.read ls).valueAt q with
    | some t =>
      rw [e] at hx
      simp at hx
      exact ⟨t, rfl, hx⟩
    | none =>
      rw [e] at hx
      dsimp only at hx
      split at hx <;> simp at hx
  have hself : t.value.sameShape t.value = true := by
    rw [Value.sameShape_congr _ hs]; exact Value.sameShape_symm hs
  obtain ⟨p1, e1, f1, h1⟩ := hh.assign h.reachable.inv hq ht hv (.inl hs)
  have ht1 : (Sections.read (putLines {} q (t.assigned v) ls)).valueAt q = some (t.assigned v) := by
    have := Sections.valueAt_put_below hap ht (t.assigned v) []
    rw [List.append_nil, VT.part_nil] at this
    rw [Sections.read_put, this]
  obtain ⟨p2, e2, f2, h2⟩ := h1.assign (h.reachable.set e1).inv hq ht1 (h.valid ht) (.after hv hs (.inl hself))
  refine ⟨p1, p2, e1, e2, ?_⟩
  rw [putLines_put, VT.assigned_assigned hv hs, VT.assigned_self _ hself, putLines_same ls {} (by rw [← Sections.vals_read]; exact hap)
    (by rw [← Sections.vals_read]; exact ht)] at h2
  refine hh.looks h2 ?_
  rw [setValue_top hq hne e2, setValue_top hq hne e1]

/-- C57. Of two assignments to the same path the last counts: after a value of the same structure as before, the second assignment has the effect it would have had
without the first. -/
theorem C57_last {P : VT → Prop} {ls : List (Str × ET)} {p : Parser} (h : History DocTaken P ls p) {q : List Key} (hq : PathWf q) {t : VT}
    (ht : (Sections.read ls).valueAt q = some t) {v w : Value} (hv : v.deepValid = true) (hs : t.value.sameShape v = true) (hw : w.deepValid = true) (hd : Assignable t w) :
    ∃ p1 p2 p12, p.setValue (keyOf [] q) v = .ok (p1, true) ∧ p1.setValue (keyOf [] q) w = .ok (p12, true) ∧
      p.setValue (keyOf [] q) w = .ok (p2, true) ∧ LooksSame p2 p12 := by
  obtain ⟨fp, hh⟩ := h.hist
  have hap := hh.apart
  have hne := hh.ne ht
  obtain ⟨p1, e1, f1, h1⟩ := hh.assign h.reachable.inv hq ht hv (.inl hs)
  obtain ⟨p2, e2, f2, h2⟩ := hh.assign h.reachable.inv hq ht hw hd
  have ht1 : (Sections.read (putLines {} q (t.assigned v) ls)).valueAt q = some (t.assigned v) := by
    have := Sections.valueAt_put_below hap ht (t.assigned v) []
    rw [List.append_nil, VT.part_nil] at this
    rw [Sections.read_put, this]
  obtain ⟨p12, e12, f12, h12⟩ := h1.assign (h.reachable.set e1).inv hq ht1 hw (.after hv hs hd)
  refine ⟨p1, p2, p12, e1, e12, e2, ?_⟩
  rw [putLines_put, VT.assigned_assigned hv hs] at h12
  refine h2.looks h12 ?_
  rw [setValue_top hq hne e12, setValue_top hq hne e1, setValue_top hq hne e2]

/-- C57. In whatever state the parser is, and whatever the key, the value and the answer: an assignment changes the children of no key that does not begin with the
key assigned to. -/
theorem C57_elsewhere {p p' : Parser} {key : Str} {v : Value} {b : Bool} (h : p.setValue key v = .ok (p', b)) :
    (∀ k, k ≠ [] → ¬ KeyWithin key k → p'.getChildren k = p.getChildren k) ∧ (¬ KeyWithin key root → p'.getChildren [] = p.getChildren []) := by
  refine ⟨fun k hk hn => ?_, fun hn => ?_⟩
  · have := setValue_outside h k hn
    unfold Parser.getChildren
    simp only [if_neg hk, this]
  · have := setValue_outside h root hn
    unfold Parser.getChildren
    simp only [if_true, this]

/-- The structure must be the same in between: the layout does not survive a value of another structure. -/
theorem C57_structure_needed : ∃ p p1 p2 p3 : Parser, Parser.new.parse (lit% "a = [1 ,2]") = .ok (p, .full) ∧ p.setValue (lit% "a") (.arr [.int (lit% "3")]) = .ok (p1, true) ∧
    p1.setValue (lit% "a") (.arr [.int (lit% "1"), .int (lit% "2")]) = .ok (p2, true) ∧ p.setValue (lit% "a") (.arr [.int (lit% "1"), .int (lit% "2")]) = .ok (p3, true) ∧
    p2.display = .ok (lit% "a = [1, 2]") ∧ p3.display = .ok (lit% "a = [1 ,2]") := by
  have h : ∃ p, Parser.new.parse (lit% "a = [1 ,2]") = .ok (p, .full) ∧ ∃ p1, p.setValue (lit% "a") (.arr [.int (lit% "3")]) = .ok (p1, true) ∧
    ∃ p2, p1.setValue (lit% "a") (.arr [.int (lit% "1"), .int (lit% "2")]) = .ok (p2, true) ∧ ∃ p3, p.setValue (lit% "a") (.arr [.int (lit% "1"), .int (lit% "2")]) = .ok (p3, true) ∧
    p2.display = .ok (lit% "a = [1, 2]") ∧ p3.display = .ok (lit% "a = [1 ,2]") := by decide +kernel
  obtain ⟨p, h0, p1, h1, p2, h2, p3, h3, h4, h5⟩ := h
  exact ⟨p, p1, p2, p3, h0, h1, h2, h3, h4, h5⟩

/-- A document of three lines. -/
private def exLines : List (Str × ET) :=
  [([], .kv [] (lit% "x") ⟨lit% " ", lit% " "⟩ (.leaf (.int (lit% "1"))) [] none),
   (lit% "\n", .table [] (.std ⟨[⟨⟨[], []⟩, lit% "t"⟩]⟩) [] none),
   (lit% "\n", .kv [] (lit% "a") ⟨lit% " ", lit% " "⟩
     (.arr (.cons (.leaf (.int (lit% "1"))) (some ⟨lit% " ", []⟩) [.newlines []] (.cons (.leaf (.int (lit% "2"))) none [.newlines []] .nil)) [.newlines []] [.newlines []]) [] none)]

/-- A parser that has read `x = 1`, `[t]`, `a = [1 ,2]`: the hypotheses of the theorems hold for the paths `x` and `t.a[1]`. -/
example : ∃ p, History DocTaken (fun _ => True) exLines p ∧ linesText exLines = lit% "x = 1\n[t]\na = [1 ,2]" ∧
    PathWf [.str (lit% "x")] ∧ PathWf [.str (lit% "t"), .str (lit% "a"), .idx 1] ∧
    (Sections.read exLines).valueAt [.str (lit% "x")] = some (.leaf (.int (lit% "1"))) ∧
    (Sections.read exLines).valueAt [.str (lit% "t"), .str (lit% "a"), .idx 1] = some (.leaf (.int (lit% "2"))) ∧
    p.getValue (keyOf [] [.str (lit% "t"), .str (lit% "a")]) = .ok (some (.arr [.int (lit% "1"), .int (lit% "2")])) ∧
    Assignable (.leaf (.int (lit% "1"))) (.arr [.int (lit% "5")]) ∧ Assignable (.leaf (.int (lit% "2"))) (.bool true) ∧
    (Value.arr [.int (lit% "5")]).deepValid = true ∧ ¬ KeyWithin (lit% "x") (lit% "t.a") := by
  have it : ∀ i, Re.find Rx.integer i = some (i, []) → IntegerText i := fun i h => (lang_integer _).mp (Re.find_some h).2
  have i1 := it (lit% "1") (by decide +kernel)
  have i2 := it (lit% "2") (by decide +kernel)
  have v5 : (Value.int (lit% "5")).validate = true := by decide +kernel
  have ks : ∀ k ∈ [lit% "a", lit% "t", lit% "x"], KeyWf k := by
    intro k hk
    left
    simp at hk
    rcases hk with rfl | rfl | rfl <;> exact ⟨by simp, by decide⟩
  have hs : DocStrict exLines := by
    have s0 : Spaces [] := .nil
    have s1 : Spaces (lit% " ") := Pieces.one SpacePiece.blank
    simp [exLines, DocStrict, LinesStrict, ET.strict, TableType.strict, TableType.table, VT.strict, Elems.strict, Scalar.strict, Apart, SepWf, Gap, MoreComments, CommentText,
      CommentWf, WSSep.wf, Blank, NoBlank, gapText, CNL.text, remark, i1, i2, s0, s1, ks]
  have hf : Sections.Fits {} exLines := by decide +kernel
  have h : ∃ p, Parser.new.parse (linesText exLines) = .ok (p, .full) ∧
      p.getValue (keyOf [] [.str (lit% "t"), .str (lit% "a")]) = .ok (some (.arr [.int (lit% "1"), .int (lit% "2")])) := by decide +kernel
  obtain ⟨p, h0, h1⟩ := h
  exact ⟨p, .read hs.taken hf h0, by decide +kernel, ⟨ks _ (by simp), by simp⟩, ⟨ks _ (by simp), by simp [ks]⟩, by rfl, by rfl, h1,
    .inr (.inl ⟨_, rfl, by simp [Value.scalar?]⟩), .inl rfl, by simp [Value.deepValid, deepValids, v5], by simp [KeyWithin]⟩

end Tomllib
