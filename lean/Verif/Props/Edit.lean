import Verif.Lemmas.Spell
import Verif.Lemmas.Session
import Verif.Lemmas.Witness
/-!
# Properties of `get_value` and `set_value`: C09 - C17, C37, C38
-/

namespace Tomllib

/-! ## C09 -/

/-- C09. Assigning to a key that has no value is refused and changes nothing at all. -/
theorem C09_unknown_key {p : Parser} {key : Str} (h : p.getValue key = .ok none) (v : Value) : p.setValue key v = .ok (p, false) := by
  unfold Parser.getValue at h
  unfold Parser.setValue
  split at h
  next a c hg =>
    simp only [Out.bind_eq] at h
    cases hv : toVal p.st.heap a <;> simp [hv, Out.bind] at h
  · rfl

example : ∃ p, Parser.new.parse (lit% "[a]\nb = 1") = .ok (p, .full) ∧ p.getValue (lit% "b") = .ok none ∧ p.getValue (lit% "a.b") = .ok (some (.int (lit% "1"))) :=
  Out.wit (by decide +kernel)

/-! ## C10 -/

/-- C10 is false: a refused assignment of an invalid scalar can make other keys disappear. Here the key `t.a` holds a scalar and also has a child,
which no error reports. -/
theorem C10_refused_edit_loses_keys : ∃ p, Parser.new.parse (lit% "[t.a.b]\nx = 1\n[t]\na = 5") = .ok (p, .full) ∧
    p.getValue (lit% "t.a") = .ok (some (.int (lit% "5"))) ∧ p.getValue (lit% "t.a.b.x") = .ok (some (.int (lit% "1"))) ∧
    ∃ p', p.setValue (lit% "t.a") (.int (lit% "?")) = .ok (p', false) ∧ p'.getValue (lit% "t.a.b.x") = .ok none :=
  Out.wit (by decide +kernel)

/-- C10. An invalid scalar assigned to a key that holds a scalar and has no children is refused, and changes nothing at all. (`Props/Under.lean` says what it changes at
any key.) -/
theorem C10_no_children {p : Parser} (hp : Reachable p) {key : Str} {w v : Value} (hw : p.getValue key = .ok (some w)) (hws : w.scalar?.isSome = true)
    (hv : v.scalar?.isSome = true) (hbad : ¬ v.Valid) (hc : p.getChildren key = some (.count 0)) (hk : key ≠ []) :
    p.setValue key v = .ok (p, false) := by
  rw [Value.not_valid_iff] at hbad
  obtain ⟨s, hs⟩ := Option.isSome_iff_exists.mp hws
  obtain ⟨s', hs'⟩ := Option.isSome_iff_exists.mp hv
  rw [Value.scalar_eq hs] at hw
  rw [Value.scalar_eq hs'] at hbad ⊢
  obtain ⟨a, h1, h2⟩ := hp.inv.inv.scalar_cell hw
  obtain ⟨c, hg⟩ := valOf_some.mp h1
  have : c = .count 0 := by simpa [Parser.getChildren, hk, hg] using hc
  subst this
  unfold Parser.setValue
  simp only [hg, sameStructure_scalar, hbad, Bool.false_and, Bool.false_eq_true, if_false, Out.bind_eq, allSubkeys_none hg, Out.bind,
    convertVector_scalar hbad, eraseAll]

/-- C10, what holds in every case in which an assignment is refused, whatever the values: the printed document is the same and every key reads as
before, or is gone. -/
theorem C10_refused_edit_keeps_text {p p' : Parser} (hp : Reachable p) {key : Str} {v : Value} (h : p.setValue key v = .ok (p', false)) :
    p'.display = p.display ∧ (∀ k, p'.getValue k = p.getValue k ∨ p'.getValue k = .ok none) ∧ p'.getValue key = p.getValue key := by
  obtain ⟨hi, ls, fp, hl, hnd⟩ := hp.inv
  have hi' := (Reachable.set hp h).inv.inv
  rcases setValue_false h with ⟨_, rfl⟩ | ⟨subs, l, hsubs, hl', _, rfl⟩
  · exact ⟨rfl, fun _ => .inl rfl, rfl⟩
  · obtain ⟨r, hr⟩ := hi.rank
    have hsame : ∀ k, k ∉ subs → Parser.getValue { p with st := { p.st with map := eraseAll p.st.map subs, heap := p.st.heap ++ l } } k = p.getValue k := by
      intro k hk
      have hv : valOf (eraseAll p.st.map subs) k = valOf p.st.map k := by simp [valOf, eraseAll_get, hk]
      rcases hi.getValue_cases k with ⟨h1, h2⟩ | ⟨a, h1, h2, h3⟩ | ⟨a, t, f, h1, h2, h3⟩
      · rw [h2]; exact hi'.getValue_none.mpr (hv.trans h1)
      · rw [h3]
        obtain ⟨c, hm⟩ := valOf_some.mp (hv.trans h1)
        have h4 : (p.st.heap ++ l)[a]? = some .table := by rw [List.getElem?_append_left (hi.map.lt k a h1), h2]
        simp only [Parser.getValue, hm, Out.bind_eq, toVal_table h4]; rfl
      · rw [h3]; exact hi'.getValue_rep (p := { p with st := { p.st with map := eraseAll p.st.map subs, heap := p.st.heap ++ l } }) (hv.trans h1) (h2.append l)
    refine ⟨?_, fun k => ?_, ?_⟩
    · obtain ⟨r', hr'⟩ := hi'.rank
      exact (renderToml_rep hr' (hl.append l)).trans (renderToml_rep hr hl).symm
    · by_cases hk : k ∈ subs
      · right
        apply hi'.getValue_none.mpr
        simp [valOf, eraseAll_get, hk]
      · exact .inl (hsame k hk)
    · apply hsame
      intro hm
      obtain ⟨subs', h1, h2⟩ := allSubkeys_ok p.st.map key
      rw [hsubs] at h1; simp at h1; subst h1
      exact absurd (h2 key hm) (Nat.lt_irrefl _)

example : ∃ p, Parser.new.parse (lit% "[a]\nb = 1 # c\n") = .ok (p, .full) ∧ p.getValue (lit% "a.b") = .ok (some (.int (lit% "1"))) ∧
    (Value.str (lit% "x\"y") .basic).validate = false ∧ p.getChildren (lit% "a.b") = some (.count 0) ∧
    (p.setValue (lit% "a.b") (.str (lit% "x\"y") .basic)).map' (·.2) = .ok false :=
  Out.wit (by decide +kernel)

/-! ## C11, C12 -/

/-- C11. A valid scalar assigned to a key that holds a scalar is accepted, and is what the key reads as afterwards. -/
theorem C11_set_scalar {p : Parser} (hp : Reachable p) {key : Str} {w v : Value} (hw : p.getValue key = .ok (some w)) (hws : w.scalar?.isSome = true)
    (hv : v.scalar?.isSome = true) (hgood : v.Valid) : ∃ p', p.setValue key v = .ok (p', true) ∧ p'.getValue key = .ok (some v) := by
  rw [Value.valid_iff] at hgood
  obtain ⟨s, hs⟩ := Option.isSome_iff_exists.mp hws
  obtain ⟨s', hs'⟩ := Option.isSome_iff_exists.mp hv
  rw [Value.scalar_eq hs] at hw
  rw [Value.scalar_eq hs'] at hgood ⊢
  obtain ⟨a, h1, h2⟩ := hp.inv.inv.scalar_cell hw
  refine ⟨_, set_scalar h1 h2 hgood, ?_⟩
  rcases hp.inv.inv.get_after_scalar h2 (s' := s') key with ⟨h3, _⟩ | ⟨h3, _⟩ | ⟨x, y, _, h4, _, _, h5⟩
  · rw [hw] at h3; simp at h3
  · rw [hw] at h3; simp at h3
  · rw [h4, h5 h1]

/-- C12. It changes no other scalar; arrays and inline tables read as before except that the old scalar may have been replaced in them (when the key is
one of their elements); and the children of every key are as before. -/
theorem C12_other_values_unchanged {p p' : Parser} (hp : Reachable p) {key : Str} {w v : Value} (hw : p.getValue key = .ok (some w))
    (hws : w.scalar?.isSome = true) (hv : v.scalar?.isSome = true) (hgood : v.Valid) {b : Bool} (h : p.setValue key v = .ok (p', b)) (k : Str) :
    p'.getChildren k = p.getChildren k ∧
    (k ≠ key → ((∀ x, p.getValue k ≠ .ok (some x)) ∧ p'.getValue k = p.getValue k) ∨
      ∃ x y, p.getValue k = .ok (some x) ∧ p'.getValue k = .ok (some y) ∧ Value.Edited w v x y ∧ (x.scalar?.isSome = true → y = x)) := by
  rw [Value.valid_iff] at hgood
  obtain ⟨s, hs⟩ := Option.isSome_iff_exists.mp hws
  obtain ⟨s', hs'⟩ := Option.isSome_iff_exists.mp hv
  rw [Value.scalar_eq hs] at hw
  rw [Value.scalar_eq hs'] at hgood h
  obtain ⟨a, h1, h2⟩ := hp.inv.inv.scalar_cell hw
  rw [set_scalar h1 h2 hgood] at h
  simp at h
  rw [← h.1]
  refine ⟨rfl, fun hk => ?_⟩
  rcases hp.inv.inv.get_after_scalar h2 (s' := s') k with ⟨h3, h4⟩ | ⟨h3, h4⟩ | ⟨x, y, h3, h4, h5, h6, _⟩
  · exact .inl ⟨by simp [h3], by rw [h3]; exact h4⟩
  · exact .inl ⟨by simp [h3], by rw [h3]; exact h4⟩
  · refine .inr ⟨x, y, h3, h4, ?_, h6 (fun e => hk (hp.inv.inv.map.inj _ _ _ e h1))⟩
    rw [Value.scalar_eq hs, Value.scalar_eq hs']
    exact h5

example : ∃ p, Parser.new.parse (lit% "a = [1, 2]\nb = 1") = .ok (p, .full) ∧ p.getValue (lit% "a[0]") = .ok (some (.int (lit% "1"))) ∧
    p.getValue (lit% "a") = .ok (some (.arr [.int (lit% "1"), .int (lit% "2")])) ∧
    ∃ p', p.setValue (lit% "a[0]") (.bool true) = .ok (p', true) ∧ p'.getValue (lit% "a") = .ok (some (.arr [.bool true, .int (lit% "2")])) ∧
      p'.getValue (lit% "b") = .ok (some (.int (lit% "1"))) :=
  Out.wit (by decide +kernel)

/-! ## C13, C37 -/

/-- C13. The text of a document is a fixed text with one slot for every key that reads as a scalar, in which the text of the scalar stands. Assigning a
valid scalar to one of these keys leaves the fixed text as it is: all formatting and comments survive. (With C11 and C12: only the text in the slot of
that key changes.) For documents that print at all. -/
theorem C13_text_edited_only_there {p : Parser} (hp : Session p) {t : Str} (ht : p.display = .ok t) :
    ∃ T : Template, T.keys.Nodup ∧ (∀ k, k ∈ T.keys ↔ ∃ w, p.getValue k = .ok (some w) ∧ w.scalar?.isSome = true) ∧ Shows p T ∧
      ∀ key ∈ T.keys, ∀ v : Value, v.scalar?.isSome = true → v.Valid → ∃ p', p.setValue key v = .ok (p', true) ∧ Shows p' T := by
  obtain ⟨ls, fp, hA⟩ := hp.anchored
  have hne : hasEmptyTable ls = false := by
    have := hA.display
    rw [ht, textOr] at this
    split at this
    · simp at this
    next h => simpa using h
  obtain ⟨T, h1, h2, h3, h4⟩ := hA.template hne
  refine ⟨T, h1, h2, h3, fun key hk v hv hgood => ?_⟩
  obtain ⟨p1, e1, e2, _⟩ := h4 [(key, v)] (by simp [hk, hv, (Value.valid_iff v).mp hgood])
  obtain ⟨w, hw, hws⟩ := (h2 key).mp hk
  obtain ⟨p', e3, _⟩ := C11_set_scalar hp.reachable hw hws hv hgood
  simp only [runSets, e3, Out.bind_eq, Out.bind] at e1
  simp at e1; subst e1
  exact ⟨p', e3, e2⟩

/-- C37. The same for any number of assignments one after the other: they are all accepted, each key reads as the value assigned to it last or as
before, and the text is the fixed text with the texts of these values in the slots. -/
theorem C37_sequences_of_edits {p : Parser} (hp : Session p) {t : Str} (ht : p.display = .ok t) :
    ∃ T : Template, T.keys.Nodup ∧ (∀ k, k ∈ T.keys ↔ ∃ w, p.getValue k = .ok (some w) ∧ w.scalar?.isSome = true) ∧ Shows p T ∧
      ∀ l : List (Str × Value), (∀ kv ∈ l, kv.1 ∈ T.keys ∧ kv.2.scalar?.isSome = true ∧ kv.2.Valid) →
        ∃ p', runSets p l = .ok p' ∧ Shows p' T ∧
          ∀ k w, p.getValue k = .ok (some w) → w.scalar?.isSome = true → p'.getValue k = .ok (some ((lastAssigned l k).getD w)) := by
  obtain ⟨ls, fp, hA⟩ := hp.anchored
  have hne : hasEmptyTable ls = false := by
    have := hA.display
    rw [ht, textOr] at this
    split at this
    · simp at this
    next h => simpa using h
  simp only [Value.valid_iff]
  exact hA.template hne

/-- C37. Edits of different keys commute. -/
theorem C37_edits_commute {p : Parser} (hp : Reachable p) {k1 k2 : Str} (hne : k1 ≠ k2) {w1 w2 v1 v2 : Value}
    (h1 : p.getValue k1 = .ok (some w1)) (h2 : p.getValue k2 = .ok (some w2)) (hw1 : w1.scalar?.isSome = true) (hw2 : w2.scalar?.isSome = true)
    (hv1 : v1.scalar?.isSome = true) (hv2 : v2.scalar?.isSome = true) (hg1 : v1.Valid) (hg2 : v2.Valid) :
    ∃ p', runSets p [(k1, v1), (k2, v2)] = .ok p' ∧ runSets p [(k2, v2), (k1, v1)] = .ok p' := by
  rw [Value.valid_iff] at hg1 hg2
  obtain ⟨s1, e1⟩ := Option.isSome_iff_exists.mp hw1
  obtain ⟨s2, e2⟩ := Option.isSome_iff_exists.mp hw2
  obtain ⟨t1, e3⟩ := Option.isSome_iff_exists.mp hv1
  obtain ⟨t2, e4⟩ := Option.isSome_iff_exists.mp hv2
  rw [Value.scalar_eq e1] at h1
  rw [Value.scalar_eq e2] at h2
  rw [Value.scalar_eq e3] at hg1 ⊢
  rw [Value.scalar_eq e4] at hg2 ⊢
  have hi := hp.inv.inv
  obtain ⟨a1, g1, c1⟩ := hi.scalar_cell h1
  obtain ⟨a2, g2, c2⟩ := hi.scalar_cell h2
  have hab : a1 ≠ a2 := fun e => hne (hi.map.inj _ _ _ g1 (e ▸ g2))
  have x1 := set_scalar g1 c1 hg1
  have x2 := set_scalar g2 c2 hg2
  have y2 := set_scalar (p := { p with st := { p.st with heap := p.st.heap.set a1 t1.cell } }) g2
    (show (p.st.heap.set a1 t1.cell)[a2]? = _ from (List.getElem?_set_ne hab).trans c2) hg2
  have y1 := set_scalar (p := { p with st := { p.st with heap := p.st.heap.set a2 t2.cell } }) g1
    (show (p.st.heap.set a2 t2.cell)[a1]? = _ from (List.getElem?_set_ne (Ne.symm hab)).trans c1) hg1
  refine ⟨{ p with st := { p.st with heap := (p.st.heap.set a1 t1.cell).set a2 t2.cell } }, ?_, ?_⟩
  · simp only [runSets, x1, y2, Out.bind_eq, Out.bind]
  · simp only [runSets, x2, y1, Out.bind_eq, Out.bind]
    rw [List.set_comm _ _ hab]

example : ∃ p, Parser.new.parse (lit% "a = 1 # one\n[t]\nb = {x = 'y'}") = .ok (p, .full) ∧ p.display = .ok (lit% "a = 1 # one\n[t]\nb = {x = 'y'}") ∧
    (runSets p [(lit% "t.b.x", .int (lit% "7")), (lit% "a", .bool true), (lit% "t.b.x", .float (lit% "1.5"))]).bind Parser.display =
      .ok (lit% "a = true # one\n[t]\nb = {x = 1.5}") :=
  Out.wit (by decide +kernel)

/-! ## C14 -/

/-- C14. A value of the same structure (arrays of the same length, inline tables with the same keys in the same order, valid scalars for scalars) is
accepted and is what the key reads as afterwards. In the text, the layout of the old value is kept: `t.replace v` is the old tree `t` with all its
separators, comments and blanks, and only its scalars replaced. -/
theorem C14_same_structure {p : Parser} (hp : Session p) {key : Str} {w v : Value} (hw : p.getValue key = .ok (some w)) (hs : w.sameShape v = true)
    (hv : v.deepValid = true) :
    ∃ p', p.setValue key v = .ok (p', true) ∧ p'.getValue key = .ok (some v) ∧
      (∀ k, p'.getChildren k = p.getChildren k) ∧
      ∃ (t : VT) (emp : Bool) (pre post : Str), t.value = w ∧ (t.replace v).value = v ∧
        p.display = textOr emp (pre ++ t.text ++ post) ∧ p'.display = textOr emp (pre ++ (t.replace v).text ++ post) := by
  obtain ⟨ls, fp, hA⟩ := hp.anchored
  obtain ⟨a, ha, F, hF⟩ := hA.focus hw
  have hfit : F.sub.fits v = true := by rw [VT.fits_eq, hF, hs, hv]; rfl
  obtain ⟨h', e1, e2, e3, _⟩ := hA.set_same ha F hfit
  have hrv := VT.replace_value F.sub v hfit
  refine ⟨_, e1, ?_, fun _ => rfl, F.sub, F.emp || F.sub.hasEmptyTable, F.pre, F.post, hF, hrv.1, ?_, ?_⟩
  · rw [e2.inv.getValue_rep (p := { p with st := { p.st with heap := h' } }) ha e3, hrv.1]
  · have := hA.display
    rw [← F.plug_sub, F.text_eq, F.emp_eq] at this
    exact this
  · have := e2.display
    rw [F.text_eq, F.emp_eq, hrv.2] at this
    exact this

example : ∃ p, Parser.new.parse (lit% "a = [ 1 , # one\n  {x='y' , z=true}, ]") = .ok (p, .fullError [.mixedArray (lit% "a") 1 0]) ∧
    (p.setValue (lit% "a") (.arr [.int (lit% "5"), .itab [(lit% "x", .bool false), (lit% "z", .float (lit% "0.5"))]])).bind (fun x => x.1.display) =
      .ok (lit% "a = [ 5 , # one\n  {x=false , z=0.5}, ]") :=
  Out.wit (by decide +kernel)

/-! ## C15 -/

/-- C15. A non-empty or empty flat array of valid scalars whose structure differs from that of the value at the key is accepted; the key reads as the
new array and has as many children as it has elements. Element `i` is read at `key[i]`, provided that this key did not exist before or was one of the
children of the key. -/
theorem C15_flat_array {p : Parser} (hp : Reachable p) {key : Str} (hk : key ≠ []) {w : Value} (hw : p.getValue key = .ok (some w)) {vs : List Value}
    (hvs : ∀ v ∈ vs, v.scalar?.isSome = true ∧ v.Valid) (hst : w.sameShape (.arr vs) = false) :
    ∃ p', p.setValue key (.arr vs) = .ok (p', true) ∧ p'.getValue key = .ok (some (.arr vs)) ∧ p'.getChildren key = some (.count vs.length) ∧
      ∀ i (hi : i < vs.length), (p.getChildren (indexed key i) = none ∨
          ∃ c, p.getChildren key = some c ∧ indexed key i ∈ c.combineChildKeys key) →
        p'.getValue (indexed key i) = .ok (some vs[i]) := by
  simp only [Value.valid_iff] at hvs
  have hP := hp.inv
  obtain ⟨a, t, fp, h1, h2, h3⟩ := hP.inv.of_getValue hw
  obtain ⟨subs, hsub, hlong⟩ := allSubkeys_ok p.st.map key
  have hsc : allScalar vs := fun v hv => (hvs v hv).1
  have hs : sameStructure p.st.heap a (.arr vs) = false := by rw [sameStructure_rep _ h2, VT.fits_eq, h3, hst]; rfl
  obtain ⟨p', avs, g, e1, e2, e3, e4, e5, e6⟩ := setValue_flat hP h1 hsc (deepValids_of hvs) hs hsub
  have hne : ∀ j, key ++ idxStr j ≠ key := by
    intro j e
    have := congrArg List.length e
    simp [idxStr] at this
  have hkey : p'.st.map.get? key = some ⟨some a, .count vs.length⟩ := by
    rw [e6]
    apply putAll_some
    simp [SMap.get?_insert]
  refine ⟨p', e1, ?_, by simp [Parser.getChildren, hk, hkey], fun i hi hc => ?_⟩
  · rw [e3.inv.getValue_rep (valOf_some.mpr ⟨_, hkey⟩) e4, Value.fresh_value]
  · have heq : indexed key i = key ++ idxStr i := by simp [indexed, decimal_eq, idxStr]
    rw [heq] at hc ⊢
    have hnone : ((eraseAll p.st.map subs).insert key ⟨some a, .count vs.length⟩).get? (key ++ idxStr i) = none := by
      rw [SMap.get?_insert, if_neg (Ne.symm (hne i)), eraseAll_get]
      split
      · rfl
      next hm =>
        rcases hc with hc | ⟨c, hc, hc'⟩
        · have hne' : key ++ idxStr i ≠ [] := by simp [hk]
          simp only [Parser.getChildren, if_neg hne'] at hc
          split at hc
          · simp at hc
          · assumption
        · exfalso
          simp only [Parser.getChildren, if_neg hk] at hc
          split at hc
          next hv hg =>
            simp at hc
            exact hm (allSubkeys_mem hk hg hsub _ (hc ▸ hc'))
          · simp at hc
    obtain ⟨b, s, g1, g2, g3⟩ := avEntries_get (key := key) vs 0 hsc e5 i hi
    rw [Nat.zero_add] at g1
    have := putAll_new _ hnone g1 (avEntries_nodup avs 0)
    rw [← e6] at this
    rw [e3.inv.getValue_rep (valOf_some.mpr ⟨_, this⟩) (t := .leaf s) ⟨g3, rfl⟩, Value.scalar_eq g2]
    rfl

/-- C15, the rest of the document: every scalar whose key does not begin with the assigned key reads as before. -/
theorem C15_others {p p' : Parser} (hp : Reachable p) {key : Str} {w : Value} (hw : p.getValue key = .ok (some w)) {vs : List Value}
    (hvs : ∀ v ∈ vs, v.scalar?.isSome = true ∧ v.Valid) (hst : w.sameShape (.arr vs) = false) {b : Bool}
    (h : p.setValue key (.arr vs) = .ok (p', b)) {k : Str} (hk : ¬ key <+: k) {x : Value} (hx : p.getValue k = .ok (some x)) (hxs : x.scalar?.isSome = true) :
    p'.getValue k = .ok (some x) := by
  simp only [Value.valid_iff] at hvs
  have hP := hp.inv
  obtain ⟨a, t, fp, h1, h2, h3⟩ := hP.inv.of_getValue hw
  obtain ⟨subs, hsub, hlong⟩ := allSubkeys_ok p.st.map key
  have hsc : allScalar vs := fun v hv => (hvs v hv).1
  have hs : sameStructure p.st.heap a (.arr vs) = false := by rw [sameStructure_rep _ h2, VT.fits_eq, h3, hst]; rfl
  obtain ⟨p1, avs, g, e1, e2, e3, e4, e5, e6⟩ := setValue_flat hP h1 hsc (deepValids_of hvs) hs hsub
  rw [h] at e1
  simp at e1
  obtain ⟨rfl, _⟩ := e1
  obtain ⟨s, hs'⟩ := Option.isSome_iff_exists.mp hxs
  rw [Value.scalar_eq hs'] at hx ⊢
  obtain ⟨c, g1, g2⟩ := hP.inv.scalar_cell hx
  obtain ⟨cs, hg⟩ := valOf_some.mp g1
  have hkk : key ≠ k := fun e => hk (e ▸ List.prefix_refl _)
  have hget : p'.st.map.get? k = some ⟨some c, cs⟩ := by
    rw [e6, putAll_other]
    · rw [SMap.get?_insert, if_neg hkk, eraseAll_get, if_neg (fun hm => hk (allSubkeys_prefix hsub k hm)), hg]
    · intro q hq e
      obtain ⟨j, _, _, hj⟩ := avEntries_mem avs 0 hq
      rw [e] at hj
      exact hk (hj ▸ List.prefix_append _ _)
  obtain ⟨r, hr⟩ := hP.inv.rank
  obtain ⟨_, _, _, _, _, _, _, _, _, _, _, _, hoff⟩ := graft_spec hr (hP.inv.map.lt key a h1) (.arr vs)
  have hca : c ≠ a := fun e => hkk (hP.inv.map.inj _ _ _ h1 (e ▸ g1))
  have hcell : p'.st.heap[c]? = some s.cell := by
    rw [e2, hoff c (hP.inv.map.lt k c g1) hca, g2]
  exact e3.inv.getValue_rep (valOf_some.mpr ⟨_, hget⟩) (t := .leaf s) ⟨hcell, rfl⟩

/-- C15, the text: the text of the old value is replaced by the new array in the default layout, which is the text of the new value; nothing
else changes. -/
theorem C15_text {p : Parser} (hp : Session p) {key : Str} {w : Value} (hw : p.getValue key = .ok (some w)) {vs : List Value} (hne : vs ≠ [])
    (hvs : ∀ v ∈ vs, v.scalar?.isSome = true ∧ v.Valid) (hst : w.sameShape (.arr vs) = false) :
    ∃ p', p.setValue key (.arr vs) = .ok (p', true) ∧ ∃ (t : VT) (emp : Bool) (pre post new : Str), t.value = w ∧ (Value.arr vs).disp = .ok new ∧
      p.display = textOr (emp || t.hasEmptyTable) (pre ++ t.text ++ post) ∧ p'.display = textOr emp (pre ++ new ++ post) := by
  simp only [Value.valid_iff] at hvs
  obtain ⟨ls, fp, hA⟩ := hp.anchored
  obtain ⟨a, ha, F, hF⟩ := hA.focus hw
  obtain ⟨subs, hsub, hlong⟩ := allSubkeys_ok p.st.map key
  have hsc : allScalar vs := fun v hv => (hvs v hv).1
  have hfit : F.sub.fits (.arr vs) = false := by rw [VT.fits_eq, hF, hst]; rfl
  have hs : sameStructure p.st.heap a (.arr vs) = false := by rw [sameStructure_rep _ F.sub_rep, hfit]
  have hd := deepValids_of hvs
  obtain ⟨p', avs, g, e1, e2, e3, e4, e5, e6⟩ := setValue_flat hp.reachable.inv ha hsc hd hs hsub
  obtain ⟨g', hR⟩ := hA.set_vector ha F hfit rfl (by simpa [Value.deepValid] using hd) hsub
  generalize rebuildAt _ _ _ _ _ _ = R at hR
  cases R with
  | fuel => exact hR.elim
  | panic x => have := hR.2; rw [e1] at this; simp at this
  | ok m =>
    obtain ⟨g1, g2, _, _⟩ := hR
    obtain ⟨t, ht1, ht2⟩ := freshElems_text vs hsc hne
    refine ⟨_, g1, F.sub, F.emp, F.pre, F.post, _, hF, ht2, ?_, ?_⟩
    · have := hA.display
      rw [← F.plug_sub, F.text_eq, F.emp_eq] at this
      exact this
    · have := g2.display
      rw [F.text_eq, F.emp_eq] at this
      have h0 : (Value.arr vs).fresh.hasEmptyTable = false := by
        simpa only [Value.fresh, VT.hasEmptyTable] using freshElems_noEmpty hsc
      have h1 : (Value.arr vs).fresh.text = lit% "[" ++ t ++ lit% "]" := by
        simp [Value.fresh, VT.text, ht1, gapText]
      rw [h0, h1, Bool.or_false] at this
      exact this

example : ∃ p, Parser.new.parse (lit% "a = [1, 2, 3] # x\nb = 4") = .ok (p, .full) ∧ ∃ p', p.setValue (lit% "a") (.arr [.bool true, .float (lit% "2.5")]) = .ok (p', true) ∧
    p'.getValue (lit% "a[1]") = .ok (some (.float (lit% "2.5"))) ∧ p'.getValue (lit% "a[2]") = .ok none ∧ p'.getChildren (lit% "a") = some (.count 2) ∧
    p'.display = .ok (lit% "a = [true, 2.5] # x\nb = 4") :=
  Out.wit (by decide +kernel)

/-- C15, that the proviso about `key[i]` is needed: after a duplicate key, an element that is no child keeps its old value. -/
theorem C15_stale_element : ∃ p, Parser.new.parse (lit% "a = {x = 1}\na = [1, 2]") =
      .ok (p, .fullError [.duplicateKey (lit% "a") 2 0 (.arr [.int (lit% "1"), .int (lit% "2")])]) ∧
    ∃ p', p.setValue (lit% "a") (.arr [.int (lit% "5")]) = .ok (p', true) ∧ p'.getValue (lit% "a") = .ok (some (.arr [.int (lit% "5")])) ∧
      p'.getValue (lit% "a[0]") = .ok (some (.int (lit% "1"))) :=
  Out.wit (by decide +kernel)

/-- C15 for flat inline tables with different keys: accepted, and read back as a whole and key by key. As for the children, the names are added to the names that
were there; but a key that had a number of children has the same number still. -/
theorem C15_flat_table {p : Parser} (hp : Reachable p) {key : Str} (hk : key ≠ []) {w : Value} (hw : p.getValue key = .ok (some w))
    {vs : List (Str × Value)} (hnd : (vs.map (·.1)).Nodup)
    (hvs : ∀ kv ∈ vs, kv.2.scalar?.isSome = true ∧ kv.2.Valid) (hst : w.sameShape (.itab vs) = false) :
    ∃ p', p.setValue key (.itab vs) = .ok (p', true) ∧ p'.getValue key = .ok (some (.itab vs)) ∧
      (∀ ks, p.getChildren key = some (.keys ks) → p'.getChildren key = some (.keys (ks ++ (vs.map (·.1)).filter (· ∉ ks)))) ∧
      (∀ n, p.getChildren key = some (.count n) → p'.getChildren key = some (.count n)) ∧
      ∀ k v, (k, v) ∈ vs → (p.getChildren (dotted key k) = none ∨
          ∃ c, p.getChildren key = some c ∧ dotted key k ∈ c.combineChildKeys key) →
        p'.getValue (dotted key k) = .ok (some v) := by
  simp only [Value.valid_iff] at hvs
  have hP := hp.inv
  obtain ⟨a, t, fp, h1, h2, h3⟩ := hP.inv.of_getValue hw
  obtain ⟨c0, hg⟩ := valOf_some.mp h1
  obtain ⟨subs, hsub, hlong⟩ := allSubkeys_ok p.st.map key
  have hsc : allScalar (vs.map (·.2)) := fun v hv => by
    rw [List.mem_map] at hv
    obtain ⟨kv, h, rfl⟩ := hv
    exact (hvs kv h).1
  have hs : sameStructure p.st.heap a (.itab vs) = false := by rw [sameStructure_rep _ h2, VT.fits_eq, h3, hst]; rfl
  obtain ⟨p', avs, g, c, e1, e2, e3, e4, e5, e6, e7, e8⟩ := setValue_flatTab hP hg hsc (deepValidKVs_of hvs) hs hsub
  have hne : ∀ j, key ++ lit% "." ++ j ≠ key := by
    intro j e
    have := congrArg List.length e
    simp at this
  have hkey : p'.st.map.get? key = some ⟨some a, c⟩ := by
    rw [e6]
    apply putAll_some
    simp [SMap.get?_insert]
  have hold : p.getChildren key = some c0 := by simp [Parser.getChildren, hk, hg]
  have hnew : p'.getChildren key = some c := by simp [Parser.getChildren, hk, hkey]
  refine ⟨p', e1, ?_, fun ks hks => ?_, fun n hn => ?_, fun i v hi hc => ?_⟩
  · rw [e3.inv.getValue_rep (valOf_some.mpr ⟨_, hkey⟩) e4, Value.fresh_value]
  · rw [hold] at hks
    cases hks
    have hkeys := freshPairs_keys vs e5
    rw [hnew, e8 ks rfl, foldl_insertUniq_new avs ks (by rw [hkeys]; exact hnd), hkeys]
  · rw [hold] at hn
    cases hn
    rw [hnew, e7 n rfl]
  · have heq : dotted key i = key ++ lit% "." ++ i := by simp [dotted, hk]
    rw [heq] at hc ⊢
    have hnone : ((eraseAll p.st.map subs).insert key ⟨some a, c⟩).get? (key ++ lit% "." ++ i) = none := by
      rw [SMap.get?_insert, if_neg (Ne.symm (hne i)), eraseAll_get]
      split
      · rfl
      next hm =>
        rcases hc with hc | ⟨c, hc, hc'⟩
        · have hne' : key ++ lit% "." ++ i ≠ [] := by simp [hk]
          simp only [Parser.getChildren, if_neg hne'] at hc
          split at hc
          · simp at hc
          · assumption
        · exfalso
          simp only [Parser.getChildren, if_neg hk] at hc
          split at hc
          next hv hg =>
            simp at hc
            exact hm (allSubkeys_mem hk hg hsub _ (hc ▸ hc'))
          · simp at hc
    obtain ⟨b, s, g1, g2, g3⟩ := kvEntries_get (key := key) vs hsc e5 i v hi
    have := putAll_new _ hnone g1 (by
      rw [kvEntries_keys, freshPairs_keys vs e5]
      rw [List.nodup_iff_pairwise_ne, List.pairwise_map]
      exact (List.nodup_iff_pairwise_ne.mp hnd).imp (fun h e => h (List.append_cancel_left e)))
    rw [← e6] at this
    rw [e3.inv.getValue_rep (valOf_some.mpr ⟨_, this⟩) (t := .leaf s) ⟨g3, rfl⟩, Value.scalar_eq g2]
    rfl

example : ∃ p, Parser.new.parse (lit% "a = {x = 1}") = .ok (p, .full) ∧ ∃ p', p.setValue (lit% "a") (.itab [(lit% "y", .bool true)]) = .ok (p', true) ∧
    p'.getValue (lit% "a.y") = .ok (some (.bool true)) ∧ p'.getValue (lit% "a.x") = .ok none ∧ p'.display = .ok (lit% "a = { y = true }") :=
  Out.wit (by decide +kernel)

/-- C15 is false of inline tables as far as the children are concerned: the old names remain children, and a key that had none has none still. -/
theorem C15_table_children_stale : ∃ p, Parser.new.parse (lit% "a = {x = 1}\nb = 2") = .ok (p, .full) ∧
    (∃ p', p.setValue (lit% "a") (.itab [(lit% "y", .bool true)]) = .ok (p', true) ∧ p'.getChildren (lit% "a") = some (.keys [lit% "x", lit% "y"]) ∧
      p'.getValue (lit% "a.x") = .ok none) ∧
    (∃ p', p.setValue (lit% "b") (.itab [(lit% "y", .bool true)]) = .ok (p', true) ∧ p'.getChildren (lit% "b") = some (.count 0) ∧
      p'.getValue (lit% "b.y") = .ok (some (.bool true))) :=
  Out.wit (by decide +kernel)

/-- C15 is false of nested values: a valid array in an array, assigned to a key with a value of another structure, panics. So does a valid scalar assigned
to a key that holds an array, and an inline table with an invalid value in it. -/
theorem C15_set_panics : ∃ p, Parser.new.parse (lit% "a = [1]\nb = 2") = .ok (p, .full) ∧
    p.setValue (lit% "a") (.arr [.arr [.int (lit% "1")]]) = .panic .rebuildVacant ∧
    p.setValue (lit% "b") (.itab [(lit% "x", .arr [])]) = .panic .rebuildVacant ∧
    p.setValue (lit% "a") (.int (lit% "1")) = .panic .setNotVector ∧
    p.setValue (lit% "b") (.itab [(lit% "x", .int (lit% "?"))]) = .panic .unwrapNone :=
  Out.wit (by decide +kernel)

/-! ## C16 -/

/-- C16 is false, for every document and every key of a table header (a key at which `get_value` panics): every valid scalar assigned to it is accepted,
although the printed document stays as it is. -/
theorem C16_table_header {p : Parser} (hp : Session p) {key : Str} {x : Panic} (hx : p.getValue key = .panic x) {v : Value}
    (hv : v.scalar?.isSome = true) (hgood : v.Valid) :
    ∃ p', p.setValue key v = .ok (p', true) ∧ p'.getValue key = .ok (some v) ∧ p'.display = p.display := by
  rw [Value.valid_iff] at hgood
  obtain ⟨ls, fp, hA⟩ := hp.anchored
  obtain ⟨s, hs⟩ := Option.isSome_iff_exists.mp hv
  rw [Value.scalar_eq hs] at hgood ⊢
  rcases hA.inv.getValue_cases key with ⟨_, h⟩ | ⟨a, h1, h2, h3⟩ | ⟨_, _, _, _, _, h⟩
  · rw [hx] at h; simp at h
  · obtain ⟨c0, hg⟩ := valOf_some.mp h1
    have hl : (a : Nat) < p.st.heap.length := hA.inv.map.lt key a h1
    have hsc : isScalarCell p.st.heap a = true := by simp [isScalarCell, h2]
    have hset : p.setValue key s.value = .ok ({ p with st := { p.st with heap := p.st.heap.set a s.cell } }, true) := by
      have hst : sameStructure p.st.heap a s.value = true := by rw [sameStructure_scalar, hgood, hsc]; rfl
      unfold Parser.setValue
      simp only [hg, hst, Out.bind_eq, replaceValues_scalar, writeCell, if_pos hl, Out.bind, if_true]
    have hi' := (Reachable.set hp.reachable hset).inv.inv
    refine ⟨_, hset, hi'.getValue_rep (p := { p with st := { p.st with heap := p.st.heap.set a s.cell } }) h1 (t := .leaf s) (fp := [a])
      ⟨show (p.st.heap.set a s.cell)[a]? = _ by simp [hl], rfl⟩, ?_⟩
    have haf : a ∉ fp := fun hm => (hA.rep.bound a hm).2 h2
    have hrep : LinesRep (p.st.heap.set a s.cell) ls p.tree.exprs fp :=
      hA.rep.congr (fun x hx => List.getElem?_set_ne (show a ≠ x from fun e => haf (e ▸ hx)))
    obtain ⟨r, hr⟩ := hA.inv.rank
    obtain ⟨r', hr'⟩ := hi'.rank
    exact (renderToml_rep hr' hrep).trans (renderToml_rep hr hA.rep).symm
  · rw [hx] at h; simp at h

example : ∃ p, Parser.new.parse (lit% "[t]\na = 1") = .ok (p, .full) ∧ p.getValue (lit% "t") = .panic .tableToVal ∧
    ∃ p', p.setValue (lit% "t") (.int (lit% "7")) = .ok (p', true) ∧ p'.getValue (lit% "t") = .ok (some (.int (lit% "7"))) ∧
      p'.display = .ok (lit% "[t]\na = 1") :=
  Out.wit (by decide +kernel)

end Tomllib
