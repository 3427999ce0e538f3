import Verif.Lemmas.Document
/-!
# Edits: trees and values
-/

namespace Tomllib

@[simp] theorem Scalar.scalar_value (s : Scalar) : s.value.scalar? = some s := by cases s <;> rfl

theorem Value.scalar_eq {v : Value} {s : Scalar} (h : v.scalar? = some s) : v = s.value := by
  cases v <;> simp [Value.scalar?] at h <;> subst h <;> rfl

theorem Scalar.disp_value (s : Scalar) : s.value.disp = .ok s.text := by cases s <;> simp [Scalar.value, Value.disp, Scalar.text]

theorem Value.deepValid_scalar (s : Scalar) : s.value.deepValid = s.value.validate := by rw [← Value.valid_eq]; cases s <;> rfl

mutual
/-- Fitting a tree is having the shape of its value. -/
theorem VT.fits_eq : ∀ (t : VT) (v : Value), t.fits v = (t.value.sameShape v && v.deepValid)
  | .leaf s, .int _ => by cases s <;> simp [VT.fits, VT.value, Value.sameShape, Value.deepValid, Value.scalar?, Scalar.value]
  | .leaf s, .float _ => by cases s <;> simp [VT.fits, VT.value, Value.sameShape, Value.deepValid, Value.scalar?, Scalar.value]
  | .leaf s, .bool _ => by cases s <;> simp [VT.fits, VT.value, Value.sameShape, Value.deepValid, Value.scalar?, Scalar.value]
  | .leaf s, .dt _ => by cases s <;> simp [VT.fits, VT.value, Value.sameShape, Value.deepValid, Value.scalar?, Scalar.value]
  | .leaf s, .str _ _ => by cases s <;> simp [VT.fits, VT.value, Value.sameShape, Value.deepValid, Value.scalar?, Scalar.value]
  | .leaf s, .arr _ => by cases s <;> simp [VT.fits, VT.value, Value.sameShape, Value.scalar?, Scalar.value]
  | .leaf s, .itab _ => by cases s <;> simp [VT.fits, VT.value, Value.sameShape, Value.scalar?, Scalar.value]
  | .arr es c1 c2, .arr vs => by simp [VT.fits, VT.value, Value.sameShape, Value.deepValid, Elems.fits_eq es vs]
  | .arr es c1 c2, .itab vs => by simp [VT.fits, VT.value, Value.sameShape, Value.scalar?]
  | .arr es c1 c2, .int _ => by simp [VT.fits, VT.value, Value.sameShape, Value.scalar?]
  | .arr es c1 c2, .float _ => by simp [VT.fits, VT.value, Value.sameShape, Value.scalar?]
  | .arr es c1 c2, .bool _ => by simp [VT.fits, VT.value, Value.sameShape, Value.scalar?]
  | .arr es c1 c2, .dt _ => by simp [VT.fits, VT.value, Value.sameShape, Value.scalar?]
  | .arr es c1 c2, .str _ _ => by simp [VT.fits, VT.value, Value.sameShape, Value.scalar?]
  | .itab es c1, .itab vs => by simp [VT.fits, VT.value, Value.sameShape, Value.deepValid, Pairs.fits_eq es vs]
  | .itab es c1, .arr vs => by simp [VT.fits, VT.value, Value.sameShape, Value.scalar?]
  | .itab es c1, .int _ => by simp [VT.fits, VT.value, Value.sameShape, Value.scalar?]
  | .itab es c1, .float _ => by simp [VT.fits, VT.value, Value.sameShape, Value.scalar?]
  | .itab es c1, .bool _ => by simp [VT.fits, VT.value, Value.sameShape, Value.scalar?]
  | .itab es c1, .dt _ => by simp [VT.fits, VT.value, Value.sameShape, Value.scalar?]
  | .itab es c1, .str _ _ => by simp [VT.fits, VT.value, Value.sameShape, Value.scalar?]
theorem Elems.fits_eq : ∀ (t : Elems) (vs : List Value), t.fits vs = (sameShapes t.values vs && deepValids vs)
  | .nil, [] => rfl
  | .nil, _ :: _ => by simp [Elems.fits, Elems.values, sameShapes]
  | .cons .., [] => by simp [Elems.fits, Elems.values, sameShapes]
  | .cons v _ _ r, t :: ts => by
    simp [Elems.fits, Elems.values, sameShapes, deepValids, VT.fits_eq v t, Elems.fits_eq r ts]
    cases v.value.sameShape t <;> cases t.deepValid <;> simp
theorem Pairs.fits_eq : ∀ (t : Pairs) (vs : List (Str × Value)), t.fits vs = (sameShapeKVs t.values vs && deepValidKVs vs)
  | .nil, [] => rfl
  | .nil, _ :: _ => by simp [Pairs.fits, Pairs.values, sameShapeKVs]
  | .cons .., [] => by simp [Pairs.fits, Pairs.values, sameShapeKVs]
  | .cons k _ v _ _ r, (k', t) :: ts => by
    simp [Pairs.fits, Pairs.values, sameShapeKVs, deepValidKVs, VT.fits_eq v t, Pairs.fits_eq r ts]
    cases v.value.sameShape t <;> cases t.deepValid <;> simp [Bool.and_assoc]
end

mutual
theorem VT.replace_value : ∀ (t : VT) (v : Value), t.fits v = true → (t.replace v).value = v ∧ (t.replace v).hasEmptyTable = t.hasEmptyTable
  | .leaf s, v, h => by
    simp [VT.fits] at h
    obtain ⟨s', h'⟩ := Option.isSome_iff_exists.mp h.2
    simp [VT.replace, VT.value, Value.scalar_eq h', VT.hasEmptyTable]
  | .arr es c1 c2, .arr vs, h => by
    have := Elems.replace_value es vs (by simpa [VT.fits] using h)
    simp [VT.replace, VT.value, VT.hasEmptyTable, this]
  | .itab es c1, .itab vs, h => by
    have := Pairs.replace_value es vs (by simpa [VT.fits] using h)
    refine ⟨by simp [VT.replace, VT.value, this], ?_⟩
    cases es with
    | nil => simp [VT.replace, Pairs.replace]
    | cons k ws v sep cn r =>
      cases vs with
      | nil => simp [VT.fits, Pairs.fits] at h
      | cons a vs =>
        have h2 := this.2
        simp [Pairs.replace, Pairs.hasEmptyTable] at h2
        simp [VT.replace, Pairs.replace, VT.hasEmptyTable, h2]
  | .arr es c1 c2, .itab vs, h => by simp [VT.fits] at h
  | .arr es c1 c2, .int _, h => by simp [VT.fits] at h
  | .arr es c1 c2, .float _, h => by simp [VT.fits] at h
  | .arr es c1 c2, .bool _, h => by simp [VT.fits] at h
  | .arr es c1 c2, .dt _, h => by simp [VT.fits] at h
  | .arr es c1 c2, .str _ _, h => by simp [VT.fits] at h
  | .itab es c1, .arr vs, h => by simp [VT.fits] at h
  | .itab es c1, .int _, h => by simp [VT.fits] at h
  | .itab es c1, .float _, h => by simp [VT.fits] at h
  | .itab es c1, .bool _, h => by simp [VT.fits] at h
  | .itab es c1, .dt _, h => by simp [VT.fits] at h
  | .itab es c1, .str _ _, h => by simp [VT.fits] at h
theorem Elems.replace_value : ∀ (t : Elems) (vs : List Value), t.fits vs = true → (t.replace vs).values = vs ∧ (t.replace vs).hasEmptyTable = t.hasEmptyTable
  | .nil, [], _ => by simp [Elems.replace, Elems.values]
  | .nil, _ :: _, h => by simp [Elems.fits] at h
  | .cons .., [], h => by simp [Elems.fits] at h
  | .cons v _ _ r, t :: ts, h => by
    simp [Elems.fits] at h
    have h1 := VT.replace_value v t h.1
    have h2 := Elems.replace_value r ts h.2
    simp [Elems.replace, Elems.values, Elems.hasEmptyTable, h1, h2]
theorem Pairs.replace_value : ∀ (t : Pairs) (vs : List (Str × Value)), t.fits vs = true → (t.replace vs).values = vs ∧ (t.replace vs).hasEmptyTable = t.hasEmptyTable
  | .nil, [], _ => by simp [Pairs.replace, Pairs.values]
  | .nil, _ :: _, h => by simp [Pairs.fits] at h
  | .cons .., [], h => by simp [Pairs.fits] at h
  | .cons k _ v _ _ r, (k', t) :: ts, h => by
    simp [Pairs.fits] at h
    have h1 := VT.replace_value v t h.2.1
    have h2 := Pairs.replace_value r ts h.2.2
    simp [Pairs.replace, Pairs.values, Pairs.hasEmptyTable, h1, h2, h.1]
end

/-! ## One scalar cell changes -/

theorem Value.Edited.refl_or {old new x y : Value} (h : x = y ∨ x = old ∧ y = new) (hx : x.scalar?.isSome) : Value.Edited old new x y := by
  cases x <;> simp [Value.scalar?] at hx <;> simpa [Value.Edited] using h

mutual
/-- The trees in a heap in which one scalar cell has been overwritten. -/
theorem VT.Rep.edited {h : Heap} {a : Nat} {s s' : Scalar} (ha : h[a]? = some s.cell) : ∀ {t : VT} {x : Addr} {fp : List Addr}, t.Rep h x fp →
    ∃ t', VT.Rep (h.set a s'.cell) t' x fp ∧ Value.Edited s.value s'.value t.value t'.value ∧ (x ≠ a → t.value.scalar?.isSome → t'.value = t.value)
  | .leaf s1, x, fp, hr => by
    have hl : a < h.length := (List.getElem?_eq_some_iff.mp ha).1
    obtain ⟨h1, rfl⟩ := hr
    by_cases hx : x = a
    · subst hx
      rw [ha] at h1
      have : s1 = s := by cases s <;> cases s1 <;> simp [Scalar.cell] at h1 <;> simp [h1]
      subst this
      exact ⟨.leaf s', ⟨by simp [hl], rfl⟩, Value.Edited.refl_or (.inr ⟨rfl, rfl⟩) (by simp [VT.value]), fun h => absurd rfl h⟩
    · exact ⟨.leaf s1, ⟨by rw [List.getElem?_set_ne (Ne.symm hx), h1], rfl⟩, Value.Edited.refl_or (.inl rfl) (by simp [VT.value]), fun _ _ => rfl⟩
  | .arr es c1 c2, x, fp, hr => by
    obtain ⟨avs, g, h1, r1, rfl⟩ := hr
    obtain ⟨es', h2, h3⟩ := Elems.Rep.edited ha (s' := s') r1
    have hx : x ≠ a := by rintro rfl; rw [ha] at h1; cases s <;> simp [Scalar.cell] at h1
    exact ⟨.arr es' c1 c2, ⟨avs, g, by rw [List.getElem?_set_ne (Ne.symm hx), h1], h2, rfl⟩, by simpa [VT.value, Value.Edited] using h3,
      by simp [VT.value, Value.scalar?]⟩
  | .itab es c1, x, fp, hr => by
    obtain ⟨avs, g, h1, r1, rfl⟩ := hr
    obtain ⟨es', h2, h3⟩ := Pairs.Rep.edited ha (s' := s') r1
    have hx : x ≠ a := by rintro rfl; rw [ha] at h1; cases s <;> simp [Scalar.cell] at h1
    exact ⟨.itab es' c1, ⟨avs, g, by rw [List.getElem?_set_ne (Ne.symm hx), h1], h2, rfl⟩, by simpa [VT.value, Value.Edited] using h3,
      by simp [VT.value, Value.scalar?]⟩
theorem Elems.Rep.edited {h : Heap} {a : Nat} {s s' : Scalar} (ha : h[a]? = some s.cell) : ∀ {t : Elems} {x : List ArrayValue} {fp : List Addr}, t.Rep h x fp →
    ∃ t', Elems.Rep (h.set a s'.cell) t' x fp ∧ Editeds s.value s'.value t.values t'.values
  | .nil, x, fp, hr => ⟨.nil, hr, by simp [Elems.values, Editeds]⟩
  | .cons v sep cn r, x, fp, hr => by
    obtain ⟨b, avs', f1, f2, rfl, r1, s1, rfl⟩ := hr
    obtain ⟨v', h1, h2, _⟩ := VT.Rep.edited ha (s' := s') r1
    obtain ⟨r', h3, h4⟩ := Elems.Rep.edited ha (s' := s') s1
    exact ⟨.cons v' sep cn r', ⟨b, avs', f1, f2, rfl, h1, h3, rfl⟩, by simp [Elems.values, Editeds, h2, h4]⟩
theorem Pairs.Rep.edited {h : Heap} {a : Nat} {s s' : Scalar} (ha : h[a]? = some s.cell) : ∀ {t : Pairs} {x : List TableKeyVal} {fp : List Addr}, t.Rep h x fp →
    ∃ t', Pairs.Rep (h.set a s'.cell) t' x fp ∧ EditedKVs s.value s'.value t.values t'.values
  | .nil, x, fp, hr => ⟨.nil, hr, by simp [Pairs.values, EditedKVs]⟩
  | .cons k ws v sep cn r, x, fp, hr => by
    obtain ⟨b, avs', f1, f2, rfl, r1, s1, rfl⟩ := hr
    obtain ⟨v', h1, h2, _⟩ := VT.Rep.edited ha (s' := s') r1
    obtain ⟨r', h3, h4⟩ := Pairs.Rep.edited ha (s' := s') s1
    exact ⟨.cons k ws v' sep cn r', ⟨b, avs', f1, f2, rfl, h1, h3, rfl⟩, by simp [Pairs.values, EditedKVs, h2, h4]⟩
end

/-! ## `set_value` with scalars -/

theorem Inv.scalar_cell {p : Parser} (hi : Inv p.st) {key : Str} {s : Scalar} (h : p.getValue key = .ok (some s.value)) :
    ∃ a, valOf p.st.map key = some a ∧ p.st.heap[a]? = some s.cell := by
  obtain ⟨a, t, fp, h1, h2, h3⟩ := hi.of_getValue h
  refine ⟨a, h1, ?_⟩
  cases t with
  | leaf s1 =>
    have : s1 = s := by
      have := congrArg Value.scalar? h3
      simpa [VT.value] using this
    subst this
    exact h2.1
  | arr => simp [VT.value] at h3; cases s <;> simp [Scalar.value] at h3
  | itab => simp [VT.value] at h3; cases s <;> simp [Scalar.value] at h3

theorem sameStructure_scalar {h : Heap} {a : Addr} (s : Scalar) : sameStructure h a s.value = (s.value.validate && isScalarCell h a) := by
  cases s <;> rfl

theorem replaceValues_scalar {h : Heap} {a : Addr} (s : Scalar) : replaceValues h a s.value = writeCell h a s.cell := by
  cases s <;> rfl

/-- `set_value` of a valid scalar on a key that holds a scalar writes one cell. -/
theorem set_scalar {p : Parser} {key : Str} {a : Nat} {s s' : Scalar} (ha : valOf p.st.map key = some a) (hc : p.st.heap[a]? = some s.cell)
    (hv : s'.value.validate = true) :
    p.setValue key s'.value = .ok ({ p with st := { p.st with heap := p.st.heap.set a s'.cell } }, true) := by
  obtain ⟨c0, hg⟩ := valOf_some.mp ha
  have hl : a < p.st.heap.length := (List.getElem?_eq_some_iff.mp hc).1
  have hs : sameStructure p.st.heap a s'.value = true := by rw [sameStructure_scalar, hv, isScalarCell_leaf hc]; rfl
  unfold Parser.setValue
  simp only [hg, hs, Out.bind_eq, replaceValues_scalar, writeCell, if_pos hl, Out.bind, if_true]

theorem convertVector_scalar {h : Heap} {s : Scalar} (hv : s.value.validate = false) : convertVector h s.value = .ok (h, none) := by
  cases s with
  | bool b => simp [Scalar.value, Value.validate] at hv
  | _ => simp only [Scalar.value] at hv; simp [Scalar.value, convertVector, hv]

/-- After a scalar has been set, the invariants hold still. -/
theorem Inv.set_scalar {p : Parser} (hi : Inv p.st) {a : Nat} {s s' : Scalar} (hc : p.st.heap[a]? = some s.cell) :
    Inv { p.st with heap := p.st.heap.set a s'.cell } := by
  obtain ⟨r, hr⟩ := hi.rank
  have hag : Agree p.st.heap (p.st.heap.set a s'.cell) := (Agree.refl _).set (isScalarCell_leaf hc) s'
  refine ⟨⟨r, hag.ranked hr⟩, ?_, hi.stack, hi.err, hi.cols, hi.lines, hi.line1⟩
  dsimp only
  rw [hag.1]; exact hi.map

/-- What reading any key gives after a scalar cell has been overwritten. -/
theorem Inv.get_after_scalar {p : Parser} (hi : Inv p.st) {a : Nat} {s s' : Scalar} (hc : p.st.heap[a]? = some s.cell) (key' : Str) :
    let p' : Parser := { p with st := { p.st with heap := p.st.heap.set a s'.cell } }
    (p.getValue key' = .ok none ∧ p'.getValue key' = .ok none) ∨
    (p.getValue key' = .panic .tableToVal ∧ p'.getValue key' = .panic .tableToVal) ∨
    ∃ x y, p.getValue key' = .ok (some x) ∧ p'.getValue key' = .ok (some y) ∧ Value.Edited s.value s'.value x y ∧
      (valOf p.st.map key' ≠ some a → x.scalar?.isSome → y = x) ∧ (valOf p.st.map key' = some a → y = s'.value) := by
  intro p'
  have hi' : Inv p'.st := hi.set_scalar hc
  have hl : a < p.st.heap.length := (List.getElem?_eq_some_iff.mp hc).1
  rcases hi.getValue_cases key' with ⟨h1, h2⟩ | ⟨b, h1, h2, h3⟩ | ⟨b, t, fp, h1, h2, h3⟩
  · exact .inl ⟨h2, hi'.getValue_none.mpr h1⟩
  · refine .inr (.inl ⟨h3, ?_⟩)
    have hb : b ≠ a := by rintro rfl; rw [hc] at h2; cases s <;> simp [Scalar.cell] at h2
    obtain ⟨c, hm⟩ := valOf_some.mp h1
    have h4 : p'.st.heap[b]? = some .table := by
      show (p.st.heap.set a s'.cell)[b]? = _
      rw [List.getElem?_set_ne (Ne.symm hb), h2]
    simp only [Parser.getValue, show p'.st.map.get? key' = _ from hm, Out.bind_eq, toVal_table h4]; rfl
  · obtain ⟨t', h4, h5, h6⟩ := h2.edited hc (s' := s')
    refine .inr (.inr ⟨_, _, h3, hi'.getValue_rep (p := p') h1 h4, h5, fun hne hsc => h6 (fun e => hne (e ▸ h1)) hsc, fun he => ?_⟩)
    rw [h1] at he
    simp at he; subst he
    have h7 : VT.Rep p'.st.heap (.leaf s') b [b] := ⟨by show (p.st.heap.set b s'.cell)[b]? = _; simp [hl], rfl⟩
    have h8 := hi'.getValue_rep (p := p') h1 h7
    rw [hi'.getValue_rep (p := p') h1 h4] at h8
    simpa [VT.value] using h8

end Tomllib
