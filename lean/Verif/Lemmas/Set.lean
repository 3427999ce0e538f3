import Verif.Lemmas.Tree
import Verif.Spec.Edit
import Verif.Lemmas.Valid
/-!
# `set_value`
-/

namespace Tomllib

/-! ## Same structure -/

/-- The second heap differs from the first in the contents of scalar cells only. -/
def Agree (h h' : Heap) : Prop :=
  h'.length = h.length ∧ ∀ x : Nat, h'[x]? = h[x]? ∨ (isScalarCell h x = true ∧ ∃ s : Scalar, h'[x]? = some s.cell)

theorem Agree.refl (h : Heap) : Agree h h := ⟨rfl, fun _ => .inl rfl⟩

theorem Agree.set {h h' : Heap} (ha : Agree h h') {a : Nat} (hs : isScalarCell h a = true) (s : Scalar) : Agree h (h'.set a s.cell) := by
  refine ⟨by simp [ha.1], fun x => ?_⟩
  by_cases hx : x = a
  · subst hx
    right
    refine ⟨hs, s, ?_⟩
    have : x < h'.length := by
      rw [ha.1]
      unfold isScalarCell at hs
      by_cases hl : x < h.length
      · exact hl
      · simp [List.getElem?_eq_none (Nat.le_of_not_lt hl)] at hs
    simp [this]
  · rw [List.getElem?_set_ne (Ne.symm hx)]
    exact ha.2 x

theorem isScalarCell_lt {h : Heap} {a : Nat} (hs : isScalarCell h a = true) : a < h.length := by
  unfold isScalarCell at hs
  by_cases hl : a < h.length
  · exact hl
  · simp [List.getElem?_eq_none (Nat.le_of_not_lt hl)] at hs

theorem writeCell_scalar {h h' : Heap} {a : Nat} (ha : Agree h h') (hs : isScalarCell h a = true) (s : Scalar) :
    ∃ h'', writeCell h' a s.cell = .ok h'' ∧ Agree h h'' := by
  refine ⟨_, ?_, ha.set hs s⟩
  unfold writeCell
  rw [if_pos]
  rw [ha.1]; exact isScalarCell_lt hs

theorem Agree.arr {h h' : Heap} (ha : Agree h h') {a : Nat} {vs c1 c2} (hv : h[a]? = some (.arr vs c1 c2)) : h'[a]? = some (.arr vs c1 c2) := by
  rcases ha.2 a with h1 | ⟨h1, _⟩
  · rw [h1, hv]
  · simp [isScalarCell, hv] at h1

theorem Agree.itab {h h' : Heap} (ha : Agree h h') {a : Nat} {vs c1} (hv : h[a]? = some (.itab vs c1)) : h'[a]? = some (.itab vs c1) := by
  rcases ha.2 a with h1 | ⟨h1, _⟩
  · rw [h1, hv]
  · simp [isScalarCell, hv] at h1

mutual
/-- Replacing values in a cell of the same structure succeeds and writes scalar cells only. -/
theorem replaceValues_agree {h : Heap} : ∀ (v : Value) {h' : Heap} {a : Addr}, sameStructure h a v = true → Agree h h' →
    ∃ h'', replaceValues h' a v = .ok h'' ∧ Agree h h''
  | .int s, h', a, hs, ha => writeCell_scalar ha (by simp [sameStructure] at hs; exact hs.2) (.int s)
  | .float s, h', a, hs, ha => writeCell_scalar ha (by simp [sameStructure] at hs; exact hs.2) (.float s)
  | .bool s, h', a, hs, ha => writeCell_scalar ha (by simp [sameStructure] at hs; exact hs.2) (.bool s)
  | .dt s, h', a, hs, ha => writeCell_scalar ha (by simp [sameStructure] at hs; exact hs.2) (.dt s)
  | .str s t, h', a, hs, ha => writeCell_scalar ha (by simp [sameStructure] at hs; exact hs.2) (.str s t)
  | .arr ts, h', a, hs, ha => by
    rw [sameStructure] at hs
    split at hs
    next vals c1 c2 hv =>
      split at hs
      · simp at hs
      next hl =>
        simp only [replaceValues, ha.arr hv]
        exact replaceAVs_agree ts hs (by simpa using hl) ha
    · simp at hs
  | .itab ts, h', a, hs, ha => by
    rw [sameStructure] at hs
    split at hs
    next vals c1 hv =>
      split at hs
      · simp at hs
      next hl =>
        simp only [replaceValues, ha.itab hv]
        exact replaceKVs_agree ts hs (by simpa using hl) ha
    · simp at hs
theorem replaceAVs_agree {h : Heap} : ∀ (ts : List Value) {h' : Heap} {avs : List ArrayValue}, sameAVs h avs ts = true →
    avs.length = ts.length → Agree h h' → ∃ h'', replaceAVs h' avs ts = .ok h'' ∧ Agree h h''
  | [], h', avs, _, hl, ha => by
    simp at hl; subst hl
    exact ⟨h', rfl, ha⟩
  | t :: ts, h', [], _, hl, ha => by simp at hl
  | t :: ts, h', av :: avs, hs, hl, ha => by
    simp [sameAVs] at hs
    obtain ⟨h1, e1, a1⟩ := replaceValues_agree t hs.1 ha
    obtain ⟨h2, e2, a2⟩ := replaceAVs_agree ts hs.2 (by simpa using hl) a1
    exact ⟨h2, by simp only [replaceAVs, e1]; exact e2, a2⟩
theorem replaceKVs_agree {h : Heap} : ∀ (ts : List (Str × Value)) {h' : Heap} {avs : List TableKeyVal}, sameKVs h avs ts = true →
    avs.length = ts.length → Agree h h' → ∃ h'', replaceKVs h' avs ts = .ok h'' ∧ Agree h h''
  | [], h', avs, _, hl, ha => by
    simp at hl; subst hl
    exact ⟨h', rfl, ha⟩
  | (k, t) :: ts, h', [], _, hl, ha => by simp at hl
  | (k, t) :: ts, h', av :: avs, hs, hl, ha => by
    simp [sameKVs] at hs
    obtain ⟨h1, e1, a1⟩ := replaceValues_agree t hs.2.1 ha
    obtain ⟨h2, e2, a2⟩ := replaceKVs_agree ts hs.2.2 (by simpa using hl) a1
    exact ⟨h2, by simp only [replaceKVs, e1]; exact e2, a2⟩
end

theorem Scalar.kids (s : Scalar) : s.cell.kids = [] := by cases s <;> rfl

theorem Agree.ranked {h h' : Heap} {r : Addr → Nat} (ha : Agree h h') (hr : Ranked h r) : Ranked h' r := by
  intro a v hv
  rcases ha.2 a with h1 | ⟨h1, s, h2⟩
  · rw [h1] at hv
    have := hr a v hv
    rw [ha.1]
    refine ⟨this.1, fun c hc => ?_⟩
    have h3 := this.2 c hc
    refine ⟨h3.1, h3.2.1, ?_⟩
    rcases ha.2 c with h4 | ⟨_, s, h5⟩
    · rw [h4]; exact h3.2.2
    · rw [h5]; simp [Scalar.cell_ne_table]
  · rw [h2] at hv
    simp at hv; subst hv
    rw [Scalar.kids, ha.1]
    exact ⟨hr.lt (isScalarCell_lt h1), by simp⟩

/-! ## On trees -/

theorem isScalarCell_leaf {h : Heap} {s : Scalar} {a : Nat} (hv : h[a]? = some s.cell) : isScalarCell h a = true := by
  cases s <;> simp [isScalarCell, hv, Scalar.cell]

mutual
theorem sameStructure_rep {h : Heap} : ∀ (v : Value) {t : VT} {a : Addr} {f : List Addr}, t.Rep h a f → sameStructure h a v = t.fits v
  | .int s, .leaf s', a, f, hr => by simp [sameStructure, isScalarCell_leaf hr.1, VT.fits, Value.scalar?]
  | .float s, .leaf s', a, f, hr => by simp [sameStructure, isScalarCell_leaf hr.1, VT.fits, Value.scalar?]
  | .bool s, .leaf s', a, f, hr => by simp [sameStructure, isScalarCell_leaf hr.1, VT.fits, Value.scalar?]
  | .dt s, .leaf s', a, f, hr => by simp [sameStructure, isScalarCell_leaf hr.1, VT.fits, Value.scalar?]
  | .str s _, .leaf s', a, f, hr => by simp [sameStructure, isScalarCell_leaf hr.1, VT.fits, Value.scalar?]
  | .int s, .arr es c1 c2, a, f, hr => by obtain ⟨_, _, h1, _⟩ := hr; simp [sameStructure, isScalarCell, h1, VT.fits]
  | .float s, .arr es c1 c2, a, f, hr => by obtain ⟨_, _, h1, _⟩ := hr; simp [sameStructure, isScalarCell, h1, VT.fits]
  | .bool s, .arr es c1 c2, a, f, hr => by obtain ⟨_, _, h1, _⟩ := hr; simp [sameStructure, isScalarCell, h1, VT.fits]
  | .dt s, .arr es c1 c2, a, f, hr => by obtain ⟨_, _, h1, _⟩ := hr; simp [sameStructure, isScalarCell, h1, VT.fits]
  | .str s _, .arr es c1 c2, a, f, hr => by obtain ⟨_, _, h1, _⟩ := hr; simp [sameStructure, isScalarCell, h1, VT.fits]
  | .int s, .itab es c1, a, f, hr => by obtain ⟨_, _, h1, _⟩ := hr; simp [sameStructure, isScalarCell, h1, VT.fits]
  | .float s, .itab es c1, a, f, hr => by obtain ⟨_, _, h1, _⟩ := hr; simp [sameStructure, isScalarCell, h1, VT.fits]
  | .bool s, .itab es c1, a, f, hr => by obtain ⟨_, _, h1, _⟩ := hr; simp [sameStructure, isScalarCell, h1, VT.fits]
  | .dt s, .itab es c1, a, f, hr => by obtain ⟨_, _, h1, _⟩ := hr; simp [sameStructure, isScalarCell, h1, VT.fits]
  | .str s _, .itab es c1, a, f, hr => by obtain ⟨_, _, h1, _⟩ := hr; simp [sameStructure, isScalarCell, h1, VT.fits]
  | .arr ts, .leaf s', a, f, hr => by
    obtain ⟨h1, _⟩ := hr
    cases s' <;> simp [sameStructure, h1, Scalar.cell, VT.fits, Value.scalar?]
  | .itab ts, .leaf s', a, f, hr => by
    obtain ⟨h1, _⟩ := hr
    cases s' <;> simp [sameStructure, h1, Scalar.cell, VT.fits, Value.scalar?]
  | .arr ts, .itab es c1, a, f, hr => by obtain ⟨_, _, h1, _⟩ := hr; simp [sameStructure, h1, VT.fits]
  | .itab ts, .arr es c1 c2, a, f, hr => by obtain ⟨_, _, h1, _⟩ := hr; simp [sameStructure, h1, VT.fits]
  | .arr ts, .arr es c1 c2, a, f, hr => by
    obtain ⟨avs, g, h1, r1, _⟩ := hr
    simp only [sameStructure, h1, VT.fits]
    have := sameAVs_rep ts r1
    by_cases hl : avs.length = ts.length
    · rw [if_neg (by simp [hl])]
      rw [← this]; simp [hl]
    · rw [if_pos hl, ← this]; simp [hl]
  | .itab ts, .itab es c1, a, f, hr => by
    obtain ⟨avs, g, h1, r1, _⟩ := hr
    simp only [sameStructure, h1, VT.fits]
    have := sameKVs_rep ts r1
    by_cases hl : avs.length = ts.length
    · rw [if_neg (by simp [hl])]
      rw [← this]; simp [hl]
    · rw [if_pos hl, ← this]; simp [hl]
theorem sameAVs_rep {h : Heap} : ∀ (ts : List Value) {t : Elems} {avs : List ArrayValue} {f : List Addr}, t.Rep h avs f →
    (decide (avs.length = ts.length) && sameAVs h avs ts) = t.fits ts
  | [], .nil, avs, f, hr => by rw [hr.1]; simp [Elems.fits, sameAVs]
  | [], .cons .., avs, f, hr => by obtain ⟨_, _, _, _, rfl, _⟩ := hr; simp [Elems.fits]
  | t :: ts, .nil, avs, f, hr => by rw [hr.1]; simp [Elems.fits]
  | t :: ts, .cons v sep cn r, avs, f, hr => by
    obtain ⟨b, avs', f1, f2, rfl, r1, s1, _⟩ := hr
    have e1 := sameStructure_rep t r1
    have e2 := sameAVs_rep ts s1
    simp only [Elems.fits, sameAVs, ← e1, ← e2, List.length_cons]
    cases sameStructure h b t <;> simp
theorem sameKVs_rep {h : Heap} : ∀ (ts : List (Str × Value)) {t : Pairs} {avs : List TableKeyVal} {f : List Addr}, t.Rep h avs f →
    (decide (avs.length = ts.length) && sameKVs h avs ts) = t.fits ts
  | [], .nil, avs, f, hr => by rw [hr.1]; simp [Pairs.fits, sameKVs]
  | [], .cons .., avs, f, hr => by obtain ⟨_, _, _, _, rfl, _⟩ := hr; simp [Pairs.fits]
  | t :: ts, .nil, avs, f, hr => by rw [hr.1]; simp [Pairs.fits]
  | (k', t) :: ts, .cons k ws v sep cn r, avs, f, hr => by
    obtain ⟨b, avs', f1, f2, rfl, r1, s1, _⟩ := hr
    have e1 := sameStructure_rep t r1
    have e2 := sameKVs_rep ts s1
    simp only [Pairs.fits, sameKVs, ← e1, ← e2, List.length_cons]
    cases sameStructure h b t <;> cases decide (k = k') <;> simp
end

/-- A heap that agrees outside some addresses. -/
def SameOff (f : List Addr) (h h' : Heap) : Prop := h'.length = h.length ∧ ∀ x : Nat, x ∉ f → h'[x]? = h[x]?

theorem SameOff.trans {f g : List Addr} {h h1 h2 : Heap} (a : SameOff f h h1) (b : SameOff g h1 h2) : SameOff (f ++ g) h h2 :=
  ⟨by rw [b.1, a.1], fun x hx => by rw [b.2 x (by grind), a.2 x (by grind)]⟩

theorem replace_leaf {h : Heap} {a : Nat} {s : Scalar} (s' : Scalar) (hv : h[a]? = some s.cell) :
    ∃ h', writeCell h a s'.cell = .ok h' ∧ VT.Rep h' (.leaf s') a [a] ∧ SameOff [a] h h' := by
  have hl : a < h.length := (List.getElem?_eq_some_iff.mp hv).1
  refine ⟨h.set a s'.cell, by simp [writeCell, hl], ⟨by simp [hl], rfl⟩, by simp, fun x hx => ?_⟩
  simp at hx
  rw [List.getElem?_set_ne (Ne.symm hx)]

mutual
/-- Replacing the values of a tree. -/
theorem replaceValues_rep : ∀ (v : Value) {h : Heap} {t : VT} {a : Addr} {f : List Addr}, t.Rep h a f → f.Nodup → t.fits v = true →
    ∃ h', replaceValues h a v = .ok h' ∧ (t.replace v).Rep h' a f ∧ SameOff f h h'
  | .int s, h, .leaf s', a, f, hr, _, hf => by obtain ⟨h1, rfl⟩ := hr; exact replace_leaf (.int s) h1
  | .float s, h, .leaf s', a, f, hr, _, hf => by obtain ⟨h1, rfl⟩ := hr; exact replace_leaf (.float s) h1
  | .bool s, h, .leaf s', a, f, hr, _, hf => by obtain ⟨h1, rfl⟩ := hr; exact replace_leaf (.bool s) h1
  | .dt s, h, .leaf s', a, f, hr, _, hf => by obtain ⟨h1, rfl⟩ := hr; exact replace_leaf (.dt s) h1
  | .str s t, h, .leaf s', a, f, hr, _, hf => by obtain ⟨h1, rfl⟩ := hr; exact replace_leaf (.str s t) h1
  | .arr ts, h, .leaf s', a, f, hr, _, hf => by simp [VT.fits, Value.scalar?] at hf
  | .itab ts, h, .leaf s', a, f, hr, _, hf => by simp [VT.fits, Value.scalar?] at hf
  | .arr ts, h, .itab .., a, f, hr, _, hf => by simp [VT.fits] at hf
  | .int ts, h, .itab .., a, f, hr, _, hf => by simp [VT.fits] at hf
  | .float ts, h, .itab .., a, f, hr, _, hf => by simp [VT.fits] at hf
  | .bool ts, h, .itab .., a, f, hr, _, hf => by simp [VT.fits] at hf
  | .dt ts, h, .itab .., a, f, hr, _, hf => by simp [VT.fits] at hf
  | .str ts _, h, .itab .., a, f, hr, _, hf => by simp [VT.fits] at hf
  | .itab ts, h, .arr .., a, f, hr, _, hf => by simp [VT.fits] at hf
  | .int ts, h, .arr .., a, f, hr, _, hf => by simp [VT.fits] at hf
  | .float ts, h, .arr .., a, f, hr, _, hf => by simp [VT.fits] at hf
  | .bool ts, h, .arr .., a, f, hr, _, hf => by simp [VT.fits] at hf
  | .dt ts, h, .arr .., a, f, hr, _, hf => by simp [VT.fits] at hf
  | .str ts _, h, .arr .., a, f, hr, _, hf => by simp [VT.fits] at hf
  | .arr ts, h, .arr es c1 c2, a, f, hr, hd, hf => by
    obtain ⟨avs, g, h1, r1, rfl⟩ := hr
    rw [List.nodup_cons] at hd
    obtain ⟨h', e, r', o⟩ := replaceAVs_rep ts r1 hd.2 hf
    refine ⟨h', by simp only [replaceValues, h1]; exact e, ⟨avs, g, ?_, r', rfl⟩, o.1, fun x hx => o.2 x (by grind)⟩
    rw [o.2 a hd.1, h1]
  | .itab ts, h, .itab es c1, a, f, hr, hd, hf => by
    obtain ⟨avs, g, h1, r1, rfl⟩ := hr
    rw [List.nodup_cons] at hd
    obtain ⟨h', e, r', o⟩ := replaceKVs_rep ts r1 hd.2 hf
    refine ⟨h', by simp only [replaceValues, h1]; exact e, ⟨avs, g, ?_, r', rfl⟩, o.1, fun x hx => o.2 x (by grind)⟩
    rw [o.2 a hd.1, h1]
theorem replaceAVs_rep : ∀ (ts : List Value) {h : Heap} {t : Elems} {a : List ArrayValue} {f : List Addr}, t.Rep h a f → f.Nodup →
    t.fits ts = true → ∃ h', replaceAVs h a ts = .ok h' ∧ (t.replace ts).Rep h' a f ∧ SameOff f h h'
  | [], h, .nil, a, f, hr, _, hf => by
    obtain ⟨rfl, rfl⟩ := hr
    exact ⟨h, rfl, ⟨rfl, rfl⟩, rfl, fun _ _ => rfl⟩
  | [], h, .cons .., a, f, hr, _, hf => by simp [Elems.fits] at hf
  | t :: ts, h, .nil, a, f, hr, _, hf => by simp [Elems.fits] at hf
  | t :: ts, h, .cons v sep cn r, a, f, hr, hd, hf => by
    obtain ⟨b, avs', f1, f2, rfl, r1, s1, rfl⟩ := hr
    simp [Elems.fits] at hf
    rw [List.nodup_append] at hd
    obtain ⟨h1, e1, q1, o1⟩ := replaceValues_rep t r1 hd.1 hf.1
    have s1' := s1.congr (h' := h1) (fun x hx => o1.2 x (fun hm => hd.2.2 x hm x hx rfl))
    obtain ⟨h2, e2, q2, o2⟩ := replaceAVs_rep ts s1' hd.2.1 hf.2
    refine ⟨h2, by simp only [replaceAVs, e1]; exact e2, ⟨b, avs', f1, f2, rfl, ?_, q2, rfl⟩, o1.trans o2⟩
    exact q1.congr fun x hx => o2.2 x (fun hm => hd.2.2 x hx x hm rfl)
theorem replaceKVs_rep : ∀ (ts : List (Str × Value)) {h : Heap} {t : Pairs} {a : List TableKeyVal} {f : List Addr}, t.Rep h a f → f.Nodup →
    t.fits ts = true → ∃ h', replaceKVs h a ts = .ok h' ∧ (t.replace ts).Rep h' a f ∧ SameOff f h h'
  | [], h, .nil, a, f, hr, _, hf => by
    obtain ⟨rfl, rfl⟩ := hr
    exact ⟨h, rfl, ⟨rfl, rfl⟩, rfl, fun _ _ => rfl⟩
  | [], h, .cons .., a, f, hr, _, hf => by simp [Pairs.fits] at hf
  | t :: ts, h, .nil, a, f, hr, _, hf => by simp [Pairs.fits] at hf
  | (k', t) :: ts, h, .cons k ws v sep cn r, a, f, hr, hd, hf => by
    obtain ⟨b, avs', f1, f2, rfl, r1, s1, rfl⟩ := hr
    simp [Pairs.fits] at hf
    rw [List.nodup_append] at hd
    obtain ⟨h1, e1, q1, o1⟩ := replaceValues_rep t r1 hd.1 hf.2.1
    have s1' := s1.congr (h' := h1) (fun x hx => o1.2 x (fun hm => hd.2.2 x hm x hx rfl))
    obtain ⟨h2, e2, q2, o2⟩ := replaceKVs_rep ts s1' hd.2.1 hf.2.2
    refine ⟨h2, by simp only [replaceKVs, e1]; exact e2, ⟨b, avs', f1, f2, rfl, ?_, q2, rfl⟩, o1.trans o2⟩
    exact q1.congr fun x hx => o2.2 x (fun hm => hd.2.2 x hx x hm rfl)
end

end Tomllib
