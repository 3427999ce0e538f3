import Verif.Lemmas.Twin
import Verif.Lemmas.Read
import Verif.Lemmas.Session
import Verif.Spec.Print
/-!
# Reading again what was printed after edits
-/

namespace Tomllib

/-! ## Values -/

mutual
theorem Value.written.valid : ∀ {v : Value}, v.written → v.deepValid = true
  | .int s, h => by
    show (Value.int s).valid = true
    simp only [Value.valid, decide_eq_true_eq]; exact ⟨s, [], by simp, h⟩
  | .float s, h => by
    show (Value.float s).valid = true
    simp only [Value.valid, decide_eq_true_eq]; exact ⟨s, [], by simp, h⟩
  | .bool b, h => by
    show (Value.bool b).valid = true
    simp only [Value.valid, decide_eq_true_eq]; trivial
  | .dt d, h => by
    show (Value.dt d).valid = true
    simp only [Value.valid, decide_eq_true_eq]; exact h.2
  | .str s t, h => by
    show (Value.str s t).valid = true
    simp only [Value.valid, decide_eq_true_eq]; exact h.1
  | .arr vs, h => by rw [Value.deepValid]; exact writtenAll.valid h
  | .itab vs, h => by rw [Value.deepValid]; exact writtenKVs.valid h
theorem writtenAll.valid : ∀ {vs : List Value}, writtenAll vs → deepValids vs = true
  | [], _ => rfl
  | v :: vs, h => by simp [deepValids, Value.written.valid h.1, writtenAll.valid h.2]
theorem writtenKVs.valid : ∀ {vs : List (Str × Value)}, writtenKVs vs → deepValidKVs vs = true
  | [], _ => rfl
  | (k, v) :: vs, h => by simp [deepValidKVs, Value.written.valid h.1, writtenKVs.valid h.2]
end

mutual
theorem Value.sameKinds.shape : ∀ {x y : Value}, x.sameKinds y → x.sameShape y = true
  | .arr xs, .arr ys, h => by rw [Value.sameShape]; exact sameKindsAll.shape h
  | .itab xs, .itab ys, h => by rw [Value.sameShape]; exact sameKindsKVs.shape h
  | .int _, y, h => by cases y <;> simp_all [Value.sameKinds, Value.sameShape, Value.scalar?]
  | .float _, y, h => by cases y <;> simp_all [Value.sameKinds, Value.sameShape, Value.scalar?]
  | .bool _, y, h => by cases y <;> simp_all [Value.sameKinds, Value.sameShape, Value.scalar?]
  | .dt _, y, h => by cases y <;> simp_all [Value.sameKinds, Value.sameShape, Value.scalar?]
  | .str _ _, y, h => by cases y <;> simp_all [Value.sameKinds, Value.sameShape, Value.scalar?]
  | .arr _, .int _, h => by simp [Value.sameKinds, Value.scalar?] at h
  | .arr _, .float _, h => by simp [Value.sameKinds, Value.scalar?] at h
  | .arr _, .bool _, h => by simp [Value.sameKinds, Value.scalar?] at h
  | .arr _, .dt _, h => by simp [Value.sameKinds, Value.scalar?] at h
  | .arr _, .str _ _, h => by simp [Value.sameKinds, Value.scalar?] at h
  | .arr _, .itab _, h => by simp [Value.sameKinds, Value.scalar?] at h
  | .itab _, .int _, h => by simp [Value.sameKinds, Value.scalar?] at h
  | .itab _, .float _, h => by simp [Value.sameKinds, Value.scalar?] at h
  | .itab _, .bool _, h => by simp [Value.sameKinds, Value.scalar?] at h
  | .itab _, .dt _, h => by simp [Value.sameKinds, Value.scalar?] at h
  | .itab _, .str _ _, h => by simp [Value.sameKinds, Value.scalar?] at h
  | .itab _, .arr _, h => by simp [Value.sameKinds, Value.scalar?] at h
theorem sameKindsAll.shape : ∀ {x y : List Value}, sameKindsAll x y → sameShapes x y = true
  | [], [], _ => rfl
  | x :: xs, y :: ys, h => by simp [sameShapes, Value.sameKinds.shape h.1, sameKindsAll.shape h.2]
  | [], _ :: _, h => h.elim
  | _ :: _, [], h => h.elim
theorem sameKindsKVs.shape : ∀ {x y : List (Str × Value)}, sameKindsKVs x y → sameShapeKVs x y = true
  | [], [], _ => rfl
  | (k, x) :: xs, (k', y) :: ys, h => by simp [sameShapeKVs, h.1, Value.sameKinds.shape h.2.1, sameKindsKVs.shape h.2.2]
  | [], _ :: _, h => h.elim
  | _ :: _, [], h => h.elim
end

/-! ## Cells -/

/-- The same content, or a properly written scalar in place of a scalar. -/
def CellEdit (K : Prop) (c c' : TVal) : Prop :=
  c' = c ∨ ∃ s s' : Scalar, c = s.cell ∧ c' = s'.cell ∧ s'.strict ∧ (∀ d, s' = .dt d → d.validate = true) ∧ (K → s'.cell.arrayType = s.cell.arrayType)

structure HeapEdit (K : Prop) (h h' : Heap) : Prop where
  len : h'.length = h.length
  cell : ∀ (x : Nat) (c c' : TVal), h[x]? = some c → h'[x]? = some c' → CellEdit K c c'

theorem CellEdit.trans {K : Prop} {a b c : TVal} (h : CellEdit K a b) (h' : CellEdit K b c) : CellEdit K a c := by
  rcases h' with rfl | ⟨s, s', rfl, rfl, g1, g2, g3⟩
  · exact h
  · rcases h with h | ⟨u, u', rfl, h2, h3, h4, h5⟩
    · exact .inr ⟨s, s', h.symm, rfl, g1, g2, g3⟩
    · have := Scalar.cell_inj h2; subst this
      exact .inr ⟨u, s', rfl, rfl, g1, g2, fun hK => (g3 hK).trans (h5 hK)⟩

theorem HeapEdit.refl (K : Prop) (h : Heap) : HeapEdit K h h := ⟨rfl, fun x c c' h1 h2 => by rw [h1] at h2; simp at h2; exact .inl h2.symm⟩

theorem HeapEdit.get {K : Prop} {h h' : Heap} (hh : HeapEdit K h h') {x : Nat} {c : TVal} (hx : h[x]? = some c) :
    ∃ c', h'[x]? = some c' ∧ CellEdit K c c' := by
  have hl : x < h.length := by
    rcases Nat.lt_or_ge x h.length with h1 | h1
    · exact h1
    · rw [List.getElem?_eq_none h1] at hx; simp at hx
  have hx' : x < h'.length := by rw [hh.len]; exact hl
  exact ⟨_, List.getElem?_eq_getElem hx', hh.cell x _ _ hx (List.getElem?_eq_getElem hx')⟩

theorem HeapEdit.trans {K : Prop} {a b c : Heap} (h : HeapEdit K a b) (h' : HeapEdit K b c) : HeapEdit K a c := by
  refine ⟨h'.len.trans h.len, fun x c1 c3 h1 h3 => ?_⟩
  obtain ⟨c2, h2, g⟩ := h.get h1
  exact g.trans (h'.cell x _ _ h2 h3)

theorem HeapEdit.twin {K : Prop} {h h' : Heap} (hh : HeapEdit K h h') : HeapTwin K h h' := by
  refine ⟨hh.len, fun x c c' h1 h2 => ?_⟩
  rcases hh.cell x c c' h1 h2 with h3 | ⟨s, s', h3, h4, _, _, h5⟩
  · exact .inl h3
  · exact .inr ⟨s, s', h3, h4, h5⟩

/-! ## Replacing values -/

theorem written_scalar {v : Value} (hw : v.written) {s : Scalar} (hs : v.scalar? = some s) : s.strict ∧ ∀ d, s = .dt d → d.validate = true := by
  have := Value.scalar_eq hs; subst this
  cases s with
  | dt d => exact ⟨hw.1, fun d' e => by simp at e; subst e; rw [← DateTime.real_eq]; exact hw.2⟩
  | int => exact ⟨hw, by simp⟩
  | float => exact ⟨hw, by simp⟩
  | bool => exact ⟨trivial, by simp⟩
  | str => exact ⟨hw, by simp⟩

theorem sameKinds_scalar {s s' : Scalar} (h : s.value.sameKinds s'.value) : s'.cell.arrayType = s.cell.arrayType := by
  cases s <;> cases s' <;> simp [Scalar.value, Value.sameKinds, Value.kind, Value.scalar?] at h <;> rfl

theorem writeCell_edit {K : Prop} {h h' : Heap} {a : Nat} {s s' : Scalar} (hv : h[a]? = some s.cell) (h1 : s'.strict) (h2 : ∀ d, s' = .dt d → d.validate = true)
    (h3 : K → s'.cell.arrayType = s.cell.arrayType) (he : writeCell h a s'.cell = .ok h') : HeapEdit K h h' := by
  have hl : a < h.length := (List.getElem?_eq_some_iff.mp hv).1
  simp [writeCell, hl] at he
  subst he
  refine ⟨by simp, fun x c c' g1 g2 => ?_⟩
  by_cases hx : x = a
  · subst hx
    rw [hv] at g1
    simp [hl] at g1 g2
    subst g1; subst g2
    exact .inr ⟨s, s', rfl, rfl, h1, h2, h3⟩
  · rw [List.getElem?_set_ne (Ne.symm hx), g1] at g2
    simp at g2
    exact .inl g2.symm

theorem replaceValues_scalar' {h : Heap} {a : Nat} {v : Value} {s : Scalar} (hs : v.scalar? = some s) : replaceValues h a v = writeCell h a s.cell := by
  have := Value.scalar_eq hs; subst this
  cases s <;> rfl

mutual
theorem replaceValues_edit {K : Prop} : ∀ (t : VT) {v : Value} {h h' : Heap} {a : Addr} {f : List Addr}, t.Rep h a f → f.Nodup → t.fits v = true →
    v.written → (K → t.value.sameKinds v) → replaceValues h a v = .ok h' → HeapEdit K h h'
  | .leaf s, v, h, h', a, f, hr, hd, hf, hw, hK, he => by
    obtain ⟨h1, rfl⟩ := hr
    simp [VT.fits] at hf
    obtain ⟨s', hs'⟩ := Option.isSome_iff_exists.mp hf.2
    rw [replaceValues_scalar' hs'] at he
    have := written_scalar hw hs'
    refine writeCell_edit h1 this.1 this.2 (fun hk => ?_) he
    have := hK hk
    rw [Value.scalar_eq hs'] at this
    exact sameKinds_scalar this
  | .arr es c1 c2, v, h, h', a, f, hr, hd, hf, hw, hK, he => by
    cases v <;> simp [VT.fits] at hf
    obtain ⟨avs, g, h1, r1, rfl⟩ := hr
    rw [List.nodup_cons] at hd
    simp only [replaceValues, h1] at he
    exact replaceAVs_edit es r1 hd.2 hf hw hK he
  | .itab es c1, v, h, h', a, f, hr, hd, hf, hw, hK, he => by
    cases v <;> simp [VT.fits] at hf
    obtain ⟨avs, g, h1, r1, rfl⟩ := hr
    rw [List.nodup_cons] at hd
    simp only [replaceValues, h1] at he
    exact replaceKVs_edit es r1 hd.2 hf hw hK he
theorem replaceAVs_edit {K : Prop} : ∀ (t : Elems) {ts : List Value} {h h' : Heap} {a : List ArrayValue} {f : List Addr}, t.Rep h a f → f.Nodup → t.fits ts = true →
    writtenAll ts → (K → sameKindsAll t.values ts) → replaceAVs h a ts = .ok h' → HeapEdit K h h'
  | .nil, ts, h, h', a, f, hr, hd, hf, hw, hK, he => by
    obtain ⟨rfl, rfl⟩ := hr
    simp [replaceAVs] at he; subst he; exact .refl _ _
  | .cons v sep cn r, [], h, h', a, f, hr, hd, hf, hw, hK, he => by simp [Elems.fits] at hf
  | .cons v sep cn r, t :: ts, h, h', a, f, hr, hd, hf, hw, hK, he => by
    obtain ⟨b, avs', f1, f2, rfl, r1, s1, rfl⟩ := hr
    simp [Elems.fits] at hf
    rw [List.nodup_append] at hd
    obtain ⟨h1, e1, q1, o1⟩ := replaceValues_rep t r1 hd.1 hf.1
    have s1' := s1.congr (h' := h1) (fun x hx => o1.2 x (fun hm => hd.2.2 x hm x hx rfl))
    simp only [replaceAVs, e1] at he
    exact (replaceValues_edit v r1 hd.1 hf.1 hw.1 (fun hk => (hK hk).1) e1).trans (replaceAVs_edit r s1' hd.2.1 hf.2 hw.2 (fun hk => (hK hk).2) he)
theorem replaceKVs_edit {K : Prop} : ∀ (t : Pairs) {ts : List (Str × Value)} {h h' : Heap} {a : List TableKeyVal} {f : List Addr}, t.Rep h a f → f.Nodup → t.fits ts = true →
    writtenKVs ts → (K → sameKindsKVs t.values ts) → replaceKVs h a ts = .ok h' → HeapEdit K h h'
  | .nil, ts, h, h', a, f, hr, hd, hf, hw, hK, he => by
    obtain ⟨rfl, rfl⟩ := hr
    simp [replaceKVs] at he; subst he; exact .refl _ _
  | .cons k ws v sep cn r, [], h, h', a, f, hr, hd, hf, hw, hK, he => by simp [Pairs.fits] at hf
  | .cons k ws v sep cn r, (k', t) :: ts, h, h', a, f, hr, hd, hf, hw, hK, he => by
    obtain ⟨b, avs', f1, f2, rfl, r1, s1, rfl⟩ := hr
    simp [Pairs.fits] at hf
    rw [List.nodup_append] at hd
    obtain ⟨h1, e1, q1, o1⟩ := replaceValues_rep t r1 hd.1 hf.2.1
    have s1' := s1.congr (h' := h1) (fun x hx => o1.2 x (fun hm => hd.2.2 x hm x hx rfl))
    simp only [replaceKVs, e1] at he
    exact (replaceValues_edit v r1 hd.1 hf.2.1 hw.1 (fun hk => (hK hk).2.1) e1).trans (replaceKVs_edit r s1' hd.2.1 hf.2.2 hw.2 (fun hk => (hK hk).2.2) he)
end

/-! ## Trees over edited heaps -/

mutual
theorem VT.Rep.skel {K : Prop} {h h' : Heap} (hh : HeapEdit K h h') : ∀ {t t' : VT} {a : Addr} {f f' : List Addr}, t.Rep h a f → t'.Rep h' a f' →
    t.Skel K t' ∧ (t.strict → t'.strict)
  | .leaf s, t', a, f, f', hr, hr' => by
    obtain ⟨h1, _⟩ := hr
    obtain ⟨c', h2, h3⟩ := hh.get h1
    cases t' with
    | leaf s' =>
      obtain ⟨h1', _⟩ := hr'
      rw [h1'] at h2; simp at h2; subst h2
      rcases h3 with h3 | ⟨u, u', h3, h4, h5, h6, h7⟩
      · have := Scalar.cell_inj h3; subst this
        exact ⟨⟨.inl rfl, fun _ => rfl⟩, fun h => h⟩
      · have e1 := Scalar.cell_inj h3; subst e1
        have e2 := Scalar.cell_inj h4; subst e2
        exact ⟨⟨.inr h6, h7⟩, fun _ => h5⟩
    | arr es c1 c2 =>
      obtain ⟨_, _, h1', _⟩ := hr'
      rw [h1'] at h2; simp at h2; subst h2
      rcases h3 with h3 | ⟨u, u', h3, h4, _⟩
      · cases s <;> simp [Scalar.cell] at h3
      · cases u' <;> simp [Scalar.cell] at h4
    | itab es c1 =>
      obtain ⟨_, _, h1', _⟩ := hr'
      rw [h1'] at h2; simp at h2; subst h2
      rcases h3 with h3 | ⟨u, u', h3, h4, _⟩
      · cases s <;> simp [Scalar.cell] at h3
      · cases u' <;> simp [Scalar.cell] at h4
  | .arr es c1 c2, t', a, f, f', hr, hr' => by
    obtain ⟨avs, g, h1, r1, rfl⟩ := hr
    obtain ⟨c', h2, h3⟩ := hh.get h1
    have h3 : c' = .arr avs c1 c2 := by
      rcases h3 with h3 | ⟨u, u', h3, h4, _⟩
      · exact h3
      · cases u <;> simp [Scalar.cell] at h3
    subst h3
    cases t' with
    | leaf s' => obtain ⟨h1', _⟩ := hr'; rw [h1'] at h2; cases s' <;> simp [Scalar.cell] at h2
    | itab es' c' => obtain ⟨_, _, h1', _⟩ := hr'; rw [h1'] at h2; simp at h2
    | arr es' c1' c2' =>
      obtain ⟨avs', g', h1', r1', rfl⟩ := hr'
      rw [h1'] at h2; simp at h2
      obtain ⟨rfl, rfl, rfl⟩ := h2
      have := Elems.Rep.skel hh r1 r1'
      exact ⟨⟨this.1, rfl, rfl⟩, fun h => ⟨h.1, this.2 h.2.1, h.2.2⟩⟩
  | .itab es c1, t', a, f, f', hr, hr' => by
    obtain ⟨avs, g, h1, r1, rfl⟩ := hr
    obtain ⟨c', h2, h3⟩ := hh.get h1
    have h3 : c' = .itab avs c1 := by
      rcases h3 with h3 | ⟨u, u', h3, h4, _⟩
      · exact h3
      · cases u <;> simp [Scalar.cell] at h3
    subst h3
    cases t' with
    | leaf s' => obtain ⟨h1', _⟩ := hr'; rw [h1'] at h2; cases s' <;> simp [Scalar.cell] at h2
    | arr es' c' c'' => obtain ⟨_, _, h1', _⟩ := hr'; rw [h1'] at h2; simp at h2
    | itab es' c1' =>
      obtain ⟨avs', g', h1', r1', rfl⟩ := hr'
      rw [h1'] at h2; simp at h2
      obtain ⟨rfl, rfl⟩ := h2
      have := Pairs.Rep.skel hh r1 r1'
      exact ⟨⟨this.1, rfl⟩, fun h => ⟨h.1, this.2 h.2.1, h.2.2⟩⟩
theorem Elems.Rep.skel {K : Prop} {h h' : Heap} (hh : HeapEdit K h h') : ∀ {t t' : Elems} {a : List ArrayValue} {f f' : List Addr}, t.Rep h a f → t'.Rep h' a f' →
    t.Skel K t' ∧ (t.strict → t'.strict)
  | .nil, t', a, f, f', hr, hr' => by
    obtain ⟨rfl, _⟩ := hr
    cases t' with
    | nil => exact ⟨trivial, fun _ => trivial⟩
    | cons => obtain ⟨_, _, _, _, e, _⟩ := hr'; simp at e
  | .cons v sep cn r, t', a, f, f', hr, hr' => by
    obtain ⟨b, avs', f1, f2, rfl, r1, s1, rfl⟩ := hr
    cases t' with
    | nil => obtain ⟨e, _⟩ := hr'; simp at e
    | cons v' sep' cn' r' =>
      obtain ⟨b', avs'', f1', f2', e, r1', s1', rfl⟩ := hr'
      simp at e
      obtain ⟨⟨rfl, rfl, rfl⟩, rfl⟩ := e
      have g1 := VT.Rep.skel hh r1 r1'
      have g2 := Elems.Rep.skel hh s1 s1'
      refine ⟨⟨g1.1, rfl, rfl, g2.1⟩, fun h => ⟨g1.2 h.1, h.2.1, fun hn => h.2.2.1 ?_, g2.2 h.2.2.2⟩⟩
      rintro rfl
      have := g2.1
      cases r' with
      | nil => exact hn rfl
      | cons => exact this
theorem Pairs.Rep.skel {K : Prop} {h h' : Heap} (hh : HeapEdit K h h') : ∀ {t t' : Pairs} {a : List TableKeyVal} {f f' : List Addr}, t.Rep h a f → t'.Rep h' a f' →
    t.Skel K t' ∧ (t.strict → t'.strict)
  | .nil, t', a, f, f', hr, hr' => by
    obtain ⟨rfl, _⟩ := hr
    cases t' with
    | nil => exact ⟨trivial, fun _ => trivial⟩
    | cons => obtain ⟨_, _, _, _, e, _⟩ := hr'; simp at e
  | .cons k ws v sep cn r, t', a, f, f', hr, hr' => by
    obtain ⟨b, avs', f1, f2, rfl, r1, s1, rfl⟩ := hr
    cases t' with
    | nil => obtain ⟨e, _⟩ := hr'; simp at e
    | cons k' ws' v' sep' cn' r' =>
      obtain ⟨b', avs'', f1', f2', e, r1', s1', rfl⟩ := hr'
      simp at e
      obtain ⟨⟨⟨rfl, rfl, rfl⟩, rfl, rfl⟩, rfl⟩ := e
      have g1 := VT.Rep.skel hh r1 r1'
      have g2 := Pairs.Rep.skel hh s1 s1'
      refine ⟨⟨rfl, rfl, g1.1, rfl, rfl, g2.1⟩, fun h => ⟨h.1, h.2.1, g1.2 h.2.2.1, h.2.2.2.1, fun hn => h.2.2.2.2.1 ?_, g2.2 h.2.2.2.2.2⟩⟩
      rintro rfl
      have := g2.1
      cases r' with
      | nil => exact hn rfl
      | cons => exact this
end

theorem ET.Rep.skel {K : Prop} {h h' : Heap} (hh : HeapEdit K h h') {e e' : ET} {x : Expression} {f f' : List Addr} (hr : e.Rep h x f) (hr' : e'.Rep h' x f') :
    e.Skel K e' ∧ (e.strict → e'.strict) := by
  cases e with
  | kv w1 k s v w2 c =>
    obtain ⟨a, rfl, h1⟩ := hr
    cases e' with
    | kv w1' k' s' v' w2' c' =>
      obtain ⟨a', e, h1'⟩ := hr'
      simp at e
      obtain ⟨⟨rfl, rfl⟩, ⟨rfl, rfl, rfl⟩, rfl⟩ := e
      have := h1.skel hh h1'
      exact ⟨⟨rfl, rfl, rfl, this.1, rfl, rfl⟩, fun g => ⟨g.1, g.2.1, g.2.2.1, this.2 g.2.2.2.1, g.2.2.2.2⟩⟩
    | _ => obtain ⟨e, _⟩ := hr'; simp at e
  | blank w =>
    obtain ⟨rfl, _⟩ := hr
    cases e' with
    | kv => obtain ⟨a', e, h1'⟩ := hr'; simp at e
    | blank => obtain ⟨e, _⟩ := hr'; simp at e; subst e; exact ⟨rfl, fun h => h⟩
    | _ => obtain ⟨e, _⟩ := hr'; simp at e
  | comment w c =>
    obtain ⟨rfl, _⟩ := hr
    cases e' with
    | kv => obtain ⟨a', e, h1'⟩ := hr'; simp at e
    | comment => obtain ⟨e, _⟩ := hr'; simp at e; obtain ⟨rfl, rfl⟩ := e; exact ⟨rfl, fun h => h⟩
    | _ => obtain ⟨e, _⟩ := hr'; simp at e
  | table w1 t w2 c =>
    obtain ⟨rfl, _⟩ := hr
    cases e' with
    | kv => obtain ⟨a', e, h1'⟩ := hr'; simp at e
    | table => obtain ⟨e, _⟩ := hr'; simp at e; obtain ⟨⟨rfl, rfl⟩, rfl, rfl⟩ := e; exact ⟨rfl, fun h => h⟩
    | _ => obtain ⟨e, _⟩ := hr'; simp at e

theorem LinesRep.skel {K : Prop} {h h' : Heap} (hh : HeapEdit K h h') : ∀ {ls ls' : List (Str × ET)} {ns : List NLExpression} {f f' : List Addr}, LinesRep h ls ns f →
    LinesRep h' ls' ns f' → LinesSkel K ls ls' ∧ (LinesStrict ls → LinesStrict ls') ∧ (DocStrict ls → DocStrict ls')
  | [], ls', ns, f, f', hr, hr' => by
    obtain ⟨rfl, _⟩ := hr
    cases ls' with
    | nil => exact ⟨trivial, fun h => h, fun h => h⟩
    | cons => obtain ⟨_, _, _, _, e, _⟩ := hr'; simp at e
  | (nl, e) :: ls, ls', ns, f, f', hr, hr' => by
    obtain ⟨x, ns', f1, f2, rfl, r1, s1, rfl⟩ := hr
    cases ls' with
    | nil => obtain ⟨e, _⟩ := hr'; simp at e
    | cons l' ls' =>
      obtain ⟨nl', e'⟩ := l'
      obtain ⟨x', ns'', f1', f2', e0, r1', s1', rfl⟩ := hr'
      simp at e0
      obtain ⟨⟨rfl, rfl⟩, rfl⟩ := e0
      have g1 := r1.skel hh r1'
      have g2 := LinesRep.skel hh s1 s1'
      refine ⟨⟨rfl, g1.1, g2.1⟩, fun h => ?_, fun h => ⟨h.1, g1.2 h.2.1, g2.2.1 h.2.2⟩⟩
      have h0 := h (nl, e) (by simp)
      have h1 : LinesStrict ls := fun l hl => h l (by simp [hl])
      intro l hl
      rcases List.mem_cons.mp hl with rfl | hl
      · exact ⟨h0.1, g1.2 h0.2⟩
      · exact g2.2.1 h1 l hl

/-! ## A tree determines its cells -/

mutual
theorem VT.Rep.cells {h h' : Heap} : ∀ {t : VT} {a : Addr} {f f' : List Addr}, t.Rep h a f → t.Rep h' a f' → (∀ x : Nat, ∀ c, h[x]? = some c → (∀ s : Scalar, c ≠ s.cell) → h'[x]? = some c) →
    ∀ x : Nat, x ∈ f → h'[x]? = h[x]?
  | .leaf s, a, f, f', hr, hr', hc, x, hx => by
    obtain ⟨h1, rfl⟩ := hr
    obtain ⟨h1', _⟩ := hr'
    simp at hx; subst hx
    rw [h1, h1']
  | .arr es c1 c2, a, f, f', hr, hr', hc, x, hx => by
    obtain ⟨avs, g, h1, r1, rfl⟩ := hr
    obtain ⟨avs', g', h1', r1', rfl⟩ := hr'
    have h2 := hc a _ h1 (by intro s; cases s <;> simp [Scalar.cell])
    rw [h1'] at h2; simp at h2; subst h2
    rcases List.mem_cons.mp hx with rfl | hx
    · rw [h1, h1']
    · exact Elems.Rep.cells r1 r1' hc x hx
  | .itab es c1, a, f, f', hr, hr', hc, x, hx => by
    obtain ⟨avs, g, h1, r1, rfl⟩ := hr
    obtain ⟨avs', g', h1', r1', rfl⟩ := hr'
    have h2 := hc a _ h1 (by intro s; cases s <;> simp [Scalar.cell])
    rw [h1'] at h2; simp at h2; subst h2
    rcases List.mem_cons.mp hx with rfl | hx
    · rw [h1, h1']
    · exact Pairs.Rep.cells r1 r1' hc x hx
theorem Elems.Rep.cells {h h' : Heap} : ∀ {t : Elems} {a : List ArrayValue} {f f' : List Addr}, t.Rep h a f → t.Rep h' a f' →
    (∀ x : Nat, ∀ c, h[x]? = some c → (∀ s : Scalar, c ≠ s.cell) → h'[x]? = some c) → ∀ x : Nat, x ∈ f → h'[x]? = h[x]?
  | .nil, a, f, f', hr, hr', hc, x, hx => by
    obtain ⟨_, rfl⟩ := hr; simp at hx
  | .cons v sep cn r, a, f, f', hr, hr', hc, x, hx => by
    obtain ⟨b, avs', f1, f2, rfl, r1, s1, rfl⟩ := hr
    obtain ⟨b', avs'', f1', f2', e, r1', s1', rfl⟩ := hr'
    simp at e
    obtain ⟨rfl, rfl⟩ := e
    rcases List.mem_append.mp hx with hx | hx
    · exact VT.Rep.cells r1 r1' hc x hx
    · exact Elems.Rep.cells s1 s1' hc x hx
theorem Pairs.Rep.cells {h h' : Heap} : ∀ {t : Pairs} {a : List TableKeyVal} {f f' : List Addr}, t.Rep h a f → t.Rep h' a f' →
    (∀ x : Nat, ∀ c, h[x]? = some c → (∀ s : Scalar, c ≠ s.cell) → h'[x]? = some c) → ∀ x : Nat, x ∈ f → h'[x]? = h[x]?
  | .nil, a, f, f', hr, hr', hc, x, hx => by
    obtain ⟨_, rfl⟩ := hr; simp at hx
  | .cons k ws v sep cn r, a, f, f', hr, hr', hc, x, hx => by
    obtain ⟨b, avs', f1, f2, rfl, r1, s1, rfl⟩ := hr
    obtain ⟨b', avs'', f1', f2', e, r1', s1', rfl⟩ := hr'
    simp at e
    obtain ⟨rfl, rfl⟩ := e
    rcases List.mem_append.mp hx with hx | hx
    · exact VT.Rep.cells r1 r1' hc x hx
    · exact Pairs.Rep.cells s1 s1' hc x hx
end

theorem LinesRep.cells {h h' : Heap} : ∀ {ls : List (Str × ET)} {ns : List NLExpression} {f f' : List Addr}, LinesRep h ls ns f → LinesRep h' ls ns f' →
    (∀ x : Nat, ∀ c, h[x]? = some c → (∀ s : Scalar, c ≠ s.cell) → h'[x]? = some c) → ∀ x : Nat, x ∈ f → h'[x]? = h[x]?
  | [], ns, f, f', hr, hr', hc, x, hx => by
    obtain ⟨_, rfl⟩ := hr; simp at hx
  | (nl, e) :: ls, ns, f, f', hr, hr', hc, x, hx => by
    obtain ⟨y, ns', f1, f2, rfl, r1, s1, rfl⟩ := hr
    obtain ⟨y', ns'', f1', f2', e0, r1', s1', rfl⟩ := hr'
    simp at e0
    obtain ⟨rfl, rfl⟩ := e0
    rcases List.mem_append.mp hx with hx | hx
    · cases e with
      | kv w1 k s v w2 c =>
        obtain ⟨a, rfl, h1⟩ := r1
        obtain ⟨a', e, h1'⟩ := r1'
        simp at e; subst e
        exact h1.cells h1' hc x hx
      | blank => obtain ⟨_, rfl⟩ := r1; simp at hx
      | comment => obtain ⟨_, rfl⟩ := r1; simp at hx
      | table => obtain ⟨_, rfl⟩ := r1; simp at hx
    · exact LinesRep.cells s1 s1' hc x hx

/-! ## Edits -/

/-- What edits leave of a parser. -/
structure Edited (K : Prop) (p p' : Parser) : Prop where
  shown : ∃ ls fp, Anchored p' ls fp
  tree : p'.tree = p.tree
  map : p'.st.map = p.st.map
  heap : HeapEdit K p.st.heap p'.st.heap

theorem Edits.edited {K : Prop} {R : Value → Value → Prop} (h1 : ∀ w v, R w v → w.sameShape v = true) (h2 : K → ∀ w v, R w v → w.sameKinds v)
    {p p' : Parser} (hp : ∃ ls fp, Anchored p ls fp) (h : Edits R p p') : Edited K p p' := by
  induction h with
  | none => exact ⟨hp, rfl, rfl, .refl _ _⟩
  | edit _ hw hR hv hs ih =>
    rename_i p1 p2 k w v b _
    obtain ⟨⟨ls, fp, hA⟩, i1, i2, i3⟩ := ih
    obtain ⟨a, ha, F, hF⟩ := hA.focus hw
    have hfits : F.sub.fits v = true := by rw [VT.fits_eq, hF, h1 _ _ hR, hv.valid]; rfl
    obtain ⟨h', e1, e2, e3, e4⟩ := hA.set_same ha F hfits
    rw [hs] at e1
    simp at e1
    obtain ⟨rfl, _⟩ := e1
    refine ⟨⟨_, _, e2⟩, i1, i2, i3.trans ?_⟩
    have hfp := F.fp_eq
    have hnd := hA.nodup
    rw [hfp, List.nodup_append, List.nodup_append] at hnd
    obtain ⟨h'', e5, _, _⟩ := replaceValues_rep v F.sub_rep hnd.1.2.1 hfits
    obtain ⟨c0, hg⟩ := valOf_some.mp ha
    have hs' := hs
    simp only [Parser.setValue, hg, show sameStructure p1.st.heap a v = true by rw [sameStructure_rep v F.sub_rep, hfits], Out.bind_eq, e5, Out.bind, if_true] at hs'
    simp at hs'
    have := hs'.1
    subst this
    exact replaceValues_edit F.sub F.sub_rep hnd.1.2.1 hfits hv (fun hk => by rw [hF]; exact h2 hk _ _ hR) e5

/-- The printed text of an edited document is read into the same tree, table of keys and cells. -/
theorem reread {K : Prop} {ls : List (Str × ET)} (hs : DocStrict ls) {p p' : Parser} (hp : Parser.new.parse (linesText ls) = .ok (p, .full)) (he : Edited K p p')
    {s : Str} (hd : p'.display = .ok s) : ∃ p2 r, Parser.new.parse s = .ok (p2, r) ∧ r.whole ∧ (∀ e ∈ r.errs, e.mixed?.isSome = true) ∧ (K → r = .full) ∧
      p2.tree = p'.tree ∧ p2.st.map = p'.st.map ∧ p2.st.heap = p'.st.heap := by
  obtain ⟨⟨ls', fp', hA⟩, e1, e2, e3⟩ := he
  rw [parse_fwd hs.taken, Out.bind_ok] at hp
  obtain ⟨⟨st, ns⟩, h1, hp⟩ := hp
  simp only [Out.ok.injEq, Prod.mk.injEq] at hp
  obtain ⟨rfl, hr⟩ := hp
  have hst : st.errors = [] := by
    by_cases h : st.errors = []
    · exact h
    · simp [h] at hr
  obtain ⟨l, fp, _, hrep, _, _, _⟩ := linesEff_rep h1
  have hrep' := hA.rep
  rw [e1] at hrep'
  obtain ⟨g1, _, g3⟩ := hrep.skel e3 hrep'
  obtain ⟨st', k1, k2⟩ := g1.eff (Twin.new K) Inv.new h1 hst
  have htext : s = linesText ls' := by
    have := hA.display
    rw [hd, textOr] at this
    split at this
    · simp at this
    · simpa using this
  have hheap : st'.heap = p'.st.heap := by
    obtain ⟨l2, fp2, a1, a2, a3, a4, a5⟩ := linesEff_rep k1
    have hc : ∀ x : Nat, ∀ c, st'.heap[x]? = some c → (∀ s : Scalar, c ≠ s.cell) → p'.st.heap[x]? = some c := by
      intro x c hx hn
      rcases k2.heap.get x with ⟨_, b⟩ | ⟨d, d', b1, b2, b3⟩
      · rw [hx] at b; simp at b
      · rw [hx] at b2; simp at b2; subst b2
        rcases b3 with rfl | ⟨_, u, _, b4, _⟩
        · obtain ⟨d', c1, c2⟩ := e3.get b1
          rcases c2 with rfl | ⟨u, _, c3, _⟩
          · exact c1
          · exact absurd c3 (hn u)
        · exact absurd b4 (hn u)
    have hlen : st'.heap.length = p'.st.heap.length := by rw [k2.heap.len, e3.len]
    apply List.ext_getElem? 
    intro x
    by_cases hx : x < st'.heap.length
    · rcases a5 x (by simp [PState.new]) hx with h | h
      · exact (a2.cells hrep' hc x h).symm
      · rw [h, hc x _ h (by intro s; cases s <;> simp [Scalar.cell])]
    · rw [List.getElem?_eq_none (by omega), List.getElem?_eq_none (by omega)]
  rw [htext, parse_fwd (g3 hs).taken, k1]
  refine ⟨_, _, rfl, ?_, ?_, ?_, e1.symm, by rw [e2]; exact k2.map, hheap⟩
  · dsimp only
    split
    · exact .inr ⟨_, rfl⟩
    · exact .inl rfl
  · dsimp only
    split
    · exact k2.err
    · simp [ParseResult.errs]
  · intro hK
    simp [(k2.kind hK).1]

/-! ## Later edits -/

/-- The second parser with the tree, the keys and the cells of the first. -/
def Parser.onto (p q : Parser) : Parser := { q with tree := p.tree, st := { q.st with map := p.st.map, heap := p.st.heap } }

theorem Parser.setValue_onto (p q : Parser) (k : Str) (v : Value) : (p.onto q).setValue k v = (p.setValue k v).map' fun x => (x.1.onto q, x.2) := by
  unfold Parser.setValue
  rw [show (p.onto q).st.map = p.st.map from rfl, show (p.onto q).st.heap = p.st.heap from rfl]
  split
  · split
    · simp only [Out.bind_eq, Out.map'_bind]
      rfl
    · simp only [Out.bind_eq, Out.map'_bind]
      congr 1
      funext subs
      congr 1
      funext x
      obtain ⟨h, nv⟩ := x
      dsimp only
      split
      · rfl
      · simp only [Out.map'_bind]
        rfl
      · simp only [Out.map'_bind]
        rfl
      · rfl
  · rfl

theorem runSets_onto : ∀ (l : List (Str × Value)) (p q : Parser), runSets (p.onto q) l = (runSets p l).map' fun x => x.onto q
  | [], p, q => rfl
  | (k, v) :: l, p, q => by
    simp only [runSets, Out.bind_eq, Parser.setValue_onto, Out.bind_map', Out.map'_bind]
    congr 1
    funext x
    exact runSets_onto l x.1 q

/-- Parsers with the same tree, keys and cells cannot be told apart by later edits, printing and reading. -/
theorem runSets_same {p q : Parser} (h1 : p.tree = q.tree) (h2 : p.st.map = q.st.map) (h3 : p.st.heap = q.st.heap) {α : Type} (f : Parser → Out α)
    (hf : ∀ a b : Parser, f (a.onto b) = f a) (l : List (Str × Value)) : (runSets p l).bind f = (runSets q l).bind f := by
  have : p = q.onto p := by
    simp only [Parser.onto, ← h1, ← h2, ← h3]
  rw [this, runSets_onto, Out.bind_map']
  simp only [hf]

theorem SameAnswers.of {p q : Parser} (h1 : p.tree = q.tree) (h2 : p.st.map = q.st.map) (h3 : p.st.heap = q.st.heap) : SameAnswers p q := fun l =>
  ⟨runSets_same h1 h2 h3 _ (fun _ _ => rfl) l, fun _ => ⟨runSets_same h1 h2 h3 _ (fun _ _ => rfl) l, runSets_same h1 h2 h3 _ (fun _ _ => rfl) l⟩⟩

end Tomllib
