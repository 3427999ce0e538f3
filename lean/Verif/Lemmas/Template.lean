import Verif.Lemmas.Flat
/-!
# The text of a document with slots for its scalars
-/

namespace Tomllib

/-- The text of a scalar cell. -/
def cellText (h : Heap) (x : Nat) : Str :=
  match h[x]? with
  | some (.int s) => s
  | some (.float s) => s
  | some (.bool b) => boolText b
  | some (.dt d) => d.text
  | some (.str s t) => t.quoted s
  | _ => []

theorem cellText_scalar {h : Heap} {x : Nat} {s : Scalar} (hc : h[x]? = some s.cell) : cellText h x = s.text := by
  cases s <;> simp [cellText, hc, Scalar.cell, Scalar.text]

/-- Fill the slots with the texts of the cells. -/
def fillA (h : Heap) : List (Str ⊕ Addr) → Str
  | [] => []
  | .inl s :: T => s ++ fillA h T
  | .inr x :: T => cellText h x ++ fillA h T

def slots : List (Str ⊕ Addr) → List Addr
  | [] => []
  | .inl _ :: T => slots T
  | .inr x :: T => x :: slots T

theorem fillA_append (h : Heap) : ∀ (S T : List (Str ⊕ Addr)), fillA h (S ++ T) = fillA h S ++ fillA h T
  | [], T => rfl
  | .inl s :: S, T => by simp [fillA, fillA_append h S T]
  | .inr s :: S, T => by simp [fillA, fillA_append h S T]

theorem slots_append : ∀ (S T : List (Str ⊕ Addr)), slots (S ++ T) = slots S ++ slots T
  | [], T => rfl
  | .inl s :: S, T => by simp [slots, slots_append S T]
  | .inr s :: S, T => by simp [slots, slots_append S T]

mutual
theorem VT.Rep.tmpl {h : Heap} : ∀ {t : VT} {a : Addr} {fp : List Addr}, t.Rep h a fp →
    ∃ T, slots T = fp.filter (isScalarCell h) ∧ ∀ h', Agree h h' → ∃ t', VT.Rep h' t' a fp ∧ t'.text = fillA h' T ∧ t'.hasEmptyTable = t.hasEmptyTable
  | .leaf s, a, fp, hr => by
    obtain ⟨h1, rfl⟩ := hr
    refine ⟨[.inr a], by simp [slots, isScalarCell_leaf h1], fun h' ha => ?_⟩
    rcases ha.2 a with h2 | ⟨_, s', h2⟩
    · exact ⟨.leaf s, ⟨by rw [h2, h1], rfl⟩, by simp [fillA, VT.text, cellText_scalar (h2.trans h1)], rfl⟩
    · exact ⟨.leaf s', ⟨h2, rfl⟩, by simp [fillA, VT.text, cellText_scalar h2], rfl⟩
  | .arr es c1 c2, a, fp, hr => by
    obtain ⟨avs, g, h1, r1, rfl⟩ := hr
    obtain ⟨T, h2, h3⟩ := Elems.Rep.tmpl r1
    refine ⟨.inl (lit% "[" ++ gapText c1) :: (T ++ [.inl (gapText c2 ++ lit% "]")]), ?_, fun h' ha => ?_⟩
    · simp [slots, slots_append, h2, isScalarCell, h1]
    · obtain ⟨es', h4, h5, h6⟩ := h3 h' ha
      exact ⟨.arr es' c1 c2, ⟨avs, g, ha.arr h1, h4, rfl⟩, by simp [VT.text, fillA, fillA_append, h5], by simp [VT.hasEmptyTable, h6]⟩
  | .itab es c1, a, fp, hr => by
    obtain ⟨avs, g, h1, r1, rfl⟩ := hr
    obtain ⟨T, h2, h3⟩ := Pairs.Rep.tmpl r1
    refine ⟨.inl (lit% "{" ++ c1.ws1) :: (T ++ [.inl (c1.ws2 ++ lit% "}")]), ?_, fun h' ha => ?_⟩
    · simp [slots, slots_append, h2, isScalarCell, h1]
    · obtain ⟨es', h4, h5, h6, h7⟩ := h3 h' ha
      refine ⟨.itab es' c1, ⟨avs, g, ha.itab h1, h4, rfl⟩, by simp [VT.text, fillA, fillA_append, h5], ?_⟩
      cases es with
      | nil => rw [h7.mpr rfl]
      | cons =>
        cases es' with
        | nil => simp at h7
        | cons => simpa [VT.hasEmptyTable, Pairs.hasEmptyTable] using h6
theorem Elems.Rep.tmpl {h : Heap} : ∀ {t : Elems} {a : List ArrayValue} {fp : List Addr}, t.Rep h a fp →
    ∃ T, slots T = fp.filter (isScalarCell h) ∧ ∀ h', Agree h h' → ∃ t', Elems.Rep h' t' a fp ∧ t'.text = fillA h' T ∧ t'.hasEmptyTable = t.hasEmptyTable
  | .nil, a, fp, hr => ⟨[], by rw [hr.2]; rfl, fun h' ha => ⟨.nil, hr, rfl, rfl⟩⟩
  | .cons v sep cn r, a, fp, hr => by
    obtain ⟨b, avs', f1, f2, rfl, r1, s1, rfl⟩ := hr
    obtain ⟨T1, h1, h2⟩ := VT.Rep.tmpl r1
    obtain ⟨T2, h3, h4⟩ := Elems.Rep.tmpl s1
    refine ⟨T1 ++ .inl (commaText sep ++ gapText cn) :: T2, by simp [slots, slots_append, h1, h3], fun h' ha => ?_⟩
    obtain ⟨t1, h5, h6, h7⟩ := h2 h' ha
    obtain ⟨t2, h8, h9, h10⟩ := h4 h' ha
    exact ⟨.cons t1 sep cn t2, ⟨b, avs', f1, f2, rfl, h5, h8, rfl⟩, by simp [Elems.text, fillA, fillA_append, h6, h9],
      by simp [Elems.hasEmptyTable, h7, h10]⟩
theorem Pairs.Rep.tmpl {h : Heap} : ∀ {t : Pairs} {a : List TableKeyVal} {fp : List Addr}, t.Rep h a fp →
    ∃ T, slots T = fp.filter (isScalarCell h) ∧ ∀ h', Agree h h' → ∃ t', Pairs.Rep h' t' a fp ∧ t'.text = fillA h' T ∧
      t'.hasEmptyTable = t.hasEmptyTable ∧ (t' = .nil ↔ t = .nil)
  | .nil, a, fp, hr => ⟨[], by rw [hr.2]; rfl, fun h' ha => ⟨.nil, hr, rfl, rfl, Iff.rfl⟩⟩
  | .cons k ws v sep cn r, a, fp, hr => by
    obtain ⟨b, avs', f1, f2, rfl, r1, s1, rfl⟩ := hr
    obtain ⟨T1, h1, h2⟩ := VT.Rep.tmpl r1
    obtain ⟨T2, h3, h4⟩ := Pairs.Rep.tmpl s1
    refine ⟨.inl (k ++ ws.ws1 ++ lit% "=" ++ ws.ws2) :: (T1 ++ .inl (commaText sep ++ gapText cn) :: T2), by simp [slots, slots_append, h1, h3], fun h' ha => ?_⟩
    obtain ⟨t1, h5, h6, h7⟩ := h2 h' ha
    obtain ⟨t2, h8, h9, h10, _⟩ := h4 h' ha
    exact ⟨.cons k ws t1 sep cn t2, ⟨b, avs', f1, f2, rfl, h5, h8, rfl⟩, by simp [Pairs.text, fillA, fillA_append, h6, h9],
      by simp [Pairs.hasEmptyTable, h7, h10], by simp⟩
end

theorem LinesRep.tmpl {h : Heap} : ∀ {ls : List (Str × ET)} {ns : List NLExpression} {fp : List Addr}, LinesRep h ls ns fp →
    ∃ T, slots T = fp.filter (isScalarCell h) ∧ ∀ h', Agree h h' → ∃ ls', LinesRep h' ls' ns fp ∧ linesText ls' = fillA h' T ∧
      hasEmptyTable ls' = hasEmptyTable ls ∧ (ls' = [] ↔ ls = [])
  | [], ns, fp, hr => ⟨[], by rw [hr.2]; rfl, fun h' ha => ⟨[], hr, rfl, rfl, Iff.rfl⟩⟩
  | (nl, e) :: es, ns, fp, hr => by
    obtain ⟨x, ns', f1, f2, rfl, h1, h2, rfl⟩ := hr
    obtain ⟨T2, h3, h4⟩ := LinesRep.tmpl h2
    have plain : (∀ h', e.Rep h' x f1) → f1 = [] → ∃ T, slots T = (f1 ++ f2).filter (isScalarCell h) ∧ ∀ h', Agree h h' → ∃ ls', LinesRep h' ls' (⟨nl, x⟩ :: ns') (f1 ++ f2) ∧
        linesText ls' = fillA h' T ∧ hasEmptyTable ls' = hasEmptyTable ((nl, e) :: es) ∧ (ls' = [] ↔ (nl, e) :: es = []) := by
      rintro hx rfl
      refine ⟨.inl (nl ++ e.text) :: T2, by simp [slots, h3], fun h' ha => ?_⟩
      obtain ⟨es', h5, h6, h7, _⟩ := h4 h' ha
      exact ⟨(nl, e) :: es', ⟨x, ns', [], f2, rfl, hx h', h5, rfl⟩, by simp [linesText, fillA, h6],
        by rw [hasEmptyTable_cons, hasEmptyTable_cons, h7], by simp⟩
    cases e with
    | kv w1 k s v w2 c =>
      obtain ⟨a, rfl, h1⟩ := h1
      obtain ⟨T1, h5, h6⟩ := VT.Rep.tmpl h1
      refine ⟨.inl (nl ++ w1 ++ k ++ s.ws1 ++ lit% "=" ++ s.ws2) :: (T1 ++ .inl (w2 ++ optComment c) :: T2), by simp [slots, slots_append, h3, h5], fun h' ha => ?_⟩
      obtain ⟨t', h7, h8, h9⟩ := h6 h' ha
      obtain ⟨es', h10, h11, h12, _⟩ := h4 h' ha
      exact ⟨(nl, .kv w1 k s t' w2 c) :: es', ⟨_, ns', f1, f2, rfl, ⟨a, rfl, h7⟩, h10, rfl⟩, by simp [linesText, ET.text, fillA, fillA_append, h8, h11],
        by rw [hasEmptyTable_cons, hasEmptyTable_cons, h12]; simp [ET.hasEmptyTable, h9], by simp⟩
    | blank w => exact plain (fun _ => h1) h1.2
    | comment w c => exact plain (fun _ => h1) h1.2
    | table w1 t w2 c => exact plain (fun _ => h1) h1.2

end Tomllib
