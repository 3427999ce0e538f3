import Verif.Lemmas.Template
import Verif.Spec.Session
/-!
# Sequences of scalar assignments
-/

namespace Tomllib

theorem Agree.trans {h h1 h2 : Heap} (a : Agree h h1) (b : Agree h1 h2) : Agree h h2 := by
  refine ⟨by rw [b.1, a.1], fun x => ?_⟩
  rcases b.2 x with e | ⟨e1, e2⟩
  · rw [e]; exact a.2 x
  · right
    refine ⟨?_, e2⟩
    rcases a.2 x with e3 | ⟨e3, _⟩
    · unfold isScalarCell at e1 ⊢
      rw [e3] at e1; exact e1
    · exact e3

/-- What a sequence of valid scalar assignments does. -/
theorem runSets_scalar : ∀ (l : List (Str × Value)) {p : Parser}, Inv p.st →
    (∀ kv ∈ l, kv.2.scalar?.isSome = true ∧ kv.2.validate = true ∧ ∃ a s, valOf p.st.map kv.1 = some a ∧ p.st.heap[a]? = some (Scalar.cell s)) →
    ∃ h', runSets p l = .ok { p with st := { p.st with heap := h' } } ∧ Inv { p.st with heap := h' } ∧ Agree p.st.heap h' ∧
      (∀ x : Nat, (∀ k, valOf p.st.map k ≠ some x) → h'[x]? = p.st.heap[x]?) ∧
      (∀ k a s, valOf p.st.map k = some a → p.st.heap[a]? = some (Scalar.cell s) →
        ∃ s', h'[a]? = some (Scalar.cell s') ∧ s'.value = (lastAssigned l k).getD s.value)
  | [], p, hi, _ => ⟨p.st.heap, rfl, hi, Agree.refl _, fun _ _ => rfl, fun k a s _ hc => ⟨s, hc, rfl⟩⟩
  | (k0, v0) :: l, p, hi, hl => by
    obtain ⟨h1, h2, a, s, h3, h4⟩ := hl (k0, v0) (by simp)
    obtain ⟨s0, h5⟩ := Option.isSome_iff_exists.mp h1
    dsimp only at h2 h3 h5
    rw [Value.scalar_eq h5] at h2
    have hset := set_scalar (s' := s0) h3 h4 h2
    rw [← Value.scalar_eq h5] at hset
    have hlt : (a : Nat) < p.st.heap.length := (List.getElem?_eq_some_iff.mp h4).1
    have hstep : ∀ k b s, valOf p.st.map k = some b → p.st.heap[b]? = some (Scalar.cell s) →
        ∃ s', (p.st.heap.set a s0.cell)[b]? = some (Scalar.cell s') ∧ s'.value = if k0 = k then v0 else s.value := by
      intro k b s hk hb
      by_cases e : k0 = k
      · subst e
        rw [h3] at hk; simp at hk; subst hk
        exact ⟨s0, by simp [hlt], by simp [Value.scalar_eq h5]⟩
      · have hne : a ≠ b := fun e' => e (hi.map.inj _ _ _ h3 (e' ▸ hk))
        exact ⟨s, by rw [List.getElem?_set_ne hne, hb], by rw [if_neg e]⟩
    obtain ⟨h', g1, g2, g3, g4, g5⟩ := runSets_scalar l (p := { p with st := { p.st with heap := p.st.heap.set a s0.cell } }) (hi.set_scalar h4)
      (fun kv hkv => by
        obtain ⟨i1, i2, b, sb, i3, i4⟩ := hl kv (by simp [hkv])
        obtain ⟨sb', i5, _⟩ := hstep _ b sb i3 i4
        exact ⟨i1, i2, b, sb', i3, i5⟩)
    refine ⟨h', ?_, g2, ((Agree.refl p.st.heap).set (isScalarCell_leaf h4) s0).trans g3, fun x hx => ?_, fun k b sb hk hb => ?_⟩
    · simp only [runSets, hset, Out.bind_eq, Out.bind]
      exact g1
    · rw [g4 x hx]
      exact List.getElem?_set_ne (show a ≠ x from fun e => hx k0 (e ▸ h3))
    · obtain ⟨s1, i1, i2⟩ := hstep k b sb hk hb
      obtain ⟨s2, i3, i4⟩ := g5 k b s1 hk i1
      refine ⟨s2, i3, ?_⟩
      rw [i4, i2, lastAssigned]
      cases lastAssigned l k with
      | some w => rfl
      | none =>
        by_cases e : k0 = k
        · simp [e]
        · simp [e]

/-! ## Templates with keys -/

open Classical in
/-- The slot of a cell: named by the key that leads to it, if there is one. -/
noncomputable def slotOf (m : KMap) (h : Heap) (x : Addr) : Str ⊕ Str :=
  if e : ∃ k, valOf m k = some x then .inr (Classical.choose e) else .inl (cellText h x)

/-- Name the slots. -/
noncomputable def keyed (m : KMap) (h : Heap) : List (Str ⊕ Addr) → Template
  | [] => []
  | .inl s :: T => .inl s :: keyed m h T
  | .inr x :: T => slotOf m h x :: keyed m h T

theorem slotOf_some {m : KMap} {h : Heap} {n : Nat} (hm : MapInv m n) {k : Str} {x : Addr} (hk : valOf m k = some x) : slotOf m h x = .inr k := by
  have e : ∃ k, valOf m k = some x := ⟨k, hk⟩
  unfold slotOf
  rw [dif_pos e]
  rw [hm.inj _ _ _ (Classical.choose_spec e) hk]

theorem slotOf_none {m : KMap} {h : Heap} {x : Addr} (hk : ∀ k, valOf m k ≠ some x) : slotOf m h x = .inl (cellText h x) := by
  unfold slotOf
  rw [dif_neg (fun ⟨k, e⟩ => hk k e)]

theorem keyed_keys {m : KMap} {h : Heap} {n : Nat} (hm : MapInv m n) : ∀ (T : List (Str ⊕ Addr)) (k : Str), k ∈ (keyed m h T).keys ↔ ∃ x ∈ slots T, valOf m k = some x
  | [], k => by simp [keyed, Template.keys, slots]
  | .inl s :: T, k => by simp [keyed, Template.keys, slots, keyed_keys hm T k]
  | .inr x :: T, k => by
    simp only [keyed, slots, List.mem_cons, exists_eq_or_imp]
    by_cases e : ∃ k, valOf m k = some x
    · obtain ⟨k', e⟩ := e
      rw [slotOf_some hm e]
      simp only [Template.keys, List.mem_cons, keyed_keys hm T k]
      constructor
      · rintro (rfl | h1)
        · exact .inl e
        · exact .inr h1
      · rintro (h1 | h1)
        · exact .inl (hm.inj _ _ _ h1 e)
        · exact .inr h1
    · have e' : ∀ k, valOf m k ≠ some x := fun k h => e ⟨k, h⟩
      rw [slotOf_none e']
      simp [Template.keys, keyed_keys hm T k, e' k]

theorem keyed_nodup {m : KMap} {h : Heap} {n : Nat} (hm : MapInv m n) : ∀ (T : List (Str ⊕ Addr)), (slots T).Nodup → (keyed m h T).keys.Nodup
  | [], _ => by simp [keyed, Template.keys]
  | .inl s :: T, hd => by simpa [keyed, Template.keys] using keyed_nodup hm T hd
  | .inr x :: T, hd => by
    rw [slots, List.nodup_cons] at hd
    have ih := keyed_nodup (h := h) hm T hd.2
    simp only [keyed]
    by_cases e : ∃ k, valOf m k = some x
    · obtain ⟨k', e⟩ := e
      rw [slotOf_some hm e, Template.keys, List.nodup_cons]
      refine ⟨fun hk => ?_, ih⟩
      obtain ⟨y, h1, h2⟩ := (keyed_keys hm T k').mp hk
      rw [e] at h2; simp at h2; subst h2
      exact hd.1 h1
    · rw [slotOf_none fun k h => e ⟨k, h⟩]
      exact ih

theorem keyed_fill {m : KMap} {h h' : Heap} {n : Nat} (hm : MapInv m n) {f : Str → Str} (hother : ∀ x : Nat, (∀ k, valOf m k ≠ some x) → h'[x]? = h[x]?) :
    ∀ (T : List (Str ⊕ Addr)), (∀ x ∈ slots T, ∀ k, valOf m k = some x → f k = cellText h' x) → (keyed m h T).fill f = fillA h' T
  | [], _ => rfl
  | .inl s :: T, hf => by simp [keyed, Template.fill, fillA, keyed_fill hm hother T hf]
  | .inr x :: T, hf => by
    have ih := keyed_fill hm hother T (fun y hy => hf y (by simp [slots, hy]))
    simp only [keyed, fillA]
    by_cases e : ∃ k, valOf m k = some x
    · obtain ⟨k', e⟩ := e
      rw [slotOf_some hm e, Template.fill, ih, hf x (by simp [slots]) k' e]
    · have e' : ∀ k, valOf m k ≠ some x := fun k h => e ⟨k, h⟩
      rw [slotOf_none e', Template.fill, ih]
      congr 1
      unfold cellText
      rw [hother x e']

theorem isScalarCell_scalar {h : Heap} {x : Nat} (hs : isScalarCell h x = true) (ht : h[x]? ≠ some .table) : ∃ s : Scalar, h[x]? = some s.cell := by
  unfold isScalarCell at hs
  cases hx : h[x]? with
  | none => simp [hx] at hs
  | some v =>
    rw [hx] at hs ht
    cases v with
    | int s => exact ⟨.int s, rfl⟩
    | float s => exact ⟨.float s, rfl⟩
    | bool s => exact ⟨.bool s, rfl⟩
    | dt s => exact ⟨.dt s, rfl⟩
    | str s t => exact ⟨.str s t, rfl⟩
    | arr => simp at hs
    | itab => simp at hs
    | table => simp at ht

/-- The template of a document, and what it shows after any scalar assignments. -/
theorem Anchored.template {p : Parser} {ls : List (Str × ET)} {fp : List Addr} (hA : Anchored p ls fp) (hne : hasEmptyTable ls = false) :
    ∃ T : Template, T.keys.Nodup ∧ (∀ k, k ∈ T.keys ↔ ∃ w, p.getValue k = .ok (some w) ∧ w.scalar?.isSome = true) ∧ Shows p T ∧
      ∀ l : List (Str × Value), (∀ kv ∈ l, kv.1 ∈ T.keys ∧ kv.2.scalar?.isSome = true ∧ kv.2.validate = true) →
        ∃ p', runSets p l = .ok p' ∧ Shows p' T ∧
          ∀ k w, p.getValue k = .ok (some w) → w.scalar?.isSome = true → p'.getValue k = .ok (some ((lastAssigned l k).getD w)) := by
  obtain ⟨T0, hT, hT'⟩ := hA.rep.tmpl
  have hi := hA.inv
  have hm := hi.map
  have hkeys : ∀ k, k ∈ (keyed p.st.map p.st.heap T0).keys ↔ ∃ w, p.getValue k = .ok (some w) ∧ w.scalar?.isSome = true := by
    intro k
    rw [keyed_keys hm]
    constructor
    · rintro ⟨x, h1, h2⟩
      rw [hT, List.mem_filter] at h1
      obtain ⟨s, h3⟩ := isScalarCell_scalar h1.2 (hA.rep.bound x h1.1).2
      exact ⟨s.value, hi.getValue_rep h2 (t := .leaf s) ⟨h3, rfl⟩, by simp⟩
    · rintro ⟨w, h1, h2⟩
      obtain ⟨s, h3⟩ := Option.isSome_iff_exists.mp h2
      rw [Value.scalar_eq h3] at h1
      obtain ⟨a, h4, h5⟩ := hi.scalar_cell h1
      refine ⟨a, ?_, h4⟩
      rw [hT, List.mem_filter]
      refine ⟨?_, isScalarCell_leaf h5⟩
      rcases hA.cell k a h4 with h6 | h6
      · exact h6
      · rw [h5] at h6; cases s <;> simp [Scalar.cell] at h6
  have main : ∀ l : List (Str × Value), (∀ kv ∈ l, kv.1 ∈ (keyed p.st.map p.st.heap T0).keys ∧ kv.2.scalar?.isSome = true ∧ kv.2.validate = true) →
        ∃ p', runSets p l = .ok p' ∧ Shows p' (keyed p.st.map p.st.heap T0) ∧
          ∀ k w, p.getValue k = .ok (some w) → w.scalar?.isSome = true → p'.getValue k = .ok (some ((lastAssigned l k).getD w)) := by
    intro l hl
    obtain ⟨h', e1, e2, e3, e4, e5⟩ := runSets_scalar l hi (fun kv hkv => by
      obtain ⟨g1, g2, g3⟩ := hl kv hkv
      obtain ⟨w, g4, g5⟩ := (hkeys _).mp g1
      obtain ⟨s, g6⟩ := Option.isSome_iff_exists.mp g5
      rw [Value.scalar_eq g6] at g4
      obtain ⟨a, g7, g8⟩ := hi.scalar_cell g4
      exact ⟨g2, g3, a, s, g7, g8⟩)
    have hread : ∀ k w, p.getValue k = .ok (some w) → w.scalar?.isSome = true → ∃ a s', valOf p.st.map k = some a ∧ h'[a]? = some (Scalar.cell s') ∧
        s'.value = (lastAssigned l k).getD w ∧ Parser.getValue { p with st := { p.st with heap := h' } } k = .ok (some s'.value) := by
      intro k w g1 g2
      obtain ⟨s, g3⟩ := Option.isSome_iff_exists.mp g2
      rw [Value.scalar_eq g3] at g1
      obtain ⟨a, g4, g5⟩ := hi.scalar_cell g1
      obtain ⟨s', g6, g7⟩ := e5 k a s g4 g5
      rw [← Value.scalar_eq g3] at g7
      exact ⟨a, s', g4, g6, g7, Inv.getValue_rep (p := { p with st := { p.st with heap := h' } }) e2 g4 (t := .leaf s') ⟨g6, rfl⟩⟩
    refine ⟨_, e1, ⟨fun k => match valOf p.st.map k with
      | some x => cellText h' x
      | none => [], fun k hk => ?_, ?_⟩, fun k w g1 g2 => ?_⟩
    · obtain ⟨w, g1, g2⟩ := (hkeys k).mp hk
      obtain ⟨a, s', g3, g4, _, g5⟩ := hread k w g1 g2
      exact ⟨_, g5, by simp, by simp only [g3, cellText_scalar g4]; exact s'.disp_value⟩
    · obtain ⟨ls', g1, g2, g3, g4⟩ := hT' h' e3
      obtain ⟨r, hr⟩ := e2.rank
      have := renderToml_rep hr g1
      have hls : ls'.isEmpty = false := by
        cases ls' with
        | nil => exact absurd (g4.mp rfl) hA.ne
        | cons => rfl
      rw [hls, g3, hne, g2] at this
      rw [keyed_fill (h' := h') hm e4 T0 (fun x _ k hk => by simp only [hk])]
      exact this
    · obtain ⟨a, s', _, _, g3, g4⟩ := hread k w g1 g2
      rw [g4, g3]
  refine ⟨keyed p.st.map p.st.heap T0, keyed_nodup hm T0 (by rw [hT]; exact hA.nodup.filter _), hkeys, ?_, main⟩
  obtain ⟨p', e, h1, _⟩ := main [] (by simp)
  simp [runSets] at e
  subst e; exact h1

end Tomllib
