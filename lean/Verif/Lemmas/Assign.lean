import Verif.Spec.Assign
import Verif.Lemmas.Session
/-!
# Outcomes of assignments
-/

namespace Tomllib

mutual
theorem verdict_taken : ∀ (v : Value), v.verdict = .taken ↔ v.deepValid = true
  | .int s => by simp [Value.verdict, Value.deepValid]
  | .float s => by simp [Value.verdict, Value.deepValid]
  | .bool s => by simp [Value.verdict, Value.deepValid, Value.validate]
  | .dt s => by simp [Value.verdict, Value.deepValid]
  | .str s t => by simp [Value.verdict, Value.deepValid]
  | .itab kvs => by simp [Value.verdict, Value.deepValid]
  | .arr vs => by rw [Value.verdict, Value.deepValid]; exact verdicts_taken vs
theorem verdicts_taken : ∀ (vs : List Value), verdicts vs = .taken ↔ deepValids vs = true
  | [] => by simp [verdicts, deepValids]
  | v :: vs => by
    have h1 := verdict_taken v
    have h2 := verdicts_taken vs
    rw [verdicts, deepValids, Bool.and_eq_true, ← h1, ← h2]
    split
    next h => simp [h]
    next h => exact ⟨fun e => absurd e h, fun e => absurd e.1 h⟩
end

/-- What `convert_vector` does, by the verdict. -/
def Converted (h : Heap) (v : Verdict) : Out (Heap × Option α) → Prop
  | .ok (_, some _) => v = .taken
  | .ok (_, none) => v = .refused
  | .panic x => v = .panics ∧ x = .unwrapNone
  | .fuel => False

theorem Converted.if {h : Heap} {c : Bool} {t : TVal} : Converted h (if c then .taken else .refused) (.ok (h, if c then some t else none)) := by
  cases c <;> rfl

mutual
theorem convertVector_verdict : ∀ (v : Value) (h : Heap), Converted h v.verdict (convertVector h v)
  | .int s, h => by rw [Value.verdict, convertVector, Value.valid_eq]; exact Converted.if
  | .float s, h => by rw [Value.verdict, convertVector, Value.valid_eq]; exact Converted.if
  | .bool s, h => by rw [Value.verdict, convertVector]; exact Converted.if (c := true)
  | .dt s, h => by rw [Value.verdict, convertVector, Value.valid_eq]; exact Converted.if
  | .str s t, h => by rw [Value.verdict, convertVector, Value.valid_eq]; exact Converted.if
  | .arr vs, h => by
    have := convertAVs_verdict vs h
    rw [Value.verdict, convertVector]
    split <;> (next e => rw [e] at this; exact this)
  | .itab vs, h => by
    have := convertKVs_verdict vs h
    rw [Value.verdict, convertVector]
    cases hc : convertKVs h vs with
    | ok x => rw [hc] at this; dsimp only at this; rw [this]; rfl
    | panic x => rw [hc] at this; dsimp only at this; rw [this.1]; exact ⟨rfl, this.2⟩
    | fuel => rw [hc] at this; exact this
theorem convertAVs_verdict : ∀ (vs : List Value) (h : Heap), Converted h (verdicts vs) (convertAVs h vs)
  | [], h => rfl
  | v :: vs, h => by
    have h1 := convertVector_verdict v h
    rw [verdicts, convertAVs]
    cases hc : convertVector h v with
    | ok x =>
      obtain ⟨h', o⟩ := x
      rw [hc] at h1
      cases o with
      | none => have h1 : v.verdict = .refused := h1; rw [h1]; rfl
      | some tv =>
        have h1 : v.verdict = .taken := h1
        rw [h1]
        have h2 := convertAVs_verdict vs (h' ++ [tv])
        dsimp only
        split <;> (next e => rw [e] at h2; exact h2)
    | panic x => rw [hc] at h1; have h1 : v.verdict = .panics ∧ _ := h1; rw [h1.1]; exact ⟨rfl, h1.2⟩
    | fuel => rw [hc] at h1; exact h1
theorem convertKVs_verdict : ∀ (vs : List (Str × Value)) (h : Heap), match convertKVs h vs with
    | .ok _ => deepValidKVs vs = true
    | .panic x => deepValidKVs vs = false ∧ x = .unwrapNone
    | .fuel => False
  | [], h => rfl
  | (k, v) :: vs, h => by
    have h1 := convertVector_verdict v h
    rw [convertKVs, deepValidKVs]
    have ht := verdict_taken v
    cases hc : convertVector h v with
    | ok x =>
      obtain ⟨h', o⟩ := x
      rw [hc] at h1
      cases o with
      | none =>
        have h1 : v.verdict = .refused := h1
        rw [h1] at ht
        simp at ht
        exact ⟨by simp [ht], rfl⟩
      | some tv =>
        have h1 : v.verdict = .taken := h1
        rw [ht.mp h1]
        have h2 := convertKVs_verdict vs (h' ++ [tv])
        dsimp only
        cases hk : convertKVs (h' ++ [tv]) vs <;> rw [hk] at h2 <;> simp at h2 ⊢ <;> exact h2
    | panic x =>
      rw [hc] at h1
      have h1 : v.verdict = .panics ∧ _ := h1
      rw [h1.1] at ht
      simp at ht
      exact ⟨by simp [ht], h1.2⟩
    | fuel => rw [hc] at h1; exact h1.elim
end

/-! ## Nested vectors of a new structure -/

theorem rebuildAt_scalar {h : Heap} {f : Nat} {m : KMap} {k : Str} {a : Addr} {skip : Bool} {s : Scalar} (hc : h[a]? = some s.cell) :
    ∃ m', rebuildAt h (f + 1) m k a skip = .ok m' ∧ ∀ k', k' ≠ k → m'.get? k' = m.get? k' := by
  cases hg : m.get? k with
  | some hv => exact ⟨m, by cases s <;> simp only [rebuildAt, hc, Scalar.cell, hg], fun _ _ => rfl⟩
  | none =>
    refine ⟨m.insert k ⟨some a, .count 0⟩, by cases s <;> simp only [rebuildAt, hc, Scalar.cell, hg], fun k' hk => ?_⟩
    rw [SMap.get?_insert, if_neg (Ne.symm hk)]

theorem rebuildAt_vacant {h : Heap} {f : Nat} {m : KMap} {k : Str} {a : Addr} {fp : List Addr} {skip : Bool} {v : Value} (hv : v.scalar? = none)
    (hr : v.fresh.Rep h a fp) (hg : m.get? k = none) : rebuildAt h (f + 1) m k a skip = .panic .rebuildVacant := by
  cases v with
  | arr vs =>
    rw [Value.fresh] at hr
    obtain ⟨avs, g, h1, _⟩ := hr
    simp only [rebuildAt, h1, hg]
  | itab vs =>
    rw [Value.fresh] at hr
    obtain ⟨avs, g, h1, _⟩ := hr
    simp only [rebuildAt, h1, hg]
  | _ => simp [Value.scalar?] at hv

theorem rebuildAVs_nested {h : Heap} {f : Nat} {key : Str} : ∀ (vs : List Value) {avs : List ArrayValue} {fp : List Addr} (i : Nat) {m : KMap},
    (freshElems vs).Rep h avs fp → (∀ j, j < vs.length → m.get? (key ++ idxStr (i + j)) = none) → ¬ allScalar vs →
    rebuildAVs (fun m k a => rebuildAt h (f + 1) m k a false) key i avs m = .panic .rebuildVacant
  | [], _, _, _, _, _, _, hs => absurd (fun _ h => by simp at h) hs
  | v :: vs, avs, fp, i, m, hr, hm, hs => by
    obtain ⟨b, avs', f1, f2, rfl, r1, s1, rfl⟩ := hr
    rw [rebuildAVs]
    cases hv : v.scalar? with
    | none =>
      have := hm 0 (by simp)
      rw [Nat.add_zero] at this
      rw [rebuildAt_vacant hv r1 this]
    | some s =>
      have hv' : v.scalar?.isSome = true := by simp [hv]
      obtain ⟨s', h1, e⟩ := Value.fresh_scalar hv'
      rw [e] at r1
      obtain ⟨m', e1, e2⟩ := rebuildAt_scalar (f := f) (m := m) (k := key ++ idxStr i) (skip := false) r1.1
      rw [e1]
      refine rebuildAVs_nested vs (i + 1) s1 (fun j hj => ?_) (fun hall => hs (fun x hx => ?_))
      · rw [e2]
        · have := hm (j + 1) (by simpa using hj)
          rwa [show i + (j + 1) = i + 1 + j by omega] at this
        · intro e
          have := idxStr_inj (List.append_cancel_left e)
          omega
      · rcases List.mem_cons.mp hx with rfl | hx
        · exact hv'
        · exact hall x hx

theorem rebuildKVs_nested {h : Heap} {f : Nat} {key : Str} : ∀ (vs : List (Str × Value)) {avs : List TableKeyVal} {fp : List Addr} {m : KMap},
    (freshPairs vs).Rep h avs fp → (vs.map (·.1)).Nodup → (∀ k ∈ vs.map (·.1), m.get? (key ++ lit% "." ++ k) = none) → ¬ allScalar (vs.map (·.2)) →
    rebuildKVs (fun m k a => rebuildAt h (f + 1) m k a false) key avs m = .panic .rebuildVacant
  | [], _, _, _, _, _, _, hs => absurd (fun _ h => by simp at h) hs
  | (k, v) :: vs, avs, fp, m, hr, hnd, hm, hs => by
    obtain ⟨b, avs', f1, f2, rfl, r1, s1, rfl⟩ := hr
    rw [List.map_cons, List.nodup_cons] at hnd
    rw [rebuildKVs]
    cases hv : v.scalar? with
    | none =>
      have := hm k (by simp)
      rw [rebuildAt_vacant hv r1 this]
    | some s =>
      have hv' : v.scalar?.isSome = true := by simp [hv]
      obtain ⟨s', h1, e⟩ := Value.fresh_scalar hv'
      rw [e] at r1
      obtain ⟨m', e1, e2⟩ := rebuildAt_scalar (f := f) (m := m) (k := key ++ lit% "." ++ k) (skip := false) r1.1
      rw [e1]
      refine rebuildKVs_nested vs s1 hnd.2 (fun j hj => ?_) (fun hall => hs (fun x hx => ?_))
      · rw [e2]
        · exact hm j (by simp only [List.map_cons, List.mem_cons]; exact .inr hj)
        · intro e
          have := List.append_cancel_left e
          subst this
          exact hnd.1 hj
      · rw [List.map_cons] at hx
        rcases List.mem_cons.mp hx with rfl | hx
        · exact hv'
        · exact hall x hx

end Tomllib
