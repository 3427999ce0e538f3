import Verif.Lemmas.Assign
import Verif.Lemmas.Witness
import Verif.Props.Edit
import Verif.Lemmas.ForTables
/-!
# Lemmas for Props/Assign
-/

namespace Tomllib

theorem Vacant.gone {p : Parser} {key : Str} (hk : key ≠ []) {v : Value} (h : Vacant p key v) {subs : List Str} (hsub : allSubkeys p.st.map key = .ok subs)
    {q : Str × Value} (hq : q ∈ v.parts key) (hne : q.1 ≠ []) : (eraseAll p.st.map subs).get? q.1 = none := by
  rw [eraseAll_get]
  split
  · rfl
  next hm =>
    rcases h.2 q hq with hc | ⟨c, hc, hc'⟩
    · simp only [Parser.getChildren, if_neg hne] at hc
      split at hc
      · simp at hc
      · assumption
    · exfalso
      simp only [Parser.getChildren, if_neg hk] at hc
      split at hc
      next hv hg =>
        simp at hc
        exact hm (allSubkeys_mem hk hg hsub _ (hc ▸ hc'))
      · simp at hc

/-- A good array or inline table with something in it that is no scalar. -/
theorem setValue_nested {p : Parser} (hp : PInv p) {key : Str} (hk : key ≠ []) {a : Addr} (ha : valOf p.st.map key = some a) {v : Value}
    (hs : sameStructure p.st.heap a v = false) (hv : v.scalar? = none) (hd : v.deepValid = true) (hvac : Vacant p key v)
    (hn : ((v.parts key).all fun q => q.2.scalar?.isSome) = false) : p.setValue key v = .panic .rebuildVacant := by
  have hlt := hp.inv.map.lt key a ha
  obtain ⟨r, hr⟩ := hp.inv.rank
  obtain ⟨subs, hsub, hlong⟩ := allSubkeys_ok p.st.map key
  obtain ⟨r', g, c, tv, _, _, _, hrk, ra, rb, nd, hb, hoff⟩ := graft_spec hr hlt v
  rw [setValue_vector hr ha hlt hs hv hd hsub]
  obtain ⟨c0, hg⟩ := valOf_some.mp ha
  have hgm : (eraseAll p.st.map subs).get? key = some ⟨some a, c0⟩ := by
    rw [eraseAll_get, if_neg, hg]
    intro hm
    exact absurd (hlong key hm) (Nat.lt_irrefl _)
  have hpos : 0 < (graftHeap p.st.heap a v).length := by simp [graftHeap]; omega
  obtain ⟨n, hn'⟩ : ∃ n, (graftHeap p.st.heap a v).length = n + 1 := ⟨_, (Nat.succ_pred_eq_of_pos hpos).symm⟩
  suffices hreb : rebuildAt (graftHeap p.st.heap a v) ((graftHeap p.st.heap a v).length + 1) (eraseAll p.st.map subs) key
      (v.fresh.addr p.st.heap.length) true = .panic .rebuildVacant by rw [hreb]; rfl
  rw [hn', rebuildAt]
  cases v with
  | arr vs =>
    simp only [Value.fresh] at rb ⊢
    obtain ⟨avs, g', h1, h2, h3⟩ := rb
    simp only [h1, hgm, if_true]
    refine rebuildAVs_nested vs 0 h2 (fun j hj => ?_) (fun hall => ?_)
    · have hq : (key ++ idxStr j, vs[j]) ∈ (Value.arr vs).parts key := by
        rw [Value.parts, List.mem_mapIdx]
        exact ⟨j, hj, by simp [idxStr]⟩
      rw [SMap.get?_insert, if_neg, Nat.zero_add]
      · exact hvac.gone hk hsub hq (by simp [hk])
      · intro e
        have := congrArg List.length e
        simp [idxStr] at this
    · rw [Value.parts, List.all_eq_false] at hn
      obtain ⟨q, hq, hq'⟩ := hn
      rw [List.mem_mapIdx] at hq
      obtain ⟨i, hi, rfl⟩ := hq
      exact hq' (hall _ (List.getElem_mem hi))
  | itab vs =>
    simp only [Value.fresh] at rb ⊢
    obtain ⟨avs, g', h1, h2, h3⟩ := rb
    simp only [h1, hgm, if_true]
    refine rebuildKVs_nested vs h2 ?_ (fun k hk' => ?_) (fun hall => ?_)
    · have := hvac.1
      rw [Value.parts, List.map_map] at this
      rw [List.nodup_iff_pairwise_ne, List.pairwise_map] at this ⊢
      exact this.imp (fun h e => h (by simp [e]))
    · obtain ⟨kv, hkv, rfl⟩ := List.mem_map.mp hk'
      have hq : (key ++ lit% "." ++ kv.1, kv.2) ∈ (Value.itab vs).parts key := by
        rw [Value.parts, List.mem_map]
        exact ⟨kv, hkv, rfl⟩
      rw [SMap.get?_insert, if_neg]
      · exact hvac.gone hk hsub hq (by simp [hk])
      · intro e
        have := congrArg List.length e
        simp at this
    · rw [Value.parts, List.all_eq_false] at hn
      obtain ⟨q, hq, hq'⟩ := hn
      rw [List.mem_map] at hq
      obtain ⟨kv, hi, rfl⟩ := hq
      exact hq' (hall _ (List.mem_map.mpr ⟨kv, hi, rfl⟩))
  | _ => simp [Value.scalar?] at hv

/-- Some assignments and what becomes of them. -/
theorem assignment_cases :
    assignment (.arr [.int (lit% "1")]) (.arr [.bool true]) = .taken ∧
    assignment (.arr [.int (lit% "1")]) (.arr [.arr []]) = .panics ∧
    assignment (.arr [.int (lit% "1")]) (.int (lit% "1")) = .panics ∧
    assignment (.int (lit% "2")) (.arr [.int (lit% "?"), .itab [(lit% "x", .int (lit% "?"))]]) = .refused ∧
    assignment (.int (lit% "2")) (.arr [.itab [(lit% "x", .int (lit% "?"))], .int (lit% "?")]) = .panics := by
  have h1 : (Value.int (lit% "1")).valid = true := by rw [Value.valid_eq]; decide +kernel
  have h2 : (Value.int (lit% "?")).valid = false := by rw [Value.valid_eq]; decide +kernel
  have h3 : ∀ b, (Value.bool b).valid = true := fun b => by rw [Value.valid_eq]; rfl
  refine ⟨?_, ?_, ?_, ?_, ?_⟩ <;>
    simp [-Value.valid_eq, assignment, Value.verdict, verdicts, Value.deepValid, deepValidKVs, h1, h2, h3, Value.sameShape, sameShapes, Value.scalar?,
      Value.parts]

end Tomllib
