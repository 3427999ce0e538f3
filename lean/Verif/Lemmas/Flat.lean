import Verif.Lemmas.Edit
import Verif.Lemmas.Num
/-!
# `set_value` with flat arrays and flat inline tables
-/

namespace Tomllib

/-- Insert entries for scalar cells, keeping those that are there. -/
def putAll : KMap → List (Str × Addr) → KMap
  | m, [] => m
  | m, (k, a) :: l => putAll (match m.get? k with
    | some _ => m
    | none => m.insert k ⟨some a, .count 0⟩) l

theorem putAll_some {k : Str} {x : HashValue} : ∀ (l : List (Str × Addr)) {m : KMap}, m.get? k = some x → (putAll m l).get? k = some x
  | [], m, h => h
  | (k', a) :: l, m, h => by
    rw [putAll]
    apply putAll_some l
    split
    · exact h
    next h' =>
      rw [SMap.get?_insert, if_neg (by rintro rfl; rw [h] at h'; simp at h')]
      exact h

theorem putAll_other {k : Str} : ∀ (l : List (Str × Addr)) {m : KMap}, (∀ p ∈ l, p.1 ≠ k) → (putAll m l).get? k = m.get? k
  | [], m, _ => rfl
  | (k', a) :: l, m, h => by
    rw [putAll, putAll_other l (fun p hp => h p (by simp [hp]))]
    split
    · rfl
    · rw [SMap.get?_insert, if_neg (h (k', a) (by simp))]

theorem putAll_new {k : Str} {a : Addr} : ∀ (l : List (Str × Addr)) {m : KMap}, m.get? k = none → (k, a) ∈ l → (l.map (·.1)).Nodup →
    (putAll m l).get? k = some ⟨some a, .count 0⟩
  | [], m, _, h, _ => by simp at h
  | (k', a') :: l, m, hn, h, hd => by
    rw [List.map_cons, List.nodup_cons] at hd
    rw [putAll]
    rw [List.mem_cons] at h
    by_cases hk : k' = k
    · subst hk
      have ha : a' = a := by
        rcases h with h | h
        · simp at h; exact h.symm
        · exact absurd (List.mem_map_of_mem h) hd.1
      subst ha
      apply putAll_some
      rw [hn]
      simp [SMap.get?_insert]
    · have : (k, a) ∈ l := by
        rcases h with h | h
        · simp at h; exact absurd h.1.symm hk
        · exact h
      apply putAll_new l _ this hd.2
      split
      · exact hn
      · rw [SMap.get?_insert, if_neg hk, hn]

/-- The values are scalars. -/
def allScalar (vs : List Value) : Prop := ∀ v ∈ vs, v.scalar?.isSome

theorem Value.fresh_scalar {v : Value} (h : v.scalar?.isSome) : ∃ s, v.scalar? = some s ∧ v.fresh = .leaf s := by
  cases v <;> simp [Value.scalar?] at h <;> exact ⟨_, rfl, rfl⟩

theorem rebuildAt_leaf {h : Heap} {f : Nat} {m : KMap} {key : Str} {a : Addr} {skip : Bool} {s : Scalar} (hc : h[a]? = some s.cell) :
    rebuildAt h (f + 1) m key a skip = .ok (putAll m [(key, a)]) := by
  cases hm : m.get? key <;> cases s <;> simp only [rebuildAt, hc, Scalar.cell, putAll, hm]

/-- The entries of the elements. -/
def avEntries (key : Str) : Nat → List ArrayValue → List (Str × Addr)
  | _, [] => []
  | i, av :: avs => (key ++ idxStr i, av.val) :: avEntries key (i + 1) avs

def kvEntries (key : Str) (kvs : List TableKeyVal) : List (Str × Addr) := kvs.map fun kv => (key ++ lit% "." ++ kv.keyval.key, kv.keyval.val)

theorem rebuildAVs_flat {h : Heap} {f : Nat} {key : Str} : ∀ (vs : List Value) {avs : List ArrayValue} {fp : List Addr} {i : Nat} {m : KMap},
    allScalar vs → (freshElems vs).Rep h avs fp →
    rebuildAVs (fun m k a => rebuildAt h (f + 1) m k a false) key i avs m = .ok (putAll m (avEntries key i avs))
  | [], avs, fp, i, m, _, hr => by rw [hr.1]; rfl
  | v :: vs, avs, fp, i, m, hs, hr => by
    obtain ⟨b, avs', f1, f2, rfl, r1, s1, rfl⟩ := hr
    obtain ⟨s, _, e⟩ := Value.fresh_scalar (hs v (by simp))
    rw [e] at r1
    simp only [rebuildAVs, rebuildAt_leaf r1.1]
    exact rebuildAVs_flat vs (fun v hv => hs v (by simp [hv])) s1

theorem rebuildKVs_flat {h : Heap} {f : Nat} {key : Str} : ∀ (vs : List (Str × Value)) {avs : List TableKeyVal} {fp : List Addr} {m : KMap},
    allScalar (vs.map (·.2)) → (freshPairs vs).Rep h avs fp →
    rebuildKVs (fun m k a => rebuildAt h (f + 1) m k a false) key avs m = .ok (putAll m (kvEntries key avs))
  | [], avs, fp, m, _, hr => by rw [hr.1]; rfl
  | (k, v) :: vs, avs, fp, m, hs, hr => by
    obtain ⟨b, avs', f1, f2, rfl, r1, s1, rfl⟩ := hr
    obtain ⟨s, _, e⟩ := Value.fresh_scalar (hs v (by simp))
    rw [e] at r1
    simp only [rebuildKVs, rebuildAt_leaf r1.1]
    exact rebuildKVs_flat vs (fun v hv => hs v (by simp at hv ⊢; exact .inr hv)) s1

theorem avEntries_mem {key : Str} : ∀ (avs : List ArrayValue) (i : Nat) {p : Str × Addr}, p ∈ avEntries key i avs →
    ∃ j, i ≤ j ∧ j < i + avs.length ∧ p.1 = key ++ idxStr j
  | [], _, _, h => by simp [avEntries] at h
  | av :: avs, i, p, h => by
    rw [avEntries, List.mem_cons] at h
    rcases h with rfl | h
    · exact ⟨i, by omega, by simp, rfl⟩
    · obtain ⟨j, h1, h2, h3⟩ := avEntries_mem avs (i + 1) h
      exact ⟨j, by omega, by simp; omega, h3⟩

theorem avEntries_nodup {key : Str} : ∀ (avs : List ArrayValue) (i : Nat), ((avEntries key i avs).map (·.1)).Nodup
  | [], _ => by simp [avEntries]
  | av :: avs, i => by
    rw [avEntries, List.map_cons, List.nodup_cons]
    refine ⟨?_, avEntries_nodup avs (i + 1)⟩
    intro h
    rw [List.mem_map] at h
    obtain ⟨p, hp, e⟩ := h
    obtain ⟨j, h1, _, h3⟩ := avEntries_mem avs (i + 1) hp
    rw [h3] at e
    have := idxStr_inj (List.append_cancel_left e)
    omega

theorem avEntries_get {key : Str} {h : Heap} : ∀ (vs : List Value) {avs : List ArrayValue} {fp : List Addr} (i : Nat),
    allScalar vs → (freshElems vs).Rep h avs fp → ∀ j (hj : j < vs.length), ∃ a s, (key ++ idxStr (i + j), a) ∈ avEntries key i avs ∧
      vs[j].scalar? = some s ∧ h[a]? = some s.cell
  | [], _, _, _, _, _, j, hj => by simp at hj
  | v :: vs, avs, fp, i, hs, hr, j, hj => by
    obtain ⟨b, avs', f1, f2, rfl, r1, s1, rfl⟩ := hr
    cases j with
    | zero =>
      obtain ⟨s, h1, e⟩ := Value.fresh_scalar (hs v (by simp))
      rw [e] at r1
      exact ⟨b, s, by simp [avEntries], h1, r1.1⟩
    | succ j =>
      obtain ⟨a, s, h1, h2, h3⟩ := avEntries_get vs (i + 1) (fun v hv => hs v (by simp [hv])) s1 j (by simpa using hj)
      refine ⟨a, s, ?_, by simpa using h2, h3⟩
      rw [avEntries, List.mem_cons]
      right
      rw [← show i + 1 + j = i + (j + 1) by omega]
      exact h1

theorem freshElems_length {h : Heap} : ∀ (vs : List Value) {avs : List ArrayValue} {fp : List Addr}, (freshElems vs).Rep h avs fp → avs.length = vs.length
  | [], _, _, hr => by rw [hr.1]; rfl
  | v :: vs, avs, fp, hr => by
    obtain ⟨b, avs', f1, f2, rfl, r1, s1, rfl⟩ := hr
    simp [freshElems_length vs s1]

theorem kvEntries_get {key : Str} {h : Heap} : ∀ (vs : List (Str × Value)) {avs : List TableKeyVal} {fp : List Addr},
    allScalar (vs.map (·.2)) → (freshPairs vs).Rep h avs fp → ∀ k v, (k, v) ∈ vs → ∃ a s, (key ++ lit% "." ++ k, a) ∈ kvEntries key avs ∧
      v.scalar? = some s ∧ h[a]? = some s.cell
  | [], _, _, _, _, _, _, hj => by simp at hj
  | (k, v) :: vs, avs, fp, hs, hr, k', v', hj => by
    obtain ⟨b, avs', f1, f2, rfl, r1, s1, rfl⟩ := hr
    rw [List.mem_cons] at hj
    rcases hj with hj | hj
    · simp at hj
      obtain ⟨rfl, rfl⟩ := hj
      obtain ⟨s, h1, e⟩ := Value.fresh_scalar (hs v' (by simp))
      rw [e] at r1
      exact ⟨b, s, by simp [kvEntries], h1, r1.1⟩
    · obtain ⟨a, s, h1, h2, h3⟩ := kvEntries_get vs (fun v hv => hs v (by simp at hv ⊢; exact .inr hv)) s1 k' v' hj
      exact ⟨a, s, by rw [kvEntries, List.map_cons, List.mem_cons]; exact .inr h1, h2, h3⟩

theorem freshPairs_keys {h : Heap} : ∀ (vs : List (Str × Value)) {avs : List TableKeyVal} {fp : List Addr}, (freshPairs vs).Rep h avs fp →
    avs.map (·.keyval.key) = vs.map (·.1)
  | [], _, _, hr => by rw [hr.1]; rfl
  | (k, v) :: vs, avs, fp, hr => by
    obtain ⟨b, avs', f1, f2, rfl, r1, s1, rfl⟩ := hr
    simp [freshPairs_keys vs s1]

theorem kvEntries_keys (key : Str) (avs : List TableKeyVal) : (kvEntries key avs).map (·.1) = (avs.map (·.keyval.key)).map fun k => key ++ lit% "." ++ k := by
  simp [kvEntries, Function.comp_def]

/-! ## Sub-keys -/

/-- The children of a key are among its sub-keys. -/
theorem allSubkeys_mem {m : KMap} {key : Str} (hk0 : key ≠ []) {hv : HashValue} (hg : m.get? key = some hv) {subs : List Str} (hs : allSubkeys m key = .ok subs) :
    ∀ k ∈ hv.subkeys.combineChildKeys key, k ∈ subs := by
  have main : ∀ (r : Str → Out (List Str)) (ks : List Str) (l : List Str), subkeysOf r ks = .ok l → ∀ k ∈ ks, k ∈ l := by
    intro r ks
    induction ks with
    | nil => simp
    | cons k ks ih =>
      intro l hl x hx
      simp only [subkeysOf] at hl
      split at hl <;> try (simp at hl; done)
      split at hl <;> simp at hl
      next e =>
        subst hl
        rw [List.mem_cons] at hx
        rcases hx with rfl | hx
        · simp
        · have := ih _ e x hx
          simp [this]
  intro k hk
  simp only [allSubkeys, allSubkeysAt, hg] at hs
  split at hs
  next c e =>
    rw [e, Children.combineChildKeys] at hk
    refine main _ _ _ hs k ?_
    simpa [idxStr] using hk
  next ks e =>
    rw [e, Children.combineChildKeys] at hk
    refine main _ _ _ hs k ?_
    simpa [idxStr, hk0] using hk

theorem allSubkeys_none {m : KMap} {key : Str} {a : Option Addr} (hg : m.get? key = some ⟨a, .count 0⟩) : allSubkeys m key = .ok [] := by
  simp [allSubkeys, allSubkeysAt, hg, subkeysOf]

/-! ## The text of fresh flat values -/

theorem freshElems_text : ∀ (vs : List Value), allScalar vs → vs ≠ [] → ∃ t, (freshElems vs).text = t ∧ Value.disp (.arr vs) = .ok (lit% "[" ++ t ++ lit% "]")
  | [], _, h => absurd rfl h
  | v :: vs, hs, _ => by
    have main : ∀ (vs : List Value), allScalar vs → ∃ r, Value.dispRest vs = .ok r ∧
        (commaText (freshSep vs.isEmpty) ++ (freshElems vs).text) = r := by
      intro vs
      induction vs with
      | nil => intro _; exact ⟨[], by simp [Value.dispRest], by simp [freshSep, commaText, freshElems, Elems.text]⟩
      | cons v vs ih =>
        intro hs
        obtain ⟨r, h1, h2⟩ := ih (fun v hv => hs v (by simp [hv]))
        obtain ⟨s, h3, e⟩ := Value.fresh_scalar (hs v (by simp))
        have := Scalar.disp_value s
        rw [← Value.scalar_eq h3] at this
        refine ⟨lit% ", " ++ s.text ++ r, by simp [Value.dispRest, h1, this, Out.bind_eq, Out.bind], ?_⟩
        simp [freshElems, Elems.text, e, VT.text, ← h2, gapText]
        simp [freshSep, commaText]
    obtain ⟨r, h1, h2⟩ := main vs (fun v hv => hs v (by simp [hv]))
    obtain ⟨s, h3, e⟩ := Value.fresh_scalar (hs v (by simp))
    have := Scalar.disp_value s
    rw [← Value.scalar_eq h3] at this
    refine ⟨_, rfl, ?_⟩
    simp [Value.disp, h1, this, Out.bind_eq, Out.bind, freshElems, Elems.text, e, VT.text, ← h2, gapText]

/-! ## `set_value` -/

/-- A flat array of another structure. -/
theorem setValue_flat {p : Parser} (hp : PInv p) {key : Str} {a : Addr} (ha : valOf p.st.map key = some a) {vs : List Value} (hsc : allScalar vs)
    (hd : deepValids vs = true) (hst : sameStructure p.st.heap a (.arr vs) = false) {subs : List Str} (hsub : allSubkeys p.st.map key = .ok subs) :
    ∃ p' avs g, p.setValue key (.arr vs) = .ok (p', true) ∧ p'.st.heap = graftHeap p.st.heap a (.arr vs) ∧ PInv p' ∧
      (Value.arr vs).fresh.Rep p'.st.heap a (a :: g) ∧ (freshElems vs).Rep p'.st.heap avs g ∧
      p'.st.map = putAll ((eraseAll p.st.map subs).insert key ⟨some a, .count vs.length⟩) (avEntries key 0 avs) := by
  have hi := hp.inv
  have hlt := hi.map.lt key a ha
  obtain ⟨r, hr⟩ := hi.rank
  obtain ⟨r', g, c, tv, _, _, _, hrk, ra, rb, nd, hb, hoff⟩ := graft_spec hr hlt (.arr vs)
  have hset := setValue_vector (v := .arr vs) hr ha hlt hst rfl (by simpa [Value.deepValid] using hd) hsub
  obtain ⟨c0, hg⟩ := valOf_some.mp ha
  have hgm : (eraseAll p.st.map subs).get? key = some ⟨some a, c0⟩ := by
    obtain ⟨l, hl, hlong⟩ := allSubkeys_ok p.st.map key
    rw [hsub] at hl
    simp at hl; subst hl
    rw [eraseAll_get, if_neg, hg]
    intro hm
    exact absurd (hlong key hm) (Nat.lt_irrefl _)
  have rb' := rb
  simp only [Value.fresh] at rb'
  obtain ⟨avs, g', h1, h2, h3⟩ := rb'
  simp at h3; subst h3
  have hpos : 0 < (graftHeap p.st.heap a (.arr vs)).length := by simp [graftHeap]; omega
  obtain ⟨n, hn⟩ : ∃ n, (graftHeap p.st.heap a (.arr vs)).length = n + 1 := ⟨_, (Nat.succ_pred_eq_of_pos hpos).symm⟩
  have hreb : rebuildAt (graftHeap p.st.heap a (.arr vs)) ((graftHeap p.st.heap a (.arr vs)).length + 1) (eraseAll p.st.map subs) key
      ((Value.arr vs).fresh.addr p.st.heap.length) true =
      .ok (putAll ((eraseAll p.st.map subs).insert key ⟨some a, .count vs.length⟩) (avEntries key 0 avs)) := by
    rw [hn, rebuildAt]
    simp only [Value.fresh] at h1 ⊢
    simp only [h1, hgm, if_true]
    rw [freshElems_length vs h2]
    exact rebuildAVs_flat vs hsc h2
  rw [hreb] at hset
  have hpi := setValue_all hp key (.arr vs)
  rw [hset] at hpi
  exact ⟨_, avs, g, hset, rfl, hpi, ra, h2, rfl⟩

/-- The same for a flat inline table. -/
theorem setValue_flatTab {p : Parser} (hp : PInv p) {key : Str} {a : Addr} {c0 : Children} (hg : p.st.map.get? key = some ⟨some a, c0⟩)
    {vs : List (Str × Value)} (hsc : allScalar (vs.map (·.2)))
    (hd : deepValidKVs vs = true) (hst : sameStructure p.st.heap a (.itab vs) = false) {subs : List Str} (hsub : allSubkeys p.st.map key = .ok subs) :
    ∃ p' avs g c, p.setValue key (.itab vs) = .ok (p', true) ∧ p'.st.heap = graftHeap p.st.heap a (.itab vs) ∧ PInv p' ∧
      (Value.itab vs).fresh.Rep p'.st.heap a (a :: g) ∧ (freshPairs vs).Rep p'.st.heap avs g ∧
      p'.st.map = putAll ((eraseAll p.st.map subs).insert key ⟨some a, c⟩) (kvEntries key avs) ∧
      (∀ n, c0 = .count n → c = .count n) ∧ (∀ ks, c0 = .keys ks → c = .keys (avs.foldl (fun ks kv => (insertUniq ks kv.keyval.key).1) ks)) := by
  have hi := hp.inv
  have ha : valOf p.st.map key = some a := valOf_some.mpr ⟨c0, hg⟩
  have hlt := hi.map.lt key a ha
  obtain ⟨r, hr⟩ := hi.rank
  obtain ⟨r', g, c, tv, _, _, _, hrk, ra, rb, nd, hb, hoff⟩ := graft_spec hr hlt (.itab vs)
  have hset := setValue_vector (v := .itab vs) hr ha hlt hst rfl (by simpa [Value.deepValid] using hd) hsub
  have hgm : (eraseAll p.st.map subs).get? key = some ⟨some a, c0⟩ := by
    obtain ⟨l, hl, hlong⟩ := allSubkeys_ok p.st.map key
    rw [hsub] at hl
    simp at hl; subst hl
    rw [eraseAll_get, if_neg, hg]
    intro hm
    exact absurd (hlong key hm) (Nat.lt_irrefl _)
  have rb' := rb
  simp only [Value.fresh] at rb'
  obtain ⟨avs, g', h1, h2, h3⟩ := rb'
  simp at h3; subst h3
  have hpos : 0 < (graftHeap p.st.heap a (.itab vs)).length := by simp [graftHeap]; omega
  obtain ⟨n, hn⟩ : ∃ n, (graftHeap p.st.heap a (.itab vs)).length = n + 1 := ⟨_, (Nat.succ_pred_eq_of_pos hpos).symm⟩
  have hreb : ∃ c', rebuildAt (graftHeap p.st.heap a (.itab vs)) ((graftHeap p.st.heap a (.itab vs)).length + 1) (eraseAll p.st.map subs) key
      ((Value.itab vs).fresh.addr p.st.heap.length) true =
      .ok (putAll ((eraseAll p.st.map subs).insert key ⟨some a, c'⟩) (kvEntries key avs)) ∧
      (∀ n, c0 = .count n → c' = .count n) ∧ (∀ ks, c0 = .keys ks → c' = .keys (avs.foldl (fun ks kv => (insertUniq ks kv.keyval.key).1) ks)) := by
    rw [hn, rebuildAt]
    simp only [Value.fresh] at h1 ⊢
    simp only [h1, hgm, if_true]
    refine ⟨_, rebuildKVs_flat vs hsc h2, ?_, ?_⟩
    · rintro n rfl; rfl
    · rintro ks rfl
      rfl
  obtain ⟨c', hreb, hc1, hc2⟩ := hreb
  rw [hreb] at hset
  have hpi := setValue_all hp key (.itab vs)
  rw [hset] at hpi
  exact ⟨_, avs, g, c', hset, rfl, hpi, ra, h2, rfl, hc1, hc2⟩

/-! ## Sub-keys begin with the key -/

theorem subkeysOf_all {r : Str → Out (List Str)} {P : Str → Prop} : ∀ (ks : List Str) {l : List Str}, subkeysOf r ks = .ok l → (∀ k ∈ ks, P k) →
    (∀ k ∈ ks, ∀ l', r k = .ok l' → ∀ x ∈ l', P x) → ∀ x ∈ l, P x
  | [], l, h, _, _ => by simp [subkeysOf] at h; subst h; simp
  | k :: ks, l, h, h1, h2 => by
    simp only [subkeysOf] at h
    split at h <;> try (simp at h; done)
    next l1 e1 =>
      split at h <;> simp at h
      next l2 e2 =>
        subst h
        intro x hx
        rw [List.mem_cons, List.mem_append] at hx
        rcases hx with rfl | hx | hx
        · exact h1 x (by simp)
        · exact h2 k (by simp) l1 e1 x hx
        · exact subkeysOf_all ks e2 (fun k hk => h1 k (by simp [hk])) (fun k hk => h2 k (by simp [hk])) x hx

theorem allSubkeysAt_prefix (m : KMap) : ∀ (f : Nat) (key : Str) {l : List Str}, allSubkeysAt m f key = .ok l → ∀ x ∈ l, key <+: x
  | 0, key, l, h => by simp [allSubkeysAt] at h
  | f + 1, key, l, h => by
    rw [allSubkeysAt] at h
    split at h
    · simp at h; subst h; simp
    · have main : ∀ ks : List Str, (∀ k ∈ ks, key <+: k) → subkeysOf (allSubkeysAt m f) ks = .ok l → ∀ x ∈ l, key <+: x := by
        intro ks hks hl
        exact subkeysOf_all ks hl hks (fun k hk l' hl' x hx => (hks k hk).trans (allSubkeysAt_prefix m f k hl' x hx))
      split at h
      · refine main _ ?_ h
        intro k hk
        simp at hk
        obtain ⟨i, _, rfl⟩ := hk
        exact List.prefix_append _ _
      · refine main _ ?_ h
        intro k hk
        simp at hk
        obtain ⟨i, _, rfl⟩ := hk
        exact List.prefix_append _ _

theorem allSubkeys_prefix {m : KMap} {key : Str} {l : List Str} (h : allSubkeys m key = .ok l) : ∀ x ∈ l, key <+: x := allSubkeysAt_prefix m _ key h

theorem deepValids_of {vs : List Value} (h : ∀ v ∈ vs, v.scalar?.isSome = true ∧ v.validate = true) : deepValids vs = true := by
  induction vs with
  | nil => rfl
  | cons v vs ih =>
    obtain ⟨h1, h2⟩ := h v (by simp)
    obtain ⟨s, hs⟩ := Option.isSome_iff_exists.mp h1
    rw [deepValids, ih (fun v hv => h v (by simp [hv])), Value.scalar_eq hs, Value.deepValid_scalar, ← Value.scalar_eq hs, h2]
    rfl

theorem deepValidKVs_of {vs : List (Str × Value)} (h : ∀ kv ∈ vs, kv.2.scalar?.isSome = true ∧ kv.2.validate = true) : deepValidKVs vs = true := by
  induction vs with
  | nil => rfl
  | cons kv vs ih =>
    obtain ⟨k, v⟩ := kv
    obtain ⟨h1, h2⟩ := h (k, v) (by simp)
    obtain ⟨s, hs⟩ := Option.isSome_iff_exists.mp h1
    dsimp only at h2 hs
    rw [deepValidKVs, ih (fun v hv => h v (by simp [hv])), Value.scalar_eq hs, Value.deepValid_scalar, ← Value.scalar_eq hs, h2]
    rfl

mutual
theorem Value.fresh_value : ∀ (v : Value), v.fresh.value = v
  | .int s => rfl
  | .float s => rfl
  | .bool s => rfl
  | .dt s => rfl
  | .str s t => rfl
  | .arr vs => by rw [Value.fresh, VT.value, freshElems_values vs]
  | .itab vs => by rw [Value.fresh, VT.value, freshPairs_values vs]
theorem freshElems_values : ∀ (vs : List Value), (freshElems vs).values = vs
  | [] => rfl
  | v :: vs => by rw [freshElems, Elems.values, Value.fresh_value v, freshElems_values vs]
theorem freshPairs_values : ∀ (vs : List (Str × Value)), (freshPairs vs).values = vs
  | [] => rfl
  | (k, v) :: vs => by rw [freshPairs, Pairs.values, Value.fresh_value v, freshPairs_values vs]
end

theorem freshElems_noEmpty {vs : List Value} (hsc : allScalar vs) : (freshElems vs).hasEmptyTable = false := by
  induction vs with
  | nil => rfl
  | cons v vs ih =>
    obtain ⟨s, _, e⟩ := Value.fresh_scalar (hsc v (by simp))
    simp [freshElems, Elems.hasEmptyTable, e, VT.hasEmptyTable, ih (fun v hv => hsc v (by simp [hv]))]

end Tomllib
