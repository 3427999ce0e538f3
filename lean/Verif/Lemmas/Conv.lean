import Verif.Lemmas.Set
/-!
# `set_value` with a new structure
-/

namespace Tomllib

/-! ## All sub-keys of a key -/

theorem maxKeyLen_get {m : KMap} {k : Str} {v : HashValue} (h : m.get? k = some v) : k.length ≤ maxKeyLen m := by
  induction m with
  | nil => simp [SMap.get?] at h
  | cons x m ih =>
    obtain ⟨k', v'⟩ := x
    simp only [SMap.get?] at h
    simp only [maxKeyLen]
    split at h
    next e => subst e; omega
    · have := ih h; omega

theorem subkeysOf_ok {r : Str → Out (List Str)} : ∀ (ks : List Str), (∀ k ∈ ks, ∃ l, r k = .ok l) →
    ∃ l, subkeysOf r ks = .ok l ∧ ∀ x ∈ l, x ∈ ks ∨ ∃ k ∈ ks, ∃ l', r k = .ok l' ∧ x ∈ l'
  | [], _ => ⟨[], rfl, by simp⟩
  | k :: ks, h => by
    obtain ⟨a, ha⟩ := h k (by simp)
    obtain ⟨b, hb, hb'⟩ := subkeysOf_ok ks (fun k hk => h k (by simp [hk]))
    refine ⟨k :: a ++ b, by simp only [subkeysOf, ha, hb], ?_⟩
    intro x hx
    simp only [List.mem_append, List.mem_cons] at hx
    rcases hx with (rfl | hx) | hx
    · exact .inl (by simp)
    · exact .inr ⟨k, by simp, a, ha, hx⟩
    · rcases hb' x hx with h1 | ⟨k', h1, l', h2, h3⟩
      · exact .inl (by simp [h1])
      · exact .inr ⟨k', by simp [h1], l', h2, h3⟩

theorem allSubkeysAt_ok (m : KMap) : ∀ (f : Nat) (key : Str), 1 ≤ f → maxKeyLen m + 2 ≤ f + key.length →
    ∃ l, allSubkeysAt m f key = .ok l ∧ ∀ x ∈ l, key.length < x.length
  | 0, key, h, _ => by omega
  | f + 1, key, _, hf => by
    rw [allSubkeysAt]
    split
    · exact ⟨[], rfl, by simp⟩
    next hv hg =>
      have hk := maxKeyLen_get hg
      have main : ∀ ks : List Str, (∀ k ∈ ks, key.length < k.length) →
          ∃ l, subkeysOf (allSubkeysAt m f) ks = .ok l ∧ ∀ x ∈ l, key.length < x.length := by
        intro ks hks
        obtain ⟨l, h1, h2⟩ := subkeysOf_ok (r := allSubkeysAt m f) ks (fun k hk => by
          have := hks k hk
          obtain ⟨l, hl, _⟩ := allSubkeysAt_ok m f k (by omega) (by omega)
          exact ⟨l, hl⟩)
        refine ⟨l, h1, fun x hx => ?_⟩
        rcases h2 x hx with h3 | ⟨k, h3, l', h4, h5⟩
        · exact hks x h3
        · have := hks k h3
          obtain ⟨l'', h6, h7⟩ := allSubkeysAt_ok m f k (by omega) (by omega)
          rw [h4] at h6
          simp at h6; subst h6
          have := h7 x h5
          omega
      split
      · apply main
        intro k hk
        simp at hk
        obtain ⟨i, _, rfl⟩ := hk
        simp [idxStr]
      · apply main
        intro k hk
        simp at hk
        obtain ⟨i, _, rfl⟩ := hk
        simp

theorem allSubkeys_ok (m : KMap) (key : Str) : ∃ l, allSubkeys m key = .ok l ∧ ∀ x ∈ l, key.length < x.length :=
  allSubkeysAt_ok m _ key (by omega) (by omega)

theorem eraseAll_get (k : Str) : ∀ (ks : List Str) (m : KMap), (eraseAll m ks).get? k = if k ∈ ks then none else m.get? k
  | [], m => by simp [eraseAll]
  | x :: ks, m => by
    rw [eraseAll, eraseAll_get k ks, SMap.get?_erase]
    by_cases h : k = x
    · subst h; simp
    · simp [h, Ne.symm h]

theorem eraseAll_inv {m : KMap} {n : Nat} (h : MapInv m n) (ks : List Str) : MapInv (eraseAll m ks) n := by
  have hv : ∀ k a, valOf (eraseAll m ks) k = some a → valOf m k = some a := by
    intro k a hk
    unfold valOf at hk ⊢
    rw [eraseAll_get] at hk
    split at hk
    · simp at hk
    · exact hk
  refine ⟨fun k a hk => h.lt k a (hv k a hk), fun k k' a hk hk' => h.inj k k' a (hv _ _ hk) (hv _ _ hk'), ?_⟩
  intro k c hk
  apply h.kids k c
  unfold kidsOf at hk ⊢
  rw [eraseAll_get] at hk
  split at hk
  · simp at hk
  · exact hk

/-! ## New cells -/

/-- Cells placed at `n`: those below a cell are new and come before it, and none is a table header. -/
def NewCells (n : Nat) (l : List TVal) : Prop :=
  ∀ (i : Nat) (v : TVal), l[i]? = some v → v ≠ .table ∧ ∀ c : Nat, c ∈ v.kids → n ≤ c ∧ c < n + i

theorem NewCells.nil (n : Nat) : NewCells n [] := by intro i v h; simp at h

theorem NewCells.snoc {n : Nat} {l : List TVal} (h : NewCells n l) {v : TVal} (ht : v ≠ .table) (hv : ∀ c : Nat, c ∈ v.kids → n ≤ c ∧ c < n + l.length) :
    NewCells n (l ++ [v]) := by
  intro i w hw
  by_cases hi : i < l.length
  · rw [List.getElem?_append_left hi] at hw
    exact h i w hw
  · have : i = l.length := by
      have := (List.getElem?_eq_some_iff.mp hw).1
      simp at this; omega
    subst this
    simp at hw; subst hw
    exact ⟨ht, hv⟩

theorem NewCells.append {n : Nat} {l l' : List TVal} (h : NewCells n l) (h' : NewCells (n + l.length) l') : NewCells n (l ++ l') := by
  intro i w hw
  by_cases hi : i < l.length
  · rw [List.getElem?_append_left hi] at hw
    exact h i w hw
  · rw [List.getElem?_append_right (by omega)] at hw
    have := h' _ w hw
    exact ⟨this.1, fun c hc => by have := this.2 c hc; omega⟩

mutual
theorem VT.cells_new : ∀ (t : VT) (n : Nat), NewCells n (t.cells n)
  | .leaf s, n => by
    rw [VT.cells]
    exact (NewCells.nil n).snoc Scalar.cell_ne_table (by simp [Scalar.kids])
  | .arr es c1 c2, n => by
    rw [VT.cells]
    refine (es.cells_new n).snoc (by simp) ?_
    intro c hc
    rw [Elems.cells_length]
    exact es.avs_bound n c hc
  | .itab es ws, n => by
    rw [VT.cells]
    refine (es.cells_new n).snoc (by simp) ?_
    intro c hc
    rw [Pairs.cells_length]
    exact es.tkvs_bound n c hc
theorem Elems.cells_new : ∀ (t : Elems) (n : Nat), NewCells n (t.cells n)
  | .nil, n => NewCells.nil n
  | .cons v sep cn r, n => by
    rw [Elems.cells]
    refine (v.cells_new n).append ?_
    rw [VT.cells_length]
    exact r.cells_new _
theorem Pairs.cells_new : ∀ (t : Pairs) (n : Nat), NewCells n (t.cells n)
  | .nil, n => NewCells.nil n
  | .cons k ws v sep cn r, n => by
    rw [Pairs.cells]
    refine (v.cells_new n).append ?_
    rw [VT.cells_length]
    exact r.cells_new _
theorem Elems.avs_bound : ∀ (t : Elems) (n c : Nat), c ∈ (t.avs n).map (·.val) → n ≤ c ∧ c < n + t.size
  | .nil, n, c, h => by simp [Elems.avs] at h
  | .cons v sep cn r, n, c, h => by
    rw [Elems.avs, List.map_cons, List.mem_cons] at h
    have := v.size_pos
    rcases h with h | h
    · simp [VT.addr] at h
      simp [Elems.size]; omega
    · have := r.avs_bound _ c h
      simp [Elems.size]; omega
theorem Pairs.tkvs_bound : ∀ (t : Pairs) (n c : Nat), c ∈ (t.tkvs n).map (·.keyval.val) → n ≤ c ∧ c < n + t.size
  | .nil, n, c, h => by simp [Pairs.tkvs] at h
  | .cons k ws v sep cn r, n, c, h => by
    rw [Pairs.tkvs, List.map_cons, List.mem_cons] at h
    have := v.size_pos
    rcases h with h | h
    · simp [VT.addr] at h
      simp [Pairs.size]; omega
    · have := r.tkvs_bound _ c h
      simp [Pairs.size]; omega
end

/-- Overwriting a cell by one whose cells below are new, after adding the new cells. -/
theorem Ranked.graft {h : Heap} {r : Addr → Nat} (hr : Ranked h r) {l : List TVal} (hl : NewCells h.length l) {a : Nat} (ha : a < h.length)
    {v : TVal} (ht : v ≠ .table) (hv : ∀ c : Nat, c ∈ v.kids → h.length ≤ c ∧ c < h.length + l.length) :
    Ranked ((h ++ l).set a v) (fun x => if x < h.length then r x + l.length else x - h.length) := by
  have hnew : ∀ c : Nat, h.length ≤ c → c < h.length + l.length → ((h ++ l).set a v)[c]? ≠ some .table := by
    intro c h1 h2
    rw [List.getElem?_set_ne (by omega), List.getElem?_append_right h1]
    intro he
    exact (hl _ _ he).1 rfl
  intro x w hw
  have hx := (List.getElem?_eq_some_iff.mp hw).1
  simp at hx
  by_cases hxa : x = a
  · subst hxa
    rw [List.getElem?_set_self (by simp; omega)] at hw
    simp at hw; subst hw
    dsimp only
    rw [if_pos ha]
    refine ⟨by have := hr.lt ha; simp; omega, fun c hc => ?_⟩
    have := hv c hc
    rw [if_neg (show ¬ c < h.length by omega)]
    exact ⟨by simp; omega, by omega, hnew c this.1 this.2⟩
  · rw [List.getElem?_set_ne (Ne.symm hxa)] at hw
    by_cases hxl : x < h.length
    · rw [List.getElem?_append_left hxl] at hw
      have h1 := hr x w hw
      dsimp only
      rw [if_pos hxl]
      refine ⟨by simp; omega, fun c hc => ?_⟩
      have h2 := h1.2 c hc
      rw [if_pos h2.1]
      refine ⟨by simp; omega, by omega, ?_⟩
      by_cases hca : c = a
      · subst hca
        rw [List.getElem?_set_self (by simp; omega)]
        simpa using ht
      · rw [List.getElem?_set_ne (Ne.symm hca), List.getElem?_append_left h2.1]
        exact h2.2.2
    · rw [List.getElem?_append_right (by omega)] at hw
      have h1 := hl _ w hw
      dsimp only
      rw [if_neg hxl]
      refine ⟨by simp; omega, fun c hc => ?_⟩
      have h2 := h1.2 c hc
      rw [if_neg (show ¬ c < h.length by omega)]
      exact ⟨by simp; omega, by omega, hnew c (by omega) (by omega)⟩

/-- Adding new cells. -/
theorem Ranked.grow {h : Heap} {r : Addr → Nat} (hr : Ranked h r) {l : List TVal} (hl : NewCells h.length l) :
    Ranked (h ++ l) (fun x => if x < h.length then r x else x) := by
  intro x w hw
  have hx := (List.getElem?_eq_some_iff.mp hw).1
  simp at hx
  by_cases hxl : x < h.length
  · rw [List.getElem?_append_left hxl] at hw
    have h1 := hr x w hw
    dsimp only
    rw [if_pos hxl]
    refine ⟨by simp; omega, fun c hc => ?_⟩
    have h2 := h1.2 c hc
    rw [if_pos h2.1, List.getElem?_append_left h2.1]
    exact ⟨by simp; omega, by omega, h2.2.2⟩
  · rw [List.getElem?_append_right (by omega)] at hw
    have h1 := hl _ w hw
    dsimp only
    rw [if_neg hxl]
    refine ⟨by simp; omega, fun c hc => ?_⟩
    have h2 := h1.2 c hc
    rw [if_neg (show ¬ c < h.length by omega), List.getElem?_append_right (by omega)]
    refine ⟨by simp; omega, by omega, fun he => (hl _ _ he).1 rfl⟩

/-! ## Conversion of values -/

/-- What a conversion does to the heap. -/
def ConvOk (h : Heap) (x : Out (Heap × Option TVal)) : Prop :=
  x.All (fun p => ∃ l, p.1 = h ++ l ∧ NewCells h.length l ∧
    ∀ tv, p.2 = some tv → tv ≠ .table ∧ ∀ c : Nat, c ∈ tv.kids → h.length ≤ c ∧ c < h.length + l.length) (· = .unwrapNone)

theorem ConvOk.scalar (h : Heap) (b : Bool) (s : Scalar) : ConvOk h (.ok (h, if b then some s.cell else none)) := by
  refine ⟨[], by simp, NewCells.nil _, ?_⟩
  intro tv htv
  cases b
  · simp at htv
  · simp at htv; subst htv
    exact ⟨Scalar.cell_ne_table, by simp [Scalar.kids]⟩

mutual
theorem convertVector_conv : ∀ (v : Value) (h : Heap), ConvOk h (convertVector h v)
  | .int s, h => ConvOk.scalar h _ (.int s)
  | .float s, h => ConvOk.scalar h _ (.float s)
  | .bool s, h => ConvOk.scalar h true (.bool s)
  | .dt s, h => ConvOk.scalar h _ (.dt s)
  | .str s t, h => ConvOk.scalar h _ (.str s t)
  | .arr vs, h => by
    have := convertAVs_conv vs h
    rw [convertVector]
    split
    next h' avs e =>
      rw [e] at this
      obtain ⟨l, h1, h2, h3⟩ := this
      refine ⟨l, h1, h2, fun tv htv => ?_⟩
      simp at htv; subst htv
      exact ⟨by simp, h3 avs rfl⟩
    next h' e =>
      rw [e] at this
      obtain ⟨l, h1, h2, h3⟩ := this
      exact ⟨l, h1, h2, fun tv htv => by simp at htv⟩
    next e => rw [e] at this; exact this
    next e => rw [e] at this; exact this
  | .itab vs, h => by
    have := convertKVs_conv vs h
    rw [convertVector]
    split
    next h' avs e =>
      rw [e] at this
      obtain ⟨l, h1, h2, h3⟩ := this
      refine ⟨l, h1, h2, fun tv htv => ?_⟩
      simp at htv; subst htv
      exact ⟨by simp, h3⟩
    next e => rw [e] at this; exact this
    next e => rw [e] at this; exact this
theorem convertAVs_conv : ∀ (vs : List Value) (h : Heap), (convertAVs h vs).All (fun p => ∃ l, p.1 = h ++ l ∧ NewCells h.length l ∧
    ∀ avs, p.2 = some avs → ∀ c : Nat, c ∈ avs.map (·.val) → h.length ≤ c ∧ c < h.length + l.length) (· = .unwrapNone)
  | [], h => ⟨[], by simp, NewCells.nil _, fun avs ha => by simp at ha; subst ha; simp⟩
  | v :: vs, h => by
    have h1 := convertVector_conv v h
    rw [convertAVs]
    split
    next h' e =>
      rw [e] at h1
      obtain ⟨l, h1, h2, h3⟩ := h1
      exact ⟨l, h1, h2, fun tv htv => by simp at htv⟩
    next h' tv e =>
      rw [e] at h1
      obtain ⟨l, h1, h2, h3⟩ := h1
      obtain ⟨h4, h5⟩ := h3 tv rfl
      dsimp only at h1
      have h6 := convertAVs_conv vs (h' ++ [tv])
      have hnew : NewCells h.length (l ++ [tv]) := h2.snoc h4 h5
      have hlen : (h' ++ [tv]).length = h.length + (l ++ [tv]).length := by rw [h1]; simp
      split
      next h'' avs e2 =>
        rw [e2] at h6
        obtain ⟨l2, g1, g2, g3⟩ := h6
        rw [hlen] at g2 g3
        refine ⟨(l ++ [tv]) ++ l2, by dsimp only at g1 ⊢; rw [g1, h1]; simp, hnew.append g2, ?_⟩
        intro avs' ha c hc
        simp at ha; subst ha
        rw [List.map_cons, List.mem_cons] at hc
        rcases hc with hc | hc
        · simp [h1] at hc; simp; omega
        · have := g3 avs rfl c hc
          simp at this ⊢; omega
      next h'' e2 =>
        rw [e2] at h6
        obtain ⟨l2, g1, g2, g3⟩ := h6
        rw [hlen] at g2
        exact ⟨(l ++ [tv]) ++ l2, by dsimp only at g1 ⊢; rw [g1, h1]; simp, hnew.append g2, fun _ h => by simp at h⟩
      next e2 => rw [e2] at h6; exact h6
      next e2 => rw [e2] at h6; exact h6
    next e => rw [e] at h1; exact h1
    next e => rw [e] at h1; exact h1
theorem convertKVs_conv : ∀ (vs : List (Str × Value)) (h : Heap), (convertKVs h vs).All (fun p => ∃ l, p.1 = h ++ l ∧ NewCells h.length l ∧
    ∀ c : Nat, c ∈ p.2.map (·.keyval.val) → h.length ≤ c ∧ c < h.length + l.length) (· = .unwrapNone)
  | [], h => ⟨[], by simp, NewCells.nil _, fun avs ha => by simp at ha⟩
  | (k, v) :: vs, h => by
    have h1 := convertVector_conv v h
    rw [convertKVs]
    split
    next h' e => rfl
    next h' tv e =>
      rw [e] at h1
      obtain ⟨l, h1, h2, h3⟩ := h1
      obtain ⟨h4, h5⟩ := h3 tv rfl
      dsimp only at h1
      have h6 := convertKVs_conv vs (h' ++ [tv])
      have hnew : NewCells h.length (l ++ [tv]) := h2.snoc h4 h5
      have hlen : (h' ++ [tv]).length = h.length + (l ++ [tv]).length := by rw [h1]; simp
      split
      next h'' avs e2 =>
        rw [e2] at h6
        obtain ⟨l2, g1, g2, g3⟩ := h6
        rw [hlen] at g2 g3
        refine ⟨(l ++ [tv]) ++ l2, by dsimp only at g1 ⊢; rw [g1, h1]; simp, hnew.append g2, ?_⟩
        intro c hc
        rw [List.map_cons, List.mem_cons] at hc
        rcases hc with hc | hc
        · simp [h1] at hc; simp; omega
        · have := g3 c hc
          simp at this ⊢; omega
      next e2 => rw [e2] at h6; exact h6
      next e2 => rw [e2] at h6; exact h6
    next e => rw [e] at h1; exact h1
    next e => rw [e] at h1; exact h1
end

mutual
/-- A valid value is laid out as a fresh tree; its root is not yet in the heap. -/
theorem convertVector_fresh : ∀ (v : Value) (h : Heap), v.deepValid = true →
    ∃ h' tv, convertVector h v = .ok (h', some tv) ∧ h' ++ [tv] = h ++ v.fresh.cells h.length
  | .int s, h, hv => ⟨h, .int s, by simp only [convertVector]; rw [if_pos]; simpa [Value.deepValid] using hv, rfl⟩
  | .float s, h, hv => ⟨h, .float s, by simp only [convertVector]; rw [if_pos]; simpa [Value.deepValid] using hv, rfl⟩
  | .bool s, h, hv => ⟨h, .bool s, rfl, rfl⟩
  | .dt s, h, hv => ⟨h, .dt s, by simp only [convertVector]; rw [if_pos]; simpa [Value.deepValid] using hv, rfl⟩
  | .str s t, h, hv => ⟨h, .str s t, by simp only [convertVector]; rw [if_pos]; simpa [Value.deepValid] using hv, rfl⟩
  | .arr vs, h, hv => by
    have := convertAVs_fresh vs h hv
    exact ⟨_, _, by simp only [convertVector, this]; rfl, by simp [Value.fresh, VT.cells]⟩
  | .itab vs, h, hv => by
    have := convertKVs_fresh vs h hv
    exact ⟨_, _, by simp only [convertVector, this]; rfl, by simp [Value.fresh, VT.cells]⟩
theorem convertAVs_fresh : ∀ (vs : List Value) (h : Heap), deepValids vs = true →
    convertAVs h vs = .ok (h ++ (freshElems vs).cells h.length, some ((freshElems vs).avs h.length))
  | [], h, _ => by simp [convertAVs, freshElems, Elems.cells, Elems.avs]
  | v :: vs, h, hv => by
    simp [deepValids] at hv
    obtain ⟨h', tv, e1, e2⟩ := convertVector_fresh v h hv.1
    have hl : h'.length + 1 = h.length + v.fresh.size := by
      have := congrArg List.length e2
      simpa [VT.cells_length] using this
    have h3 := convertAVs_fresh vs (h' ++ [tv]) hv.2
    have hl2 : (h' ++ [tv]).length = h.length + v.fresh.size := by simp [hl]
    have hl3 : h'.length = v.fresh.addr h.length := by simp only [VT.addr]; omega
    rw [hl2] at h3
    simp only [convertAVs, e1, h3, freshElems, Elems.cells, Elems.avs, ← hl3]
    rw [e2]
    simp [defaultSep, freshSep]
theorem convertKVs_fresh : ∀ (vs : List (Str × Value)) (h : Heap), deepValidKVs vs = true →
    convertKVs h vs = .ok (h ++ (freshPairs vs).cells h.length, (freshPairs vs).tkvs h.length)
  | [], h, _ => by simp [convertKVs, freshPairs, Pairs.cells, Pairs.tkvs]
  | (k, v) :: vs, h, hv => by
    simp [deepValidKVs] at hv
    obtain ⟨h', tv, e1, e2⟩ := convertVector_fresh v h hv.1
    have hl : h'.length + 1 = h.length + v.fresh.size := by
      have := congrArg List.length e2
      simpa [VT.cells_length] using this
    have h3 := convertKVs_fresh vs (h' ++ [tv]) hv.2
    have hl2 : (h' ++ [tv]).length = h.length + v.fresh.size := by simp [hl]
    have hl3 : h'.length = v.fresh.addr h.length := by simp only [VT.addr]; omega
    rw [hl2] at h3
    simp only [convertKVs, e1, h3, freshPairs, Pairs.cells, Pairs.tkvs, ← hl3]
    rw [e2]
    simp [defaultSep, freshSep]
end

end Tomllib
