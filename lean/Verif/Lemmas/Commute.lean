import Verif.Lemmas.TidyHist
import Verif.Lemmas.Frame
/-!
# Two assignments
-/

namespace Tomllib

open Sections (newVals)

/-! ## Exchanging parts of a tree twice -/

mutual
theorem VT.put_comm : ∀ (t : VT) (r s : List Key) (x y : VT), ¬ r <+: s → ¬ s <+: r → (t.put r x).put s y = (t.put s y).put r x
  | t, [], s, x, y, h, _ => absurd (List.nil_prefix) h
  | t, k :: r, [], x, y, _, h => absurd (List.nil_prefix) h
  | .leaf _, .str _ :: _, .str _ :: _, _, _, _, _ => rfl
  | .leaf _, .str _ :: _, .idx _ :: _, _, _, _, _ => rfl
  | .leaf _, .idx _ :: _, .str _ :: _, _, _, _, _ => rfl
  | .leaf _, .idx _ :: _, .idx _ :: _, _, _, _, _ => rfl
  | .arr _ _ _, .str _ :: _, .str _ :: _, _, _, _, _ => rfl
  | .arr _ _ _, .str _ :: _, .idx _ :: _, _, _, _, _ => rfl
  | .arr _ _ _, .idx _ :: _, .str _ :: _, _, _, _, _ => rfl
  | .arr es c1 c2, .idx i :: r, .idx j :: s, x, y, h, h' => by
    simp only [VT.put]
    rw [Elems.put_comm es i r j s x y (fun g => h (by rw [g.1]; exact (List.cons_prefix_cons.mpr ⟨rfl, g.2⟩))) (fun g => h' (by rw [g.1]; exact (List.cons_prefix_cons.mpr ⟨rfl, g.2⟩)))]
  | .itab _ _, .idx _ :: _, .idx _ :: _, _, _, _, _ => rfl
  | .itab _ _, .str _ :: _, .idx _ :: _, _, _, _, _ => rfl
  | .itab _ _, .idx _ :: _, .str _ :: _, _, _, _, _ => rfl
  | .itab es ws, .str i :: r, .str j :: s, x, y, h, h' => by
    simp only [VT.put]
    rw [Pairs.put_comm es i r j s x y (fun g => h (by rw [g.1]; exact (List.cons_prefix_cons.mpr ⟨rfl, g.2⟩))) (fun g => h' (by rw [g.1]; exact (List.cons_prefix_cons.mpr ⟨rfl, g.2⟩)))]
theorem Elems.put_comm : ∀ (t : Elems) (i : Nat) (r : List Key) (j : Nat) (s : List Key) (x y : VT), ¬ (i = j ∧ r <+: s) → ¬ (i = j ∧ s <+: r) →
    (t.put i r x).put j s y = (t.put j s y).put i r x
  | .nil, _, _, _, _, _, _, _, _ => rfl
  | .cons v sep cn r, 0, q, 0, s, x, y, h, h' => by
    simp only [Elems.put]
    rw [VT.put_comm v q s x y (fun g => h ⟨rfl, g⟩) (fun g => h' ⟨rfl, g⟩)]
  | .cons v sep cn r, 0, q, j + 1, s, x, y, h, h' => rfl
  | .cons v sep cn r, i + 1, q, 0, s, x, y, h, h' => rfl
  | .cons v sep cn r, i + 1, q, j + 1, s, x, y, h, h' => by
    simp only [Elems.put]
    rw [Elems.put_comm r i q j s x y (fun g => h ⟨by rw [g.1], g.2⟩) (fun g => h' ⟨by rw [g.1], g.2⟩)]
theorem Pairs.put_comm : ∀ (t : Pairs) (i : Str) (r : List Key) (j : Str) (s : List Key) (x y : VT), ¬ (i = j ∧ r <+: s) → ¬ (i = j ∧ s <+: r) →
    (t.put i r x).put j s y = (t.put j s y).put i r x
  | .nil, _, _, _, _, _, _, _, _ => rfl
  | .cons k ws v sep cn r, i, q, j, s, x, y, h, h' => by
    by_cases hi : k = i
    · by_cases hj : k = j
      · simp only [Pairs.put, if_pos hi, if_pos hj]
        rw [VT.put_comm v q s x y (fun g => h ⟨by rw [← hi, ← hj], g⟩) (fun g => h' ⟨by rw [← hi, ← hj], g⟩)]
      · simp only [Pairs.put, if_pos hi, if_neg hj]
    · by_cases hj : k = j
      · simp only [Pairs.put, if_neg hi, if_pos hj]
      · simp only [Pairs.put, if_neg hi, if_neg hj]
        rw [Pairs.put_comm r i q j s x y h h']
end

mutual
theorem VT.put_put : ∀ (t : VT) (r : List Key) (x y : VT), (t.put r x).put r y = t.put r y
  | t, [], x, y => by rw [VT.put_nil, VT.put_nil]
  | .leaf _, .str _ :: _, _, _ => rfl
  | .leaf _, .idx _ :: _, _, _ => rfl
  | .arr _ _ _, .str _ :: _, _, _ => rfl
  | .arr es c1 c2, .idx i :: r, x, y => by simp only [VT.put]; rw [Elems.put_put es i r x y]
  | .itab _ _, .idx _ :: _, _, _ => rfl
  | .itab es ws, .str i :: r, x, y => by simp only [VT.put]; rw [Pairs.put_put es i r x y]
theorem Elems.put_put : ∀ (t : Elems) (i : Nat) (r : List Key) (x y : VT), (t.put i r x).put i r y = t.put i r y
  | .nil, _, _, _, _ => rfl
  | .cons v sep cn r, 0, q, x, y => by simp only [Elems.put]; rw [VT.put_put v q x y]
  | .cons v sep cn r, i + 1, q, x, y => by simp only [Elems.put]; rw [Elems.put_put r i q x y]
theorem Pairs.put_put : ∀ (t : Pairs) (i : Str) (r : List Key) (x y : VT), (t.put i r x).put i r y = t.put i r y
  | .nil, _, _, _, _ => rfl
  | .cons k ws v sep cn r, i, q, x, y => by
    by_cases hi : k = i
    · simp only [Pairs.put, if_pos hi]; rw [VT.put_put v q x y]
    · simp only [Pairs.put, if_neg hi]; rw [Pairs.put_put r i q x y]
end

mutual
theorem VT.put_part : ∀ (t : VT) (r : List Key) (x : VT), t.part r = some x → t.put r x = t
  | t, [], x, h => by rw [VT.part_nil] at h; cases h; exact VT.put_nil _ _
  | .leaf _, .str _ :: _, _, h => by simp [VT.part] at h
  | .leaf _, .idx _ :: _, _, h => by simp [VT.part] at h
  | .arr _ _ _, .str _ :: _, _, h => by simp [VT.part] at h
  | .arr es c1 c2, .idx i :: r, x, h => by simp only [VT.put]; rw [Elems.put_part es i r x h]
  | .itab _ _, .idx _ :: _, _, h => by simp [VT.part] at h
  | .itab es ws, .str i :: r, x, h => by simp only [VT.put]; rw [Pairs.put_part es i r x h]
theorem Elems.put_part : ∀ (t : Elems) (i : Nat) (r : List Key) (x : VT), t.part i r = some x → t.put i r x = t
  | .nil, _, _, _, h => by simp [Elems.part] at h
  | .cons v sep cn r, 0, q, x, h => by simp only [Elems.put]; rw [VT.put_part v q x h]
  | .cons v sep cn r, i + 1, q, x, h => by simp only [Elems.put]; rw [Elems.put_part r i q x h]
theorem Pairs.put_part : ∀ (t : Pairs) (i : Str) (r : List Key) (x : VT), t.part i r = some x → t.put i r x = t
  | .nil, _, _, _, h => by simp [Pairs.part] at h
  | .cons k ws v sep cn r, i, q, x, h => by
    rw [Pairs.part] at h
    by_cases hi : k = i
    · rw [if_pos hi] at h; simp only [Pairs.put, if_pos hi]; rw [VT.put_part v q x h]
    · rw [if_neg hi] at h; simp only [Pairs.put, if_neg hi]; rw [Pairs.put_part r i q x h]
end

/-! ## In lines -/

theorem putLines_bare (q : List Key) (x : VT) : ∀ (ls : List (Str × ET)) {D D' : Sections}, Sections.Bare D D' → putLines D' q x ls = putLines D q x ls
  | [], _, _, _ => rfl
  | (nl, .kv w1 k s v w2 c) :: ls, D, D', h => by
    rw [putLines, putLines, h.here]
    split
    · rfl
    · rw [putLines_bare q x ls (h.step _)]
  | (nl, .table w1 t w2 c) :: ls, D, D', h => by
    rw [putLines, putLines, putLines_bare q x ls (h.step _)]
    all_goals simp
  | (nl, .blank w) :: ls, D, D', h => by
    rw [putLines, putLines, putLines_bare q x ls (h.step _)]
    all_goals simp
  | (nl, .comment w c) :: ls, D, D', h => by
    rw [putLines, putLines, putLines_bare q x ls (h.step _)]
    all_goals simp

theorem drop_apart {a b r : List Key} (h : ¬ a <+: b) (ha : r <+: a) (hb : r <+: b) : ¬ a.drop r.length <+: b.drop r.length := by
  obtain ⟨a', rfl⟩ := ha
  obtain ⟨b', rfl⟩ := hb
  rw [List.drop_left, List.drop_left]
  exact fun g => h ((List.prefix_append_right_inj _).mpr g)

theorem putLines_other (D : Sections) (q : List Key) (x : VT) (nl : Str) {e : ET} (he : ∀ w1 k s v w2 c, e ≠ .kv w1 k s v w2 c) (ls : List (Str × ET)) :
    putLines D q x ((nl, e) :: ls) = (nl, e) :: putLines (D.step e) q x ls := by
  cases e with
  | kv w1 k s v w2 c => exact (he w1 k s v w2 c rfl).elim
  | _ => rfl

theorem putLines_comm {q r : List Key} (h : ¬ q <+: r) (h' : ¬ r <+: q) (x y : VT) : ∀ (ls : List (Str × ET)) (D : Sections),
    putLines D r y (putLines D q x ls) = putLines D q x (putLines D r y ls)
  | [], _ => rfl
  | (nl, .kv w1 k s v w2 c) :: ls, D => by
    by_cases h1 : (D.here ++ [Key.str k]).isPrefixOf q = true
    · by_cases h2 : (D.here ++ [Key.str k]).isPrefixOf r = true
      · simp only [putLines, if_pos h1, if_pos h2]
        rw [VT.put_comm]
        · exact drop_apart h (List.isPrefixOf_iff_prefix.mp h1) (List.isPrefixOf_iff_prefix.mp h2)
        · exact drop_apart h' (List.isPrefixOf_iff_prefix.mp h2) (List.isPrefixOf_iff_prefix.mp h1)
      · simp only [putLines, if_pos h1, if_neg h2]
        rw [putLines_bare r y ls ((Sections.Bare.refl D).kv w1 k s v _ w2 c)]
    · by_cases h2 : (D.here ++ [Key.str k]).isPrefixOf r = true
      · simp only [putLines, if_neg h1, if_pos h2]
        rw [putLines_bare q x ls ((Sections.Bare.refl D).kv w1 k s v (v.put (r.drop (D.here ++ [Key.str k]).length) y) w2 c)]
      · simp only [putLines, if_neg h1, if_neg h2]
        rw [putLines_comm h h' x y ls]
  | (nl, .table w1 t w2 c) :: ls, D => by
    have hn : ∀ w1' k s v w2' c', ET.table w1 t w2 c ≠ .kv w1' k s v w2' c' := by simp
    simp only [putLines_other _ _ _ _ hn]
    rw [putLines_comm h h' x y ls]
  | (nl, .blank w) :: ls, D => by
    have hn : ∀ w1' k s v w2' c', ET.blank w ≠ .kv w1' k s v w2' c' := by simp
    simp only [putLines_other _ _ _ _ hn]
    rw [putLines_comm h h' x y ls]
  | (nl, .comment w c) :: ls, D => by
    have hn : ∀ w1' k s v w2' c', ET.comment w c ≠ .kv w1' k s v w2' c' := by simp
    simp only [putLines_other _ _ _ _ hn]
    rw [putLines_comm h h' x y ls]

theorem putLines_put {q : List Key} (x y : VT) : ∀ (ls : List (Str × ET)) (D : Sections), putLines D q y (putLines D q x ls) = putLines D q y ls
  | [], _ => rfl
  | (nl, .kv w1 k s v w2 c) :: ls, D => by
    by_cases h1 : (D.here ++ [Key.str k]).isPrefixOf q = true
    · simp only [putLines, if_pos h1]
      rw [VT.put_put]
    · simp only [putLines, if_neg h1]
      rw [putLines_put x y ls]
  | (nl, .table w1 t w2 c) :: ls, D => by
    have hn : ∀ w1' k s v w2' c', ET.table w1 t w2 c ≠ .kv w1' k s v w2' c' := by simp
    simp only [putLines_other _ _ _ _ hn]
    rw [putLines_put x y ls]
  | (nl, .blank w) :: ls, D => by
    have hn : ∀ w1' k s v w2' c', ET.blank w ≠ .kv w1' k s v w2' c' := by simp
    simp only [putLines_other _ _ _ _ hn]
    rw [putLines_put x y ls]
  | (nl, .comment w c) :: ls, D => by
    have hn : ∀ w1' k s v w2' c', ET.comment w c ≠ .kv w1' k s v w2' c' := by simp
    simp only [putLines_other _ _ _ _ hn]
    rw [putLines_put x y ls]

theorem putLines_same {q : List Key} {t : VT} : ∀ (ls : List (Str × ET)) (D : Sections), (D.newVals ls).Pairwise Sections.Apart →
    ((D.newVals ls).findSome? fun e => if e.1.isPrefixOf q then e.2.part (q.drop e.1.length) else none) = some t → putLines D q t ls = ls
  | [], _, _, _ => rfl
  | (nl, .kv w1 k s v w2 c) :: ls, D, hp, hf => by
    rw [newVals, List.findSome?_cons] at hf
    rw [newVals, List.pairwise_cons] at hp
    dsimp only at hf
    rw [putLines]
    by_cases h1 : (D.here ++ [Key.str k]).isPrefixOf q = true
    · rw [if_pos h1] at hf ⊢
      cases e : v.part (q.drop (D.here ++ [Key.str k]).length) with
      | some x =>
        rw [e] at hf
        cases hf
        rw [VT.put_part _ _ _ e]
      | none =>
        rw [e] at hf
        dsimp only at hf
        obtain ⟨e', g1, g2⟩ := List.exists_of_findSome?_eq_some hf
        split at g2
        next g3 => exact ((hp.1 e' g1).of_prefix (List.isPrefixOf_iff_prefix.mp h1) (List.isPrefixOf_iff_prefix.mp g3)).elim
        · simp at g2
    · rw [if_neg h1] at hf ⊢
      rw [putLines_same ls _ hp.2 hf]
  | (nl, .table w1 t w2 c) :: ls, D, hp, hf => by
    have hn : ∀ w1' k s v w2' c', ET.table w1 t w2 c ≠ .kv w1' k s v w2' c' := by simp
    rw [putLines_other _ _ _ _ hn, putLines_same ls _ hp hf]
  | (nl, .blank w) :: ls, D, hp, hf => by
    have hn : ∀ w1' k s v w2' c', ET.blank w ≠ .kv w1' k s v w2' c' := by simp
    rw [putLines_other _ _ _ _ hn, putLines_same ls _ hp hf]
  | (nl, .comment w c) :: ls, D, hp, hf => by
    have hn : ∀ w1' k s v w2' c', ET.comment w c ≠ .kv w1' k s v w2' c' := by simp
    rw [putLines_other _ _ _ _ hn, putLines_same ls _ hp hf]

/-! ## Values -/

mutual
theorem Value.sameShape_symm : ∀ {a b : Value}, a.sameShape b = true → b.sameShape a = true
  | .arr xs, .arr ys, h => sameShapes_symm (xs := xs) (ys := ys) h
  | .itab xs, .itab ys, h => sameShapeKVs_symm (xs := xs) (ys := ys) h
  | .arr _, .itab _, h => by simp [Value.sameShape, Value.scalar?] at h
  | .itab _, .arr _, h => by simp [Value.sameShape, Value.scalar?] at h
  | .arr _, .int _, h => by simp [Value.sameShape, Value.scalar?] at h
  | .arr _, .float _, h => by simp [Value.sameShape, Value.scalar?] at h
  | .arr _, .bool _, h => by simp [Value.sameShape, Value.scalar?] at h
  | .arr _, .dt _, h => by simp [Value.sameShape, Value.scalar?] at h
  | .arr _, .str _ _, h => by simp [Value.sameShape, Value.scalar?] at h
  | .itab _, .int _, h => by simp [Value.sameShape, Value.scalar?] at h
  | .itab _, .float _, h => by simp [Value.sameShape, Value.scalar?] at h
  | .itab _, .bool _, h => by simp [Value.sameShape, Value.scalar?] at h
  | .itab _, .dt _, h => by simp [Value.sameShape, Value.scalar?] at h
  | .itab _, .str _ _, h => by simp [Value.sameShape, Value.scalar?] at h
  | .int _, b, h => by cases b <;> simp [Value.sameShape, Value.scalar?] at h ⊢
  | .float _, b, h => by cases b <;> simp [Value.sameShape, Value.scalar?] at h ⊢
  | .bool _, b, h => by cases b <;> simp [Value.sameShape, Value.scalar?] at h ⊢
  | .dt _, b, h => by cases b <;> simp [Value.sameShape, Value.scalar?] at h ⊢
  | .str _ _, b, h => by cases b <;> simp [Value.sameShape, Value.scalar?] at h ⊢
theorem sameShapes_symm : ∀ {xs ys : List Value}, sameShapes xs ys = true → sameShapes ys xs = true
  | [], [], _ => rfl
  | x :: xs, y :: ys, h => by
    simp only [sameShapes, Bool.and_eq_true] at h ⊢
    exact ⟨Value.sameShape_symm h.1, sameShapes_symm h.2⟩
  | [], _ :: _, h => by simp [sameShapes] at h
  | _ :: _, [], h => by simp [sameShapes] at h
theorem sameShapeKVs_symm : ∀ {xs ys : List (Str × Value)}, sameShapeKVs xs ys = true → sameShapeKVs ys xs = true
  | [], [], _ => rfl
  | (k, x) :: xs, (k', y) :: ys, h => by
    simp only [sameShapeKVs, Bool.and_eq_true, decide_eq_true_eq] at h ⊢
    exact ⟨h.1.symm, Value.sameShape_symm h.2.1, sameShapeKVs_symm h.2.2⟩
  | [], _ :: _, h => by simp [sameShapeKVs] at h
  | _ :: _, [], h => by simp [sameShapeKVs] at h
end

theorem Value.sameShape_scalar {a b : Value} (ha : a.scalar?.isSome = true) : a.sameShape b = b.scalar?.isSome := by
  cases a <;> first | (simp [Value.scalar?] at ha; done) | (cases b <;> rfl)

mutual
/-- Values of the same structure are of the same structure as the same values. -/
theorem Value.sameShape_congr : ∀ {a b : Value} (c : Value), a.sameShape b = true → a.sameShape c = b.sameShape c
  | .arr xs, .arr ys, c, h => by
    cases c with
    | arr zs => exact sameShapes_congr (xs := xs) (ys := ys) zs h
    | _ => simp [Value.sameShape, Value.scalar?]
  | .itab xs, .itab ys, c, h => by
    cases c with
    | itab zs => exact sameShapeKVs_congr (xs := xs) (ys := ys) zs h
    | _ => simp [Value.sameShape, Value.scalar?]
  | .arr _, .itab _, _, h => by simp [Value.sameShape, Value.scalar?] at h
  | .itab _, .arr _, _, h => by simp [Value.sameShape, Value.scalar?] at h
  | .arr _, .int _, _, h => by simp [Value.sameShape, Value.scalar?] at h
  | .arr _, .float _, _, h => by simp [Value.sameShape, Value.scalar?] at h
  | .arr _, .bool _, _, h => by simp [Value.sameShape, Value.scalar?] at h
  | .arr _, .dt _, _, h => by simp [Value.sameShape, Value.scalar?] at h
  | .arr _, .str _ _, _, h => by simp [Value.sameShape, Value.scalar?] at h
  | .itab _, .int _, _, h => by simp [Value.sameShape, Value.scalar?] at h
  | .itab _, .float _, _, h => by simp [Value.sameShape, Value.scalar?] at h
  | .itab _, .bool _, _, h => by simp [Value.sameShape, Value.scalar?] at h
  | .itab _, .dt _, _, h => by simp [Value.sameShape, Value.scalar?] at h
  | .itab _, .str _ _, _, h => by simp [Value.sameShape, Value.scalar?] at h
  | .int _, b, c, h => by rw [Value.sameShape_scalar rfl] at h ⊢; rw [Value.sameShape_scalar h]
  | .float _, b, c, h => by rw [Value.sameShape_scalar rfl] at h ⊢; rw [Value.sameShape_scalar h]
  | .bool _, b, c, h => by rw [Value.sameShape_scalar rfl] at h ⊢; rw [Value.sameShape_scalar h]
  | .dt _, b, c, h => by rw [Value.sameShape_scalar rfl] at h ⊢; rw [Value.sameShape_scalar h]
  | .str _ _, b, c, h => by rw [Value.sameShape_scalar rfl] at h ⊢; rw [Value.sameShape_scalar h]
theorem sameShapes_congr : ∀ {xs ys : List Value} (zs : List Value), sameShapes xs ys = true → sameShapes xs zs = sameShapes ys zs
  | [], [], _, _ => rfl
  | x :: xs, y :: ys, [], h => rfl
  | x :: xs, y :: ys, z :: zs, h => by
    simp only [sameShapes, Bool.and_eq_true] at h ⊢
    rw [Value.sameShape_congr z h.1, sameShapes_congr zs h.2]
  | [], _ :: _, _, h => by simp [sameShapes] at h
  | _ :: _, [], _, h => by simp [sameShapes] at h
theorem sameShapeKVs_congr : ∀ {xs ys : List (Str × Value)} (zs : List (Str × Value)), sameShapeKVs xs ys = true → sameShapeKVs xs zs = sameShapeKVs ys zs
  | [], [], _, _ => rfl
  | (k, x) :: xs, (k', y) :: ys, [], h => rfl
  | (k, x) :: xs, (k', y) :: ys, (n, z) :: zs, h => by
    simp only [sameShapeKVs, Bool.and_eq_true, decide_eq_true_eq] at h ⊢
    rw [h.1, Value.sameShape_congr z h.2.1, sameShapeKVs_congr zs h.2.2]
  | [], _ :: _, _, h => by simp [sameShapeKVs] at h
  | _ :: _, [], _, h => by simp [sameShapeKVs] at h
end

mutual
theorem VT.replace_replace : ∀ (t : VT) (v w : Value), t.value.sameShape v = true → t.value.sameShape w = true → (t.replace v).replace w = t.replace w
  | .leaf s, v, w, h, h' => by
    have hs : s.value.scalar?.isSome = true := by cases s <;> rfl
    rw [VT.value, Value.sameShape_scalar hs] at h h'
    obtain ⟨a, ha⟩ := Option.isSome_iff_exists.mp h
    obtain ⟨b, hb⟩ := Option.isSome_iff_exists.mp h'
    simp [VT.replace, ha, hb]
  | .arr es c1 c2, v, w, h, h' => by
    cases v with
    | arr vs =>
      cases w with
      | arr ws => simp only [VT.replace]; rw [Elems.replace_replace es vs ws h h']
      | _ => simp [VT.value, Value.sameShape, Value.scalar?] at h'
    | _ => simp [VT.value, Value.sameShape, Value.scalar?] at h
  | .itab es c1, v, w, h, h' => by
    cases v with
    | itab vs =>
      cases w with
      | itab ws => simp only [VT.replace]; rw [Pairs.replace_replace es vs ws h h']
      | _ => simp [VT.value, Value.sameShape, Value.scalar?] at h'
    | _ => simp [VT.value, Value.sameShape, Value.scalar?] at h
theorem Elems.replace_replace : ∀ (t : Elems) (v w : List Value), sameShapes t.values v = true → sameShapes t.values w = true → (t.replace v).replace w = t.replace w
  | .nil, v, w, h, h' => by cases v <;> cases w <;> rfl
  | .cons x sep cn r, [], _, h, _ => by simp [Elems.values, sameShapes] at h
  | .cons x sep cn r, _ :: _, [], _, h => by simp [Elems.values, sameShapes] at h
  | .cons x sep cn r, v :: vs, w :: ws, h, h' => by
    simp only [Elems.values, sameShapes, Bool.and_eq_true] at h h'
    simp only [Elems.replace]
    rw [VT.replace_replace x v w h.1 h'.1, Elems.replace_replace r vs ws h.2 h'.2]
theorem Pairs.replace_replace : ∀ (t : Pairs) (v w : List (Str × Value)), sameShapeKVs t.values v = true → sameShapeKVs t.values w = true → (t.replace v).replace w = t.replace w
  | .nil, v, w, h, h' => by cases v <;> cases w <;> rfl
  | .cons k s x sep cn r, [], _, h, _ => by simp [Pairs.values, sameShapeKVs] at h
  | .cons k s x sep cn r, _ :: _, [], _, h => by simp [Pairs.values, sameShapeKVs] at h
  | .cons k s x sep cn r, (a, v) :: vs, (b, w) :: ws, h, h' => by
    simp only [Pairs.values, sameShapeKVs, Bool.and_eq_true] at h h'
    simp only [Pairs.replace]
    rw [VT.replace_replace x v w h.2.1 h'.2.1, Pairs.replace_replace r vs ws h.2.2 h'.2.2]
end

mutual
theorem VT.replace_self : ∀ (t : VT), t.replace t.value = t
  | .leaf s => by cases s <;> rfl
  | .arr es c1 c2 => by simp only [VT.value, VT.replace]; rw [Elems.replace_self es]
  | .itab es ws => by simp only [VT.value, VT.replace]; rw [Pairs.replace_self es]
theorem Elems.replace_self : ∀ (t : Elems), t.replace t.values = t
  | .nil => rfl
  | .cons v sep cn r => by simp only [Elems.values, Elems.replace]; rw [VT.replace_self v, Elems.replace_self r]
theorem Pairs.replace_self : ∀ (t : Pairs), t.replace t.values = t
  | .nil => rfl
  | .cons k ws v sep cn r => by simp only [Pairs.values, Pairs.replace]; rw [VT.replace_self v, Pairs.replace_self r]
end

theorem VT.assigned_assigned {t : VT} {v w : Value} (hv : v.deepValid = true) (h : t.value.sameShape v = true) : (t.assigned v).assigned w = t.assigned w := by
  have e1 : t.assigned v = t.replace v := if_pos h
  have e2 := VT.assigned_value (t := t) hv
  unfold VT.assigned at e2 ⊢
  rw [if_pos h] at e2 ⊢
  rw [e2, ← Value.sameShape_congr w h]
  split
  next h' => exact VT.replace_replace t v w h h'
  · rfl

theorem VT.assigned_self (t : VT) (h : t.value.sameShape t.value = true) : t.assigned t.value = t := by
  unfold VT.assigned
  rw [if_pos h, VT.replace_self]

theorem Assignable.after {t : VT} {v w : Value} (hv : v.deepValid = true) (h : t.value.sameShape v = true) (hw : Assignable t w) : Assignable (t.assigned v) w := by
  rcases hw with hw | hw | ⟨vs, kvs, ws, rfl, rfl, h1⟩
  · left
    rw [VT.assigned_value hv, ← Value.sameShape_congr w h]; exact hw
  · exact .inr (.inl hw)
  · right; right
    have e1 : (VT.itab kvs ws).assigned v = (VT.itab kvs ws).replace v := if_pos h
    cases v with
    | itab us => exact ⟨vs, kvs.replace us, ws, rfl, by rw [e1, VT.replace], by rw [Pairs.replace_keys]; exact h1⟩
    | _ => simp [VT.value, Value.sameShape, Value.scalar?] at h

/-! ## The scalars of a document are valid -/

mutual
theorem VT.wf.valid : ∀ {t : VT}, t.wf → t.sound = true → t.value.deepValid = true
  | .leaf s, h, hs => by
    cases s with
    | int s =>
      show (Value.int s).valid = true
      simp only [Value.valid, decide_eq_true_eq]; exact ⟨s, [], by simp, h⟩
    | float s =>
      show (Value.float s).valid = true
      simp only [Value.valid, decide_eq_true_eq]; exact ⟨s, [], by simp, h⟩
    | bool b =>
      show (Value.bool b).valid = true
      simp only [Value.valid, decide_eq_true_eq]; trivial
    | dt d =>
      show (Value.dt d).valid = true
      simp only [Value.valid, decide_eq_true_eq]; exact hs
    | str s t =>
      show (Value.str s t).valid = true
      simp only [Value.valid, decide_eq_true_eq]; exact h
  | .arr es c1 c2, h, hs => by
    rw [VT.sound, Bool.and_eq_true] at hs
    rw [VT.value, Value.deepValid]
    exact Elems.wf.valid h.2.1 hs.1
  | .itab kvs ws, h, hs => by
    rw [VT.value, Value.deepValid]
    exact Pairs.wf.valid (t := kvs) h.2 hs
theorem Elems.wf.valid : ∀ {t : Elems}, t.wf → t.sound = true → deepValids t.values = true
  | .nil, _, _ => rfl
  | .cons v sep cn r, h, hs => by
    rw [Elems.sound, Bool.and_eq_true] at hs
    rw [Elems.values, deepValids, Bool.and_eq_true]
    exact ⟨VT.wf.valid h.1 hs.1, Elems.wf.valid h.2.2.2 hs.2⟩
theorem Pairs.wf.valid : ∀ {t : Pairs}, t.wf → t.sound = true → deepValidKVs t.values = true
  | .nil, _, _ => rfl
  | .cons k ws v sep cn r, h, hs => by
    rw [Pairs.sound, Bool.and_eq_true, Bool.and_eq_true] at hs
    rw [Pairs.values, deepValidKVs, Bool.and_eq_true]
    exact ⟨VT.wf.valid h.2.2.1 hs.1.1, Pairs.wf.valid h.2.2.2.2.2 hs.2⟩
end

mutual
theorem VT.strict.written : ∀ {t : VT}, t.strict → t.sound = true → t.value.written
  | .leaf s, h, hs => by
    cases s with
    | dt d => exact ⟨h, hs⟩
    | _ => exact h
  | .arr es c1 c2, h, hs => by
    rw [VT.sound, Bool.and_eq_true] at hs
    exact Elems.strict.written h.2.1 hs.1
  | .itab kvs ws, h, hs => Pairs.strict.written (t := kvs) h.2.1 hs
theorem Elems.strict.written : ∀ {t : Elems}, t.strict → t.sound = true → writtenAll t.values
  | .nil, _, _ => trivial
  | .cons v sep cn r, h, hs => by
    rw [Elems.sound, Bool.and_eq_true] at hs
    exact ⟨VT.strict.written h.1 hs.1, Elems.strict.written h.2.2.2 hs.2⟩
theorem Pairs.strict.written : ∀ {t : Pairs}, t.strict → t.sound = true → writtenKVs t.values
  | .nil, _, _ => trivial
  | .cons k ws v sep cn r, h, hs => by
    rw [Pairs.sound, Bool.and_eq_true, Bool.and_eq_true] at hs
    exact ⟨VT.strict.written h.2.2.1 hs.1.1, Pairs.strict.written h.2.2.2.2.2 hs.2⟩
end

mutual
theorem VT.part_valid : ∀ (t : VT) (q : List Key) {x : VT}, t.value.deepValid = true → t.part q = some x → x.value.deepValid = true
  | t, [], x, h, e => by rw [VT.part_nil] at e; cases e; exact h
  | .leaf _, .str _ :: _, _, _, e => by simp [VT.part] at e
  | .leaf _, .idx _ :: _, _, _, e => by simp [VT.part] at e
  | .arr _ _ _, .str _ :: _, _, _, e => by simp [VT.part] at e
  | .itab _ _, .idx _ :: _, _, _, e => by simp [VT.part] at e
  | .arr es c1 c2, .idx i :: q, x, h, e => Elems.part_valid es i q h e
  | .itab es ws, .str i :: q, x, h, e => Pairs.part_valid es i q h e
theorem Elems.part_valid : ∀ (t : Elems) (i : Nat) (q : List Key) {x : VT}, deepValids t.values = true → t.part i q = some x → x.value.deepValid = true
  | .nil, _, _, _, _, e => by simp [Elems.part] at e
  | .cons v sep cn r, 0, q, x, h, e => by
    rw [Elems.values, deepValids, Bool.and_eq_true] at h
    exact VT.part_valid v q h.1 e
  | .cons v sep cn r, i + 1, q, x, h, e => by
    rw [Elems.values, deepValids, Bool.and_eq_true] at h
    exact Elems.part_valid r i q h.2 e
theorem Pairs.part_valid : ∀ (t : Pairs) (i : Str) (q : List Key) {x : VT}, deepValidKVs t.values = true → t.part i q = some x → x.value.deepValid = true
  | .nil, _, _, _, _, e => by simp [Pairs.part] at e
  | .cons k ws v sep cn r, i, q, x, h, e => by
    rw [Pairs.values, deepValidKVs, Bool.and_eq_true] at h
    rw [Pairs.part] at e
    split at e
    · exact VT.part_valid v q h.1 e
    · exact Pairs.part_valid r i q h.2 e
end

mutual
theorem VT.put_valid : ∀ (t : VT) (q : List Key) {x : VT}, t.value.deepValid = true → x.value.deepValid = true → (t.put q x).value.deepValid = true
  | t, [], x, h, e => by rw [VT.put_nil]; exact e
  | .leaf _, .str _ :: _, _, h, _ => h
  | .leaf _, .idx _ :: _, _, h, _ => h
  | .arr _ _ _, .str _ :: _, _, h, _ => h
  | .itab _ _, .idx _ :: _, _, h, _ => h
  | .arr es c1 c2, .idx i :: q, x, h, e => Elems.put_valid es i q h e
  | .itab es ws, .str i :: q, x, h, e => Pairs.put_valid es i q h e
theorem Elems.put_valid : ∀ (t : Elems) (i : Nat) (q : List Key) {x : VT}, deepValids t.values = true → x.value.deepValid = true → deepValids (t.put i q x).values = true
  | .nil, _, _, _, h, _ => h
  | .cons v sep cn r, 0, q, x, h, e => by
    rw [Elems.values, deepValids, Bool.and_eq_true] at h
    rw [Elems.put, Elems.values, deepValids, Bool.and_eq_true]
    exact ⟨VT.put_valid v q h.1 e, h.2⟩
  | .cons v sep cn r, i + 1, q, x, h, e => by
    rw [Elems.values, deepValids, Bool.and_eq_true] at h
    rw [Elems.put, Elems.values, deepValids, Bool.and_eq_true]
    exact ⟨h.1, Elems.put_valid r i q h.2 e⟩
theorem Pairs.put_valid : ∀ (t : Pairs) (i : Str) (q : List Key) {x : VT}, deepValidKVs t.values = true → x.value.deepValid = true → deepValidKVs (t.put i q x).values = true
  | .nil, _, _, _, h, _ => h
  | .cons k ws v sep cn r, i, q, x, h, e => by
    rw [Pairs.values, deepValidKVs, Bool.and_eq_true] at h
    rw [Pairs.put]
    split
    · rw [Pairs.values, deepValidKVs, Bool.and_eq_true]
      exact ⟨VT.put_valid v q h.1 e, h.2⟩
    · rw [Pairs.values, deepValidKVs, Bool.and_eq_true]
      exact ⟨h.1, Pairs.put_valid r i q h.2 e⟩
end

theorem Fits.sound : ∀ {ls : List (Str × ET)} {D : Sections}, D.Fits ls → ∀ e ∈ D.newVals ls, e.2.sound = true
  | [], _, _, e, he => by simp [Sections.newVals] at he
  | (nl, .kv w1 k s v w2 c) :: ls, D, h, e, he => by
    rw [Sections.newVals, List.mem_cons] at he
    rcases he with rfl | he
    · exact h.1.2
    · exact Fits.sound h.2 e he
  | (nl, .table w1 t w2 c) :: ls, D, h, e, he => Fits.sound (ls := ls) (D := D.step _) h.2 e he
  | (nl, .blank w) :: ls, D, h, e, he => Fits.sound (ls := ls) (D := D.step _) h.2 e he
  | (nl, .comment w c) :: ls, D, h, e, he => Fits.sound (ls := ls) (D := D.step _) h.2 e he

theorem putVals_valid {q : List Key} {x : VT} (hx : x.value.deepValid = true) : ∀ {l : List (List Key × VT)}, (∀ e ∈ l, e.2.value.deepValid = true) →
    ∀ e ∈ Sections.putVals q x l, e.2.value.deepValid = true
  | [], _, e, he => by simp [Sections.putVals] at he
  | a :: l, h, e, he => by
    rw [Sections.putVals] at he
    split at he
    · rcases List.mem_cons.mp he with rfl | he
      · exact VT.put_valid _ _ (h _ (by simp)) hx
      · exact h e (by simp [he])
    · rcases List.mem_cons.mp he with rfl | he
      · exact h _ (by simp)
      · exact putVals_valid hx (fun e he => h e (by simp [he])) e he

theorem History.valids {P : VT → Prop} {ls : List (Str × ET)} {p : Parser} (h : History DocTaken P ls p) : ∀ e ∈ (Sections.read ls).vals, e.2.value.deepValid = true := by
  induction h with
  | read hs hf h =>
    intro e he
    have he' := he
    rw [Sections.vals_read] at he'
    exact VT.wf.valid (Sections.vals_wf _ (by simp) hs.wf.lines e he) (Fits.sound hf e he')
  | assign hp hq ht hv hc _ h ih =>
    rw [Sections.read_put]
    exact putVals_valid (by rw [VT.assigned_value hv]; exact hv) ih
  | refused _ _ _ ih => exact ih

theorem History.valid {P : VT → Prop} {ls : List (Str × ET)} {p : Parser} (h : History DocTaken P ls p) {q : List Key} {t : VT} (ht : (Sections.read ls).valueAt q = some t) :
    t.value.deepValid = true := by
  unfold Sections.valueAt at ht
  obtain ⟨e, h1, h2⟩ := List.exists_of_findSome?_eq_some ht
  split at h2
  · exact VT.part_valid _ _ (h.valids e h1) h2
  · simp at h2

/-! ## Looking the same -/

theorem keyOf_within {q : List Key} (hq : PathWf q) (hne : q ≠ []) : ¬ KeyWithin (keyOf [] q) root := by
  intro h
  have hh : ∀ s, keyOf [] q ++ s ≠ root := by
    intro s e
    cases q with
    | nil => exact hne rfl
    | cons k p =>
      cases k with
      | idx => exact hq.elim
      | str k =>
        rw [keyOf_nil_cons hq.1.ne] at e
        rcases hq.1 with ⟨hn, hb⟩ | hq
        · cases k with
          | nil => exact hn rfl
          | cons c k =>
            have := hb c (by simp)
            simp [root] at e
            rw [e.1] at this
            revert this; decide
        · obtain ⟨b, rfl, _⟩ := quotedKey_unq hq []
          simp [root] at e
  rcases h with h | ⟨s, h⟩ | ⟨s, h⟩
  · exact hh [] (by rw [List.append_nil]; exact h.symm)
  · exact hh (lit% "." ++ s) (by rw [← List.append_assoc]; exact h)
  · exact hh (lit% "[" ++ s) (by rw [← List.append_assoc]; exact h)

theorem Hist.root_value {ls : List (Str × ET)} {p : Parser} {fp : List Addr} (h : Hist ls p fp) :
    p.getValue root = if [] ∈ (Sections.read ls).heads then .panic .tableToVal else .ok none := by
  obtain ⟨v, l, e1, _, e3, e4⟩ := (h.good.slot [] trivial).tab (.inl rfl)
  have hget : p.st.map.get? root = some ⟨v, .keys l⟩ := e1
  split
  next hh =>
    obtain ⟨a, rfl, e5⟩ := e3 hh
    have hva : valOf p.st.map root = some a := by simp [valOf, hget]
    rcases Inv.getValue_cases h.anch.inv root with ⟨h1, _⟩ | ⟨b, h1, h2, h3⟩ | ⟨b, t, fp, h1, h2, _⟩
    · rw [hva] at h1; simp at h1
    · exact h3
    · rw [hva] at h1; simp at h1; subst h1
      exact absurd e5 (h2.bound a h2.kids.1).2
  next hh =>
    have := e4 hh
    subst this
    rw [Inv.getValue_none h.anch.inv]
    simp [valOf, hget]

theorem Hist.nil_value {ls : List (Str × ET)} {p : Parser} {fp : List Addr} (h : Hist ls p fp) : p.getValue [] = .ok none := by
  have : p.st.map.get? [] = none := by
    cases e : p.st.map.get? [] with
    | none => rfl
    | some x =>
      obtain ⟨q, hq, hx⟩ := h.only [] (by rw [e]; simp)
      unfold parP at hx
      split at hx
      · simp [root] at hx
      next hne => exact absurd hx.symm (keyOf_ne_nil hq hne)
  unfold Parser.getValue
  rw [this]

theorem ValsRel.refl : ∀ (l : List (List Key × VT)), Sections.ValsRel VT.Like l l
  | [] => rfl
  | _ :: l => ⟨_, _, rfl, VT.Like.refl _, ValsRel.refl l⟩

/-- Parsers of the same document with the same list at the top level look the same. -/
theorem Hist.looks {ls : List (Str × ET)} {p p' : Parser} {fp fp' : List Addr} (h : Hist ls p fp) (h' : Hist ls p' fp') (hr : p'.getChildren [] = p.getChildren []) :
    LooksSame p p' := by
  refine ⟨by rw [h.anch.display, h'.anch.display], fun k => ?_⟩
  by_cases h1 : k = []
  · subst h1
    exact ⟨by rw [h.nil_value, h'.nil_value], hr⟩
  · by_cases h2 : k = root
    · subst h2
      exact ⟨by rw [h.root_value, h'.root_value], hr⟩
    · exact (Sections.Rel.answers ⟨.refl _, ValsRel.refl _⟩ h.answers h'.answers).1 k h1 h2

theorem setValue_top {p p' : Parser} {q : List Key} (hq : PathWf q) (hne : q ≠ []) {v : Value} {b : Bool} (h : p.setValue (keyOf [] q) v = .ok (p', b)) :
    p'.getChildren [] = p.getChildren [] := by
  have := setValue_outside h root (keyOf_within hq hne)
  unfold Parser.getChildren
  simp only [if_true, this]

/-- What an assignment does. -/
theorem Hist.effect {ls : List (Str × ET)} {p : Parser} {fp : List Addr} (hh : Hist ls p fp) (hP : PInv p) {q : List Key} (hq : PathWf q) {t : VT}
    (ht : (Sections.read ls).valueAt q = some t) {v : Value} (hv : v.deepValid = true) (hc : Assignable t v) :
    ∃ p', p.setValue (keyOf [] q) v = .ok (p', true) ∧ p'.getValue (keyOf [] q) = .ok (some v) ∧
      (∀ s, PathWf (q ++ s) → p'.getValue (keyOf [] (q ++ s)) = .ok (((t.assigned v).part s).map VT.value) ∧
        p'.getChildren (keyOf [] (q ++ s)) = ((t.assigned v).part s).map VT.children) ∧
      (∀ r, PathWf r → r ≠ [] → ¬ q <+: r → ¬ r <+: q → p'.getValue (keyOf [] r) = p.getValue (keyOf [] r)) ∧
      (∀ r, PathWf r → ¬ q <+: r → p'.getChildren (keyOf [] r) = p.getChildren (keyOf [] r)) ∧
      ∃ pre post, linesText ls = pre ++ t.text ++ post ∧ linesText (putLines {} q (t.assigned v) ls) = pre ++ (t.assigned v).text ++ post := by
  obtain ⟨p', h1, fp', hh'⟩ := hh.assign hP hq ht hv hc
  have hap := hh.apart
  have hne := hh.ne ht
  have hread := Sections.read_put q (t.assigned v) ls
  have ha := hh.answers
  have ha' := hh'.answers
  have hbelow : ∀ s, PathWf (q ++ s) → p'.getValue (keyOf [] (q ++ s)) = .ok (((t.assigned v).part s).map VT.value) ∧
      p'.getChildren (keyOf [] (q ++ s)) = ((t.assigned v).part s).map VT.children := by
    intro s hs
    have hva : (Sections.read (putLines {} q (t.assigned v) ls)).valueAt (q ++ s) = (t.assigned v).part s := by
      rw [hread, Sections.valueAt_put_below hap ht]
    have hoff := hh.good.off hh.plain hq ht (p := q ++ s)
    have hcount : (Sections.read ls).count (q ++ s) = none := by
      cases hc : (Sections.read ls).count (q ++ s) with
      | none => rfl
      | some n => exact absurd (List.prefix_append _ _) (hoff (.inl (by rw [hc]; simp)))
    have hnt : ¬ (Sections.read ls).isTable (q ++ s) := fun h => absurd (List.prefix_append _ _) (hoff (.inr h))
    have hnh : q ++ s ∉ (Sections.read ls).heads := fun h => hnt (.inr (.inl h))
    constructor
    · rw [ha'.value _ hs (by simp [hne]), hva]
      cases hp : (t.assigned v).part s with
      | some t' => rfl
      | none =>
        rw [hread]
        simp only [Option.map_none]
        rw [if_neg hnh]
    · rw [ha'.children _ hs (by simp [hne])]
      unfold Sections.childrenAt
      rw [hva]
      cases hp : (t.assigned v).part s with
      | some t' => rfl
      | none =>
        rw [hread]
        have hcount' : Sections.count { Sections.read ls with vals := Sections.putVals q (t.assigned v) (Sections.read ls).vals } (q ++ s) = none := hcount
        simp only [hcount', Option.map_none]
        exact if_neg hnt
  refine ⟨p', h1, ?_, hbelow, ?_, ?_, ?_⟩
  · have := (hbelow [] (by rw [List.append_nil]; exact hq)).1
    rw [List.append_nil, VT.part_nil] at this
    rw [this, Option.map_some, VT.assigned_value hv]
  · intro r hr hrne h2 h3
    rw [ha.value r hr hrne, ha'.value r hr hrne, hread, Sections.valueAt_put_apart hap _ h2 h3]
  · intro r hr h2
    by_cases hrne : r = []
    · subst hrne
      exact setValue_top hq hne h1
    rw [ha.children r hr hrne, ha'.children r hr hrne, hread]
    have := Sections.valueAt_put_off hap (q := q) (t.assigned v) h2
    unfold Sections.childrenAt
    generalize Sections.valueAt { Sections.read ls with vals := Sections.putVals q (t.assigned v) (Sections.read ls).vals } r = o at this ⊢
    cases o with
    | none =>
      cases ho : (Sections.read ls).valueAt r with
      | none => rfl
      | some t' => rw [ho] at this; exact this.elim
    | some t1 =>
      cases ho : (Sections.read ls).valueAt r with
      | none => rw [ho] at this; exact this.elim
      | some t' =>
        rw [ho] at this
        exact congrArg some this
  · obtain ⟨b, F, rfl, hplug, _⟩ := hh.focusAt hq ht
    refine ⟨F.pre, F.post, ?_, ?_⟩
    · have := F.text_eq F.sub
      rw [F.plug_sub] at this
      exact this
    · have := F.text_eq (F.sub.assigned v)
      rw [hplug] at this
      exact this

end Tomllib
