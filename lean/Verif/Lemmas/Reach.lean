import Verif.Lemmas.Walk
import Verif.Lemmas.Flat
import Verif.Spec.History
/-!
# The cell of a part of a value
-/

namespace Tomllib

/-- The cell that a path leads to, from a cell. -/
def reach (h : Heap) : Addr → List Key → Option Addr
  | a, [] => some a
  | a, .idx i :: q => match h[a]? with
    | some (.arr avs _ _) => match avs[i]? with
      | some av => reach h av.val q
      | none => none
    | _ => none
  | a, .str k :: q => match h[a]? with
    | some (.itab kvs _) => match kvs.find? (·.keyval.key = k) with
      | some kv => reach h kv.keyval.val q
      | none => none
    | _ => none

def reachE (h : Heap) (avs : List ArrayValue) (i : Nat) (q : List Key) : Option Addr := match avs[i]? with
  | some av => reach h av.val q
  | none => none

def reachK (h : Heap) (kvs : List TableKeyVal) (k : Str) (q : List Key) : Option Addr := match kvs.find? (·.keyval.key = k) with
  | some kv => reach h kv.keyval.val q
  | none => none

theorem reach_arr {h : Heap} {a : Addr} {avs : List ArrayValue} {c1 c2 : List CNL} (e : h[a]? = some (.arr avs c1 c2)) (i : Nat) (q : List Key) :
    reach h a (.idx i :: q) = reachE h avs i q := by
  rw [reach, e]; rfl

theorem reach_itab {h : Heap} {a : Addr} {kvs : List TableKeyVal} {ws : WSSep} (e : h[a]? = some (.itab kvs ws)) (k : Str) (q : List Key) :
    reach h a (.str k :: q) = reachK h kvs k q := by
  rw [reach, e]; rfl

theorem VT.part_nil (t : VT) : t.part [] = some t := by cases t <;> rfl
theorem VT.put_nil (t x : VT) : t.put [] x = x := by cases t <;> rfl

theorem reach_append (h : Heap) : ∀ (r s : List Key) (a : Addr), reach h a (r ++ s) = (reach h a r).bind fun b => reach h b s
  | [], _, _ => rfl
  | .idx i :: r, s, a => by
    simp only [List.cons_append, reach]
    split
    · split
      · exact reach_append h r s _
      · rfl
    · rfl
  | .str i :: r, s, a => by
    simp only [List.cons_append, reach]
    split
    · split
      · exact reach_append h r s _
      · rfl
    · rfl

mutual
/-- The cell of a part. -/
theorem VT.Rep.reach {h : Heap} : ∀ {t : VT} {a : Addr} {fp : List Addr} {s : List Key} {t' : VT}, t.Rep h a fp → t.part s = some t' →
    ∃ c, c ∈ fp ∧ (∃ f, t'.Rep h c f) ∧ ∀ h' : Heap, (∀ y ∈ fp, h'[y]? = h[y]?) → reach h' a s = some c
  | t, a, fp, [], t', hr, hp => by
    rw [VT.part_nil] at hp
    cases hp
    exact ⟨a, hr.kids.1, ⟨fp, hr⟩, fun _ _ => rfl⟩
  | .leaf _, _, _, .str _ :: _, _, _, hp => by simp [VT.part] at hp
  | .leaf _, _, _, .idx _ :: _, _, _, hp => by simp [VT.part] at hp
  | .arr _ _ _, _, _, .str _ :: _, _, _, hp => by simp [VT.part] at hp
  | .itab _ _, _, _, .idx _ :: _, _, _, hp => by simp [VT.part] at hp
  | .arr es c1 c2, a, fp, .idx i :: q, t', hr, hp => by
    obtain ⟨avs, g, e1, r1, rfl⟩ := hr
    rw [VT.part] at hp
    obtain ⟨c, h1, h2, h3⟩ := Elems.Rep.reach r1 hp
    refine ⟨c, by simp [h1], h2, fun h' hh => ?_⟩
    rw [reach_arr ((hh a (by simp)).trans e1)]
    exact h3 h' (fun y hy => hh y (by simp [hy]))
  | .itab es ws, a, fp, .str i :: q, t', hr, hp => by
    obtain ⟨avs, g, e1, r1, rfl⟩ := hr
    rw [VT.part] at hp
    obtain ⟨c, h1, h2, h3⟩ := Pairs.Rep.reach r1 hp
    refine ⟨c, by simp [h1], h2, fun h' hh => ?_⟩
    rw [reach_itab ((hh a (by simp)).trans e1)]
    exact h3 h' (fun y hy => hh y (by simp [hy]))
theorem Elems.Rep.reach {h : Heap} : ∀ {t : Elems} {a : List ArrayValue} {fp : List Addr} {i : Nat} {s : List Key} {t' : VT}, t.Rep h a fp → t.part i s = some t' →
    ∃ c, c ∈ fp ∧ (∃ f, t'.Rep h c f) ∧ ∀ h' : Heap, (∀ y ∈ fp, h'[y]? = h[y]?) → reachE h' a i s = some c
  | .nil, _, _, _, _, _, _, hp => by simp [Elems.part] at hp
  | .cons v sep cn r, a, fp, 0, q, t', hr, hp => by
    obtain ⟨b, avs, f1, f2, rfl, r1, s1, rfl⟩ := hr
    rw [Elems.part] at hp
    obtain ⟨c, h1, h2, h3⟩ := VT.Rep.reach r1 hp
    exact ⟨c, by simp [h1], h2, fun h' hh => h3 h' (fun y hy => hh y (by simp [hy]))⟩
  | .cons v sep cn r, a, fp, i + 1, q, t', hr, hp => by
    obtain ⟨b, avs, f1, f2, rfl, r1, s1, rfl⟩ := hr
    rw [Elems.part] at hp
    obtain ⟨c, h1, h2, h3⟩ := Elems.Rep.reach s1 hp
    refine ⟨c, by simp [h1], h2, fun h' hh => ?_⟩
    have := h3 h' (fun y hy => hh y (by simp [hy]))
    simpa [reachE] using this
theorem Pairs.Rep.reach {h : Heap} : ∀ {t : Pairs} {a : List TableKeyVal} {fp : List Addr} {i : Str} {s : List Key} {t' : VT}, t.Rep h a fp → t.part i s = some t' →
    ∃ c, c ∈ fp ∧ (∃ f, t'.Rep h c f) ∧ ∀ h' : Heap, (∀ y ∈ fp, h'[y]? = h[y]?) → reachK h' a i s = some c
  | .nil, _, _, _, _, _, _, hp => by simp [Pairs.part] at hp
  | .cons k ws v sep cn r, a, fp, i, q, t', hr, hp => by
    obtain ⟨b, avs, f1, f2, rfl, r1, s1, rfl⟩ := hr
    rw [Pairs.part] at hp
    split at hp
    next hk =>
      obtain ⟨c, h1, h2, h3⟩ := VT.Rep.reach r1 hp
      refine ⟨c, by simp [h1], h2, fun h' hh => ?_⟩
      have := h3 h' (fun y hy => hh y (by simp [hy]))
      simpa [reachK, hk] using this
    next hk =>
      obtain ⟨c, h1, h2, h3⟩ := Pairs.Rep.reach s1 hp
      refine ⟨c, by simp [h1], h2, fun h' hh => ?_⟩
      have := h3 h' (fun y hy => hh y (by simp [hy]))
      simpa [reachK, hk] using this
end

/-! ## Exchanging a part -/

/-- Both or neither are there, and they have the same children. -/
def Alike : Option VT → Option VT → Prop
  | some t, some t' => t.children = t'.children
  | none, none => True
  | _, _ => False

theorem Alike.refl : ∀ o, Alike o o
  | some _ => rfl
  | none => trivial

mutual
theorem VT.put_below : ∀ (t : VT) (r s : List Key) (x : VT), t.part r ≠ none → (t.put r x).part (r ++ s) = x.part s
  | t, [], s, x, _ => by rw [VT.put_nil]; rfl
  | .leaf _, .str _ :: _, _, _, hp => by simp [VT.part] at hp
  | .leaf _, .idx _ :: _, _, _, hp => by simp [VT.part] at hp
  | .arr _ _ _, .str _ :: _, _, _, hp => by simp [VT.part] at hp
  | .itab _ _, .idx _ :: _, _, _, hp => by simp [VT.part] at hp
  | .arr es c1 c2, .idx i :: q, s, x, hp => by
    rw [VT.put, List.cons_append, VT.part]
    exact Elems.put_below es i q s x (by simpa [VT.part] using hp)
  | .itab es c1, .str i :: q, s, x, hp => by
    rw [VT.put, List.cons_append, VT.part]
    exact Pairs.put_below es i q s x (by simpa [VT.part] using hp)
theorem Elems.put_below : ∀ (t : Elems) (i : Nat) (r s : List Key) (x : VT), t.part i r ≠ none → (t.put i r x).part i (r ++ s) = x.part s
  | .nil, _, _, _, _, hp => by simp [Elems.part] at hp
  | .cons v _ _ r, 0, q, s, x, hp => by
    rw [Elems.put, Elems.part]
    exact VT.put_below v q s x (by simpa [Elems.part] using hp)
  | .cons v _ _ r, i + 1, q, s, x, hp => by
    rw [Elems.put, Elems.part]
    exact Elems.put_below r i q s x (by simpa [Elems.part] using hp)
theorem Pairs.put_below : ∀ (t : Pairs) (i : Str) (r s : List Key) (x : VT), t.part i r ≠ none → (t.put i r x).part i (r ++ s) = x.part s
  | .nil, _, _, _, _, hp => by simp [Pairs.part] at hp
  | .cons k ws v _ _ r, i, q, s, x, hp => by
    rw [Pairs.put]
    rw [Pairs.part] at hp
    split at hp
    next hk =>
      rw [if_pos hk, Pairs.part, if_pos hk]
      exact VT.put_below v q s x hp
    next hk =>
      rw [if_neg hk, Pairs.part, if_neg hk]
      exact Pairs.put_below r i q s x hp
end

theorem Elems.put_kinds : ∀ (t : Elems) (i : Nat) (r : List Key) (x : VT), (t.put i r x).kinds.length = t.kinds.length
  | .nil, _, _, _ => rfl
  | .cons v _ _ r, 0, q, x => by simp [Elems.put, Elems.kinds]
  | .cons v _ _ r, i + 1, q, x => by simp [Elems.put, Elems.kinds, Elems.put_kinds r i q x]

theorem Pairs.put_keys : ∀ (t : Pairs) (i : Str) (r : List Key) (x : VT), (t.put i r x).keys = t.keys
  | .nil, _, _, _ => rfl
  | .cons k ws v _ _ r, i, q, x => by
    rw [Pairs.put]
    split <;> simp [Pairs.keys, Pairs.put_keys r i q x]

theorem VT.put_children (t : VT) (k : Key) (r : List Key) (x : VT) : (t.put (k :: r) x).children = t.children := by
  cases t with
  | leaf s => cases k <;> rfl
  | arr es c1 c2 => cases k <;> simp [VT.put, VT.children, Elems.put_kinds]
  | itab es c1 => cases k <;> simp [VT.put, VT.children, Pairs.put_keys]

mutual
theorem VT.put_above : ∀ (t : VT) (r s : List Key) (x : VT), ¬ r <+: s → Alike ((t.put r x).part s) (t.part s)
  | t, [], s, x, h => absurd (List.nil_prefix) h
  | t, k :: r, [], x, _ => by
    rw [VT.part_nil, VT.part_nil]
    exact t.put_children k r x
  | .leaf _, .str _ :: _, _ :: _, _, _ => Alike.refl _
  | .leaf _, .idx _ :: _, _ :: _, _, _ => Alike.refl _
  | .arr _ _ _, .str _ :: _, _ :: _, _, _ => Alike.refl _
  | .itab _ _, .idx _ :: _, _ :: _, _, _ => Alike.refl _
  | .arr es c1 c2, .idx i :: q, .str k :: s, x, h => trivial
  | .itab es c1, .str i :: q, .idx k :: s, x, h => trivial
  | .arr es c1 c2, .idx i :: q, .idx j :: s, x, h => by
    rw [VT.put, VT.part, VT.part]
    exact Elems.put_above es i q j s x (fun ⟨h1, h2⟩ => h (by rw [h1, List.cons_prefix_cons]; exact ⟨rfl, h2⟩))
  | .itab es c1, .str i :: q, .str j :: s, x, h => by
    rw [VT.put, VT.part, VT.part]
    exact Pairs.put_above es i q j s x (fun ⟨h1, h2⟩ => h (by rw [h1, List.cons_prefix_cons]; exact ⟨rfl, h2⟩))
theorem Elems.put_above : ∀ (t : Elems) (i : Nat) (r : List Key) (j : Nat) (s : List Key) (x : VT), ¬ (i = j ∧ r <+: s) → Alike ((t.put i r x).part j s) (t.part j s)
  | .nil, _, _, _, _, _, h => trivial
  | .cons v _ _ r, 0, q, 0, s, x, h => by
    rw [Elems.put, Elems.part, Elems.part]
    exact VT.put_above v q s x (fun h' => h ⟨rfl, h'⟩)
  | .cons v _ _ r, 0, q, j + 1, s, x, h => Alike.refl _
  | .cons v _ _ r, i + 1, q, 0, s, x, h => Alike.refl _
  | .cons v _ _ r, i + 1, q, j + 1, s, x, h => by
    rw [Elems.put, Elems.part, Elems.part]
    exact Elems.put_above r i q j s x (fun h' => h ⟨by rw [h'.1], h'.2⟩)
theorem Pairs.put_above : ∀ (t : Pairs) (i : Str) (r : List Key) (j : Str) (s : List Key) (x : VT), ¬ (i = j ∧ r <+: s) → Alike ((t.put i r x).part j s) (t.part j s)
  | .nil, _, _, _, _, _, h => trivial
  | .cons k _ v _ _ r, i, q, j, s, x, h => by
    rw [Pairs.put]
    split
    next hk =>
      rw [Pairs.part, Pairs.part]
      split
      next hj => exact VT.put_above v q s x (fun h' => h ⟨hk.symm.trans hj, h'⟩)
      · exact Alike.refl _
    next hk =>
      rw [Pairs.part, Pairs.part]
      split
      · exact Alike.refl _
      · exact Pairs.put_above r i q j s x h
end

/-! ## The hole at a path -/

/-- The cells that paths lead to when nothing but the contents of the hole changes: the hole, or a cell outside of it. -/
def CellsOff (h : Heap) (f1 f2 : List Addr) (b : Addr) (here : Prop) (cell : Heap → Option Addr) : Prop :=
  (here → ∀ h' : Heap, (∀ y ∈ f1 ++ f2, h'[y]? = h[y]?) → cell h' = some b) ∧
  (¬ here → ∃ c, c ∈ f1 ++ f2 ∧ ∀ h' : Heap, (∀ y ∈ f1 ++ f2, h'[y]? = h[y]?) → cell h' = some c)

theorem CellsOff.mono {h : Heap} {f1 f2 g1 g2 : List Addr} {b : Addr} {P Q : Prop} {c d : Heap → Option Addr} (hc : CellsOff h f1 f2 b P c)
    (hs : ∀ x ∈ f1 ++ f2, x ∈ g1 ++ g2) (hpq : Q ↔ P) (hcd : ∀ h' : Heap, (∀ y ∈ g1 ++ g2, h'[y]? = h[y]?) → d h' = c h') : CellsOff h g1 g2 b Q d := by
  refine ⟨fun hq h' hh => ?_, fun hq => ?_⟩
  · rw [hcd h' hh]
    exact hc.1 (hpq.mp hq) h' (fun y hy => hh y (hs y hy))
  · obtain ⟨x, h1, h2⟩ := hc.2 (fun h => hq (hpq.mpr h))
    refine ⟨x, hs x h1, fun h' hh => ?_⟩
    rw [hcd h' hh]
    exact h2 h' (fun y hy => hh y (hs y hy))

mutual
theorem VT.Rep.focusAt {h : Heap} : ∀ {t : VT} {a : Addr} {fp : List Addr} {r : List Key} {t0 : VT}, t.Rep h a fp → t.part r = some t0 →
    ∃ b, ∃ F : VT.Focus h t a fp b, F.sub = t0 ∧ (∀ x, F.plug x = t.put r x) ∧
      ∀ s t1, t.part s = some t1 → (s = r ∨ ¬ r <+: s) → CellsOff h F.f1 F.f2 b (s = r) (reach · a s)
  | t, a, fp, [], t0, hr, hp => by
    rw [VT.part_nil] at hp
    cases hp
    refine ⟨a, VT.Focus.here hr, rfl, fun x => (t.put_nil x).symm, fun s t1 hs hsr => ?_⟩
    rcases hsr with rfl | hsr
    · exact ⟨fun _ _ _ => rfl, fun h => absurd rfl h⟩
    · exact absurd List.nil_prefix hsr
  | .leaf _, _, _, .str _ :: _, _, _, hp => by simp [VT.part] at hp
  | .leaf _, _, _, .idx _ :: _, _, _, hp => by simp [VT.part] at hp
  | .arr _ _ _, _, _, .str _ :: _, _, _, hp => by simp [VT.part] at hp
  | .itab _ _, _, _, .idx _ :: _, _, _, hp => by simp [VT.part] at hp
  | .arr es c1 c2, a, fp, .idx i :: q, t0, hr, hp => by
    obtain ⟨avs, g, e1, r1, rfl⟩ := hr
    rw [VT.part] at hp
    obtain ⟨b, F, hF1, hF2, hF3⟩ := Elems.Rep.focusAt r1 hp
    refine ⟨b, ⟨F.sub, F.fb, a :: F.f1, F.f2, fun t' => .arr (F.plug t') c1 c2, lit% "[" ++ gapText c1 ++ F.pre, F.post ++ gapText c2 ++ lit% "]",
        F.emp, by simp [F.fp_eq], F.sub_rep, by simp [F.plug_sub], ?_, ?_, ?_, ?_, ?_⟩, hF1, fun x => by dsimp only; rw [hF2, VT.put], ?_⟩
    · intro t'; simp [VT.text, F.text_eq]
    · intro t'; simp [VT.hasEmptyTable, F.emp_eq]
    · intro t' hw hw'; exact ⟨hw.1, F.wf_eq t' hw.2.1 hw', hw.2.2⟩
    · intro _; trivial
    · intro h' t' fb' hr' hx
      exact ⟨avs, F.f1 ++ fb' ++ F.f2, by rw [hx a (by simp), e1], F.rep_eq h' t' fb' hr' (fun x hx' => hx x (by grind)), by simp⟩
    · intro s t1 hs hsr
      dsimp only
      match s, hs, hsr with
      | [], _, _ => exact ⟨fun h => by simp at h, fun _ => ⟨a, by simp, fun _ _ => rfl⟩⟩
      | .str k :: s, hs, _ => simp [VT.part] at hs
      | .idx j :: s, hs, hsr =>
        rw [VT.part] at hs
        refine (hF3 j s t1 hs ?_).mono (fun x hx => by grind) (by simp) (fun h' hh => ?_)
        · rcases hsr with hsr | hsr
          · simp at hsr; exact .inl hsr
          · exact .inr (fun ⟨h1, h2⟩ => hsr (by rw [h1, List.cons_prefix_cons]; exact ⟨rfl, h2⟩))
        · exact reach_arr ((hh a (by simp)).trans e1) j s
  | .itab es ws, a, fp, .str i :: q, t0, hr, hp => by
    obtain ⟨avs, g, e1, r1, rfl⟩ := hr
    rw [VT.part] at hp
    obtain ⟨b, F, hF1, hF2, hF3⟩ := Pairs.Rep.focusAt r1 hp
    have hne : ∀ t', F.plug t' ≠ .nil := F.good_eq
    refine ⟨b, ⟨F.sub, F.fb, a :: F.f1, F.f2, fun t' => .itab (F.plug t') ws, lit% "{" ++ ws.ws1 ++ F.pre, F.post ++ ws.ws2 ++ lit% "}",
        F.emp, by simp [F.fp_eq], F.sub_rep, by simp [F.plug_sub], ?_, ?_, ?_, ?_, ?_⟩, hF1, fun x => by dsimp only; rw [hF2, VT.put], ?_⟩
    · intro t'; simp [VT.text, F.text_eq]
    · intro t'
      rw [← F.emp_eq]
      have := hne t'
      cases hp : F.plug t' with
      | nil => exact absurd hp this
      | cons => rfl
    · intro t' hw hw'; exact ⟨hw.1, F.wf_eq t' hw.2 hw'⟩
    · intro _; trivial
    · intro h' t' fb' hr' hx
      exact ⟨avs, F.f1 ++ fb' ++ F.f2, by rw [hx a (by simp), e1], F.rep_eq h' t' fb' hr' (fun x hx' => hx x (by grind)), by simp⟩
    · intro s t1 hs hsr
      dsimp only
      match s, hs, hsr with
      | [], _, _ => exact ⟨fun h => by simp at h, fun _ => ⟨a, by simp, fun _ _ => rfl⟩⟩
      | .idx k :: s, hs, _ => simp [VT.part] at hs
      | .str j :: s, hs, hsr =>
        rw [VT.part] at hs
        refine (hF3 j s t1 hs ?_).mono (fun x hx => by grind) (by simp) (fun h' hh => ?_)
        · rcases hsr with hsr | hsr
          · simp at hsr; exact .inl hsr
          · exact .inr (fun ⟨h1, h2⟩ => hsr (by rw [h1, List.cons_prefix_cons]; exact ⟨rfl, h2⟩))
        · exact reach_itab ((hh a (by simp)).trans e1) j s
theorem Elems.Rep.focusAt {h : Heap} : ∀ {t : Elems} {a : List ArrayValue} {fp : List Addr} {i : Nat} {r : List Key} {t0 : VT}, t.Rep h a fp → t.part i r = some t0 →
    ∃ b, ∃ F : Elems.Focus h t a fp b, F.sub = t0 ∧ (∀ x, F.plug x = t.put i r x) ∧
      ∀ j s t1, t.part j s = some t1 → ((j = i ∧ s = r) ∨ ¬ (i = j ∧ r <+: s)) → CellsOff h F.f1 F.f2 b (j = i ∧ s = r) (reachE · a j s)
  | .nil, _, _, _, _, _, _, hp => by simp [Elems.part] at hp
  | .cons v sep cn r, a, fp, 0, q, t0, hr, hp => by
    obtain ⟨c, avs, f1, f2, rfl, r1, s1, rfl⟩ := hr
    rw [Elems.part] at hp
    obtain ⟨b, F, hF1, hF2, hF3⟩ := VT.Rep.focusAt r1 hp
    refine ⟨b, ⟨F.sub, F.fb, F.f1, F.f2 ++ f2, fun t' => .cons (F.plug t') sep cn r, F.pre, F.post ++ commaText sep ++ gapText cn ++ r.text,
      F.emp || r.hasEmptyTable, by simp [F.fp_eq], F.sub_rep, by simp [F.plug_sub], ?_, ?_, ?_, ?_, ?_⟩, hF1, fun x => by dsimp only; rw [hF2, Elems.put], ?_⟩
    · intro t'; simp [Elems.text, F.text_eq]
    · intro t'; simp [Elems.hasEmptyTable, F.emp_eq, Bool.or_assoc, Bool.or_comm, Bool.or_left_comm]
    · intro t' hw hw'; exact ⟨F.wf_eq t' hw.1 hw', hw.2⟩
    · intro _; trivial
    · intro h' t' fb' hr' hx
      refine ⟨c, avs, F.f1 ++ fb' ++ F.f2, f2, rfl, F.rep_eq h' t' fb' hr' (fun x hx' => hx x (by grind)),
        s1.congr (fun x hx' => hx x (by simp [hx'])), by simp⟩
    · intro j s t1 hs hsr
      dsimp only
      cases j with
      | zero =>
        rw [Elems.part] at hs
        exact (hF3 s t1 hs (by simpa using hsr)).mono (fun x hx => by grind) (by simp) (fun h' hh => rfl)
      | succ j =>
        rw [Elems.part] at hs
        obtain ⟨d, h1, _, h2⟩ := s1.reach hs
        refine ⟨fun h => by simp at h, fun _ => ⟨d, by simp [h1], fun h' hh => ?_⟩⟩
        have := h2 h' (fun y hy => hh y (by simp [hy]))
        simpa [reachE] using this
  | .cons v sep cn r, a, fp, i + 1, q, t0, hr, hp => by
    obtain ⟨c, avs, f1, f2, rfl, r1, s1, rfl⟩ := hr
    rw [Elems.part] at hp
    obtain ⟨b, F, hF1, hF2, hF3⟩ := Elems.Rep.focusAt s1 hp
    refine ⟨b, ⟨F.sub, F.fb, f1 ++ F.f1, F.f2, fun t' => .cons v sep cn (F.plug t'), v.text ++ commaText sep ++ gapText cn ++ F.pre, F.post,
        v.hasEmptyTable || F.emp, by simp [F.fp_eq], F.sub_rep, by simp [F.plug_sub], ?_, ?_, ?_, ?_, ?_⟩, hF1, fun x => by dsimp only; rw [hF2, Elems.put], ?_⟩
    · intro t'; simp [Elems.text, F.text_eq]
    · intro t'; simp [Elems.hasEmptyTable, F.emp_eq, Bool.or_assoc]
    · intro t' hw hw'; exact ⟨hw.1, hw.2.1, hw.2.2.1, F.wf_eq t' hw.2.2.2 hw'⟩
    · intro _; trivial
    · intro h' t' fb' hr' hx
      refine ⟨c, avs, f1, F.f1 ++ fb' ++ F.f2, rfl, r1.congr (fun x hx' => hx x (by simp [hx'])),
        F.rep_eq h' t' fb' hr' (fun x hx' => hx x (by grind)), by simp⟩
    · intro j s t1 hs hsr
      dsimp only
      cases j with
      | zero =>
        rw [Elems.part] at hs
        obtain ⟨d, h1, _, h2⟩ := r1.reach hs
        refine ⟨fun h => by simp at h, fun _ => ⟨d, by simp [h1], fun h' hh => ?_⟩⟩
        have := h2 h' (fun y hy => hh y (by simp [hy]))
        simpa [reachE] using this
      | succ j =>
        rw [Elems.part] at hs
        refine (hF3 j s t1 hs (by simpa using hsr)).mono (fun x hx => by grind) (by simp) (fun h' hh => ?_)
        simp [reachE]
theorem Pairs.Rep.focusAt {h : Heap} : ∀ {t : Pairs} {a : List TableKeyVal} {fp : List Addr} {i : Str} {r : List Key} {t0 : VT}, t.Rep h a fp → t.part i r = some t0 →
    ∃ b, ∃ F : Pairs.Focus h t a fp b, F.sub = t0 ∧ (∀ x, F.plug x = t.put i r x) ∧
      ∀ j s t1, t.part j s = some t1 → ((j = i ∧ s = r) ∨ ¬ (i = j ∧ r <+: s)) → CellsOff h F.f1 F.f2 b (j = i ∧ s = r) (reachK · a j s)
  | .nil, _, _, _, _, _, _, hp => by simp [Pairs.part] at hp
  | .cons k ws v sep cn r, a, fp, i, q, t0, hr, hp => by
    obtain ⟨c, avs, f1, f2, rfl, r1, s1, rfl⟩ := hr
    rw [Pairs.part] at hp
    split at hp
    next hk =>
      obtain ⟨b, F, hF1, hF2, hF3⟩ := VT.Rep.focusAt r1 hp
      refine ⟨b, ⟨F.sub, F.fb, F.f1, F.f2 ++ f2, fun t' => .cons k ws (F.plug t') sep cn r, k ++ ws.ws1 ++ lit% "=" ++ ws.ws2 ++ F.pre,
        F.post ++ commaText sep ++ gapText cn ++ r.text,
        F.emp || r.hasEmptyTable, by simp [F.fp_eq], F.sub_rep, by simp [F.plug_sub], ?_, ?_, ?_, ?_, ?_⟩, hF1, fun x => by dsimp only; rw [hF2, Pairs.put, if_pos hk], ?_⟩
      · intro t'; simp [Pairs.text, F.text_eq]
      · intro t'; simp [Pairs.hasEmptyTable, F.emp_eq, Bool.or_assoc, Bool.or_comm, Bool.or_left_comm]
      · intro t' hw hw'; exact ⟨hw.1, hw.2.1, F.wf_eq t' hw.2.2.1 hw', hw.2.2.2⟩
      · intro _; simp
      · intro h' t' fb' hr' hx
        refine ⟨c, avs, F.f1 ++ fb' ++ F.f2, f2, rfl, F.rep_eq h' t' fb' hr' (fun x hx' => hx x (by grind)),
          s1.congr (fun x hx' => hx x (by simp [hx'])), by simp⟩
      · intro j s t1 hs hsr
        dsimp only
        rw [Pairs.part] at hs
        split at hs
        next hj =>
          have hji : j = i := hj.symm.trans hk
          subst hji
          refine (hF3 s t1 hs (by simpa using hsr)).mono (fun x hx => by grind) (by simp) (fun h' hh => by simp [reachK, hk])
        next hj =>
          have hji : j ≠ i := fun e => hj (hk.trans e.symm)
          obtain ⟨d, h1, _, h2⟩ := s1.reach hs
          refine ⟨fun h => absurd h.1 hji, fun _ => ⟨d, by simp [h1], fun h' hh => ?_⟩⟩
          have := h2 h' (fun y hy => hh y (by simp [hy]))
          simpa [reachK, hj] using this
    next hk =>
      obtain ⟨b, F, hF1, hF2, hF3⟩ := Pairs.Rep.focusAt s1 hp
      refine ⟨b, ⟨F.sub, F.fb, f1 ++ F.f1, F.f2, fun t' => .cons k ws v sep cn (F.plug t'),
        k ++ ws.ws1 ++ lit% "=" ++ ws.ws2 ++ v.text ++ commaText sep ++ gapText cn ++ F.pre, F.post,
        v.hasEmptyTable || F.emp, by simp [F.fp_eq], F.sub_rep, by simp [F.plug_sub], ?_, ?_, ?_, ?_, ?_⟩, hF1, fun x => by dsimp only; rw [hF2, Pairs.put, if_neg hk], ?_⟩
      · intro t'; simp [Pairs.text, F.text_eq]
      · intro t'; simp [Pairs.hasEmptyTable, F.emp_eq, Bool.or_assoc]
      · intro t' hw hw'; exact ⟨hw.1, hw.2.1, hw.2.2.1, hw.2.2.2.1, hw.2.2.2.2.1, F.wf_eq t' hw.2.2.2.2.2 hw'⟩
      · intro _; simp
      · intro h' t' fb' hr' hx
        refine ⟨c, avs, f1, F.f1 ++ fb' ++ F.f2, rfl, r1.congr (fun x hx' => hx x (by simp [hx'])),
          F.rep_eq h' t' fb' hr' (fun x hx' => hx x (by grind)), by simp⟩
      · intro j s t1 hs hsr
        dsimp only
        rw [Pairs.part] at hs
        split at hs
        next hj =>
          have hji : j ≠ i := fun e => hk (hj.trans e)
          obtain ⟨d, h1, _, h2⟩ := r1.reach hs
          refine ⟨fun h => absurd h.1 hji, fun _ => ⟨d, by simp [h1], fun h' hh => ?_⟩⟩
          have := h2 h' (fun y hy => hh y (by simp [hy]))
          simpa [reachK, hj] using this
        next hj =>
          refine (hF3 j s t1 hs hsr).mono (fun x hx => by grind) Iff.rfl (fun h' hh => ?_)
          simp [reachK, hj]
end

end Tomllib
