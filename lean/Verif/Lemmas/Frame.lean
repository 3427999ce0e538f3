import Verif.Spec.History
import Verif.Lemmas.Conv
/-!
# What an assignment leaves alone, in any state
-/

namespace Tomllib

theorem KeyWithin.refl (k : Str) : KeyWithin k k := .inl rfl

theorem KeyWithin.trans {a b c : Str} (h : KeyWithin a b) (h' : KeyWithin b c) : KeyWithin a c := by
  rcases h with rfl | h | h
  · exact h'
  · refine .inr (.inl ?_)
    rcases h' with rfl | h' | h'
    · exact h
    · exact h.trans ((List.prefix_append _ _).trans h')
    · exact h.trans ((List.prefix_append _ _).trans h')
  · refine .inr (.inr ?_)
    rcases h' with rfl | h' | h'
    · exact h
    · exact h.trans ((List.prefix_append _ _).trans h')
    · exact h.trans ((List.prefix_append _ _).trans h')

theorem KeyWithin.dot (key k : Str) : KeyWithin key (key ++ lit% "." ++ k) := .inr (.inl (List.prefix_append _ _))
theorem KeyWithin.idx (key : Str) (i : Nat) : KeyWithin key (key ++ idxStr i) := by
  refine .inr (.inr ?_)
  rw [show key ++ idxStr i = (key ++ lit% "[") ++ (natStr i ++ lit% "]") by simp [idxStr]]
  exact List.prefix_append _ _

theorem subkeysOf_within {r : Str → Out (List Str)} {key : Str} (hr : ∀ k l, r k = .ok l → ∀ x ∈ l, KeyWithin k x) : ∀ (ks : List Str) {l : List Str}, (∀ k ∈ ks, KeyWithin key k) →
    subkeysOf r ks = .ok l → ∀ x ∈ l, KeyWithin key x
  | [], l, _, h, x, hx => by simp [subkeysOf] at h; subst h; simp at hx
  | k :: ks, l, hk, h, x, hx => by
    rw [subkeysOf] at h
    split at h
    next a ha =>
      split at h
      next b hb =>
        simp at h; subst h
        simp only [List.mem_cons, List.mem_append] at hx
        have h0 := hk k (by simp)
        rcases hx with rfl | hx | hx
        · exact h0
        · exact h0.trans (hr k a ha x hx)
        · exact subkeysOf_within hr ks (fun k hk' => hk k (by simp [hk'])) hb x hx
      · simp at h
      · simp at h
    · simp at h
    · simp at h

theorem allSubkeysAt_within (m : KMap) : ∀ (f : Nat) (key : Str) (l : List Str), allSubkeysAt m f key = .ok l → ∀ x ∈ l, KeyWithin key x
  | 0, _, _, h, _, _ => by simp [allSubkeysAt] at h
  | f + 1, key, l, h, x, hx => by
    rw [allSubkeysAt] at h
    split at h
    · simp at h; subst h; simp at hx
    · split at h
      · refine subkeysOf_within (allSubkeysAt_within m f) _ (fun k hk => ?_) h x hx
        obtain ⟨i, _, rfl⟩ := List.mem_map.mp hk
        exact .idx key i
      · refine subkeysOf_within (allSubkeysAt_within m f) _ (fun k hk => ?_) h x hx
        obtain ⟨i, _, rfl⟩ := List.mem_map.mp hk
        exact .dot key i

/-- Only keys within the key are changed. -/
def Outside (key : Str) (m m' : KMap) : Prop := ∀ k, ¬ KeyWithin key k → m'.get? k = m.get? k

theorem Outside.refl (key : Str) (m : KMap) : Outside key m m := fun _ _ => rfl
theorem Outside.trans {key : Str} {a b c : KMap} (h : Outside key a b) (h' : Outside key b c) : Outside key a c := fun k hk => (h' k hk).trans (h k hk)
theorem Outside.wide {key key' : Str} {a b : KMap} (hw : KeyWithin key key') (h : Outside key' a b) : Outside key a b := fun k hk => h k fun h' => hk (hw.trans h')
theorem Outside.insert (key : Str) (m : KMap) (x : HashValue) : Outside key m (m.insert key x) := fun k hk => by
  rw [SMap.get?_insert, if_neg]
  rintro rfl
  exact hk (.refl _)

theorem rebuildAVs_outside {r : KMap → Str → Addr → Out KMap} {key : Str} (hr : ∀ m k a m', r m k a = .ok m' → Outside k m m') : ∀ (avs : List ArrayValue) (i : Nat) {m m' : KMap},
    rebuildAVs r key i avs m = .ok m' → Outside key m m'
  | [], i, m, m', h => by simp [rebuildAVs] at h; subst h; exact .refl _ _
  | av :: avs, i, m, m', h => by
    rw [rebuildAVs] at h
    split at h
    next m1 h1 => exact ((hr _ _ _ _ h1).wide (.idx key i)).trans (rebuildAVs_outside hr avs (i + 1) h)
    · simp at h
    · simp at h

theorem rebuildKVs_outside {r : KMap → Str → Addr → Out KMap} {key : Str} (hr : ∀ m k a m', r m k a = .ok m' → Outside k m m') : ∀ (kvs : List TableKeyVal) {m m' : KMap},
    rebuildKVs r key kvs m = .ok m' → Outside key m m'
  | [], m, m', h => by simp [rebuildKVs] at h; subst h; exact .refl _ _
  | kv :: kvs, m, m', h => by
    rw [rebuildKVs] at h
    split at h
    next m1 h1 => exact ((hr _ _ _ _ h1).wide (.dot key _)).trans (rebuildKVs_outside hr kvs h)
    · simp at h
    · simp at h

theorem rebuildAt_outside (h : Heap) : ∀ (f : Nat) (m : KMap) (key : Str) (a : Addr) (skip : Bool) (m' : KMap), rebuildAt h f m key a skip = .ok m' → Outside key m m'
  | 0, _, _, _, _, _, e => by simp [rebuildAt] at e
  | f + 1, m, key, a, skip, m', e => by
    rw [rebuildAt] at e
    split at e
    · simp at e
    · split at e
      · simp at e
      · exact (Outside.insert key m _).trans (rebuildAVs_outside (fun m k a m' e => rebuildAt_outside h f m k a false m' e) _ _ e)
    · split at e
      · simp at e
      · exact (Outside.insert key m _).trans (rebuildKVs_outside (fun m k a m' e => rebuildAt_outside h f m k a false m' e) _ e)
    · split at e
      · simp at e; subst e; exact .refl _ _
      · simp at e; subst e; exact Outside.insert key m _

theorem eraseAll_outside {m : KMap} {key : Str} {subs : List Str} (h : allSubkeys m key = .ok subs) : Outside key m (eraseAll m subs) := fun k hk => by
  rw [eraseAll_get, if_neg]
  exact fun hm => hk (allSubkeysAt_within m _ key subs h k hm)

/-- An assignment changes no entry of a key elsewhere. -/
theorem setValue_outside {p p' : Parser} {key : Str} {v : Value} {b : Bool} (h : p.setValue key v = .ok (p', b)) : Outside key p.st.map p'.st.map := by
  unfold Parser.setValue at h
  split at h
  next a c hg =>
    split at h
    · simp only [Out.bind_eq] at h
      obtain ⟨h1, e1, h⟩ := Out.bind_ok.mp h
      simp at h
      rw [← h.1]; exact .refl _ _
    · simp only [Out.bind_eq] at h
      obtain ⟨subs, hsub, h⟩ := Out.bind_ok.mp h
      obtain ⟨⟨h1, nv⟩, e1, h⟩ := Out.bind_ok.mp h
      have hs := eraseAll_outside hsub
      dsimp only at h
      split at h
      · simp at h
        rw [← h.1]; exact hs
      · obtain ⟨h2, _, h⟩ := Out.bind_ok.mp h
        obtain ⟨m2, e2, h⟩ := Out.bind_ok.mp h
        simp at h
        rw [← h.1]
        exact hs.trans (rebuildAt_outside _ _ _ _ _ _ _ e2)
      · obtain ⟨h2, _, h⟩ := Out.bind_ok.mp h
        obtain ⟨m2, e2, h⟩ := Out.bind_ok.mp h
        simp at h
        rw [← h.1]
        exact hs.trans (rebuildAt_outside _ _ _ _ _ _ _ e2)
      · simp at h
  · simp at h
    rw [← h.1]; exact .refl _ _

end Tomllib
