import Verif.Lemmas.Frame
import Verif.Lemmas.Session
import Verif.Spec.Under
/-!
# The sub-keys of a key are what a walk below it meets
-/

namespace Tomllib

theorem Descends.trans {p : Parser} {a b c : Str} (h : Descends p a b) (h' : Descends p b c) : Descends p a c := by
  induction h' with
  | child h1 h2 => exact .next h h1 h2
  | next _ h1 h2 ih => exact .next ih h1 h2

/-- A walk below a key begins with one of its children. -/
theorem Descends.first {p : Parser} {key x : Str} (h : Descends p key x) :
    ∃ c, p.getChildren key = some c ∧ ∃ k ∈ c.combineChildKeys key, x = k ∨ Descends p k x := by
  induction h with
  | child h1 h2 => exact ⟨_, h1, _, h2, .inl rfl⟩
  | next _ h1 h2 ih =>
    obtain ⟨c, h3, k, h4, rfl | h5⟩ := ih
    · exact ⟨c, h3, _, h4, .inr (.child h1 h2)⟩
    · exact ⟨c, h3, k, h4, .inr (.next h5 h1 h2)⟩

theorem subkeysOf_mem_iff {r : Str → Out (List Str)} : ∀ (ks : List Str) {l : List Str}, subkeysOf r ks = .ok l →
    ∀ x, (x ∈ l ↔ ∃ k ∈ ks, x = k ∨ ∃ l', r k = .ok l' ∧ x ∈ l') ∧ ∀ k ∈ ks, ∃ l', r k = .ok l'
  | [], l, h, x => by simp [subkeysOf] at h; subst h; simp
  | k :: ks, l, h, x => by
    rw [subkeysOf] at h
    split at h <;> try (simp at h; done)
    next a ha =>
      split at h <;> simp at h
      next b hb =>
        subst h
        have ih := subkeysOf_mem_iff ks hb x
        refine ⟨?_, fun k' hk' => ?_⟩
        · simp only [List.mem_cons, List.mem_append, ih.1]
          constructor
          · rintro (rfl | h | ⟨k', h1, h2⟩)
            · exact ⟨_, .inl rfl, .inl rfl⟩
            · exact ⟨k, .inl rfl, .inr ⟨a, ha, h⟩⟩
            · exact ⟨k', .inr h1, h2⟩
          · rintro ⟨k', rfl | h1, h2⟩
            · rcases h2 with rfl | ⟨l', h2, h3⟩
              · exact .inl rfl
              · rw [ha] at h2; simp at h2; subst h2; exact .inr (.inl h3)
            · exact .inr (.inr ⟨k', h1, h2⟩)
        · rw [List.mem_cons] at hk'
          rcases hk' with rfl | hk'
          · exact ⟨a, ha⟩
          · exact ih.2 k' hk'

theorem childKeys_ne {c : Children} {key k : Str} (hk : key ≠ []) (h : k ∈ c.combineChildKeys key) : k ≠ [] := by
  rintro rfl
  cases c <;> simp [Children.combineChildKeys, hk] at h

theorem allSubkeysAt_descends (p : Parser) : ∀ (f : Nat) {key : Str}, key ≠ [] → ∀ {l : List Str}, allSubkeysAt p.st.map f key = .ok l →
    ∀ x, x ∈ l ↔ Descends p key x
  | 0, _, _, _, h, _ => by simp [allSubkeysAt] at h
  | f + 1, key, hk, l, h, x => by
    rw [allSubkeysAt] at h
    have hroot : p.getChildren key = (p.st.map.get? key).map (·.subkeys) := by
      simp only [Parser.getChildren, hk, if_false]; cases p.st.map.get? key <;> rfl
    split at h
    next hg =>
      simp at h; subst h
      simp only [List.not_mem_nil, false_iff]
      intro hd
      obtain ⟨c, h1, _⟩ := hd.first
      rw [hroot, hg] at h1; simp at h1
    next hv hg =>
      rw [hg] at hroot
      have main : ∀ ks : List Str, ks = hv.subkeys.combineChildKeys key → subkeysOf (allSubkeysAt p.st.map f) ks = .ok l → (x ∈ l ↔ Descends p key x) := by
        rintro ks rfl hl
        obtain ⟨h1, h2⟩ := subkeysOf_mem_iff _ hl x
        rw [h1]
        constructor
        · rintro ⟨k, hm, rfl | ⟨l', hl', hx⟩⟩
          · exact .child hroot hm
          · exact Descends.trans (.child hroot hm) ((allSubkeysAt_descends p f (childKeys_ne hk hm) hl' x).mp hx)
        · intro hd
          obtain ⟨c, hc, k, hm, hx⟩ := hd.first
          rw [hroot] at hc
          cases hc
          refine ⟨k, hm, hx.imp id fun hx => ?_⟩
          obtain ⟨l', hl'⟩ := h2 k hm
          exact ⟨l', hl', (allSubkeysAt_descends p f (childKeys_ne hk hm) hl' x).mpr hx⟩
      split at h
      next c e => exact main _ (by rw [e, Children.combineChildKeys]; simp [idxStr]) h
      next ks e => exact main _ (by rw [e, Children.combineChildKeys]; simp [hk]) h

/-- What is left after a refused assignment, exactly. -/
theorem refused_exactly {p p' : Parser} (hp : Reachable p) {key : Str} (hk : key ≠ []) {v : Value} (ha : p.getValue key ≠ .ok none)
    (h : p.setValue key v = .ok (p', false)) :
    p'.display = p.display ∧ ∀ k, (Descends p key k → p'.getValue k = .ok none ∧ p'.getChildren k = none) ∧
      (¬ Descends p key k → p'.getValue k = p.getValue k ∧ p'.getChildren k = p.getChildren k) := by
  obtain ⟨hi, ls, fp, hl, hnd⟩ := hp.inv
  have hi' := (Reachable.set hp h).inv.inv
  rcases setValue_false h with ⟨hn, rfl⟩ | ⟨subs, l, hsubs, hl', _, rfl⟩
  · exact absurd (hi.getValue_none.mpr hn) ha
  · obtain ⟨r, hr⟩ := hi.rank
    have hmem := allSubkeysAt_descends p _ hk hsubs
    have hroot : root ∉ subs := by
      intro hm
      rcases allSubkeysAt_within _ _ _ _ hsubs root hm with h1 | h1 | h1
      · subst h1
        obtain ⟨subs', h1, h2⟩ := allSubkeys_ok p.st.map root
        rw [hsubs] at h1; simp at h1; subst h1
        exact absurd (h2 root hm) (Nat.lt_irrefl _)
      · have : '.' ∈ root := h1.subset (by simp)
        exact absurd this (by decide)
      · have : '[' ∈ root := h1.subset (by simp)
        exact absurd this (by decide)
    refine ⟨?_, fun k => ⟨fun hd => ?_, fun hd => ?_⟩⟩
    · obtain ⟨r', hr'⟩ := hi'.rank
      exact (renderToml_rep hr' (hl.append l)).trans (renderToml_rep hr hl).symm
    · have hm := (hmem k).mpr hd
      have hne : k ≠ [] := by
        rintro rfl
        obtain ⟨subs', h1, h2⟩ := allSubkeys_ok p.st.map key
        rw [hsubs] at h1; simp at h1; subst h1
        simpa using h2 _ hm
      refine ⟨hi'.getValue_none.mpr ?_, ?_⟩
      · simp [valOf, eraseAll_get, hm]
      · simp [Parser.getChildren, hne, eraseAll_get, hm]
    · have hm : k ∉ subs := fun h => hd ((hmem k).mp h)
      have hv : valOf (eraseAll p.st.map subs) k = valOf p.st.map k := by simp [valOf, eraseAll_get, hm]
      refine ⟨?_, ?_⟩
      · rcases hi.getValue_cases k with ⟨h1, h2⟩ | ⟨a, h1, h2, h3⟩ | ⟨a, t, f, h1, h2, h3⟩
        · rw [h2]; exact hi'.getValue_none.mpr (hv.trans h1)
        · rw [h3]
          obtain ⟨c, hm⟩ := valOf_some.mp (hv.trans h1)
          have h4 : (p.st.heap ++ l)[a]? = some .table := by rw [List.getElem?_append_left (hi.map.lt k a h1), h2]
          simp only [Parser.getValue, hm, Out.bind_eq, toVal_table h4]; rfl
        · rw [h3]; exact hi'.getValue_rep (p := { p with st := { p.st with map := eraseAll p.st.map subs, heap := p.st.heap ++ l } }) (hv.trans h1) (h2.append l)
      · by_cases hne : k = []
        · subst hne; simp [Parser.getChildren, eraseAll_get, hroot]
        · simp [Parser.getChildren, hne, eraseAll_get, hm]

end Tomllib
