import Verif.Regexes
/-!
# Regular expressions: what a successful match says
-/

namespace Tomllib

/-- The language of a regular expression, forgetting priorities. -/
inductive Lang : Re → Str → Prop where
  | eps : Lang .eps []
  | cls {rs c} : inCls rs c = true → Lang (.cls rs) [c]
  | seq {a b s t} : Lang a s → Lang b t → Lang (.seq a b) (s ++ t)
  | altl {a b s} : Lang a s → Lang (.alt a b) s
  | altr {a b s} : Lang b s → Lang (.alt a b) s
  | nil {g r} : Lang (.star g r) []
  | cons {g r s t} : s ≠ [] → Lang r s → Lang (.star g r) t → Lang (.star g r) (s ++ t)

section
variable {α : Type}

theorem starK_some (g : Bool) (r : Re) (f : Str → (Str → Option α) → Option α)
    (hf : ∀ s k x, f s k = some x → ∃ m t, s = m ++ t ∧ Lang r m ∧ k t = some x) :
    ∀ n s k x, starK g f n s k = some x → ∃ m t, s = m ++ t ∧ Lang (.star g r) m ∧ k t = some x := by
  intro n
  induction n with
  | zero => intro s k x h; exact ⟨[], s, rfl, .nil, h⟩
  | succ n ih =>
    intro s k x h
    have key : ∀ x, f s (fun r => if r.length < s.length then starK g f n r k else none) = some x →
        ∃ m t, s = m ++ t ∧ Lang (.star g r) m ∧ k t = some x := by
      intro x h
      obtain ⟨m, t, rfl, hm, ht⟩ := hf _ _ _ h
      split at ht
      next hl =>
        obtain ⟨m', t', rfl, hm', ht'⟩ := ih _ _ _ ht
        refine ⟨m ++ m', t', by simp, .cons ?_ hm hm', ht'⟩
        rintro rfl; simp at hl
      next => simp at ht
    unfold starK at h
    split at h
    · split at h
      next y hy => injection h with h; subst h; exact key _ hy
      next => exact ⟨[], s, rfl, .nil, h⟩
    · split at h
      next y hy => injection h with h; subst h; exact ⟨[], s, rfl, .nil, hy⟩
      next => exact key _ h

/-- If the matcher succeeds, some prefix in the language was handed over. -/
theorem Re.run_some : ∀ (r : Re) (s : Str) (k : Str → Option α) (x : α), r.run s k = some x →
    ∃ m t, s = m ++ t ∧ Lang r m ∧ k t = some x
  | .eps, s, k, x, h => ⟨[], s, rfl, .eps, h⟩
  | .cls rs, s, k, x, h => by
    cases s with
    | nil => simp [Re.run] at h
    | cons c t =>
      simp only [Re.run] at h
      split at h
      next hc => exact ⟨[c], t, rfl, .cls hc, h⟩
      next => simp at h
  | .seq a b, s, k, x, h => by
    obtain ⟨m, t, rfl, hm, ht⟩ := Re.run_some a _ _ _ h
    obtain ⟨m', t', rfl, hm', ht'⟩ := Re.run_some b _ _ _ ht
    exact ⟨m ++ m', t', by simp, .seq hm hm', ht'⟩
  | .alt a b, s, k, x, h => by
    simp only [Re.run] at h
    split at h
    next y hy =>
      injection h with h; subst h
      obtain ⟨m, t, rfl, hm, ht⟩ := Re.run_some a _ _ _ hy
      exact ⟨m, t, rfl, .altl hm, ht⟩
    next =>
      obtain ⟨m, t, rfl, hm, ht⟩ := Re.run_some b _ _ _ h
      exact ⟨m, t, rfl, .altr hm, ht⟩
  | .star g r, s, k, x, h => starK_some g r _ (fun s k x h => Re.run_some r s k x h) _ _ _ _ h

theorem Lang.star_cases {g r m} (h : Lang (.star g r) m) :
    m = [] ∨ ∃ s t, m = s ++ t ∧ s ≠ [] ∧ Lang r s ∧ Lang (.star g r) t := by
  cases h with
  | nil => exact .inl rfl
  | cons h1 h2 h3 => exact .inr ⟨_, _, rfl, h1, h2, h3⟩

theorem starK_none (g : Bool) (r : Re) (f : Str → (Str → Option α) → Option α)
    (hf : ∀ s k, f s k = none → ∀ m t, s = m ++ t → Lang r m → k t = none) :
    ∀ n s k, s.length ≤ n → starK g f n s k = none → ∀ m t, s = m ++ t → Lang (.star g r) m → k t = none := by
  intro n
  induction n with
  | zero =>
    intro s k hn h m t hs hm
    have : s = [] := by cases s with | nil => rfl | cons _ _ => simp at hn
    subst this
    have h2 : m = [] ∧ t = [] := by simpa using hs.symm
    rw [h2.2]; exact h
  | succ n ih =>
    intro s k hn h m t hs hm
    have key : f s (fun r => if r.length < s.length then starK g f n r k else none) = none ∧ k s = none := by
      unfold starK at h
      split at h
      · split at h
        next => simp at h
        next h' => exact ⟨h', h⟩
      · split at h
        next => simp at h
        next h' => exact ⟨h, h'⟩
    rcases hm.star_cases with rfl | ⟨u, v, rfl, hu, hr, hv⟩
    · simp at hs; subst hs; exact key.2
    · have h1 := hf _ _ key.1 u (v ++ t) (by simpa using hs) hr
      have hl : (v ++ t).length < s.length := by
        subst hs
        have : 0 < u.length := by cases u with | nil => simp at hu | cons _ _ => simp
        simp; omega
      rw [if_pos hl] at h1
      exact ih _ _ (by omega) h1 v t rfl hv

/-- If the matcher fails, no prefix in the language can be handed over. -/
theorem Re.run_none : ∀ (r : Re) (s : Str) (k : Str → Option α), r.run s k = none →
    ∀ m t, s = m ++ t → Lang r m → k t = none
  | .eps, s, k, h, m, t, hs, hm => by cases hm; simp at hs; subst hs; exact h
  | .cls rs, s, k, h, m, t, hs, hm => by
    cases hm with
    | cls hc => subst hs; simpa [Re.run, hc] using h
  | .seq a b, s, k, h, m, t, hs, hm => by
    cases hm with
    | seq h1 h2 =>
      have := Re.run_none a _ _ h _ _ (by simpa using hs) h1
      exact Re.run_none b _ _ this _ _ rfl h2
  | .alt a b, s, k, h, m, t, hs, hm => by
    simp only [Re.run] at h
    split at h
    next => simp at h
    next h' =>
      cases hm with
      | altl h1 => exact Re.run_none a _ _ h' _ _ hs h1
      | altr h1 => exact Re.run_none b _ _ h _ _ hs h1
  | .star g r, s, k, h, m, t, hs, hm =>
    starK_none g r _ (fun s k h => Re.run_none r s k h) _ _ _ (Nat.le_refl _) h m t hs hm

end

/-- A match is a prefix in the language and the remainder. -/
theorem Re.find_some {r : Re} {s m t : Str} (h : r.find s = some (m, t)) : s = m ++ t ∧ Lang r m := by
  unfold Re.find at h
  split at h
  next => simp at h
  next u hu =>
    obtain ⟨m', t', rfl, hm, ht⟩ := Re.run_some _ _ _ _ hu
    simp only [Option.some.injEq] at ht
    subst ht
    simp only [Option.some.injEq, Prod.mk.injEq] at h
    obtain ⟨rfl, rfl⟩ := h
    simp [hm]

/-- No match: no prefix is in the language. -/
theorem Re.find_none {r : Re} {s : Str} (h : r.find s = none) : ∀ m t, s = m ++ t → ¬ Lang r m := by
  intro m t hs hm
  unfold Re.find at h
  split at h
  next h' => simpa using Re.run_none _ _ _ h' m t hs hm
  next => simp at h

theorem Re.find_isSome_iff {r : Re} {s : Str} : (r.find s).isSome ↔ ∃ m t, s = m ++ t ∧ Lang r m := by
  constructor
  · intro h
    obtain ⟨⟨m, t⟩, h⟩ := Option.isSome_iff_exists.mp h
    exact ⟨m, t, Re.find_some h⟩
  · rintro ⟨m, t, hs, hm⟩
    cases h : r.find s with
    | none => exact absurd hm (Re.find_none h m t hs)
    | some _ => rfl

/-- If only one remainder is possible, the match leaves it. -/
theorem Re.find_unique {r : Re} {s m t : Str} (hs : s = m ++ t) (hm : Lang r m)
    (hu : ∀ m' t', s = m' ++ t' → Lang r m' → m' = m) : r.find s = some (m, t) := by
  cases h : r.find s with
  | none => exact absurd hm (Re.find_none h m t hs)
  | some p =>
    obtain ⟨m', t'⟩ := p
    obtain ⟨h1, h2⟩ := Re.find_some h
    have := hu m' t' h1 h2
    subst this
    have : t' = t := by simpa using h1.symm.trans hs
    rw [this]

end Tomllib
