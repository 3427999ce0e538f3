import Verif.Lemmas.First
/-!
# Which match is found

The first match in priority order, for texts on which the patterns leave no real choice.
-/

namespace Tomllib

/-- No prefix of the text matches. -/
def Fails (r : Re) (s : Str) : Prop := ∀ m t, s = m ++ t → ¬ Lang r m

/-- On `m ++ t` the matcher takes `m`, provided that what follows accepts `t`. -/
def Det (r : Re) (m t : Str) : Prop := ∀ (α : Type) (k : Str → Option α), (k t).isSome → r.run (m ++ t) k = k t

theorem Fails.run {r : Re} {s : Str} (h : Fails r s) {α : Type} (k : Str → Option α) : r.run s k = none := by
  cases hr : r.run s k with
  | none => rfl
  | some x =>
    obtain ⟨m, t, h1, h2, _⟩ := Re.run_some _ _ _ _ hr
    exact absurd h2 (h m t h1)

theorem Fails.nil {r : Re} (h : r.nullable = false) : Fails r [] := by
  intro m t e hm
  have := hm.nullable (by simpa using e.symm ▸ (List.append_eq_nil_iff.mp e.symm).1)
  simp [h] at this

theorem Fails.cons {r : Re} {c : Char} {s : Str} (h : r.nullable = false) (hc : r.starts c = false) : Fails r (c :: s) := by
  intro m t e hm
  cases m with
  | nil => have := hm.nullable rfl; simp [h] at this
  | cons d m =>
    simp at e
    have := hm.starts d m rfl
    simp [← e.1, hc] at this

theorem Fails.seq {a b : Re} {s : Str} (h : Fails a s) : Fails (.seq a b) s := by
  intro m t e hm
  obtain ⟨u, v, rfl, h1, _⟩ := lang_seq hm
  exact h u (v ++ t) (by simp [e]) h1

theorem Fails.alt {a b : Re} {s : Str} (h : Fails a s) (h' : Fails b s) : Fails (.alt a b) s := by
  intro m t e hm
  rcases lang_alt hm with hm | hm
  · exact h m t e hm
  · exact h' m t e hm

theorem Det.find {r : Re} {m t : Str} (h : Det r m t) : r.find (m ++ t) = some (m, t) := by
  have := h _ some rfl
  simp [Re.find, this]

theorem Det.re {r : Re} {m t : Str} (h : Det r m t) (st : PState) : P.re r st (m ++ t) = .ok (st, .done t m) := by
  simp [P.re, h.find]

theorem Fails.re {r : Re} {s : Str} (h : Fails r s) (st : PState) : P.re r st s = .ok (st, .err) := by
  have : r.find s = none := by simp [Re.find, h.run]
  simp [P.re, this]

theorem Det.unique {r : Re} {m t : Str} (hm : Lang r m) (h : ∀ m' t', m ++ t = m' ++ t' → Lang r m' → m' = m) : Det r m t := by
  intro α k hk
  cases hr : r.run (m ++ t) k with
  | none => rw [Re.run_none _ _ _ hr m t rfl hm]
  | some x =>
    obtain ⟨m', t', h1, h2, h3⟩ := Re.run_some _ _ _ _ hr
    have := h m' t' h1 h2
    subst this
    have : t = t' := by simpa using h1
    rw [this, h3]

theorem Det.eps (t : Str) : Det .eps [] t := fun _ _ _ => rfl

theorem Det.cls {rs : List (Nat × Nat)} {c : Char} {t : Str} (h : inCls rs c = true) : Det (.cls rs) [c] t := by
  intro α k _
  simp [Re.run, h]

theorem Det.seq {a b : Re} {m m' t : Str} (ha : Det a m (m' ++ t)) (hb : Det b m' t) : Det (.seq a b) (m ++ m') t := by
  intro α k hk
  have h1 := hb _ k hk
  rw [Re.run, List.append_assoc, ha _ _ (by rw [h1]; exact hk), h1]

theorem Det.altl {a b : Re} {m t : Str} (ha : Det a m t) : Det (.alt a b) m t := by
  intro α k hk
  rw [Re.run, ha _ k hk]
  cases h : k t with
  | none => simp [h] at hk
  | some x => rfl

theorem Det.altr {a b : Re} {m t : Str} (ha : Fails a (m ++ t)) (hb : Det b m t) : Det (.alt a b) m t := by
  intro α k hk
  rw [Re.run, ha.run]
  exact hb _ k hk

/-- Iterations of `r` that a greedy star makes. -/
inductive Chain (r : Re) : Str → Str → Prop where
  | nil {t} : Fails r t → Chain r [] t
  | cons {m m' t} : m ≠ [] → Det r m (m' ++ t) → Chain r m' t → Chain r (m ++ m') t

theorem Chain.starK {r : Re} {m t : Str} (h : Chain r m t) {α : Type} (k : Str → Option α) (hk : (k t).isSome) :
    ∀ n, (m ++ t).length ≤ n → starK true r.run n (m ++ t) k = k t := by
  induction h with
  | nil hf =>
    intro n _
    cases n with
    | zero => rfl
    | succ n => simp [Tomllib.starK, hf.run]
  | @cons m m' t h1 h2 h3 ih =>
    intro n hn
    cases n with
    | zero => simp at hn; exact absurd hn.1 h1
    | succ n =>
      have hl : 0 < m.length := List.length_pos_iff.mpr h1
      have hi := ih hk n (by simp at hn ⊢; omega)
      rw [Tomllib.starK, if_pos rfl, List.append_assoc, h2]
      · rw [if_pos (by simp; omega), hi]
        cases h : k t with
        | none => simp [h] at hk
        | some x => rfl
      · rw [if_pos (by simp; omega), hi]; exact hk

theorem Chain.det {r : Re} {m t : Str} (h : Chain r m t) : Det (.star true r) m t := by
  intro α k hk
  rw [Re.run]
  exact h.starK k hk _ (Nat.le_refl _)

/-- Iterations of `r` that a lazy star followed by `b` makes. -/
inductive LChain (r b : Re) : Str → Str → Prop where
  | nil {m t} : Det b m t → LChain r b m t
  | cons {m m' t} : m ≠ [] → Fails b (m ++ m' ++ t) → Det r m (m' ++ t) → LChain r b m' t → LChain r b (m ++ m') t

theorem LChain.starK {r b : Re} {m t : Str} (h : LChain r b m t) {α : Type} (k : Str → Option α) (hk : (k t).isSome) :
    ∀ n, (m ++ t).length ≤ n → starK false r.run n (m ++ t) (fun s => b.run s k) = k t := by
  induction h with
  | nil hf =>
    intro n _
    cases n with
    | zero => simp [Tomllib.starK, hf _ k hk]
    | succ n =>
      simp [Tomllib.starK, hf _ k hk]
      split
      next h => rw [h]
      next h => simp [h] at hk
  | @cons m m' t h1 h0 h2 h3 ih =>
    intro n hn
    cases n with
    | zero => simp at hn; exact absurd hn.1 h1
    | succ n =>
      have hl : 0 < m.length := List.length_pos_iff.mpr h1
      have hi := ih hk n (by simp at hn ⊢; omega)
      rw [Tomllib.starK, if_neg (by simp), h0.run]
      dsimp only
      rw [List.append_assoc, h2]
      · rw [if_pos (by simp; omega), hi]
      · rw [if_pos (by simp; omega), hi]; exact hk

theorem LChain.det {r b : Re} {m t : Str} (h : LChain r b m t) : Det (.seq (.star false r) b) m t := by
  intro α k hk
  rw [Re.run]
  exact h.starK k hk _ (Nat.le_refl _)

/-- No match is a proper prefix of another. -/
def PrefixFree (r : Re) : Prop := ∀ u v w x, Lang r u → Lang r v → u ++ w = v ++ x → u = v

theorem PrefixFree.det {r : Re} (h : PrefixFree r) {m : Str} (hm : Lang r m) (t : Str) : Det r m t :=
  Det.unique hm fun _ _ e hm' => (h _ _ _ _ hm hm' e).symm

theorem PrefixFree.chain {r : Re} (h : PrefixFree r) {g : Bool} {m : Str} (hm : Lang (.star g r) m) {t : Str} (ht : Fails r t) :
    Chain r m t := by
  refine lang_star hm (Q := fun m => Chain r m t) (.nil ht) ?_
  intro u v hu hu' _ hc
  exact .cons hu (h.det hu' _) hc

theorem PrefixFree.length {r : Re} (n : Nat) (h : ∀ u, Lang r u → u.length = n) : PrefixFree r := by
  intro u v w x hu hv e
  exact (List.append_inj e (by rw [h u hu, h v hv])).1

theorem Det.ch (c : Char) (t : Str) : Det (Re.ch c) [c] t := Det.cls (by simp [inCls])

theorem Det.lit : ∀ (q t : Str), Det (Re.lit q) q t
  | [], t => Det.eps t
  | [c], t => Det.ch c t
  | c :: d :: q, t => Det.seq (m := [c]) (m' := d :: q) (Det.ch c _) (Det.lit (d :: q) t)

theorem Fails.lit {q s : Str} (h : ¬ q <+: s) : Fails (Re.lit q) s := by
  intro m t e hm
  rw [lang_lit hm] at e
  exact h ⟨t, e.symm⟩

end Tomllib
