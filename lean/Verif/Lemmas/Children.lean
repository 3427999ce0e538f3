import Verif.Spec.Children
import Verif.Lemmas.Document
import Verif.Lemmas.Edit
/-!
# Parsers that differ in the children of keys only
-/

namespace Tomllib

/-- The same but for the children. -/
structure ButKids (p q : Parser) : Prop where
  tree : p.tree = q.tree
  left : p.leftover = q.leftover
  heap : p.st.heap = q.st.heap
  vals : ∀ k, valOf p.st.map k = valOf q.st.map k

theorem ButKids.refl (p : Parser) : ButKids p p := ⟨rfl, rfl, rfl, fun _ => rfl⟩

theorem ButKids.trans {p q r : Parser} (h : ButKids p q) (h' : ButKids q r) : ButKids p r :=
  ⟨h.tree.trans h'.tree, h.left.trans h'.left, h.heap.trans h'.heap, fun k => (h.vals k).trans (h'.vals k)⟩

theorem ButKids.put (p : Parser) (k : Str) (c : Children) : ButKids p (p.putChildren k c) := by
  unfold Parser.putChildren
  dsimp only
  generalize (if k = [] then root else k) = kk
  split
  next hv hg =>
    have : ∀ k', valOf p.st.map k' = valOf (p.st.map.insert kk { hv with subkeys := c }) k' := by
      intro k'
      rw [valOf_insert]
      split
      next e => rw [← e]; simp [valOf, hg]
      · rfl
    split <;> first | exact .refl p | exact ⟨rfl, rfl, rfl, this⟩
  · exact .refl p

theorem ButKids.display {p q : Parser} (h : ButKids p q) : p.display = q.display := by
  unfold Parser.display
  rw [h.heap, h.tree]

theorem getValue_valOf (p : Parser) (k : Str) : p.getValue k = match valOf p.st.map k with
    | some a => (toVal p.st.heap a).bind fun v => .ok (some v)
    | none => .ok none := by
  unfold Parser.getValue valOf
  cases h : p.st.map.get? k with
  | none => rfl
  | some hv =>
    obtain ⟨v, s⟩ := hv
    cases v <;> rfl

theorem ButKids.getValue {p q : Parser} (h : ButKids p q) (k : Str) : p.getValue k = q.getValue k := by
  rw [getValue_valOf, getValue_valOf, h.vals, h.heap]

/-- An assignment that keeps the structure does not look at the children. -/
theorem setValue_same {p : Parser} {k : Str} {a : Addr} {v : Value} (ha : valOf p.st.map k = some a) (hs : sameStructure p.st.heap a v = true) :
    p.setValue k v = (replaceValues p.st.heap a v).bind fun h => .ok ({ p with st := { p.st with heap := h } }, true) := by
  obtain ⟨s, hg⟩ := valOf_some.mp ha
  unfold Parser.setValue
  rw [hg]
  simp [hs, Out.bind_eq]

theorem fitting_same {p : Parser} (hi : Inv p.st) {k : Str} {w v : Value} (hw : p.getValue k = .ok (some w)) (hs : w.sameShape v = true) (hv : v.deepValid = true) :
    ∃ a, valOf p.st.map k = some a ∧ sameStructure p.st.heap a v = true := by
  obtain ⟨a, t, fp, h1, h2, rfl⟩ := hi.of_getValue hw
  exact ⟨a, h1, by rw [sameStructure_rep v h2, VT.fits_eq, hs, hv]; rfl⟩

/-- Steps, and the assignments among them, from parsers that differ in the children only. -/
theorem runSteps_alike : ∀ (l : List Step) {p q : Parser}, Reachable p → ButKids p q → Fitting p (assignsOf l) →
    (∃ p' q', runSets p (assignsOf l) = .ok p' ∧ runSteps q l = .ok q' ∧ ButKids p' q') ∨ ∃ x, runSets p (assignsOf l) = .panic x ∧ runSteps q l = .panic x
  | [], p, q, _, h, _ => .inl ⟨p, q, rfl, rfl, h⟩
  | .change k c :: l, p, q, hp, h, hf => runSteps_alike l hp (h.trans (.put q k c)) hf
  | .assign k v :: l, p, q, hp, h, hf => by
    obtain ⟨⟨w, h1, h2, h3⟩, hf⟩ := hf
    obtain ⟨a, h4, h5⟩ := fitting_same hp.inv.inv h1 h2 h3
    have e1 := setValue_same h4 h5
    have e2 := setValue_same (p := q) (by rw [← h.vals]; exact h4) (by rw [← h.heap]; exact h5)
    rw [← h.heap] at e2
    simp only [assignsOf, runSets, runSteps, Out.bind_eq, e1, e2]
    have hall := setValue_all hp.inv k v
    rw [e1] at hall
    cases hr : replaceValues p.st.heap a v with
    | panic x => exact .inr ⟨x, rfl, rfl⟩
    | fuel => rw [hr] at hall; exact hall.elim
    | ok h' =>
      rw [hr] at e1
      simp only [Out.ok_bind]
      exact runSteps_alike l (.set hp e1) ⟨h.tree, h.left, rfl, h.vals⟩ (hf _ _ e1)

/-- What any assignment, with or without the same structure, prints does not depend on the children. -/
theorem setValue_alike {p q p' q' : Parser} (h : ButKids p q) {k : Str} {v : Value} {b b' : Bool} (hp : p.setValue k v = .ok (p', b)) (hq : q.setValue k v = .ok (q', b')) :
    b = b' ∧ p'.tree = q'.tree ∧ p'.leftover = q'.leftover ∧ p'.st.heap = q'.st.heap := by
  cases ha : valOf p.st.map k with
  | none =>
    have : ∀ x : Parser, valOf x.st.map k = none → x.setValue k v = .ok (x, false) := by
      intro x hx
      unfold Parser.setValue
      unfold valOf at hx
      cases hg : x.st.map.get? k with
      | none => rfl
      | some hv =>
        obtain ⟨y, s⟩ := hv
        cases y with
        | none => rfl
        | some y => simp [hg] at hx
    rw [this p ha] at hp
    rw [this q (by rw [← h.vals]; exact ha)] at hq
    simp at hp hq
    obtain ⟨rfl, rfl⟩ := hp
    obtain ⟨rfl, rfl⟩ := hq
    exact ⟨rfl, h.tree, h.left, h.heap⟩
  | some a =>
    have hb : valOf q.st.map k = some a := by rw [← h.vals]; exact ha
    cases hs : sameStructure p.st.heap a v with
    | true =>
      rw [setValue_same ha hs] at hp
      rw [setValue_same hb (by rw [← h.heap]; exact hs), ← h.heap] at hq
      obtain ⟨h1, e1, hp⟩ := Out.bind_ok.mp hp
      obtain ⟨h2, e2, hq⟩ := Out.bind_ok.mp hq
      rw [e1] at e2
      simp at hp hq e2
      obtain ⟨rfl, rfl⟩ := hp
      obtain ⟨rfl, rfl⟩ := hq
      exact ⟨rfl, h.tree, h.left, e2⟩
    | false =>
      obtain ⟨s, hg⟩ := valOf_some.mp ha
      obtain ⟨s', hg'⟩ := valOf_some.mp hb
      obtain ⟨l, hl, hl1⟩ := allSubkeys_ok p.st.map k
      obtain ⟨l', hl', hl1'⟩ := allSubkeys_ok q.st.map k
      have g : (eraseAll p.st.map l).get? k = some ⟨some a, s⟩ := by
        rw [eraseAll_get, if_neg (fun hk => Nat.lt_irrefl _ (hl1 k hk)), hg]
      have g' : (eraseAll q.st.map l').get? k = some ⟨some a, s'⟩ := by
        rw [eraseAll_get, if_neg (fun hk => Nat.lt_irrefl _ (hl1' k hk)), hg']
      unfold Parser.setValue at hp hq
      rw [hg] at hp
      rw [hg', ← h.heap] at hq
      simp only [hs, Bool.false_eq_true, if_false, Out.bind_eq, hl, hl', Out.ok_bind] at hp hq
      obtain ⟨⟨h1, nv⟩, e1, hp⟩ := Out.bind_ok.mp hp
      obtain ⟨⟨h1', nv'⟩, e1', hq⟩ := Out.bind_ok.mp hq
      rw [e1] at e1'
      simp at e1'
      obtain ⟨rfl, rfl⟩ := e1'
      have key : ∀ (tv : TVal), (do
          let h2 ← writeCell h1 a tv
          let m ← rebuildAt (h2 ++ [tv]) ((h2 ++ [tv]).length + 1) (eraseAll p.st.map l) k h2.length true
          .ok ({ p with st := { p.st with map := m, heap := h2 ++ [tv] } }, true) : Out (Parser × Bool)) = .ok (p', b) → (do
          let h2 ← writeCell h1 a tv
          let m ← rebuildAt (h2 ++ [tv]) ((h2 ++ [tv]).length + 1) (eraseAll q.st.map l') k h2.length true
          .ok ({ q with st := { q.st with map := m, heap := h2 ++ [tv] } }, true) : Out (Parser × Bool)) = .ok (q', b') →
          b = b' ∧ p'.tree = q'.tree ∧ p'.leftover = q'.leftover ∧ p'.st.heap = q'.st.heap := by
        intro tv hp hq
        simp only [Out.bind_eq] at hp hq
        obtain ⟨h2, e2, hp⟩ := Out.bind_ok.mp hp
        obtain ⟨h2', e2', hq⟩ := Out.bind_ok.mp hq
        rw [e2] at e2'
        simp at e2'
        subst e2'
        obtain ⟨m, _, hp⟩ := Out.bind_ok.mp hp
        obtain ⟨m', _, hq⟩ := Out.bind_ok.mp hq
        simp at hp hq
        obtain ⟨rfl, rfl⟩ := hp
        obtain ⟨rfl, rfl⟩ := hq
        exact ⟨rfl, h.tree, h.left, rfl⟩
      rw [g] at hp
      rw [g'] at hq
      cases nv with
      | none =>
        simp at hp hq
        obtain ⟨rfl, rfl⟩ := hp
        obtain ⟨rfl, rfl⟩ := hq
        exact ⟨rfl, h.tree, h.left, rfl⟩
      | some tv =>
        cases tv with
        | arr vals c1 c2 => exact key _ hp hq
        | itab kvs ws => exact key _ hp hq
        | _ => simp at hp

end Tomllib
