import Verif.Lemmas.Answers
import Verif.Lemmas.Parts
/-!
# Children are exact

Every child that is listed exists, and everything that exists is listed.
-/

namespace Tomllib

/-! ## Parts of values -/

mutual
theorem VT.part_append : ∀ (t : VT) (q r : List Key), t.part (q ++ r) = (t.part q).bind fun t' => t'.part r
  | t, [], r => by rw [List.nil_append, show t.part [] = some t by cases t <;> rfl, Option.bind_some]
  | .leaf s, .str k :: q, r => rfl
  | .leaf s, .idx i :: q, r => rfl
  | .arr es c1 c2, .str k :: q, r => rfl
  | .arr es c1 c2, .idx i :: q, r => by rw [List.cons_append, VT.part, VT.part, Elems.part_append es i q r]
  | .itab kvs ws, .str k :: q, r => by rw [List.cons_append, VT.part, VT.part, Pairs.part_append kvs k q r]
  | .itab kvs ws, .idx i :: q, r => rfl
theorem Elems.part_append : ∀ (t : Elems) (i : Nat) (q r : List Key), t.part i (q ++ r) = (t.part i q).bind fun t' => t'.part r
  | .nil, _, _, _ => rfl
  | .cons v _ _ _, 0, q, r => by rw [Elems.part, Elems.part, VT.part_append v q r]
  | .cons _ _ _ s, i + 1, q, r => by rw [Elems.part, Elems.part, Elems.part_append s i q r]
theorem Pairs.part_append : ∀ (t : Pairs) (k : Str) (q r : List Key), t.part k (q ++ r) = (t.part k q).bind fun t' => t'.part r
  | .nil, _, _, _ => rfl
  | .cons k' _ v _ _ s, k, q, r => by
    rw [Pairs.part, Pairs.part]
    split
    · exact VT.part_append v q r
    · exact Pairs.part_append s k q r
end

/-- What a list of children says about one of them. -/
def Children.has : Children → Key → Prop
  | .count n, .idx i => i < n
  | .keys l, .str k => k ∈ l
  | _, _ => False

theorem Elems.part_one : ∀ (t : Elems) (i : Nat), t.part i [] ≠ none ↔ i < t.kinds.length
  | .nil, i => by simp [Elems.part, Elems.kinds]
  | .cons v _ _ r, 0 => by cases v <;> simp [Elems.part, Elems.kinds, VT.part]
  | .cons v _ _ r, i + 1 => by
    rw [Elems.part, Elems.part_one r i]
    simp [Elems.kinds]

theorem Pairs.part_one : ∀ (t : Pairs) (k : Str), t.part k [] ≠ none ↔ k ∈ t.keys
  | .nil, k => by simp [Pairs.part, Pairs.keys]
  | .cons k' _ v _ _ r, k => by
    rw [Pairs.part, Pairs.keys, List.mem_cons]
    split
    next h => cases v <;> simp [VT.part, h]
    next h =>
      rw [Pairs.part_one r k]
      simp [Ne.symm h]

theorem VT.part_one (t : VT) (k : Key) : t.part [k] ≠ none ↔ t.children.has k := by
  cases t with
  | leaf s => cases k <;> simp [VT.part, VT.children, Children.has]
  | arr es c1 c2 =>
    cases k with
    | str k => simp [VT.part, VT.children, Children.has]
    | idx i => simpa [VT.part, VT.children, Children.has] using es.part_one i
  | itab kvs ws =>
    cases k with
    | idx k => simp [VT.part, VT.children, Children.has]
    | str i => simpa [VT.part, VT.children, Children.has] using kvs.part_one i

namespace Sections

/-! ## Plain facts about documents in order -/

structure Plain (D : Sections) : Prop where
  once : (D.vals.map (·.1)).Nodup
  keyed : ∀ e ∈ D.vals, ∃ b k, e.1 = b ++ [Key.str k] ∧ (b, k) ∈ D.names
  counts : ∀ p n, D.count p = some n → ∀ j, j < n → (p, j + 1) ∈ D.arrs
  low : ∀ e ∈ D.arrs, 0 < e.2 ∧ ∀ n, D.count e.1 = some n → e.2 ≤ n

theorem Plain.step {D : Sections} (h : D.Plain) {e : ET} (hf : D.fits e) : (D.step e).Plain := by
  cases e with
  | blank w => exact h
  | comment w c => exact h
  | kv w1 k s v w2 c =>
    refine ⟨?_, ?_, h.counts, h.low⟩
    · show ((D.vals ++ [(D.here ++ [Key.str k], v)]).map (fun e : List Key × VT => e.1)).Nodup
      rw [List.map_append, List.nodup_append]
      refine ⟨h.once, by simp, ?_⟩
      rintro a ha b hb rfl
      simp only [List.mem_map] at ha
      obtain ⟨e, he, rfl⟩ := ha
      obtain ⟨b', k', e1, e2⟩ := h.keyed e he
      simp only [List.map_cons, List.map_nil, List.mem_singleton] at hb
      rw [e1] at hb
      have := List.append_inj' hb rfl
      simp at this
      rw [this.1, this.2] at e2
      exact hf.1 e2
    · intro e he
      have he' : e ∈ D.vals ++ [(D.here ++ [.str k], v)] := he
      rw [List.mem_append, List.mem_singleton] at he'
      rcases he' with he' | rfl
      · obtain ⟨b', k', e1, e2⟩ := h.keyed e he'
        exact ⟨b', k', e1, by simp [Sections.step, e2]⟩
      · exact ⟨D.here, k, rfl, by simp [Sections.step]⟩
  | table w1 t w2 c =>
    cases t with
    | std t =>
      refine ⟨h.once, fun e he => ?_, h.counts, h.low⟩
      obtain ⟨b', k', e1, e2⟩ := h.keyed e he
      exact ⟨b', k', e1, by simp [Sections.step, e2]⟩
    | arr t =>
      refine ⟨h.once, fun e he => ?_, fun p n hn j hj => ?_, ?_⟩
      · obtain ⟨b', k', e1, e2⟩ := h.keyed e he
        exact ⟨b', k', e1, by simp [Sections.step, e2]⟩
      · have harr : (D.step (.table w1 (.arr t) w2 c)).arrs = (D.target t.names, (D.count (D.target t.names)).getD 0 + 1) :: D.arrs := rfl
        rw [count_cons harr] at hn
        rw [harr, List.mem_cons]
        split at hn
        next hp =>
          subst hp
          simp at hn
          by_cases hj' : j = (D.count (D.target t.names)).getD 0
          · left; rw [hj']
          · right
            cases hc : D.count (D.target t.names) with
            | none => rw [hc] at hn hj'; simp at hn hj'; omega
            | some m =>
              rw [hc] at hn hj'; simp at hn hj'
              exact h.counts _ m hc j (by omega)
        · exact .inr (h.counts p n hn j hj)
      · have harr : (D.step (.table w1 (.arr t) w2 c)).arrs = (D.target t.names, (D.count (D.target t.names)).getD 0 + 1) :: D.arrs := rfl
        intro e he
        rw [harr, List.mem_cons] at he
        rw [count_cons harr]
        rcases he with rfl | he
        · simp
        · refine ⟨(h.low e he).1, fun n hn => ?_⟩
          split at hn
          next hp =>
            simp at hn
            cases hc : D.count (D.target t.names) with
            | none => exact absurd hp.symm (count_none.mp hc e he)
            | some m =>
              have := (h.low e he).2 m (by rw [← hp]; exact hc)
              rw [hc] at hn; simp at hn; omega
          · exact (h.low e he).2 n hn

theorem Plain.all : ∀ (ls : List (Str × ET)) {D : Sections}, D.Plain → D.Fits ls → (ls.foldl (fun D l => D.step l.2) D).Plain
  | [], _, h, _ => h
  | _ :: ls, _, h, hf => Plain.all ls (h.step hf.1) hf.2

theorem Plain.read {ls : List (Str × ET)} (hf : Fits {} ls) : (Sections.read ls).Plain :=
  Plain.all ls ⟨by simp, by simp, by simp [count], by simp⟩ hf

/-! ## Parts of a document -/

theorem Good.above {D : Sections} {K : List Key → Option HashValue} {h : Heap} (g : D.Good K h) {q : List Key} (hq : PathWf q) {t : VT} (hv : D.valueAt q = some t) :
    ∀ e ∈ D.vals, ∀ k r, e.1 ≠ q ++ k :: r := by
  intro e he k r hr
  have hs := g.closed e.1 (.inl ⟨e, he, rfl⟩)
  cases k with
  | str k =>
    have := (g.slot q hq).val_tab (isTable_names (hs.str q k r hr))
    rw [hv] at this; simp at this
  | idx i =>
    obtain ⟨n, hn, _⟩ := hs.idx q i r hr
    have := (g.slot q hq).val_arr (by rw [hn]; simp)
    rw [hv] at this; simp at this

theorem prefix_dich {a q r : List Key} (h : a <+: q ++ r) : a <+: q ∨ ∃ k s, a = q ++ k :: s := by
  rcases Nat.lt_or_ge q.length a.length with hl | hl
  · right
    have h1 : q <+: a := List.prefix_of_prefix_length_le (List.prefix_append _ _) h (by omega)
    obtain ⟨s, rfl⟩ := h1
    cases s with
    | nil => simp at hl
    | cons k s => exact ⟨k, s, rfl⟩
  · exact .inl (List.prefix_of_prefix_length_le h (List.prefix_append _ _) hl)

/-- There is only one value at a path. -/
theorem Good.valueAt_eq {D : Sections} {K : List Key → Option HashValue} {h : Heap} (g : D.Good K h) (hp : D.Plain) {e : List Key × VT} (he : e ∈ D.vals) (r : List Key) :
    D.valueAt (e.1 ++ r) = e.2.part r := by
  have key : ∀ e' ∈ D.vals, e'.1 <+: e.1 ++ r → e' = e := by
    intro e' he' hpre
    have hne1 := valueAt_val he
    have hne2 := valueAt_val he'
    obtain ⟨t1, ht1⟩ := Option.ne_none_iff_exists'.mp hne1
    obtain ⟨t2, ht2⟩ := Option.ne_none_iff_exists'.mp hne2
    have w1 := g.wf e.1 (.inl ⟨e, he, rfl⟩)
    have w2 := g.wf e'.1 (.inl ⟨e', he', rfl⟩)
    have h1 : e'.1 <+: e.1 := (prefix_dich hpre).resolve_right fun ⟨k, s, hk⟩ => g.above w1 ht1 e' he' k s hk
    obtain ⟨s, hs⟩ := h1
    have heq : e'.1 = e.1 := by
      cases s with
      | nil => simpa using hs
      | cons k s => exact absurd hs.symm (g.above w2 ht2 e he k s)
    have hnd := hp.once
    obtain ⟨i, hi, rfl⟩ := List.getElem_of_mem he
    obtain ⟨j, hj, rfl⟩ := List.getElem_of_mem he'
    have : i = j := by
      have hnd' := List.pairwise_iff_getElem.mp hnd
      rcases Nat.lt_trichotomy i j with hl | hl | hl
      · exact absurd (by rw [List.getElem_map, List.getElem_map]; exact heq.symm) (hnd' i j (by simpa using hi) (by simpa using hj) hl)
      · exact hl
      · exact absurd (by rw [List.getElem_map, List.getElem_map]; exact heq) (hnd' j i (by simpa using hj) (by simpa using hi) hl)
    subst this; rfl
  unfold valueAt
  classical
  have : ∀ (l : List (List Key × VT)), (∀ e' ∈ l, e'.1 <+: e.1 ++ r → e' = e) →
      (l.findSome? fun e' => if e'.1.isPrefixOf (e.1 ++ r) then e'.2.part ((e.1 ++ r).drop e'.1.length) else none) = if e ∈ l then e.2.part r else none := by
    intro l
    induction l with
    | nil => simp
    | cons x l ih =>
      intro hl
      rw [List.findSome?_cons, ih (fun e' h' => hl e' (by simp [h']))]
      by_cases hx : x.1 <+: e.1 ++ r
      · have := hl x (by simp) hx
        subst this
        rw [if_pos (List.isPrefixOf_iff_prefix.mpr hx)]
        simp only [List.drop_left, List.mem_cons, true_or, if_true]
        cases x.2.part r with
        | none => dsimp only; split <;> rfl
        | some t => rfl
      · rw [if_neg (fun h => hx (List.isPrefixOf_iff_prefix.mp h))]
        have : x ≠ e := by
          rintro rfl
          exact hx (List.prefix_append _ _)
        simp [Ne.symm this]
  rw [this _ key, if_pos he]

theorem Good.valueAt_below {D : Sections} {K : List Key → Option HashValue} {h : Heap} (g : D.Good K h) (hp : D.Plain) {q : List Key} {t : VT} (hv : D.valueAt q = some t) (r : List Key) :
    D.valueAt (q ++ r) = t.part r := by
  have hv' := hv
  unfold valueAt at hv'
  obtain ⟨e, he, h1⟩ := List.exists_of_findSome?_eq_some hv'
  split at h1
  next hpre =>
    obtain ⟨s, rfl⟩ := List.isPrefixOf_iff_prefix.mp hpre
    rw [List.drop_left] at h1
    rw [List.append_assoc, g.valueAt_eq hp he, VT.part_append, h1]; rfl
  · simp at h1

/-- A path has children or a value exactly when the path above lists it. -/
theorem Good.listed {D : Sections} {K : List Key → Option HashValue} {h : Heap} (g : D.Good K h) (hp : D.Plain) (hd : ∀ Y, D.Down Y) {q : List Key} {k : Key} (hw : PathWf (q ++ [k])) :
    D.childrenAt (q ++ [k]) ≠ none ↔ ∃ c, D.childrenAt q = some c ∧ c.has k := by
  have hwq : PathWf q := hw.left
  have hs := g.slot q hwq
  have hs' := g.slot _ hw
  have hex : D.childrenAt (q ++ [k]) ≠ none ↔ D.valueAt (q ++ [k]) ≠ none ∨ D.count (q ++ [k]) ≠ none ∨ D.isTable (q ++ [k]) := by
    unfold childrenAt
    cases D.valueAt (q ++ [k]) with
    | some t => simp
    | none =>
      cases D.count (q ++ [k]) with
      | some n => simp
      | none => simp
  rw [hex]
  have htab : ∀ x, (q, x) ∈ D.names → D.childrenAt q = some (.keys (D.namesOf q)) := by
    intro x hx
    have ht := isTable_names hx
    unfold childrenAt
    rw [hs.val_tab ht, hs.arr_tab ht]
    simp [ht]
  have hcnt : ∀ n, D.count q = some n → D.childrenAt q = some (.count n) := by
    intro n hn
    unfold childrenAt
    rw [hs.val_arr (by rw [hn]; simp), hn]
  have hsol : D.Solid (q ++ [k]) → ∃ c, D.childrenAt q = some c ∧ c.has k := by
    intro hsol
    cases k with
    | str k =>
      have := hsol.str q k [] rfl
      exact ⟨_, htab k this, mem_namesOf.mpr this⟩
    | idx i =>
      obtain ⟨n, hn, hi⟩ := hsol.idx q i [] rfl
      exact ⟨_, hcnt n hn, hi⟩
  constructor
  · rintro (hv | hc | ht)
    · obtain ⟨t, ht⟩ := Option.ne_none_iff_exists'.mp hv
      have hv' := ht
      unfold valueAt at hv'
      obtain ⟨e, he, h1⟩ := List.exists_of_findSome?_eq_some hv'
      split at h1
      next hpre =>
        obtain ⟨s, hs2⟩ := List.isPrefixOf_iff_prefix.mp hpre
        rcases List.eq_nil_or_concat s with rfl | ⟨s, x, hsx⟩
        · rw [List.append_nil] at hs2
          rw [← hs2] at hsol
          exact hsol (g.closed _ (.inl ⟨e, he, rfl⟩))
        · rw [hsx, List.concat_eq_append, ← List.append_assoc] at hs2
          obtain ⟨h2, h3⟩ := List.append_inj' hs2 rfl
          simp at h3
          subst h3
          have hb := g.valueAt_eq hp he s
          rw [h2] at hb
          have hb2 := g.valueAt_eq hp he (s ++ [x])
          rw [← List.append_assoc, h2, ht, VT.part_append] at hb2
          cases hpt : e.2.part s with
          | none => rw [hpt] at hb2; simp at hb2
          | some t' =>
            rw [hpt] at hb hb2
            refine ⟨t'.children, by unfold childrenAt; rw [hb], (VT.part_one t' x).mp ?_⟩
            rw [Option.bind_some] at hb2
            rw [← hb2]; simp
      · simp at h1
    · obtain ⟨n, hn⟩ := Option.ne_none_iff_exists'.mp hc
      exact hsol (g.closed _ (.inr (.inr (.inl ⟨_, count_mem hn, rfl⟩))))
    · rcases ht with h1 | h1 | ⟨e, he, h1⟩ | ⟨e, he, h1⟩
      · simp at h1
      · exact hsol (g.closed _ (.inr (.inl h1)))
      · obtain ⟨h2, h3⟩ := List.append_inj' h1 rfl
        simp at h3
        subst h3
        have hse := g.closed e.1 (.inr (.inr (.inl ⟨e, he, rfl⟩)))
        have hne : D.count q ≠ none := fun hc => count_none.mp hc e he h2.symm
        obtain ⟨n, hn⟩ := Option.ne_none_iff_exists'.mp hne
        refine ⟨_, hcnt n hn, ?_⟩
        have h4 := (hp.low e he).1
        have h5 := (hp.low e he).2 n (by rw [← h2]; exact hn)
        show e.2 - 1 < n
        omega
      · exact hsol (g.closed _ (.inr (.inr (.inr ⟨e, he, h1⟩))))
  · rintro ⟨c, hc, hk⟩
    unfold childrenAt at hc
    cases hv : D.valueAt q with
    | some t =>
      rw [hv] at hc
      simp at hc
      subst hc
      left
      rw [g.valueAt_below hp hv]
      exact (VT.part_one t k).mpr hk
    | none =>
      rw [hv] at hc
      cases hn : D.count q with
      | some n =>
        rw [hn] at hc
        simp at hc
        subst hc
        cases k with
        | str k => exact hk.elim
        | idx i =>
          right; right
          have := hp.counts q n hn i hk
          exact .inr (.inr (.inl ⟨_, this, by simp⟩))
      | none =>
        rw [hn] at hc
        dsimp only at hc
        split at hc
        · simp at hc
          subst hc
          cases k with
          | idx i => exact hk.elim
          | str k =>
            exact hd [] q k (mem_namesOf.mp hk) (by simp)
        · simp at hc


/-! ## Keys -/

theorem vals_wf : ∀ (ls : List (Str × ET)) {D : Sections}, (∀ e ∈ D.vals, e.2.wf) → (∀ l ∈ ls, l.2.wf) → ∀ e ∈ (ls.foldl (fun D l => D.step l.2) D).vals, e.2.wf
  | [], _, h, _ => h
  | l :: ls, D, h, hw => vals_wf ls (D := D.step l.2) (by
      have hl := hw l (by simp)
      intro e he
      match hl2 : l.2, hl with
      | .blank w, _ => rw [hl2] at he; exact h e he
      | .comment w c, _ => rw [hl2] at he; exact h e he
      | .kv w1 k s v w2 c, hl =>
        rw [hl2] at he
        have he' : e ∈ D.vals ++ [(D.here ++ [Key.str k], v)] := he
        rw [List.mem_append, List.mem_singleton] at he'
        rcases he' with he' | rfl
        · exact h e he'
        · exact hl.2.2.2.1
      | .table w1 (.std t) w2 c, _ => rw [hl2] at he; exact h e he
      | .table w1 (.arr t) w2 c, _ => rw [hl2] at he; exact h e he) (fun l' h' => hw l' (by simp [h']))

end Sections

mutual
theorem VT.part_wf : ∀ (t : VT) (q : List Key) {t' : VT}, t.wf → t.part q = some t' → t'.wf
  | t, [], t', h, hp => by
    rw [show t.part [] = some t by cases t <;> rfl] at hp
    cases hp; exact h
  | .leaf s, .str k :: q, _, _, hp => by simp [VT.part] at hp
  | .leaf s, .idx i :: q, _, _, hp => by simp [VT.part] at hp
  | .arr es c1 c2, .str k :: q, _, _, hp => by simp [VT.part] at hp
  | .arr es c1 c2, .idx i :: q, _, h, hp => Elems.part_wf es i q h.2.1 (by simpa [VT.part] using hp)
  | .itab kvs ws, .str k :: q, _, h, hp => Pairs.part_wf kvs k q h.2 (by simpa [VT.part] using hp)
  | .itab kvs ws, .idx i :: q, _, _, hp => by simp [VT.part] at hp
theorem Elems.part_wf : ∀ (t : Elems) (i : Nat) (q : List Key) {t' : VT}, t.wf → t.part i q = some t' → t'.wf
  | .nil, _, _, _, _, hp => by simp [Elems.part] at hp
  | .cons v _ _ _, 0, q, _, h, hp => VT.part_wf v q h.1 (by simpa [Elems.part] using hp)
  | .cons _ _ _ s, i + 1, q, _, h, hp => Elems.part_wf s i q h.2.2.2 (by simpa [Elems.part] using hp)
theorem Pairs.part_wf : ∀ (t : Pairs) (k : Str) (q : List Key) {t' : VT}, t.wf → t.part k q = some t' → t'.wf
  | .nil, _, _, _, _, hp => by simp [Pairs.part] at hp
  | .cons k' _ v _ _ s, k, q, _, h, hp => by
    rw [Pairs.part] at hp
    split at hp
    · exact VT.part_wf v q h.2.2.1 hp
    · exact Pairs.part_wf s k q h.2.2.2.2.2 hp
end

theorem Pairs.keys_wf : ∀ (t : Pairs), t.wf → ∀ k ∈ t.keys, KeyWf k
  | .nil, _ => by simp [Pairs.keys]
  | .cons k' _ v _ _ s, h => by
    intro k hk
    rw [Pairs.keys, List.mem_cons] at hk
    rcases hk with rfl | hk
    · exact h.1
    · exact Pairs.keys_wf s h.2.2.2.2.2 k hk

theorem VT.children_wf {t : VT} (h : t.wf) {k : Str} (hk : t.children.has (.str k)) : KeyWf k := by
  cases t with
  | leaf s => exact hk.elim
  | arr es c1 c2 => exact hk.elim
  | itab kvs ws => exact kvs.keys_wf h.2 k hk

/-- The keys of children, below a key that is not empty. -/
theorem mem_combine {q : List Key} (hq : PathWf q) (hne : q ≠ []) {c : Children} {s : Str} :
    s ∈ c.combineChildKeys (keyOf [] q) ↔ ∃ k, c.has k ∧ s = keyOf [] (q ++ [k]) := by
  have hb := keyOf_ne_nil hq hne
  have e1 : ∀ k, keyOf [] (q ++ [.str k]) = keyOf [] q ++ lit% "." ++ k := by
    intro k
    rw [keyOf_append, keyOf_rest _ hb]; simp [restStr]
  have e2 : ∀ i, keyOf [] (q ++ [.idx i]) = keyOf [] q ++ lit% "[" ++ natStr i ++ lit% "]" := by
    intro i
    rw [keyOf_idx]; simp [idxStr]
  cases c with
  | count n =>
    simp only [Children.combineChildKeys, List.mem_map, List.mem_range]
    constructor
    · rintro ⟨i, hi, rfl⟩
      exact ⟨.idx i, hi, (e2 i).symm⟩
    · rintro ⟨k, hk, rfl⟩
      cases k with
      | idx i => exact ⟨i, hk, (e2 i).symm⟩
      | str k => exact hk.elim
  | keys l =>
    simp only [Children.combineChildKeys, List.mem_map, if_pos hb]
    constructor
    · rintro ⟨i, hi, rfl⟩
      exact ⟨.str i, hi, (e1 i).symm⟩
    · rintro ⟨k, hk, rfl⟩
      cases k with
      | idx i => exact hk.elim
      | str k => exact ⟨k, hk, (e1 k).symm⟩

namespace Sections

/-- Everything that is said about walking. -/
structure Walks (D : Sections) (p : Parser) : Prop where
  ans : D.Answers p
  listed : ∀ q k, PathWf (q ++ [k]) → (D.childrenAt (q ++ [k]) ≠ none ↔ ∃ c, D.childrenAt q = some c ∧ c.has k)
  wf : ∀ q k, PathWf q → ∀ c, D.childrenAt q = some c → c.has (.str k) → KeyWf k
  noTop : D.childrenAt [] = some (.keys (D.namesOf []))

theorem Sim.walks {ls : List (Str × ET)} {p : Parser} (hw : DocWf ls) (hf : Fits {} ls) (hi : Inv p.st) (h : (Sections.read ls).Sim p.st) : (Sections.read ls).Walks p := by
  have g := h.good
  have hp := Plain.read hf
  refine ⟨h.answers hi, fun q k hw => g.listed hp h.down hw, ?_, ?_⟩
  · intro q k hq c hc hk
    unfold childrenAt at hc
    cases hv : (Sections.read ls).valueAt q with
    | some t =>
      rw [hv] at hc
      simp at hc
      subst hc
      unfold valueAt at hv
      obtain ⟨e, he, h1⟩ := List.exists_of_findSome?_eq_some hv
      split at h1
      · exact VT.children_wf (VT.part_wf _ _ (vals_wf ls (by simp) hw.lines e he) h1) hk
      · simp at h1
    | none =>
      rw [hv] at hc
      cases hn : (Sections.read ls).count q with
      | some n =>
        rw [hn] at hc
        simp at hc
        subst hc
        exact hk.elim
      | none =>
        rw [hn] at hc
        dsimp only at hc
        split at hc
        · simp at hc
          subst hc
          exact g.nwf _ (mem_namesOf.mp hk)
        · simp at hc
  · have hs := g.slot [] trivial
    have ht : (Sections.read ls).isTable [] := .inl rfl
    unfold childrenAt
    rw [hs.val_tab ht, hs.arr_tab ht]
    simp [ht]

/-- A child exists exactly when it is listed. -/
theorem Walks.child {D : Sections} {p : Parser} (h : D.Walks p) {q : List Key} {k : Key} (hw : PathWf (q ++ [k])) (hs : q ≠ [] ∨ D.stray = []) :
    p.getChildren (keyOf [] (q ++ [k])) ≠ none ↔ ∃ c, p.getChildren (keyOf [] q) = some c ∧ keyOf [] (q ++ [k]) ∈ c.combineChildKeys (keyOf [] q) := by
  have hq : PathWf q := hw.left
  rw [h.ans.children _ hw (by simp), h.listed q k hw]
  by_cases hne : q = []
  · subst hne
    have hs := hs.resolve_left (by simp)
    obtain ⟨l, e1, e2, _⟩ := h.ans.top
    have e2 := e2 hs
    subst e2
    cases k with
    | idx i => exact hw.elim
    | str k =>
      rw [h.noTop]
      simp [show keyOf [] [] = ([] : Str) from rfl, e1, Children.combineChildKeys, Children.has, show keyOf [] [Key.str k] = k from rfl]
  · rw [h.ans.children _ hq hne]
    constructor
    · rintro ⟨c, hc, hk⟩
      exact ⟨c, hc, (mem_combine hq hne).mpr ⟨k, hk, rfl⟩⟩
    · rintro ⟨c, hc, hk⟩
      obtain ⟨k', hk', e⟩ := (mem_combine hq hne).mp hk
      have hw' : PathWf (q ++ [k']) := PathWf.pushKey hq hne (fun s hs => by subst hs; exact h.wf q s hq c hc hk')
      have := keyOf_inj hw hw' e
      simp at this
      subst this
      exact ⟨c, hc, hk'⟩

/-- Every key is visited that exists, and every key that is visited exists. -/
theorem Walks.visited {D : Sections} {p : Parser} (h : D.Walks p) (hs : D.stray = []) {k : Str} (hr : k ≠ root) :
    Visited p k ↔ p.getChildren k ≠ none := by
  obtain ⟨l, e1, e2, _⟩ := h.ans.top
  have e2 := e2 hs
  subst e2
  have back : ∀ k, Visited p k → ∃ q, PathWf q ∧ k = keyOf [] q ∧ p.getChildren k ≠ none := by
    intro k hv
    induction hv with
    | top => exact ⟨[], trivial, rfl, by rw [e1]; simp⟩
    | @child b k c _ hc hk ih =>
      obtain ⟨q, hq, rfl, _⟩ := ih
      have : ∃ k', PathWf (q ++ [k']) ∧ k = keyOf [] (q ++ [k']) := by
        by_cases hne : q = []
        · subst hne
          rw [show keyOf [] [] = ([] : Str) from rfl, e1] at hc
          cases hc
          simp [Children.combineChildKeys, show keyOf [] [] = ([] : Str) from rfl] at hk
          exact ⟨.str k, PathWf.push (kc := []) trivial (h.wf [] k trivial _ h.noTop hk), rfl⟩
        · obtain ⟨k', hk', rfl⟩ := (mem_combine hq hne).mp hk
          rw [h.ans.children q hq hne] at hc
          exact ⟨k', PathWf.pushKey hq hne (fun s hs => by subst hs; exact h.wf q s hq c hc hk'), rfl⟩
      obtain ⟨k', hw, rfl⟩ := this
      exact ⟨_, hw, rfl, (h.child hw (.inr hs)).mpr ⟨c, hc, hk⟩⟩
  constructor
  · intro hv
    obtain ⟨_, _, _, h3⟩ := back k hv
    exact h3
  · intro hc
    by_cases hk : k = []
    · subst hk; exact .top
    · have : ∃ q, PathWf q ∧ k = keyOf [] q := by
        apply Classical.byContradiction
        intro hno
        exact hc (h.ans.other k hk hr (fun q hq e => hno ⟨q, hq, e⟩)).2
      obtain ⟨q, hq, rfl⟩ := this
      clear hk hr
      induction hn : q.length generalizing q with
      | zero =>
        cases q with
        | nil => exact .top
        | cons _ _ => simp at hn
      | succ n ih =>
        rcases List.eq_nil_or_concat q with rfl | ⟨q', x, hx⟩
        · simp at hn
        · rw [List.concat_eq_append] at hx
          subst hx
          obtain ⟨c, h1, h2⟩ := (h.child hq (.inr hs)).mp hc
          exact .child (ih q' hq.left (by rw [h1]; simp) (by simpa using hn)) h1 h2

/-- Stray names are names. -/
theorem stray_wf : ∀ (ls : List (Str × ET)) {D : Sections}, (∀ k ∈ D.stray, KeyWf k) → (∀ l ∈ ls, l.2.wf) → ∀ k ∈ (ls.foldl (fun D l => D.step l.2) D).stray, KeyWf k
  | [], _, h, _ => h
  | l :: ls, D, h, hw => by
    refine stray_wf ls (D := D.step l.2) ?_ (fun x hx => hw x (by simp [hx]))
    have hl := hw l (by simp)
    generalize l.2 = e at hl
    cases e with
    | blank w => exact h
    | comment w c => exact h
    | kv w1 k s v w2 c => exact h
    | table w1 t w2 c =>
      cases t with
      | arr t => exact h
      | std t =>
        intro k hk
        simp only [step] at hk
        split at hk
        · rcases List.mem_append.mp hk with hk | hk
          · exact h k hk
          · simp only [List.mem_singleton] at hk
            have hw : (TableType.std t).wf := hl.2.1
            have hne : t.names ≠ [] := by
              have : t.keys ≠ [] := hw.1
              simpa [Table.names] using this
            have hm : k ∈ t.names := by
              rw [hk, List.getLastD_eq_getLast?, List.getLast?_eq_some_getLast hne]
              exact List.getLast_mem hne
            simp [Table.names] at hm
            obtain ⟨x, hx, rfl⟩ := hm
            exact (hw.2 x hx).2
        · exact h k hk

/-- A walk visits what exists, and the stray names. -/
theorem Walks.visited_all {D : Sections} {p : Parser} (h : D.Walks p) (hs : ∀ k ∈ D.stray, KeyWf k) {k : Str} (hr : k ≠ root) :
    Visited p k ↔ p.getChildren k ≠ none ∨ k ∈ D.stray := by
  obtain ⟨l, e1, _, e2⟩ := h.ans.top
  have back : ∀ k, Visited p k → k ∈ D.stray ∧ p.getChildren k = none ∨ ∃ q, PathWf q ∧ k = keyOf [] q ∧ p.getChildren k ≠ none := by
    intro k hv
    induction hv with
    | top => exact .inr ⟨[], trivial, rfl, by rw [e1]; simp⟩
    | @child b k c _ hc hk ih =>
      rcases ih with ⟨_, ih⟩ | ⟨q, hq, rfl, _⟩
      · rw [ih] at hc; simp at hc
      · by_cases hne : q = []
        · subst hne
          rw [show keyOf [] [] = ([] : Str) from rfl, e1] at hc
          cases hc
          simp [Children.combineChildKeys, show keyOf [] [] = ([] : Str) from rfl] at hk
          rcases (e2 k).mp hk with hk | hk
          · have hw : PathWf [Key.str k] := PathWf.push (kc := []) trivial (h.wf [] k trivial _ h.noTop hk)
            refine .inr ⟨[.str k], hw, rfl, ?_⟩
            have := (h.listed [] (.str k) hw).mpr ⟨_, h.noTop, hk⟩
            have e := h.ans.children [.str k] hw (by simp)
            rw [show keyOf [] [Key.str k] = k from rfl] at e
            rw [e]; exact this
          · by_cases hg : p.getChildren k = none
            · exact .inl ⟨hk, hg⟩
            · exact .inr ⟨[.str k], PathWf.push (kc := []) trivial (hs k hk), rfl, hg⟩
        · obtain ⟨k', hk', rfl⟩ := (mem_combine hq hne).mp hk
          have hc' := hc
          rw [h.ans.children q hq hne] at hc
          have hw : PathWf (q ++ [k']) := PathWf.pushKey hq hne (fun s hs => by subst hs; exact h.wf q s hq c hc hk')
          exact .inr ⟨_, hw, rfl, (h.child hw (.inl hne)).mpr ⟨c, hc', hk⟩⟩
  constructor
  · intro hv
    rcases back k hv with ⟨h1, _⟩ | ⟨_, _, _, h3⟩
    · exact .inr h1
    · exact .inl h3
  · rintro (hc | hc)
    · by_cases hk : k = []
      · subst hk; exact .top
      · have : ∃ q, PathWf q ∧ k = keyOf [] q := by
          apply Classical.byContradiction
          intro hno
          exact hc (h.ans.other k hk hr (fun q hq e => hno ⟨q, hq, e⟩)).2
        obtain ⟨q, hq, rfl⟩ := this
        clear hk hr
        induction hn : q.length generalizing q with
        | zero =>
          cases q with
          | nil => exact .top
          | cons _ _ => simp at hn
        | succ n ih =>
          rcases List.eq_nil_or_concat q with rfl | ⟨q', x, hx⟩
          · simp at hn
          · rw [List.concat_eq_append] at hx
            subst hx
            by_cases hne : q' = []
            · subst hne
              cases x with
              | idx i => exact hq.elim
              | str k =>
                have h1 := hc
                rw [h.ans.children _ hq (by simp), h.listed [] (.str k) hq] at h1
                obtain ⟨c, h1, h2⟩ := h1
                rw [h.noTop] at h1
                cases h1
                refine .child .top e1 ?_
                simp only [Children.combineChildKeys, if_neg (show ¬ (([] : Str) ≠ []) by simp), List.mem_map]
                refine ⟨k, (e2 k).mpr (.inl h2), rfl⟩
            · obtain ⟨c, h1, h2⟩ := (h.child hq (.inl hne)).mp hc
              exact .child (ih q' hq.left (by rw [h1]; simp) (by simpa using hn)) h1 h2
    · refine .child .top e1 ?_
      simp only [Children.combineChildKeys, if_neg (show ¬ (([] : Str) ≠ []) by simp), List.mem_map]
      exact ⟨k, (e2 k).mpr (.inr hc), rfl⟩

/-- What has a value is visited. -/
theorem Walks.value {D : Sections} {p : Parser} (h : D.Walks p) {k : Str} (hk : k ≠ []) (hr : k ≠ root) (hv : p.getValue k ≠ .ok none) : p.getChildren k ≠ none := by
  have : ∃ q, PathWf q ∧ k = keyOf [] q := by
    apply Classical.byContradiction
    intro hno
    exact hv (h.ans.other k hk hr (fun q hq e => hno ⟨q, hq, e⟩)).1
  obtain ⟨q, hq, rfl⟩ := this
  have hne : q ≠ [] := by rintro rfl; exact hk rfl
  rw [h.ans.value q hq hne] at hv
  rw [h.ans.children q hq hne]
  unfold childrenAt
  cases hq' : D.valueAt q with
  | some t => simp
  | none =>
    rw [hq'] at hv
    dsimp only at hv
    cases D.count q with
    | some n => simp
    | none =>
      split at hv
      next hh => simp [show D.isTable q from .inr (.inl hh)]
      · exact absurd rfl hv

end Sections
end Tomllib
