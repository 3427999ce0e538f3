import Verif.Spec.Order
import Verif.Lemmas.Commute
/-!
# Lines in another order
-/

namespace Tomllib

/-! ## Equal values -/

theorem Elems.kinds_values : ∀ (t : Elems), t.kinds.length = t.values.length
  | .nil => rfl
  | .cons _ _ _ r => by simp [Elems.kinds, Elems.values, Elems.kinds_values r]

theorem Pairs.keys_values : ∀ (t : Pairs), t.keys = t.values.map (·.1)
  | .nil => rfl
  | .cons _ _ _ _ _ r => by simp [Pairs.keys, Pairs.values, Pairs.keys_values r]

theorem VT.children_value {t t' : VT} (h : t.value = t'.value) : t.children = t'.children := by
  cases t with
  | leaf s => cases t' with
    | leaf => rfl
    | arr => cases s <;> simp [VT.value, Scalar.value] at h
    | itab => cases s <;> simp [VT.value, Scalar.value] at h
  | arr es c1 c2 => cases t' with
    | leaf s => cases s <;> simp [VT.value, Scalar.value] at h
    | arr => simp only [VT.value, Value.arr.injEq] at h; simp only [VT.children, Elems.kinds_values, h]
    | itab => simp [VT.value] at h
  | itab kvs ws => cases t' with
    | leaf s => cases s <;> simp [VT.value, Scalar.value] at h
    | arr => simp [VT.value] at h
    | itab => simp only [VT.value, Value.itab.injEq] at h; simp only [VT.children, Pairs.keys_values, h]

mutual
theorem VT.part_alike : ∀ (t t' : VT) (q : List Key), t.value = t'.value → (t.part q).map VT.value = (t'.part q).map VT.value
  | t, t', [], h => by rw [VT.part_nil, VT.part_nil]; simp [h]
  | .leaf s, .leaf s', .idx _ :: _, _ => rfl
  | .leaf s, .leaf s', .str _ :: _, _ => rfl
  | .leaf s, .arr .., _ :: _, h => by cases s <;> simp [VT.value, Scalar.value] at h
  | .leaf s, .itab .., _ :: _, h => by cases s <;> simp [VT.value, Scalar.value] at h
  | .arr .., .leaf s, _ :: _, h => by cases s <;> simp [VT.value, Scalar.value] at h
  | .itab .., .leaf s, _ :: _, h => by cases s <;> simp [VT.value, Scalar.value] at h
  | .arr .., .itab .., _ :: _, h => by simp [VT.value] at h
  | .itab .., .arr .., _ :: _, h => by simp [VT.value] at h
  | .arr es _ _, .arr es' _ _, .str _ :: _, _ => rfl
  | .itab _ _, .itab _ _, .idx _ :: _, _ => rfl
  | .arr es _ _, .arr es' _ _, .idx i :: q, h => by
    simp only [VT.part]
    exact Elems.part_alike es es' i q (by simpa [VT.value] using h)
  | .itab kvs _, .itab kvs' _, .str k :: q, h => by
    simp only [VT.part]
    exact Pairs.part_alike kvs kvs' k q (by simpa [VT.value] using h)
theorem Elems.part_alike : ∀ (t t' : Elems) (i : Nat) (q : List Key), t.values = t'.values → (t.part i q).map VT.value = (t'.part i q).map VT.value
  | .nil, .nil, _, _, _ => rfl
  | .nil, .cons .., _, _, h => by simp [Elems.values] at h
  | .cons .., .nil, _, _, h => by simp [Elems.values] at h
  | .cons v _ _ r, .cons v' _ _ r', 0, q, h => by
    simp only [Elems.values, List.cons.injEq] at h
    exact VT.part_alike v v' q h.1
  | .cons v _ _ r, .cons v' _ _ r', i + 1, q, h => by
    simp only [Elems.values, List.cons.injEq] at h
    exact Elems.part_alike r r' i q h.2
theorem Pairs.part_alike : ∀ (t t' : Pairs) (k : Str) (q : List Key), t.values = t'.values → (t.part k q).map VT.value = (t'.part k q).map VT.value
  | .nil, .nil, _, _, _ => rfl
  | .nil, .cons .., _, _, h => by simp [Pairs.values] at h
  | .cons .., .nil, _, _, h => by simp [Pairs.values] at h
  | .cons k0 _ v _ _ r, .cons k1 _ v' _ _ r', k, q, h => by
    simp only [Pairs.values, List.cons.injEq, Prod.mk.injEq] at h
    obtain ⟨⟨rfl, h1⟩, h2⟩ := h
    simp only [Pairs.part]
    split
    · exact VT.part_alike v v' q h1
    · exact Pairs.part_alike r r' k q h2
end

/-! ## The same things said -/

namespace Sections

/-- Two documents say the same, in some order. -/
structure Says (D D' : Sections) : Prop where
  vals : ∀ e ∈ D.vals, ∃ e' ∈ D'.vals, e'.1 = e.1 ∧ e'.2.value = e.2.value
  heads : ∀ p, p ∈ D.heads ↔ p ∈ D'.heads
  names : ∀ e, e ∈ D.names ↔ e ∈ D'.names
  arrs : ∀ e, e ∈ D.arrs ↔ e ∈ D'.arrs
  count : ∀ p, D.count p = D'.count p
  stray : ∀ k, k ∈ D.stray ↔ k ∈ D'.stray

theorem Says.sub {D D' : Sections} (h : D.Says D') (hp' : D'.vals.Pairwise Apart) {q : List Key} {t : VT} (hv : D.valueAt q = some t) :
    ∃ t', D'.valueAt q = some t' ∧ t'.value = t.value := by
  obtain ⟨e, s, he, rfl, h1⟩ := valueAt_entry hv
  obtain ⟨e', he', h2, h3⟩ := h.vals e he
  have h4 := valueAt_apart hp' he' s
  rw [h2] at h4
  have h5 := VT.part_alike _ _ s h3
  rw [h1] at h5
  cases h6 : e'.2.part s with
  | none => rw [h6] at h5; simp at h5
  | some t' =>
    rw [h6] at h5
    simp at h5
    exact ⟨t', by rw [h4, h6], h5⟩

theorem Says.table {D D' : Sections} (h : D.Says D') (q : List Key) : D.isTable q ↔ D'.isTable q := by
  unfold isTable
  have ha : (∃ e ∈ D.arrs, q = e.1 ++ [.idx (e.2 - 1)]) ↔ ∃ e ∈ D'.arrs, q = e.1 ++ [.idx (e.2 - 1)] :=
    ⟨fun ⟨e, h1, h2⟩ => ⟨e, (h.arrs e).mp h1, h2⟩, fun ⟨e, h1, h2⟩ => ⟨e, (h.arrs e).mpr h1, h2⟩⟩
  rw [h.heads, ha]
  have : (∃ e ∈ D.names, e.1 = q) ↔ ∃ e ∈ D'.names, e.1 = q :=
    ⟨fun ⟨e, h1, h2⟩ => ⟨e, (h.names e).mp h1, h2⟩, fun ⟨e, h1, h2⟩ => ⟨e, (h.names e).mpr h1, h2⟩⟩
  rw [this]

end Sections

theorem SameKids.refl (c : Option Children) : SameKids c c := by
  cases c with
  | none => trivial
  | some c => cases c with
    | count n => rfl
    | keys l => exact List.Perm.refl _

/-- Two parsers of documents that say the same give the same answers. -/
theorem Sections.Says.answers {ls ls' : List (Str × ET)} {p p' : Parser} {fp fp' : List Addr} (hd : (Sections.read ls).Says (Sections.read ls'))
    (hd' : (Sections.read ls').Says (Sections.read ls)) (h : Hist ls p fp) (h' : Hist ls' p' fp')
    (hn : ∀ k l, p.getChildren k = some (.keys l) → l.Nodup) (hn' : ∀ k l, p'.getChildren k = some (.keys l) → l.Nodup) (k : Str) :
    p.getValue k = p'.getValue k ∧ SameKids (p.getChildren k) (p'.getChildren k) := by
  have hperm : ∀ l l' : List Str, l.Nodup → l'.Nodup → (∀ x, x ∈ l ↔ x ∈ l') → l.Perm l' := fun l l' a b c => (List.perm_ext_iff_of_nodup a b).mpr c
  have htop : SameKids (p.getChildren []) (p'.getChildren []) := by
    obtain ⟨l, a1, -, a2⟩ := h.answers.top
    obtain ⟨l', b1, -, b2⟩ := h'.answers.top
    rw [a1, b1]
    refine hperm l l' (hn _ _ a1) (hn' _ _ b1) fun x => ?_
    rw [a2, b2, mem_namesOf, mem_namesOf, hd.names, hd.stray]
  by_cases h1 : k = []
  · subst h1
    exact ⟨by rw [h.nil_value, h'.nil_value], htop⟩
  · by_cases h2 : k = root
    · subst h2
      refine ⟨?_, ?_⟩
      · rw [h.root_value, h'.root_value]
        simp only [hd.heads]
      · have e : ∀ p : Parser, p.getChildren root = p.getChildren [] := fun p => by simp [Parser.getChildren, root]
        rw [e, e]; exact htop
    · by_cases hq : ∃ q, PathWf q ∧ k = keyOf [] q
      · obtain ⟨q, hq, rfl⟩ := hq
        have hne : q ≠ [] := by rintro rfl; exact h1 rfl
        have a := h.answers.children q hq hne
        have b := h'.answers.children q hq hne
        rw [h.answers.value q hq hne, h'.answers.value q hq hne]
        cases hv : (Sections.read ls).valueAt q with
        | some t =>
          obtain ⟨t', e1, e2⟩ := hd.sub h'.apart hv
          rw [e1]
          refine ⟨by simp [e2], ?_⟩
          rw [a, b]
          unfold Sections.childrenAt
          rw [hv, e1]
          dsimp only
          rw [VT.children_value e2]
          exact SameKids.refl _
        | none =>
          have hv' : (Sections.read ls').valueAt q = none := by
            cases e : (Sections.read ls').valueAt q with
            | none => rfl
            | some t =>
              obtain ⟨t', e1, -⟩ := hd'.sub h.apart e
              rw [hv] at e1; simp at e1
          rw [hv']
          refine ⟨by simp only [hd.heads], ?_⟩
          have ec : (Sections.read ls').count q = (Sections.read ls).count q := (hd.count q).symm
          unfold Sections.childrenAt at a b
          rw [hv] at a
          rw [hv', ec] at b
          dsimp only at a b
          cases e : (Sections.read ls).count q with
          | some n => rw [e] at a b; rw [a, b]; exact SameKids.refl _
          | none =>
            rw [e] at a b
            dsimp only at a b
            by_cases ht : (Sections.read ls).isTable q
            · rw [if_pos ht] at a
              rw [if_pos ((hd.table q).mp ht)] at b
              rw [a, b]
              refine hperm _ _ (hn _ _ a) (hn' _ _ b) fun x => ?_
              rw [mem_namesOf, mem_namesOf, hd.names]
            · rw [if_neg ht] at a
              rw [if_neg fun g => ht ((hd.table q).mpr g)] at b
              rw [a, b]; trivial
      · have hq' : ∀ q, PathWf q → k ≠ keyOf [] q := fun q g1 g2 => hq ⟨q, g1, g2⟩
        obtain ⟨a1, a2⟩ := h.answers.other k h1 h2 hq'
        obtain ⟨b1, b2⟩ := h'.answers.other k h1 h2 hq'
        rw [a1, a2, b1, b2]
        exact ⟨rfl, trivial⟩

/-! ## Changing places -/

namespace Sections

/-- The same but for the order of the pairs. -/
structure Mixed (D D' : Sections) : Prop where
  vals : ∀ e, e ∈ D.vals ↔ e ∈ D'.vals
  names : ∀ e, e ∈ D.names ↔ e ∈ D'.names
  heads : D'.heads = D.heads
  arrs : D'.arrs = D.arrs
  here : D'.here = D.here
  opened : D'.opened = D.opened
  stray : D'.stray = D.stray

theorem Mixed.refl (D : Sections) : D.Mixed D := ⟨fun _ => .rfl, fun _ => .rfl, rfl, rfl, rfl, rfl, rfl⟩

theorem Mixed.says {D D' : Sections} (h : D.Mixed D') : D.Says D' ∧ D'.Says D :=
  ⟨⟨fun e he => ⟨e, (h.vals e).mp he, rfl, rfl⟩, fun p => by rw [h.heads], h.names, fun e => by rw [h.arrs], fun p => (count_congr h.arrs p).symm, fun k => by rw [h.stray]⟩,
   ⟨fun e he => ⟨e, (h.vals e).mpr he, rfl, rfl⟩, fun p => by rw [h.heads], fun e => (h.names e).symm, fun e => by rw [h.arrs], fun p => count_congr h.arrs p, fun k => by rw [h.stray]⟩⟩

theorem Mixed.count {D D' : Sections} (h : D.Mixed D') (p : List Key) : D'.count p = D.count p := count_congr h.arrs p

theorem Mixed.enter {D D' : Sections} (h : D.Mixed D') (p : List Key) : D'.enter p = D.enter p := by unfold Sections.enter; rw [h.count]

theorem Mixed.path {D D' : Sections} (h : D.Mixed D') : ∀ (N : List Str) (p : List Key), D'.path p N = D.path p N
  | [], _ => rfl
  | k :: N, p => by simp only [Sections.path, h.enter, h.path N]

theorem Mixed.way {D D' : Sections} (h : D.Mixed D') : ∀ (N : List Str) (p : List Key), D'.way p N = D.way p N
  | [], _ => rfl
  | k :: N, p => by simp only [Sections.way, h.enter, h.way N]

theorem Mixed.target {D D' : Sections} (h : D.Mixed D') (N : List Str) : D'.target N = D.target N := by unfold Sections.target; rw [h.path]

theorem Mixed.none {D D' : Sections} (h : D.Mixed D') (p : List Key) : (D'.valueAt p).isNone = true ↔ (D.valueAt p).isNone = true := by
  rw [Option.isNone_iff_eq_none, Option.isNone_iff_eq_none, valueAt_none, valueAt_none]
  exact ⟨fun g e he => g e ((h.vals e).mp he), fun g e he => g e ((h.vals e).mpr he)⟩

theorem Mixed.table {D D' : Sections} (h : D.Mixed D') (p : List Key) : D'.isTable p ↔ D.isTable p := (h.says.1.table p).symm

theorem Mixed.step {D D' : Sections} (h : D.Mixed D') (e : ET) : (D.step e).Mixed (D'.step e) := by
  cases e with
  | blank w => exact h
  | comment w c => exact h
  | kv w1 k s v w2 c =>
    refine ⟨fun e => ?_, fun e => ?_, h.heads, h.arrs, h.here, h.opened, h.stray⟩
    · simp only [Sections.step, List.mem_append, h.vals, h.here]
    · simp only [Sections.step, List.mem_append, h.names, h.here]
  | table w1 t w2 c =>
    cases t with
    | std t =>
      refine ⟨h.vals, fun e => ?_, ?_, h.arrs, ?_, ?_, ?_⟩ <;> simp only [Sections.step, h.heads, h.opened, h.stray, h.target, h.way]
      simp only [List.mem_append, h.names]
    | arr t =>
      refine ⟨h.vals, fun e => ?_, h.heads, ?_, ?_, ?_, h.stray⟩ <;> simp only [Sections.step, h.arrs, h.opened, h.target, h.way, h.count]
      simp only [List.mem_append, h.names]

theorem Mixed.fits {D D' : Sections} (h : D.Mixed D') {e : ET} (hf : D.fits e) : D'.fits e := by
  cases e with
  | blank w => trivial
  | comment w c => trivial
  | kv w1 k s v w2 c => exact ⟨by rw [h.here, ← h.names]; exact hf.1, hf.2⟩
  | table w1 t w2 c =>
    cases t with
    | std t =>
      obtain ⟨h1, h2, h3, h4, h5⟩ := hf
      refine ⟨fun a ha => ?_, ?_, ?_, ?_, ?_⟩
      · rw [h.target, h.none, h.count, h.opened]; exact h1 a ha
      · rw [h.target, h.heads]; exact h2
      · rw [h.opened, h.path]; exact fun g1 g2 e he => h3 g1 g2 e ((h.vals e).mpr he)
      · unfold apart; rw [h.opened]; exact h4
      · unfold clear; rw [h.stray, ← h.names]; exact h5
    | arr t =>
      obtain ⟨h1, h2, h4, h5⟩ := hf
      refine ⟨fun a ha => ?_, ?_, ?_, ?_⟩
      · rw [h.target, h.none, h.count, h.opened]; exact h1 a ha
      · rw [h.opened, h.target, h.table, h.count]; exact h2
      · unfold apart; rw [h.opened]; exact h4
      · unfold clear; rw [h.stray, ← h.names]; exact h5

/-- The lines without the line breaks. -/
abbrev FitsE (D : Sections) (es : List ET) : Prop := D.Fits (es.map fun e => (([] : Str), e))

theorem fitsE : ∀ {D : Sections} (ls : List (Str × ET)), D.Fits ls ↔ D.FitsE (ls.map (·.2))
  | _, [] => .rfl
  | D, l :: ls => by
    show D.fits l.2 ∧ _ ↔ D.fits l.2 ∧ _
    rw [fitsE ls]

abbrev readE (D : Sections) (es : List ET) : Sections := es.foldl Sections.step D

theorem readE_eq (ls : List (Str × ET)) : Sections.read ls = readE {} (ls.map (·.2)) := by
  unfold Sections.read readE
  rw [List.foldl_map]

/-- Two lines which are not headers may change places. -/
theorem fits_swap {D : Sections} {e e' : ET} (he : e.isHeader = false) (he' : e'.isHeader = false) (h : D.fits e) (h' : (D.step e).fits e') :
    D.fits e' ∧ (D.step e').fits e ∧ ((D.step e).step e').Mixed ((D.step e').step e) := by
  cases e with
  | table => simp [ET.isHeader] at he
  | blank w => exact ⟨h', trivial, .refl _⟩
  | comment w c => exact ⟨h', trivial, .refl _⟩
  | kv w1 k s v w2 c =>
    cases e' with
    | table => simp [ET.isHeader] at he'
    | blank w => exact ⟨trivial, h, .refl _⟩
    | comment w c => exact ⟨trivial, h, .refl _⟩
    | kv w1' k' s' v' w2' c' =>
      simp only [Sections.fits, Sections.step, List.mem_append, List.mem_singleton, not_or, Prod.mk.injEq, true_and] at h h' ⊢
      obtain ⟨⟨h1, h2⟩, h3⟩ := h'
      refine ⟨⟨h1, h3⟩, ⟨⟨h.1, fun g => ?_⟩, h.2⟩, ⟨fun x => ?_, fun x => ?_, rfl, rfl, rfl, rfl, rfl⟩⟩
      all_goals grind

theorem Shuffled.mixed {es es' : List ET} (h : Shuffled es es') : ∀ {D D' : Sections}, D.Mixed D' → D.FitsE es → D'.FitsE es' ∧ (D.readE es).Mixed (D'.readE es') := by
  induction h with
  | nil => exact fun h _ => ⟨trivial, h⟩
  | cons e _ ih =>
    intro D D' h hf
    obtain ⟨g1, g2⟩ := ih (h.step e) hf.2
    exact ⟨⟨h.fits hf.1, g1⟩, g2⟩
  | swap l he he' =>
    rename_i e e'
    intro D D' h hf
    obtain ⟨h1, h2, h3⟩ := hf
    have h1' := h.fits h1
    have h2' := (h.step e).fits h2
    obtain ⟨g1, g2, g3⟩ := fits_swap he he' h1' h2'
    have hm : ((D.step e).step e').Mixed ((D'.step e').step e) := by
      have := (h.step e).step e'
      exact ⟨fun x => (this.vals x).trans (g3.vals x), fun x => (this.names x).trans (g3.names x), g3.heads.trans this.heads, g3.arrs.trans this.arrs,
        g3.here.trans this.here, g3.opened.trans this.opened, g3.stray.trans this.stray⟩
    have hrest : ∀ (l : List ET) {D D' : Sections}, D.Mixed D' → D.FitsE l → D'.FitsE l ∧ (D.readE l).Mixed (D'.readE l) := by
      intro l
      induction l with
      | nil => exact fun h _ => ⟨trivial, h⟩
      | cons x l ih =>
        intro D D' h hf
        obtain ⟨g1, g2⟩ := ih (h.step x) hf.2
        exact ⟨⟨h.fits hf.1, g1⟩, g2⟩
    obtain ⟨r1, r2⟩ := hrest l hm h3
    exact ⟨⟨g1, g2, r1⟩, r2⟩
  | trans _ _ ih1 ih2 =>
    intro D D' h hf
    obtain ⟨g1, g2⟩ := ih1 h hf
    obtain ⟨g3, g4⟩ := ih2 (.refl D') g1
    exact ⟨g3, ⟨fun x => (g2.vals x).trans (g4.vals x), fun x => (g2.names x).trans (g4.names x), g4.heads.trans g2.heads, g4.arrs.trans g2.arrs,
        g4.here.trans g2.here, g4.opened.trans g2.opened, g4.stray.trans g2.stray⟩⟩

/-! ## What is put where -/

/-- Without arrays of tables. -/
structure Flat (D : Sections) (h : List Str) : Prop where
  here : D.here = h.map Key.str
  arrs : D.arrs = []
  opened : D.opened = []
  stray : D.stray = []

theorem path_flat {D : Sections} (ha : D.arrs = []) : ∀ (N : List Str) (p : List Key), D.path p N = p ++ N.map Key.str
  | [], p => by simp [path]
  | k :: N, p => by
    have : D.enter (p ++ [Key.str k]) = p ++ [Key.str k] := by simp [enter, Sections.count, ha]
    rw [path, this, path_flat ha N]
    simp

theorem way_flat {D : Sections} (ha : D.arrs = []) : ∀ (N : List Str) (p : List Key) (e : List Key × Str), e ∈ D.way p N ↔ ∃ N1 N2, N = N1 ++ e.2 :: N2 ∧ e.1 = p ++ N1.map Key.str
  | [], p, e => by simp [way]
  | k :: N, p, e => by
    have h0 : D.enter (p ++ [Key.str k]) = p ++ [Key.str k] := by simp [enter, Sections.count, ha]
    rw [way, h0, List.mem_cons, way_flat ha N]
    constructor
    · rintro (rfl | ⟨N1, N2, h1, h2⟩)
      · exact ⟨[], N, rfl, by simp⟩
      · exact ⟨k :: N1, N2, by simp [h1], by simp [h2]⟩
    · rintro ⟨N1, N2, h1, h2⟩
      cases N1 with
      | nil =>
        simp at h1 h2
        left
        obtain ⟨e1, e2⟩ := e
        simp at h1 h2
        rw [h1.1, h2]
      | cons x N1 =>
        simp at h1
        right
        exact ⟨N1, N2, h1.2, by simp [h2, h1.1]⟩

theorem target_flat {D : Sections} (ha : D.arrs = []) {N : List Str} (hN : N ≠ []) : D.target N = N.map Key.str := by
  rw [target, path_flat ha, List.nil_append]
  conv => rhs; rw [← List.dropLast_concat_getLast hN]
  rw [List.getLastD_eq_getLast?, List.getLast?_eq_some_getLast hN]
  simp

/-- What something that is filed gives. -/
def GivesVal (F : List (List Str × Option (Str × Value))) (q : List Key) (v : Value) : Prop := ∃ h k, (h, some (k, v)) ∈ F ∧ q = h.map Key.str ++ [.str k]
def GivesHead (F : List (List Str × Option (Str × Value))) (q : List Key) : Prop := ∃ N, (N, none) ∈ F ∧ q = N.map Key.str
def GivesName (F : List (List Str × Option (Str × Value))) (e : List Key × Str) : Prop :=
  (∃ h v, (h, some (e.2, v)) ∈ F ∧ e.1 = h.map Key.str) ∨ ∃ N, (N, none) ∈ F ∧ ∃ N1 N2, N = N1 ++ e.2 :: N2 ∧ e.1 = N1.map Key.str

theorem filed_flat : ∀ (es : List ET) {D : Sections} {h : List Str}, D.Flat h → (∀ e ∈ es, e.noArray = true) → (∀ e ∈ es, ∀ w1 t w2 c, e = .table w1 t w2 c → t.table.names ≠ []) →
    (D.readE es).arrs = [] ∧ (D.readE es).stray = [] ∧
    (∀ q v, (∃ e ∈ (D.readE es).vals, e.1 = q ∧ e.2.value = v) ↔ (∃ e ∈ D.vals, e.1 = q ∧ e.2.value = v) ∨ GivesVal (filed h es) q v) ∧
    (∀ q, q ∈ (D.readE es).heads ↔ q ∈ D.heads ∨ GivesHead (filed h es) q) ∧
    (∀ e, e ∈ (D.readE es).names ↔ e ∈ D.names ∨ GivesName (filed h es) e)
  | [], D, h, hD, _, _ => by
    refine ⟨hD.arrs, hD.stray, ?_, ?_, ?_⟩ <;> simp [filed, GivesVal, GivesHead, GivesName, readE]
  | e :: es, D, h, hD, ha, hN => by
    have ha' : ∀ e ∈ es, e.noArray = true := fun x hx => ha x (by simp [hx])
    have hN' : ∀ e ∈ es, ∀ w1 t w2 c, e = .table w1 t w2 c → t.table.names ≠ [] := fun x hx => hN x (by simp [hx])
    cases e with
    | blank w => exact filed_flat es hD ha' hN'
    | comment w c => exact filed_flat es hD ha' hN'
    | kv w1 k s v w2 c =>
      obtain ⟨h1, h2, h3, h4, h5⟩ := filed_flat es (D := D.step (.kv w1 k s v w2 c)) (h := h) ⟨hD.here, hD.arrs, hD.opened, hD.stray⟩ ha' hN'
      refine ⟨h1, h2, fun q x => ?_, fun q => ?_, fun x => ?_⟩
      · refine (h3 q x).trans ?_
        simp only [Sections.step, List.mem_append, List.mem_cons, List.not_mem_nil, or_false, filed, GivesVal, Prod.mk.injEq, Option.some.injEq, hD.here]
        constructor
        · rintro (⟨e, he | he, h6, h7⟩ | ⟨h', k', h6, h7⟩)
          · exact .inl ⟨e, he, h6, h7⟩
          · subst he
            exact .inr ⟨h, k, .inl ⟨rfl, rfl, h7.symm⟩, h6.symm⟩
          · exact .inr ⟨h', k', .inr h6, h7⟩
        · rintro (⟨e, he, h6, h7⟩ | ⟨h', k', ⟨rfl, rfl, h6⟩ | h6, h7⟩)
          · exact .inl ⟨e, .inl he, h6, h7⟩
          · exact .inl ⟨_, .inr rfl, h7.symm, h6.symm⟩
          · exact .inr ⟨h', k', h6, h7⟩
      · refine (h4 q).trans ?_
        simp [Sections.step, filed, GivesHead]
      · refine (h5 x).trans ?_
        obtain ⟨x1, x2⟩ := x
        simp only [Sections.step, List.mem_append, List.mem_cons, List.not_mem_nil, or_false, filed, GivesName, Prod.mk.injEq, Option.some.injEq, hD.here, reduceCtorEq, and_false, false_or]
        constructor
        · rintro ((h6 | ⟨h6, h7⟩) | ⟨h', v', h6, h7⟩ | h6)
          · exact .inl h6
          · exact .inr (.inl ⟨h, v.value, .inl ⟨rfl, h7, rfl⟩, h6⟩)
          · exact .inr (.inl ⟨h', v', .inr h6, h7⟩)
          · exact .inr (.inr h6)
        · rintro (h6 | ⟨h', v', ⟨rfl, h6, _⟩ | h6, h7⟩ | h6)
          · exact .inl (.inl h6)
          · exact .inl (.inr ⟨h7, h6⟩)
          · exact .inr (.inl ⟨h', v', h6, h7⟩)
          · exact .inr (.inr h6)
    | table w1 t w2 c =>
      cases t with
      | arr t => have := ha _ List.mem_cons_self; simp [ET.noArray] at this
      | std t =>
        have hne : t.names ≠ [] := hN _ List.mem_cons_self _ _ _ _ rfl
        have ht := target_flat hD.arrs hne
        obtain ⟨h1, h2, h3, h4, h5⟩ := filed_flat es (D := D.step (.table w1 (.std t) w2 c)) (h := t.names)
          ⟨ht, hD.arrs, by simp [Sections.step, hD.opened], by simp [Sections.step, hD.opened, hD.stray]⟩ ha' hN'
        refine ⟨h1, h2, fun q x => ?_, fun q => ?_, fun x => ?_⟩
        · refine (h3 q x).trans ?_
          simp [Sections.step, filed, GivesVal, TableType.table]
        · refine (h4 q).trans ?_
          simp only [Sections.step, List.mem_append, List.mem_cons, List.not_mem_nil, or_false, filed, GivesHead, Prod.mk.injEq, and_true, TableType.table, ht]
          constructor
          · rintro ((h6 | h6) | ⟨N, h6, h7⟩)
            · exact .inl h6
            · exact .inr ⟨_, .inl rfl, h6⟩
            · exact .inr ⟨N, .inr h6, h7⟩
          · rintro (h6 | ⟨N, rfl | h6, h7⟩)
            · exact .inl (.inl h6)
            · exact .inl (.inr h7)
            · exact .inr ⟨N, h6, h7⟩
        · refine (h5 x).trans ?_
          simp only [Sections.step, List.mem_append, filed, GivesName, List.mem_cons, Prod.mk.injEq, and_true, TableType.table, way_flat hD.arrs, List.nil_append, reduceCtorEq,
            and_false, false_or]
          constructor
          · rintro ((h6 | h6) | h6 | ⟨N, h6, h7⟩)
            · exact .inl h6
            · exact .inr (.inr ⟨_, .inl rfl, h6⟩)
            · exact .inr (.inl h6)
            · exact .inr (.inr ⟨N, .inr h6, h7⟩)
          · rintro (h6 | h6 | ⟨N, rfl | h6, h7⟩)
            · exact .inl (.inl h6)
            · exact .inr (.inl h6)
            · exact .inl (.inr h7)
            · exact .inr (.inr ⟨N, h6, h7⟩)

theorem says_filed {ls ls' : List (Str × ET)} (hw : DocWf ls) (hw' : DocWf ls') (ha : ∀ l ∈ ls, l.2.noArray = true) (ha' : ∀ l ∈ ls', l.2.noArray = true)
    (h : ∀ x, x ∈ filed [] (ls.map (·.2)) ↔ x ∈ filed [] (ls'.map (·.2))) : (Sections.read ls).Says (Sections.read ls') := by
  have hf : ∀ {ls : List (Str × ET)}, DocWf ls → (∀ l ∈ ls, l.2.noArray = true) → _ := fun {ls} hw ha =>
    filed_flat (ls.map (·.2)) (D := {}) (h := []) ⟨rfl, rfl, rfl, rfl⟩ (fun e he => by
      obtain ⟨l, hl, rfl⟩ := List.mem_map.mp he
      exact ha l hl) (fun e he w1 t w2 c ht => by
      obtain ⟨l, hl, rfl⟩ := List.mem_map.mp he
      have := hw.lines l hl
      rw [ht] at this
      intro hn
      exact this.2.1.1 (by simpa [Table.names] using hn))
  have h1 := hf hw ha
  have h2 := hf hw' ha'
  rw [← readE_eq] at h1 h2
  obtain ⟨a1, a2, a3, a4, a5⟩ := h1
  obtain ⟨b1, b2, b3, b4, b5⟩ := h2
  refine ⟨fun e he => ?_, fun p => ?_, fun e => ?_, fun e => by rw [a1, b1], count_congr (by rw [a1, b1]), fun k => by rw [a2, b2]⟩
  · rcases (a3 e.1 e.2.value).mp ⟨e, he, rfl, rfl⟩ with ⟨e', he', _⟩ | ⟨n, k, g1, g2⟩
    · simp at he'
    · obtain ⟨e', h1, h2, h3⟩ := (b3 e.1 e.2.value).mpr (.inr ⟨n, k, (h _).mp g1, g2⟩)
      exact ⟨e', h1, h2, h3⟩
  · rw [a4, b4]
    simp only [GivesHead, h]
  · rw [a5, b5]
    simp only [GivesName, h]

end Sections
end Tomllib
