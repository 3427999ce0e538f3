import Verif.Lemmas.Tidy
/-!
# Documents that differ only in their values
-/

namespace Tomllib

/-- The same line with a related value. -/
def ET.Rel (R : VT → VT → Prop) : ET → ET → Prop
  | .kv w1 k s v w2 c, e' => ∃ v', e' = .kv w1 k s v' w2 c ∧ R v v'
  | e, e' => e' = e

/-- The same lines with related values. -/
def LinesRel (R : VT → VT → Prop) : List (Str × ET) → List (Str × ET) → Prop
  | [], ls' => ls' = []
  | (nl, e) :: ls, ls' => ∃ e' r, ls' = (nl, e') :: r ∧ e.Rel R e' ∧ LinesRel R ls r

theorem ET.Rel.refl {R : VT → VT → Prop} (hR : ∀ v, R v v) (e : ET) : e.Rel R e := by
  cases e <;> simp [ET.Rel, hR]

theorem ET.Rel.trans {R : VT → VT → Prop} (hR : ∀ a b c, R a b → R b c → R a c) {a b c : ET} (h : a.Rel R b) (h' : b.Rel R c) : a.Rel R c := by
  cases a with
  | kv w1 k s v w2 c =>
    obtain ⟨v', rfl, h1⟩ := h
    obtain ⟨v2, rfl, h2⟩ := h'
    exact ⟨_, rfl, hR _ _ _ h1 h2⟩
  | _ => cases h; exact h'

theorem LinesRel.refl {R : VT → VT → Prop} (hR : ∀ v, R v v) : ∀ (ls : List (Str × ET)), LinesRel R ls ls
  | [] => rfl
  | (nl, e) :: ls => ⟨e, ls, rfl, ET.Rel.refl hR e, LinesRel.refl hR ls⟩

theorem LinesRel.trans {R : VT → VT → Prop} (hR : ∀ a b c, R a b → R b c → R a c) : ∀ {a b c : List (Str × ET)}, LinesRel R a b → LinesRel R b c → LinesRel R a c
  | [], b, c, h, h' => by cases h; exact h'
  | (nl, e) :: a, b, c, h, h' => by
    obtain ⟨e', r, rfl, h1, h2⟩ := h
    obtain ⟨e2, r2, rfl, h3, h4⟩ := h'
    exact ⟨e2, r2, rfl, h1.trans hR h3, LinesRel.trans hR h2 h4⟩

theorem LinesRel.mono {R S : VT → VT → Prop} (hR : ∀ a b, R a b → S a b) : ∀ {a b : List (Str × ET)}, LinesRel R a b → LinesRel S a b
  | [], b, h => h
  | (nl, e) :: a, b, h => by
    obtain ⟨e', r, rfl, h1, h2⟩ := h
    refine ⟨e', r, rfl, ?_, LinesRel.mono hR h2⟩
    cases e with
    | kv w1 k s v w2 c => obtain ⟨v', rfl, h1⟩ := h1; exact ⟨_, rfl, hR _ _ h1⟩
    | _ => exact h1

theorem LinesRel.text : ∀ {ls ls' : List (Str × ET)}, LinesRel VT.Like ls ls' → linesText ls = linesText ls'
  | [], _, h => by cases h; rfl
  | (nl, e) :: ls, _, h => by
    obtain ⟨e', r, rfl, h1, h2⟩ := h
    have : e.text = e'.text := by
      cases e with
      | kv w1 k s v w2 c => obtain ⟨v', rfl, h1⟩ := h1; simp [ET.text, h1.common.text]
      | _ => cases h1; rfl
    rw [linesText, linesText, this, h2.text]

namespace Sections

/-- The same paths with related values. -/
def ValsRel (R : VT → VT → Prop) : List (List Key × VT) → List (List Key × VT) → Prop
  | [], es' => es' = []
  | (p, v) :: es, es' => ∃ v' r, es' = (p, v') :: r ∧ R v v' ∧ ValsRel R es r

theorem ValsRel.append {R : VT → VT → Prop} : ∀ {a a' b b' : List (List Key × VT)}, ValsRel R a a' → ValsRel R b b' → ValsRel R (a ++ b) (a' ++ b')
  | [], _, b, b', h, h' => by cases h; exact h'
  | (p, v) :: a, _, b, b', h, h' => by
    obtain ⟨v', r, rfl, h1, h2⟩ := h
    exact ⟨v', r ++ b', rfl, h1, h2.append h'⟩

theorem ValsRel.fst {R : VT → VT → Prop} : ∀ {a a' : List (List Key × VT)}, ValsRel R a a' → a'.map (·.1) = a.map (·.1)
  | [], _, h => by cases h; rfl
  | (p, v) :: a, _, h => by
    obtain ⟨v', r, rfl, h1, h2⟩ := h
    simp [h2.fst]

/-- The same sections with related values. -/
structure Rel (R : VT → VT → Prop) (D D' : Sections) : Prop where
  bare : Bare D D'
  vals : ValsRel R D.vals D'.vals

theorem Rel.step {R : VT → VT → Prop} {D D' : Sections} (h : Rel R D D') {e e' : ET} (he : e.Rel R e') : Rel R (D.step e) (D'.step e') := by
  cases e with
  | kv w1 k s v w2 c =>
    obtain ⟨v', rfl, h1⟩ := he
    refine ⟨h.bare.kv .., ?_⟩
    show ValsRel R (D.vals ++ [(D.here ++ [Key.str k], v)]) (D'.vals ++ [(D'.here ++ [Key.str k], v')])
    rw [h.bare.here]
    exact h.vals.append ⟨v', [], rfl, h1, rfl⟩
  | table w1 t w2 c =>
    cases he
    refine ⟨h.bare.step _, ?_⟩
    cases t <;> exact h.vals
  | blank w => cases he; exact h
  | comment w c => cases he; exact h

theorem Rel.all {R : VT → VT → Prop} : ∀ {ls ls' : List (Str × ET)} {D D' : Sections}, Rel R D D' → LinesRel R ls ls' →
    Rel R (ls.foldl (fun D l => D.step l.2) D) (ls'.foldl (fun D l => D.step l.2) D')
  | [], _, D, D', h, hl => by cases hl; exact h
  | (nl, e) :: ls, _, D, D', h, hl => by
    obtain ⟨e', r, rfl, h1, h2⟩ := hl
    exact Rel.all (D := D.step e) (D' := D'.step e') (h.step h1) h2

theorem Rel.read {R : VT → VT → Prop} {ls ls' : List (Str × ET)} (h : LinesRel R ls ls') : Rel R (Sections.read ls) (Sections.read ls') :=
  Rel.all ⟨rfl, rfl⟩ h

theorem findSome_rel (q : List Key) : ∀ {a a' : List (List Key × VT)}, ValsRel VT.Like a a' →
    LikeOpt (a.findSome? fun e => if e.1.isPrefixOf q then e.2.part (q.drop e.1.length) else none)
      (a'.findSome? fun e => if e.1.isPrefixOf q then e.2.part (q.drop e.1.length) else none)
  | [], _, h => by cases h; trivial
  | (p, v) :: a, _, h => by
    obtain ⟨v', r, rfl, h1, h2⟩ := h
    have ih := findSome_rel q h2
    rw [List.findSome?_cons, List.findSome?_cons]
    dsimp only
    by_cases hp : p.isPrefixOf q = true
    · rw [if_pos hp, if_pos hp]
      have := h1.part (q.drop p.length)
      cases e1 : v.part (q.drop p.length) with
      | none =>
        rw [e1] at this
        cases e2 : v'.part (q.drop p.length) with
        | none => exact ih
        | some => rw [e2] at this; exact this.elim
      | some t =>
        rw [e1] at this
        cases e2 : v'.part (q.drop p.length) with
        | none => rw [e2] at this; exact this.elim
        | some => rw [e2] at this; exact this
    · rw [if_neg hp, if_neg hp]; exact ih

theorem Rel.valueAt {D D' : Sections} (h : Rel VT.Like D D') (q : List Key) : LikeOpt (D.valueAt q) (D'.valueAt q) := findSome_rel q h.vals

/-! ## Lines in order stay in order -/

theorem path_grows (D : Sections) : ∀ (ks : List Str) (p : List Key), p <+: D.path p ks
  | [], p => List.prefix_refl _
  | k :: ks, p => by
    refine List.IsPrefix.trans ?_ (path_grows D ks _)
    unfold enter
    split
    · exact (List.prefix_append _ _).trans (List.prefix_append _ _)
    · exact List.prefix_append _ _

/-- A path of names that begins what a header names is what a beginning of the header names. -/
theorem path_prefix (D : Sections) : ∀ (ks : List Str) (p r : List Key) (c l : Str), p.length ≤ r.length → r ++ [Key.str c] <+: D.path p ks ++ [Key.str l] →
    ∃ i, i ≤ ks.length ∧ r ++ [Key.str c] = D.path p (ks.take i) ++ [Key.str ((ks ++ [l])[i]?.getD [])]
  | [], p, r, c, l, hlen, h => by
    refine ⟨0, by simp, ?_⟩
    simp [path] at h ⊢
    have h1 := h.length_le
    simp at h1
    have h2 := h.eq_of_length (by simp; omega)
    simpa using h2
  | k :: ks, p, r, c, l, hlen, h => by
    rw [path] at h
    by_cases hl : (D.enter (p ++ [Key.str k])).length ≤ r.length
    · obtain ⟨i, h1, h2⟩ := path_prefix D ks _ r c l hl h
      exact ⟨i + 1, by simp; omega, by simpa [path] using h2⟩
    · refine ⟨0, by simp, ?_⟩
      have hp : D.enter (p ++ [Key.str k]) <+: D.path (D.enter (p ++ [Key.str k])) ks ++ [Key.str l] := (path_grows D ks _).trans (List.prefix_append _ _)
      have h1 : r ++ [Key.str c] <+: D.enter (p ++ [Key.str k]) := List.prefix_of_prefix_length_le h hp (by simp; omega)
      simp [path]
      unfold enter at h1
      split at h1
      next n hn =>
        have h2 : r ++ [Key.str c] <+: p ++ [Key.str k] := by
          rcases List.prefix_concat_iff.mp h1 with h2 | h2
          · have := congrArg List.getLast? h2
            simp at this
          · exact h2
        have h3 := h2.length_le
        simp at h3
        have := h2.eq_of_length (by simp; omega)
        simpa using this
      · have h3 := h1.length_le
        simp at h3
        have := h1.eq_of_length (by simp; omega)
        simpa using this

theorem target_prefix {D : Sections} {N : List Str} (hN : N ≠ []) {r : List Key} {c : Str} (h : r ++ [Key.str c] <+: D.target N) :
    ∃ a ∈ onWay N, r ++ [Key.str c] = D.target a := by
  obtain ⟨i, h1, h2⟩ := path_prefix D _ [] r c _ (Nat.zero_le _) h
  have hl : N.dropLast ++ [N.getLastD []] = N := by
    rw [List.getLastD_eq_getLast?, List.getLast?_eq_some_getLast hN]
    exact List.dropLast_concat_getLast hN
  have hi : i < N.length := by
    have : 0 < N.length := List.length_pos_iff.mpr hN
    simp at h1; omega
  refine ⟨N.take (i + 1), List.mem_map.mpr ⟨i, List.mem_range.mpr hi, rfl⟩, ?_⟩
  rw [h2, hl, target]
  have ht : N.take (i + 1) = N.take i ++ [N[i]] := by rw [List.take_add_one]; simp [hi]
  rw [ht, List.dropLast_concat]
  have h3 : N.dropLast.take i = N.take i := by
    rw [List.dropLast_eq_take, List.take_take, Nat.min_eq_left (by omega)]
  rw [h3, List.getLastD_concat]
  simp [hi]

/-- The paths of values end with a name. -/
def Keyed (D : Sections) : Prop := ∀ e ∈ D.vals, ∃ r c, e.1 = r ++ [Key.str c]

theorem Keyed.step {D : Sections} (h : D.Keyed) (e : ET) : (D.step e).Keyed := by
  cases e with
  | kv w1 k s v w2 c =>
    intro e he
    rcases List.mem_append.mp he with he | he
    · exact h e he
    · simp at he; subst he; exact ⟨_, _, rfl⟩
  | table w1 t w2 c => cases t <;> exact h
  | blank w => exact h
  | comment w c => exact h

/-- No value on the way. -/
theorem onWay_free {D D' : Sections} (hb : Bare D D') (hv : D'.vals.map (·.1) = D.vals.map (·.1)) (hk : D.Keyed) {N : List Str} (hN : N ≠ [])
    (h : ∀ a ∈ onWay N, (D.valueAt (D.target a)).isNone) : ∀ a ∈ onWay N, (D'.valueAt (D'.target a)).isNone := by
  intro a ha
  rw [Option.isNone_iff_eq_none, hb.target]
  refine valueAt_none.mpr fun e he hp => ?_
  have : e.1 ∈ D'.vals.map (·.1) := List.mem_map_of_mem he
  rw [hv, List.mem_map] at this
  obtain ⟨e0, h0, h1⟩ := this
  obtain ⟨r, c, h2⟩ := hk e0 h0
  rw [← h1, h2] at hp
  have haN : a <+: N := by
    obtain ⟨i, _, rfl⟩ := List.mem_map.mp ha
    exact List.take_prefix _ _
  have hane : a ≠ [] := by
    obtain ⟨i, _, rfl⟩ := List.mem_map.mp ha
    cases N with
    | nil => exact absurd rfl hN
    | cons => simp
  obtain ⟨a', ha', h3⟩ := target_prefix hane hp
  have ha2 : a' ∈ onWay N := by
    obtain ⟨i, hi, rfl⟩ := List.mem_map.mp ha'
    obtain ⟨j, hj, rfl⟩ := List.mem_map.mp ha
    simp at hi hj
    refine List.mem_map.mpr ⟨i, List.mem_range.mpr (by omega), ?_⟩
    rw [List.take_take, Nat.min_eq_left (by omega)]
  have h4 := h a' ha2
  rw [Option.isNone_iff_eq_none] at h4
  have h5 := valueAt_none.mp h4 e0 h0 (by rw [h2, h3]; exact List.prefix_refl _)
  rw [h2, h3, List.drop_length, VT.part_nil] at h5
  simp at h5

theorem fits_rel {D D' : Sections} (hb : Bare D D') (hv : D'.vals.map (·.1) = D.vals.map (·.1)) (hk : D.Keyed) {R : VT → VT → Prop} {e e' : ET} (he : e.Rel R e')
    (hs : ∀ w1 k s v w2 c, e' = .kv w1 k s v w2 c → v.sound = true) (hN : ∀ w1 t w2 c, e = .table w1 t w2 c → t.table.keys ≠ []) (h : D.fits e) : D'.fits e' := by
  cases e with
  | blank w => cases he; trivial
  | comment w c => cases he; trivial
  | kv w1 k s v w2 c =>
    obtain ⟨v', rfl, _⟩ := he
    refine ⟨?_, hs _ _ _ _ _ _ rfl⟩
    rw [hb.here, hb.names]; exact h.1
  | table w1 t w2 c =>
    cases he
    have hN := hN _ _ _ _ rfl
    have ho : D'.opened = D.opened := by rw [hb]
    have hc : ∀ p, D'.count p = D.count p := fun p => count_congr hb.arrs p
    have hcl : ∀ N, D.clear N → D'.clear N := fun N h => by unfold clear at *; rw [hb.stray, hb.names]; exact h
    have hap : ∀ N, D.apart N → D'.apart N := fun N h => by unfold apart at *; rw [ho]; exact h
    cases t with
    | std t =>
      have hne : t.names ≠ [] := fun e => hN (by simpa [Table.names, TableType.table] using e)
      obtain ⟨h1, h2, h3, h4, h5⟩ := h
      have hw := onWay_free hb hv hk hne fun a ha => (h1 a ha).1
      refine ⟨fun a ha => ⟨hw a ha, ?_⟩, ?_, ?_, hap _ h4, hcl _ h5⟩
      · rw [hb.target, hc, ho]; exact (h1 a ha).2
      · rw [hb.target, hb.heads]; exact h2
      · rw [ho, hb.path]
        intro g1 g2 e he
        have : e.1 ∈ D'.vals.map (·.1) := List.mem_map_of_mem he
        rw [hv, List.mem_map] at this
        obtain ⟨e0, h0, h6⟩ := this
        rw [← h6]
        exact h3 g1 g2 e0 h0
    | arr t =>
      have hne : t.names ≠ [] := fun e => hN (by simpa [Table.names, TableType.table] using e)
      obtain ⟨h1, h2, h4, h5⟩ := h
      have hw := onWay_free hb hv hk hne fun a ha => (h1 a ha).1
      refine ⟨fun a ha => ⟨hw a ha, ?_⟩, ?_, hap _ h4, hcl _ h5⟩
      · rw [hb.target, hc, ho]; exact (h1 a ha).2
      · rw [ho, hb.target, hc]
        have : D'.isTable (D.target t.names) ↔ D.isTable (D.target t.names) := by
          unfold isTable; rw [hb.heads, hb.arrs, hb.names]
        rw [this]
        exact h2

theorem Fits.rel {R : VT → VT → Prop} : ∀ {ls ls' : List (Str × ET)} {D D' : Sections}, Rel R D D' → D.Keyed → LinesRel R ls ls' → (∀ e ∈ D'.newVals ls', e.2.sound = true) →
    (∀ l ∈ ls, ∀ w1 t w2 c, l.2 = .table w1 t w2 c → t.table.keys ≠ []) → D.Fits ls → D'.Fits ls'
  | [], _, D, D', h, hk, hl, hs, hN, hf => by cases hl; trivial
  | (nl, e) :: ls, _, D, D', h, hk, hl, hs, hN, hf => by
    obtain ⟨e', r, rfl, h1, h2⟩ := hl
    refine ⟨fits_rel h.bare h.vals.fst hk h1 ?_ (hN (nl, e) (by simp)) hf.1, Fits.rel (h.step h1) (hk.step e) h2 ?_ (fun l hl => hN l (by simp [hl])) hf.2⟩
    · rintro w1 k s v w2 c rfl
      exact hs (D'.here ++ [Key.str k], v) List.mem_cons_self
    · intro x hx
      refine hs x ?_
      cases e' with
      | kv => exact List.mem_cons_of_mem _ hx
      | _ => exact hx

end Sections

/-! ## Exchanging a value -/

theorem putLines_like {x x' : VT} (hx : x.Like x') (q : List Key) : ∀ {ls ls' : List (Str × ET)} {D D' : Sections}, Sections.Bare D D' → LinesRel VT.Like ls ls' →
    LinesRel VT.Like (putLines D q x ls) (putLines D' q x' ls')
  | [], _, D, D', h, hl => by cases hl; rfl
  | (nl, e) :: ls, _, D, D', h, hl => by
    obtain ⟨e', r, rfl, h1, h2⟩ := hl
    cases e with
    | kv w1 k s v w2 c =>
      obtain ⟨v', rfl, h1⟩ := h1
      rw [putLines, putLines, h.here]
      split
      · exact ⟨_, _, rfl, ⟨_, rfl, VT.Like.put hx _ h1⟩, h2⟩
      · exact ⟨_, _, rfl, ⟨_, rfl, h1⟩, putLines_like hx q (h.kv ..) h2⟩
    | table w1 t w2 c => cases h1; exact ⟨_, _, rfl, rfl, putLines_like hx q (h.step _) h2⟩
    | blank w => cases h1; exact ⟨_, _, rfl, rfl, putLines_like hx q (h.step _) h2⟩
    | comment w c => cases h1; exact ⟨_, _, rfl, rfl, putLines_like hx q (h.step _) h2⟩

theorem putLines_rel (x : VT) (q : List Key) : ∀ (ls : List (Str × ET)) (D : Sections), LinesRel (fun _ _ => True) ls (putLines D q x ls)
  | [], D => rfl
  | (nl, .kv w1 k s v w2 c) :: ls, D => by
    rw [putLines]
    split
    · exact ⟨_, _, rfl, ⟨_, rfl, trivial⟩, LinesRel.refl (fun _ => trivial) ls⟩
    · exact ⟨_, _, rfl, ⟨_, rfl, trivial⟩, putLines_rel x q ls _⟩
  | (nl, .table w1 t w2 c) :: ls, D => ⟨_, _, rfl, rfl, putLines_rel x q ls _⟩
  | (nl, .blank w) :: ls, D => ⟨_, _, rfl, rfl, putLines_rel x q ls _⟩
  | (nl, .comment w c) :: ls, D => ⟨_, _, rfl, rfl, putLines_rel x q ls _⟩

theorem putLines_strict {x : VT} (hx : x.strict) (q : List Key) : ∀ {ls : List (Str × ET)} {D : Sections}, LinesStrict ls → LinesStrict (putLines D q x ls)
  | [], D, h => h
  | (nl, e) :: ls, D, h => by
    have h1 : (nl = lit% "\n" ∨ nl = lit% "\r\n") ∧ e.strict := h (nl, e) (by simp)
    have h2 : LinesStrict ls := fun l hl => h l (by simp [hl])
    have key : ∀ {e' : ET} {r : List (Str × ET)}, e'.strict → LinesStrict r → LinesStrict ((nl, e') :: r) := fun g1 g2 l hl => by
      rcases List.mem_cons.mp hl with rfl | hl
      · exact ⟨h1.1, g1⟩
      · exact g2 l hl
    cases e with
    | kv w1 k s v w2 c =>
      rw [putLines]
      split
      · exact key ⟨h1.2.1, h1.2.2.1, h1.2.2.2.1, VT.strict.put hx _ h1.2.2.2.2.1, h1.2.2.2.2.2⟩ h2
      · exact key h1.2 (putLines_strict hx q h2)
    | table w1 t w2 c => exact key h1.2 (putLines_strict hx q h2)
    | blank w => exact key h1.2 (putLines_strict hx q h2)
    | comment w c => exact key h1.2 (putLines_strict hx q h2)

theorem DocStrict.put {x : VT} (hx : x.strict) (q : List Key) {ls : List (Str × ET)} {D : Sections} (h : DocStrict ls) : DocStrict (putLines D q x ls) := by
  cases ls with
  | nil => exact h
  | cons l ls =>
    obtain ⟨nl, e⟩ := l
    obtain ⟨h0, h1, h2⟩ := h
    cases e with
    | kv w1 k s v w2 c =>
      rw [putLines]
      split
      · exact ⟨h0, ⟨h1.1, h1.2.1, h1.2.2.1, VT.strict.put hx _ h1.2.2.2.1, h1.2.2.2.2⟩, h2⟩
      · exact ⟨h0, h1, putLines_strict hx q h2⟩
    | table w1 t w2 c => exact ⟨h0, h1, putLines_strict hx q h2⟩
    | blank w => exact ⟨h0, h1, putLines_strict hx q h2⟩
    | comment w c => exact ⟨h0, h1, putLines_strict hx q h2⟩

end Tomllib
