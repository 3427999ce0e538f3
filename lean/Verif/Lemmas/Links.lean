import Verif.Lemmas.Reach
/-!
# Every path with a value has the entry of the cell that the path leads to
-/

namespace Tomllib

/-- The parts of a value have the entries of their cells. -/
def Linked (h : Heap) (K : List Key → Option HashValue) (P : List Key) (v : VT) (a : Addr) : Prop :=
  ∀ s t, PathWf (P ++ s) → v.part s = some t → ∃ c, reach h a s = some c ∧ K (P ++ s) = some ⟨some c, t.children⟩

/-- The same for the value of a line. -/
def ET.Linked (h : Heap) (K : List Key → Option HashValue) (b : List Key) : ET → Expression → Prop
  | .kv _ k _ v _ _, x => ∀ kv, x.keyval = some kv → Tomllib.Linked h K (b ++ [.str k]) v kv.val
  | _, _ => True

/-- The same for lines, from a section on. -/
def Links (h : Heap) (K : List Key → Option HashValue) : Sections → List (Str × ET) → List NLExpression → Prop
  | _, [], _ => True
  | _, _ :: _, [] => False
  | D, l :: ls, n :: ns => l.2.Linked h K D.here n.expr ∧ Links h K (D.step l.2) ls ns

namespace Sections

/-- The values that lines add. -/
def newVals (D : Sections) : List (Str × ET) → List (List Key × VT)
  | [] => []
  | (_, .kv w1 k s v w2 c) :: ls => (D.here ++ [.str k], v) :: newVals (D.step (.kv w1 k s v w2 c)) ls
  | l :: ls => newVals (D.step l.2) ls

theorem vals_all : ∀ (ls : List (Str × ET)) (D : Sections), (ls.foldl (fun D l => D.step l.2) D).vals = D.vals ++ D.newVals ls
  | [], D => by simp [newVals]
  | (nl, .blank w) :: ls, D => vals_all ls _
  | (nl, .comment w c) :: ls, D => vals_all ls _
  | (nl, .table w1 (.std t) w2 c) :: ls, D => vals_all ls _
  | (nl, .table w1 (.arr t) w2 c) :: ls, D => vals_all ls _
  | (nl, .kv w1 k s v w2 c) :: ls, D => by
    rw [List.foldl_cons, vals_all ls]
    simp [newVals, step]

theorem vals_read (ls : List (Str × ET)) : (Sections.read ls).vals = newVals {} ls := by
  rw [read, vals_all]; rfl

/-- The same except for the values. -/
def Bare (D D' : Sections) : Prop := D' = { D with vals := D'.vals }

theorem Bare.refl (D : Sections) : Bare D D := rfl
theorem Bare.symm {D D' : Sections} (h : Bare D D') : Bare D' D := by
  unfold Bare at *
  rw [h]

theorem Bare.here {D D' : Sections} (h : Bare D D') : D'.here = D.here := by rw [h]
theorem Bare.names {D D' : Sections} (h : Bare D D') : D'.names = D.names := by rw [h]
theorem Bare.heads {D D' : Sections} (h : Bare D D') : D'.heads = D.heads := by rw [h]
theorem Bare.arrs {D D' : Sections} (h : Bare D D') : D'.arrs = D.arrs := by rw [h]
theorem Bare.stray {D D' : Sections} (h : Bare D D') : D'.stray = D.stray := by rw [h]

theorem Bare.path {D D' : Sections} (h : Bare D D') : ∀ (ks : List Str) (p : List Key), D'.path p ks = D.path p ks
  | [], _ => rfl
  | k :: ks, p => by
    rw [Sections.path, Sections.path, Bare.path h ks]
    simp only [enter, count_congr h.arrs]

theorem Bare.way {D D' : Sections} (h : Bare D D') : ∀ (ks : List Str) (p : List Key), D'.way p ks = D.way p ks
  | [], _ => rfl
  | k :: ks, p => by
    rw [Sections.way, Sections.way, Bare.way h ks]
    simp only [enter, count_congr h.arrs]

theorem Bare.target {D D' : Sections} (h : Bare D D') (N : List Str) : D'.target N = D.target N := by
  rw [Sections.target, Sections.target, h.path]

theorem Bare.step {D D' : Sections} (h : Bare D D') (e : ET) : Bare (D.step e) (D'.step e) := by
  cases e with
  | blank w => exact h
  | comment w c => exact h
  | kv w1 k s v w2 c =>
    unfold Bare at *
    rw [h]; rfl
  | table w1 t w2 c =>
    cases t with
    | std t =>
      unfold Bare
      simp only [Sections.step, h.target, h.way, h.heads, h.names, h.arrs, h.stray]
      rw [h]
    | arr t =>
      unfold Bare
      simp only [Sections.step, h.target, h.way, h.heads, h.names, h.arrs, h.stray, count_congr h.arrs]
      rw [h]

theorem Bare.kv {D D' : Sections} (h : Bare D D') (w1 k s v v' w2 c) : Bare (D.step (.kv w1 k s v w2 c)) (D'.step (.kv w1 k s v' w2 c)) := by
  unfold Bare at *
  rw [h]; rfl

theorem Bare.newVals : ∀ (ls : List (Str × ET)) {D D' : Sections}, Bare D D' → D'.newVals ls = D.newVals ls
  | [], _, _, _ => rfl
  | (nl, .blank w) :: ls, _, _, h => Bare.newVals ls (h.step _)
  | (nl, .comment w c) :: ls, _, _, h => Bare.newVals ls (h.step _)
  | (nl, .table w1 t w2 c) :: ls, _, _, h => Bare.newVals ls (h.step _)
  | (nl, .kv w1 k s v w2 c) :: ls, _, _, h => by
    rw [Sections.newVals, Sections.newVals, Bare.newVals ls (h.step _), h.here]

theorem Bare.all : ∀ (ls : List (Str × ET)) {D D' : Sections}, Bare D D' → Bare (ls.foldl (fun D l => D.step l.2) D) (ls.foldl (fun D l => D.step l.2) D')
  | [], _, _, h => h
  | l :: ls, _, _, h => Bare.all ls (h.step l.2)

theorem Bare.links {h : Heap} {K : List Key → Option HashValue} : ∀ (ls : List (Str × ET)) {ns : List NLExpression} {D D' : Sections}, Bare D D' → Links h K D ls ns → Links h K D' ls ns
  | [], _, _, _, _, _ => trivial
  | _ :: _, [], _, _, _, hl => hl.elim
  | l :: ls, n :: ns, D, D', hb, hl => by
    refine ⟨?_, Bare.links ls (hb.step l.2) hl.2⟩
    rw [hb.here]; exact hl.1

/-! ## The lines with another value at a path -/

/-- Neither of two paths begins the other. -/
def Apart (e e' : List Key × VT) : Prop := ¬ e.1 <+: e'.1 ∧ ¬ e'.1 <+: e.1

theorem Apart.of_prefix {e e' : List Key × VT} (h : Apart e e') {q : List Key} (h1 : e.1 <+: q) (h2 : e'.1 <+: q) : False := by
  rcases Nat.le_total e.1.length e'.1.length with hl | hl
  · exact h.1 (List.prefix_of_prefix_length_le h1 h2 hl)
  · exact h.2 (List.prefix_of_prefix_length_le h2 h1 hl)

/-- The values with one exchanged. -/
def putVals (q : List Key) (x : VT) : List (List Key × VT) → List (List Key × VT)
  | [] => []
  | (P, v) :: es => if P.isPrefixOf q then (P, v.put (q.drop P.length) x) :: es else (P, v) :: putVals q x es

theorem putVals_fst (q : List Key) (x : VT) : ∀ (es : List (List Key × VT)), (putVals q x es).map (·.1) = es.map (·.1)
  | [] => rfl
  | (P, v) :: es => by
    rw [putVals]
    split
    · rfl
    · simp [putVals_fst q x es]

theorem newVals_put (q : List Key) (x : VT) : ∀ (ls : List (Str × ET)) (D : Sections), D.newVals (putLines D q x ls) = putVals q x (D.newVals ls)
  | [], _ => rfl
  | (nl, .blank w) :: ls, D => newVals_put q x ls _
  | (nl, .comment w c) :: ls, D => newVals_put q x ls _
  | (nl, .table w1 t w2 c) :: ls, D => newVals_put q x ls _
  | (nl, .kv w1 k s v w2 c) :: ls, D => by
    rw [putLines, newVals, putVals]
    split
    · rw [newVals, Bare.newVals ls ((Bare.refl D).kv w1 k s v _ w2 c)]
    · rw [newVals, newVals_put q x ls]

theorem bare_put (q : List Key) (x : VT) : ∀ (ls : List (Str × ET)) {D D' : Sections}, Bare D D' → Bare (ls.foldl (fun D l => D.step l.2) D) ((putLines D q x ls).foldl (fun D l => D.step l.2) D')
  | [], _, _, h => h
  | (nl, .blank w) :: ls, _, _, h => bare_put q x ls (h.step (.blank w))
  | (nl, .comment w c) :: ls, _, _, h => bare_put q x ls (h.step (.comment w c))
  | (nl, .table w1 t w2 c) :: ls, _, _, h => bare_put q x ls (h.step (.table w1 t w2 c))
  | (nl, .kv w1 k s v w2 c) :: ls, D, D', h => by
    rw [putLines]
    split
    · exact Bare.all ls (h.kv w1 k s v _ w2 c)
    · exact bare_put q x ls (h.step (.kv w1 k s v w2 c))

/-- The document with another value at a path is the same except for the values. -/
theorem read_put (q : List Key) (x : VT) (ls : List (Str × ET)) : Sections.read (putLines {} q x ls) = { Sections.read ls with vals := putVals q x (Sections.read ls).vals } := by
  have h := bare_put q x ls (Bare.refl {})
  have hv : (Sections.read (putLines {} q x ls)).vals = putVals q x (Sections.read ls).vals := by
    rw [vals_read, vals_read, newVals_put]
  rw [← hv]
  exact h

theorem findSome_apart {q : List Key} {es : List (List Key × VT)} (f : List Key × VT → Option VT) (hf : ∀ e, ¬ e.1 <+: q → f e = none) {e : List Key × VT}
    (he : e ∈ es) (hp : es.Pairwise Apart) (hq : e.1 <+: q) : es.findSome? f = f e := by
  induction es with
  | nil => simp at he
  | cons y es ih =>
    rw [List.pairwise_cons] at hp
    rw [List.mem_cons] at he
    rw [List.findSome?_cons]
    rcases he with rfl | he
    · cases h : f e with
      | some t => rfl
      | none =>
        dsimp only
        rw [List.findSome?_eq_none_iff]
        intro e' h'
        exact hf e' fun h2 => (hp.1 e' h').of_prefix hq h2
    · rw [hf y fun h2 => (hp.1 e he).of_prefix h2 hq]
      exact ih he hp.2

/-- The value at a path when no path begins another. -/
theorem valueAt_apart {D : Sections} (hp : D.vals.Pairwise Apart) {e : List Key × VT} (he : e ∈ D.vals) (s : List Key) : D.valueAt (e.1 ++ s) = e.2.part s := by
  unfold valueAt
  rw [findSome_apart (q := e.1 ++ s) (e := e) _ (fun e' h => if_neg fun h' => h (List.isPrefixOf_iff_prefix.mp h')) he hp (List.prefix_append _ _),
    if_pos (List.isPrefixOf_iff_prefix.mpr (List.prefix_append _ _)), List.drop_left]

theorem valueAt_entry {D : Sections} {q : List Key} {t : VT} (hv : D.valueAt q = some t) : ∃ e s, e ∈ D.vals ∧ q = e.1 ++ s ∧ e.2.part s = some t := by
  unfold valueAt at hv
  obtain ⟨e, he, h1⟩ := List.exists_of_findSome?_eq_some hv
  split at h1
  next hpre =>
    obtain ⟨s, rfl⟩ := List.isPrefixOf_iff_prefix.mp hpre
    rw [List.drop_left] at h1
    exact ⟨e, s, he, rfl, h1⟩
  · simp at h1

theorem apart_fst {es es' : List (List Key × VT)} (h : es'.map (·.1) = es.map (·.1)) (hp : es.Pairwise Apart) : es'.Pairwise Apart := by
  have h1 : (es.map (·.1)).Pairwise (fun a b => ¬ a <+: b ∧ ¬ b <+: a) := List.pairwise_map.mpr hp
  rw [← h] at h1
  have h2 := List.pairwise_map.mp h1
  exact h2

theorem mem_putVals {q : List Key} {x : VT} {es : List (List Key × VT)} (hp : es.Pairwise Apart) {e : List Key × VT} (he : e ∈ es) :
    (e.1, if e.1.isPrefixOf q then e.2.put (q.drop e.1.length) x else e.2) ∈ putVals q x es := by
  induction es with
  | nil => simp at he
  | cons y es ih =>
    rw [List.pairwise_cons] at hp
    rw [List.mem_cons] at he
    rw [putVals]
    rcases he with rfl | he
    · split <;> simp
    · split
      next h =>
        rw [if_neg fun h' => (hp.1 e he).of_prefix (List.isPrefixOf_iff_prefix.mp h) (List.isPrefixOf_iff_prefix.mp h')]
        simp [he]
      · exact List.mem_cons_of_mem _ (ih hp.2 he)

/-- The values of the document with another value at a path: below the path. -/
theorem valueAt_put_below {D : Sections} (hp : D.vals.Pairwise Apart) {q : List Key} {t : VT} (hv : D.valueAt q = some t) (x : VT) (s : List Key) :
    valueAt { D with vals := putVals q x D.vals } (q ++ s) = x.part s := by
  obtain ⟨e, r, he, rfl, ht⟩ := valueAt_entry hv
  have h1 := mem_putVals (q := e.1 ++ r) (x := x) hp he
  rw [if_pos (List.isPrefixOf_iff_prefix.mpr (List.prefix_append _ _)), List.drop_left] at h1
  have := valueAt_apart (D := { D with vals := putVals (e.1 ++ r) x D.vals }) (apart_fst (putVals_fst _ _ _) hp) h1 (r ++ s)
  rw [List.append_assoc, this, VT.put_below _ _ _ _ (by rw [ht]; simp)]

/-- Elsewhere. -/
theorem valueAt_put_off {D : Sections} (hp : D.vals.Pairwise Apart) {q : List Key} (x : VT) {p : List Key} (h : ¬ q <+: p) :
    Alike (valueAt { D with vals := putVals q x D.vals } p) (D.valueAt p) := by
  by_cases he : ∃ e ∈ D.vals, e.1 <+: p
  · obtain ⟨e, he, s, rfl⟩ := he
    rw [valueAt_apart hp he]
    have h1 := mem_putVals (q := q) (x := x) hp he
    have := valueAt_apart (D := { D with vals := putVals q x D.vals }) (apart_fst (putVals_fst _ _ _) hp) h1 s
    rw [this]
    dsimp only
    split
    next h2 =>
      obtain ⟨r, rfl⟩ := List.isPrefixOf_iff_prefix.mp h2
      rw [List.drop_left]
      exact VT.put_above _ _ _ _ fun h3 => h ((List.prefix_append_right_inj _).mpr h3)
    · exact Alike.refl _
  · have h0 : D.valueAt p = none := valueAt_none.mpr fun e h1 h2 => absurd ⟨e, h1, h2⟩ he
    have h0' : valueAt { D with vals := putVals q x D.vals } p = none := valueAt_none.mpr fun e h1 h2 => by
      have : e.1 ∈ (putVals q x D.vals).map (·.1) := List.mem_map_of_mem h1
      rw [putVals_fst, List.mem_map] at this
      obtain ⟨e', h3, h4⟩ := this
      exact absurd ⟨e', h3, h4 ▸ h2⟩ he
    rw [h0, h0']
    trivial

/-- In a document in order no path of a value begins another. -/
theorem Good.apart {D : Sections} {K : List Key → Option HashValue} {h : Heap} (g : D.Good K h) (hp : D.Plain) : D.vals.Pairwise Apart := by
  have h1 : ∀ e ∈ D.vals, ∀ e' ∈ D.vals, e.1 <+: e'.1 → e.1 = e'.1 := by
    rintro e he e' he' ⟨s, hs⟩
    obtain ⟨t, ht⟩ := Option.ne_none_iff_exists'.mp (valueAt_val he)
    cases s with
    | nil => simpa using hs
    | cons k s => exact absurd hs.symm (g.above (g.wf e.1 (.inl ⟨e, he, rfl⟩)) ht e' he' k s)
  rw [List.pairwise_iff_getElem]
  intro i j hi hj hij
  have hne := List.pairwise_iff_getElem.mp hp.once i j (by simpa using hi) (by simpa using hj) hij
  rw [List.getElem_map, List.getElem_map] at hne
  exact ⟨fun h2 => hne (h1 _ (List.getElem_mem hi) _ (List.getElem_mem hj) h2), fun h2 => hne (h1 _ (List.getElem_mem hj) _ (List.getElem_mem hi) h2).symm⟩

end Sections

/-! ## The hole at a path of a document -/

theorem Linked.congr {h h' : Heap} {K K' : List Key → Option HashValue} {P : List Key} {v : VT} {a : Addr} {f : List Addr} (hl : Linked h K P v a) (hr : v.Rep h a f)
    (hh : ∀ y ∈ f, h'[y]? = h[y]?) (hK : ∀ s, PathWf (P ++ s) → K' (P ++ s) = K (P ++ s)) : Linked h' K' P v a := by
  intro s t hw ht
  obtain ⟨c, h1, h2⟩ := hl s t hw ht
  obtain ⟨c', _, _, h3⟩ := hr.reach ht
  have := h3 h (fun _ _ => rfl)
  rw [this] at h1
  cases h1
  exact ⟨c, h3 h' hh, (hK s hw).trans h2⟩

theorem Links.congr {h h' : Heap} {K K' : List Key → Option HashValue} : ∀ {ls : List (Str × ET)} {ns : List NLExpression} {f : List Addr} {D : Sections},
    Links h K D ls ns → LinesRep h ls ns f → (∀ y ∈ f, h'[y]? = h[y]?) → (∀ e ∈ D.newVals ls, ∀ s, PathWf (e.1 ++ s) → K' (e.1 ++ s) = K (e.1 ++ s)) → Links h' K' D ls ns
  | [], _, _, _, _, _, _, _ => trivial
  | _ :: _, [], _, _, hl, _, _, _ => hl.elim
  | (nl, .blank w) :: ls, n :: ns, f, D, hl, hr, hh, hK => by
    obtain ⟨x, ns', f1, f2, e, h1, h2, rfl⟩ := hr
    cases e
    exact ⟨trivial, Links.congr hl.2 h2 (fun y hy => hh y (by simp [hy])) hK⟩
  | (nl, .comment w c) :: ls, n :: ns, f, D, hl, hr, hh, hK => by
    obtain ⟨x, ns', f1, f2, e, h1, h2, rfl⟩ := hr
    cases e
    exact ⟨trivial, Links.congr hl.2 h2 (fun y hy => hh y (by simp [hy])) hK⟩
  | (nl, .table w1 t w2 c) :: ls, n :: ns, f, D, hl, hr, hh, hK => by
    obtain ⟨x, ns', f1, f2, e, h1, h2, rfl⟩ := hr
    cases e
    exact ⟨trivial, Links.congr hl.2 h2 (fun y hy => hh y (by simp [hy])) hK⟩
  | (nl, .kv w1 k s v w2 c) :: ls, n :: ns, f, D, hl, hr, hh, hK => by
    obtain ⟨x, ns', f1, f2, e, h1, h2, rfl⟩ := hr
    cases e
    refine ⟨?_, Links.congr hl.2 h2 (fun y hy => hh y (by simp [hy])) (fun e he => hK e (by simp [Sections.newVals, he]))⟩
    obtain ⟨a, rfl, h1⟩ := h1
    rintro kv hkv
    cases hkv
    exact (hl.1 _ rfl).congr h1 (fun y hy => hh y (by simp [hy])) (hK (D.here ++ [.str k], v) (by simp [Sections.newVals]))

/-- What is known about the hole at a path. -/
structure HoleAt (h : Heap) (K : List Key → Option HashValue) (D : Sections) (ls : List (Str × ET)) (ns : List NLExpression) (q : List Key) (t : VT) (b : Addr)
    (f1 f2 : List Addr) : Prop where
  key : K q = some ⟨some b, t.children⟩
  others : ∀ e ∈ D.newVals ls, ∀ s t1, e.2.part s = some t1 → PathWf (e.1 ++ s) → ¬ q <+: e.1 ++ s → ∃ c ∈ f1 ++ f2, K (e.1 ++ s) = some ⟨some c, t1.children⟩
  relink : ∀ (h' : Heap) (K' : List Key → Option HashValue) (x : VT), (∀ c ∈ f1 ++ f2, h'[c]? = h[c]?) → (∀ p, PathWf p → ¬ q <+: p → K' p = K p) →
    Linked h' K' q x b → Links h' K' D (putLines D q x ls) ns

theorem Linked.cell {h : Heap} {K : List Key → Option HashValue} {P : List Key} {v : VT} {a : Addr} {f : List Addr} (hl : Linked h K P v a) (hr : v.Rep h a f)
    {s : List Key} {t : VT} (hw : PathWf (P ++ s)) (ht : v.part s = some t) : ∃ c ∈ f, K (P ++ s) = some ⟨some c, t.children⟩ := by
  obtain ⟨c, h1, h2⟩ := hl s t hw ht
  obtain ⟨c', h3, _, h4⟩ := hr.reach ht
  have := h4 h (fun _ _ => rfl)
  rw [this] at h1
  cases h1
  exact ⟨c, h3, h2⟩

theorem Links.cell {h : Heap} {K : List Key → Option HashValue} : ∀ {ls : List (Str × ET)} {ns : List NLExpression} {f : List Addr} {D : Sections},
    Links h K D ls ns → LinesRep h ls ns f → ∀ e ∈ D.newVals ls, ∀ s t, PathWf (e.1 ++ s) → e.2.part s = some t → ∃ c ∈ f, (∃ g, t.Rep h c g) ∧ K (e.1 ++ s) = some ⟨some c, t.children⟩
  | [], _, _, _, _, _, e, he, _, _, _, _ => by simp [Sections.newVals] at he
  | _ :: _, [], _, _, hl, _, _, _, _, _, _, _ => hl.elim
  | (nl, .blank w) :: ls, n :: ns, f, D, hl, hr, e, he, s, t, hw, ht => by
    obtain ⟨x, ns', f1, f2, e', h1, h2, rfl⟩ := hr
    cases e'
    obtain ⟨c, g1, g2⟩ := Links.cell hl.2 h2 e he s t hw ht
    exact ⟨c, by simp [g1], g2⟩
  | (nl, .comment w c) :: ls, n :: ns, f, D, hl, hr, e, he, s, t, hw, ht => by
    obtain ⟨x, ns', f1, f2, e', h1, h2, rfl⟩ := hr
    cases e'
    obtain ⟨c, g1, g2⟩ := Links.cell hl.2 h2 e he s t hw ht
    exact ⟨c, by simp [g1], g2⟩
  | (nl, .table w1 tt w2 c) :: ls, n :: ns, f, D, hl, hr, e, he, s, t, hw, ht => by
    obtain ⟨x, ns', f1, f2, e', h1, h2, rfl⟩ := hr
    cases e'
    obtain ⟨c, g1, g2⟩ := Links.cell hl.2 h2 e he s t hw ht
    exact ⟨c, by simp [g1], g2⟩
  | (nl, .kv w1 k s' v w2 c) :: ls, n :: ns, f, D, hl, hr, e, he, s, t, hw, ht => by
    obtain ⟨x, ns', f1, f2, e', h1, h2, rfl⟩ := hr
    cases e'
    rw [Sections.newVals, List.mem_cons] at he
    rcases he with rfl | he
    · obtain ⟨a, rfl, h1⟩ := h1
      obtain ⟨c', g1, g2⟩ := hl.1 _ rfl s t hw ht
      obtain ⟨c, g3, g4, g5⟩ := h1.reach ht
      have := g5 h (fun _ _ => rfl)
      rw [this] at g1
      cases g1
      exact ⟨c', by simp [g3], g4, g2⟩
    · obtain ⟨c, g1, g2⟩ := Links.cell hl.2 h2 e he s t hw ht
      exact ⟨c, by simp [g1], g2⟩

/-- The hole at a path of a document. -/
theorem Links.focusAt {h : Heap} {K : List Key → Option HashValue} {q : List Key} {t : VT} (hq : PathWf q) : ∀ {ls : List (Str × ET)} {ns : List NLExpression} {fp : List Addr}
    {D : Sections}, Links h K D ls ns → LinesRep h ls ns fp → (D.newVals ls).Pairwise Sections.Apart → ∀ {e : List Key × VT} {r : List Key}, e ∈ D.newVals ls → q = e.1 ++ r →
    e.2.part r = some t →
    ∃ b, ∃ F : LinesFocus h ls ns fp b, F.sub = t ∧ (∀ x, F.plug x = putLines D q x ls) ∧ HoleAt h K D ls ns q t b F.f1 F.f2
  | [], _, _, _, _, _, _, _, _, he, _, _ => by simp [Sections.newVals] at he
  | _ :: _, [], _, _, hl, _, _, _, _, _, _, _ => hl.elim
  | (nl, e0) :: ls, n :: ns, fp, D, hl, hr, hap, e, r, he, hqe, ht => by
    obtain ⟨x, ns', f1, f2, e', h1, h2, rfl⟩ := hr
    cases e'
    by_cases hhit : ∃ w1 k s v w2 c, e0 = .kv w1 k s v w2 c ∧ e = (D.here ++ [.str k], v)
    · obtain ⟨w1, k, s, v, w2, c, rfl, rfl⟩ := hhit
      rw [Sections.newVals, List.pairwise_cons] at hap
      obtain ⟨a, rfl, h1⟩ := h1
      obtain ⟨b, F, hF1, hF2, hF3⟩ := h1.focusAt ht
      have hl1 := hl.1 _ rfl
      dsimp only at hqe hl1 ht
      have hpre : (D.here ++ [Key.str k]).isPrefixOf q = true := List.isPrefixOf_iff_prefix.mpr ⟨r, hqe.symm⟩
      have hput : ∀ x, putLines D q x ((nl, .kv w1 k s v w2 c) :: ls) = (nl, .kv w1 k s (v.put r x) w2 c) :: ls := by
        intro x
        rw [putLines, if_pos hpre, hqe, List.drop_left]
      have hrr := hF3 r t ht (.inl rfl)
      have hcell : ∀ s' t1, v.part s' = some t1 → PathWf (D.here ++ [.str k] ++ s') → ¬ r <+: s' →
          ∃ c ∈ F.f1 ++ F.f2, K (D.here ++ [.str k] ++ s') = some ⟨some c, t1.children⟩ ∧ ∀ h' : Heap, (∀ y ∈ F.f1 ++ F.f2, h'[y]? = h[y]?) → reach h' a s' = some c := by
        intro s' t1 ht1 hw' hs'
        obtain ⟨c, g1, g2⟩ := (hF3 s' t1 ht1 (.inr hs')).2 (by rintro rfl; exact hs' (List.prefix_refl _))
        obtain ⟨c', g3, g4⟩ := hl1 s' t1 hw' ht1
        have := g2 h (fun _ _ => rfl)
        dsimp only at this
        rw [this] at g3
        cases g3
        exact ⟨c, g1, g4, g2⟩
      refine ⟨b, ⟨F.sub, F.fb, F.f1, F.f2 ++ f2, fun t' => (nl, .kv w1 k s (F.plug t') w2 c) :: ls,
        nl ++ w1 ++ k ++ s.ws1 ++ lit% "=" ++ s.ws2 ++ F.pre, F.post ++ w2 ++ optComment c ++ linesText ls,
        F.emp || hasEmptyTable ls, by simp [F.fp_eq], F.sub_rep, by simp [F.plug_sub], ?_, ?_, ?_, ?_, ?_⟩, hF1, ?_, ?_⟩
      · intro t'; simp [linesText, ET.text, F.text_eq]
      · intro t'
        rw [hasEmptyTable_cons]
        simp [ET.hasEmptyTable, F.emp_eq, Bool.or_assoc, Bool.or_comm, Bool.or_left_comm]
      · intro t' hw hw' l hl
        rw [List.mem_cons] at hl
        rcases hl with rfl | hl
        · have := hw (nl, .kv w1 k s v w2 c) (by simp)
          obtain ⟨g1, g2, g3, g4, g5⟩ := this
          exact ⟨g1, g2, g3, F.wf_eq t' g4 hw', g5⟩
        · exact hw l (by simp [hl])
      · intro t'; simp
      · intro h' t' fb' hr' hx
        exact ⟨_, ns, F.f1 ++ fb' ++ F.f2, f2, rfl, ⟨a, rfl, F.rep_eq h' t' fb' hr' (fun x hx' => hx x (by grind))⟩,
          h2.congr (fun x hx' => hx x (by grind)), by simp⟩
      · intro x
        dsimp only
        rw [hput, hF2]
      · refine ⟨?_, ?_, ?_⟩
        · obtain ⟨c', g3, g4⟩ := hl1 r t (by rw [← hqe]; exact hq) ht
          have := hrr.1 rfl h (fun _ _ => rfl)
          dsimp only at this
          rw [this] at g3
          cases g3
          rw [hqe]; exact g4
        · intro e' he' s' t1 ht1 hw' hs'
          rw [Sections.newVals, List.mem_cons] at he'
          rcases he' with rfl | he'
          · dsimp only at hs' hw' ht1 ⊢
            obtain ⟨c, g1, g2, _⟩ := hcell s' t1 ht1 hw' (fun h' => hs' (by rw [hqe]; exact (List.prefix_append_right_inj _).mpr h'))
            exact ⟨c, by grind, g2⟩
          · obtain ⟨c, g1, _, g2⟩ := hl.2.cell h2 e' he' s' t1 hw' ht1
            exact ⟨c, by simp [g1], g2⟩
        · intro h' K' x hh hK hx
          rw [hput]
          refine ⟨?_, ?_⟩
          · rintro kv hkv
            cases hkv
            intro s' t1 hw' ht1
            by_cases hs' : r <+: s'
            · obtain ⟨s2, rfl⟩ := hs'
              rw [VT.put_below _ _ _ _ (by rw [ht]; simp)] at ht1
              rw [← List.append_assoc, ← hqe] at hw' ⊢
              obtain ⟨c, g1, g2⟩ := hx s2 t1 hw' ht1
              refine ⟨c, ?_, g2⟩
              rw [reach_append]
              have := hrr.1 rfl h' (fun y hy => hh y (by grind))
              dsimp only at this
              rw [this]
              exact g1
            · have hal := VT.put_above v r s' x hs'
              rw [ht1] at hal
              cases h3 : v.part s' with
              | none => rw [h3] at hal; exact hal.elim
              | some t2 =>
                rw [h3] at hal
                obtain ⟨c, g1, g2, g3⟩ := hcell s' t2 h3 hw' hs'
                refine ⟨c, g3 h' (fun y hy => hh y (by grind)), ?_⟩
                rw [hK _ hw' (by rw [hqe]; exact fun h' => hs' ((List.prefix_append_right_inj _).mp h')), g2, show t1.children = t2.children from hal]
          · refine Sections.Bare.links ls ((Sections.Bare.refl D).kv w1 k s v _ w2 c) ?_
            refine hl.2.congr h2 (fun y hy => hh y (by simp [hy])) fun e' he' s' hw' => hK _ hw' fun h' => ?_
            exact (hap.1 e' he').of_prefix (q := e'.1 ++ s') (List.IsPrefix.trans (⟨r, hqe.symm⟩ : _ <+: q) h') (List.prefix_append _ _)
    · have htail : e ∈ (D.step e0).newVals ls := by
        cases e0 with
        | blank w => exact he
        | comment w c => exact he
        | table w1 t w2 c => exact he
        | kv w1 k s v w2 c =>
          rw [Sections.newVals, List.mem_cons] at he
          exact he.resolve_left fun h => hhit ⟨w1, k, s, v, w2, c, rfl, h⟩
      have hap' : ((D.step e0).newVals ls).Pairwise Sections.Apart := by
        cases e0 with
        | blank w => exact hap
        | comment w c => exact hap
        | table w1 t w2 c => exact hap
        | kv w1 k s v w2 c =>
          rw [Sections.newVals, List.pairwise_cons] at hap
          exact hap.2
      have hoff : ∀ w1 k s v w2 c, e0 = .kv w1 k s v w2 c → ∀ s', ¬ q <+: D.here ++ [.str k] ++ s' := by
        rintro w1 k s v w2 c rfl s' h'
        rw [Sections.newVals, List.pairwise_cons] at hap
        exact (hap.1 e htail).of_prefix (q := D.here ++ [.str k] ++ s') (List.prefix_append _ _) (List.IsPrefix.trans (⟨r, hqe.symm⟩ : _ <+: q) h')
      have hput : ∀ x, putLines D q x ((nl, e0) :: ls) = (nl, e0) :: putLines (D.step e0) q x ls := by
        intro x
        cases e0 with
        | blank w => rfl
        | comment w c => rfl
        | table w1 t w2 c => rfl
        | kv w1 k s v w2 c =>
          rw [putLines, if_neg]
          intro h'
          rw [Sections.newVals, List.pairwise_cons] at hap
          exact (hap.1 e htail).of_prefix (q := q) (List.isPrefixOf_iff_prefix.mp h') (hqe ▸ List.prefix_append _ _)
      obtain ⟨b, F, hF1, hF2, hF3⟩ := Links.focusAt hq hl.2 h2 hap' htail hqe ht
      refine ⟨b, ⟨F.sub, F.fb, f1 ++ F.f1, F.f2, fun t' => (nl, e0) :: F.plug t', nl ++ e0.text ++ F.pre, F.post,
        e0.hasEmptyTable || F.emp, by simp [F.fp_eq], F.sub_rep, by simp [F.plug_sub], ?_, ?_, ?_, ?_, ?_⟩, hF1, ?_, ?_⟩
      · intro t'; simp [linesText, F.text_eq]
      · intro t'
        rw [hasEmptyTable_cons]
        simp [F.emp_eq, Bool.or_assoc]
      · intro t' hw hw' l hl
        rw [List.mem_cons] at hl
        rcases hl with rfl | hl
        · exact hw (nl, e0) (by simp)
        · exact F.wf_eq t' (fun l hl => hw l (by simp [hl])) hw' l hl
      · intro t'; simp [F.good_eq t']
      · intro h' t' fb' hr' hx
        exact ⟨_, ns, f1, F.f1 ++ fb' ++ F.f2, rfl, h1.congr (fun x hx' => hx x (by grind)),
          F.rep_eq h' t' fb' hr' (fun x hx' => hx x (by grind)), by simp⟩
      · intro x
        dsimp only
        rw [hput, hF2]
      · refine ⟨hF3.key, ?_, ?_⟩
        · intro e' he' s' t1 ht1 hw' hs'
          have hcase : e' ∈ (D.step e0).newVals ls ∨ ∃ w1 k s v w2 c, e0 = .kv w1 k s v w2 c ∧ e' = (D.here ++ [.str k], v) := by
            cases e0 with
            | blank w => exact .inl he'
            | comment w c => exact .inl he'
            | table w1 t w2 c => exact .inl he'
            | kv w1 k s v w2 c =>
              rw [Sections.newVals, List.mem_cons] at he'
              exact he'.symm.imp_right fun h => ⟨w1, k, s, v, w2, c, rfl, h⟩
          rcases hcase with he' | ⟨w1, k, s, v, w2, c, rfl, rfl⟩
          · obtain ⟨c, g1, g2⟩ := hF3.others e' he' s' t1 ht1 hw' hs'
            exact ⟨c, by grind, g2⟩
          · obtain ⟨a, rfl, h1⟩ := h1
            obtain ⟨c, g1, g2⟩ := (hl.1 _ rfl).cell h1 hw' ht1
            exact ⟨c, by grind, g2⟩
        · intro h' K' x hh hK hx
          rw [hput]
          refine ⟨?_, hF3.relink h' K' x (fun c hc => hh c (by grind)) hK hx⟩
          cases e0 with
          | blank w => trivial
          | comment w c => trivial
          | table w1 t w2 c => trivial
          | kv w1 k s v w2 c =>
            obtain ⟨a, rfl, h1⟩ := h1
            rintro kv hkv
            cases hkv
            exact (hl.1 _ rfl).congr h1 (fun y hy => hh y (by grind)) fun s' hw' => hK _ hw' (hoff w1 k s v w2 c rfl s')

end Tomllib
