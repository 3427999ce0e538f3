import Verif.Lemmas.Order
import Verif.Lemmas.SittingAll
/-!
# The lines about one name of the top level

What a document says about a name of the top level is what the lines that are about this name say by themselves.
-/

namespace Tomllib
namespace Sections

/-- The path begins with the name. -/
def Under (N : Str) (p : List Key) : Prop := p.head? = some (.str N)

instance (N : Str) (p : List Key) : Decidable (Under N p) := by unfold Under; infer_instance

theorem Under.append {N : Str} {p : List Key} (h : Under N p) (q : List Key) : Under N (p ++ q) := by
  cases p with
  | nil => simp [Under] at h
  | cons x p => simpa [Under] using h

theorem Under.eq {N N' : Str} {p : List Key} (h : Under N p) (h' : Under N' p) : N = N' := by
  unfold Under at h h'
  rw [h] at h'
  simpa using h'

/-- A name in a table is about the name at the top level. -/
def UnderName (N : Str) (e : List Key × Str) : Prop := Under N e.1 ∨ e = ([], N)

instance (N : Str) (e : List Key × Str) : Decidable (UnderName N e) := by unfold UnderName; infer_instance

theorem UnderName.eq {N N' : Str} {e : List Key × Str} (h : UnderName N e) (h' : UnderName N' e) : N = N' := by
  rcases h with h | rfl <;> rcases h' with h' | h'
  · exact h.eq h'
  · subst h'; simp [Under] at h
  · simp [Under] at h'
  · simpa using h'

/-- The parts of what was read, by the name of the top level. -/
structure Grouped (g : Option Str) (D : Sections) (M : Str → Sections) : Prop where
  vals : ∀ N, D.vals.filter (fun e => decide (Under N e.1)) = (M N).vals
  heads : ∀ N, D.heads.filter (fun p => decide (Under N p)) = (M N).heads
  arrs : ∀ N, D.arrs.filter (fun e => decide (Under N e.1)) = (M N).arrs
  names : ∀ N, D.names.filter (fun e => decide (UnderName N e)) = (M N).names
  rvals : ∀ e ∈ D.vals, ∃ N, Under N e.1
  rheads : ∀ p ∈ D.heads, ∃ N, Under N p
  rarrs : ∀ e ∈ D.arrs, ∃ N, Under N e.1
  rnames : ∀ e ∈ D.names, ∃ N, UnderName N e
  top : g = none → D.here = [] ∧ ∀ N, (M N).here = []
  sub : ∀ X, g = some X → (M X).here = D.here ∧ Under X D.here

theorem Grouped.new : Grouped none {} fun _ => {} :=
  ⟨fun _ => rfl, fun _ => rfl, fun _ => rfl, fun _ => rfl, by simp, by simp, by simp, by simp, fun _ => ⟨rfl, fun _ => rfl⟩, by simp⟩

theorem findSome_filter {α β : Type} {f : α → Option β} {P : α → Bool} : ∀ (l : List α), (∀ e ∈ l, f e ≠ none → P e = true) → (l.filter P).findSome? f = l.findSome? f
  | [], _ => rfl
  | x :: l, h => by
    have ih := findSome_filter (f := f) (P := P) l fun e he => h e (by simp [he])
    rw [List.filter_cons]
    split
    · rw [List.findSome?_cons, List.findSome?_cons, ih]
    · next hx =>
      have : f x = none := by
        cases hf : f x with
        | none => rfl
        | some y => exact absurd (h x (by simp) (by simp [hf])) hx
      rw [List.findSome?_cons, this, ih]

theorem Grouped.count {g : Option Str} {D : Sections} {M : Str → Sections} (h : Grouped g D M) {N : Str} {p : List Key} (hp : Under N p) : (M N).count p = D.count p := by
  unfold Sections.count
  rw [← h.arrs N]
  refine findSome_filter _ fun e _ he => ?_
  simp only [ne_eq, ite_eq_right_iff, reduceCtorEq, imp_false, Decidable.not_not] at he
  rw [he]
  simpa using hp

theorem Grouped.enter {g : Option Str} {D : Sections} {M : Str → Sections} (h : Grouped g D M) {N : Str} {p : List Key} (hp : Under N p) :
    (M N).enter p = D.enter p ∧ Under N (D.enter p) := by
  unfold Sections.enter
  rw [h.count hp]
  refine ⟨rfl, ?_⟩
  split
  · exact hp.append _
  · exact hp

theorem Grouped.path {g : Option Str} {D : Sections} {M : Str → Sections} (h : Grouped g D M) {N : Str} : ∀ (ks : List Str) {p : List Key}, Under N p →
    (M N).path p ks = D.path p ks ∧ Under N (D.path p ks)
  | [], _, hp => ⟨rfl, hp⟩
  | k :: ks, p, hp => by
    have h1 := h.enter (hp.append [.str k])
    rw [Sections.path, Sections.path, h1.1]
    exact h.path ks h1.2

theorem Grouped.way {g : Option Str} {D : Sections} {M : Str → Sections} (h : Grouped g D M) {N : Str} : ∀ (ks : List Str) {p : List Key}, Under N p →
    (M N).way p ks = D.way p ks ∧ ∀ e ∈ D.way p ks, UnderName N e
  | [], _, _ => ⟨rfl, by simp [Sections.way]⟩
  | k :: ks, p, hp => by
    have h1 := h.enter (hp.append [.str k])
    have ih := h.way ks h1.2
    rw [Sections.way, Sections.way, h1.1, ih.1]
    refine ⟨rfl, fun e he => ?_⟩
    rcases List.mem_cons.mp he with rfl | he
    · exact .inl hp
    · exact ih.2 e he

theorem Grouped.wayTop {g : Option Str} {D : Sections} {M : Str → Sections} (h : Grouped g D M) (ns : List Str) :
    (M (ns.headD [])).way [] ns = D.way [] ns ∧ ∀ e ∈ D.way [] ns, UnderName (ns.headD []) e := by
  cases ns with
  | nil => exact ⟨rfl, by simp [Sections.way]⟩
  | cons N ks =>
    have h0 : Under N ([] ++ [Key.str N]) := rfl
    have h1 := h.enter h0
    have ih := h.way ks h1.2
    rw [List.headD_cons, Sections.way, Sections.way, h1.1, ih.1]
    refine ⟨rfl, fun e he => ?_⟩
    rcases List.mem_cons.mp he with rfl | he
    · exact .inr rfl
    · exact ih.2 e he

theorem Grouped.target {g : Option Str} {D : Sections} {M : Str → Sections} (h : Grouped g D M) (ns : List Str) :
    (M (ns.headD [])).target ns = D.target ns ∧ Under (ns.headD []) (D.target ns) := by
  unfold Sections.target
  match ns with
  | [] => exact ⟨rfl, rfl⟩
  | [N] => exact ⟨rfl, rfl⟩
  | N :: k :: ks =>
    have h0 : Under N ([] ++ [Key.str N]) := rfl
    have h1 := h.enter h0
    have h2 := h.path (k :: ks).dropLast h1.2
    rw [List.headD_cons, List.dropLast_cons₂, Sections.path, Sections.path, h1.1, h2.1]
    exact ⟨rfl, h2.2.append _⟩

/-- The next line, for the name it is about. -/
def turn (M : Str → Sections) (g : Option Str) (e : ET) : Str → Sections := fun N =>
  match e.item? with
  | none => M N
  | some i => if i.owner g = N then (M N).step e else M N

/-- The first name of the header above the next line. -/
def next (g : Option Str) (e : ET) : Option Str :=
  match e.item? with
  | none => g
  | some i => i.below g

theorem filter_new {α : Type} {P : Str → α → Prop} [∀ N e, Decidable (P N e)] {l new : List α} {X N : Str} (hn : ∀ e ∈ new, P X e) (hu : ∀ e, P X e → P N e → X = N) :
    (l ++ new).filter (fun e => decide (P N e)) = if X = N then l.filter (fun e => decide (P N e)) ++ new else l.filter (fun e => decide (P N e)) := by
  rw [List.filter_append]
  split
  · next h => subst h; rw [(List.filter_eq_self (l := new) (p := fun e => decide (P X e))).mpr fun e he => by simpa using hn e he]
  · next h => rw [(List.filter_eq_nil_iff (l := new) (p := fun e => decide (P N e))).mpr fun e he hp => h (hu e (hn e he) (by simpa using hp)), List.append_nil]

theorem Grouped.step {g : Option Str} {D : Sections} {M : Str → Sections} (h : Grouped g D M) (e : ET) : Grouped (next g e) (D.step e) (turn M g e) := by
  cases e with
  | blank w => exact h
  | comment w c => exact h
  | kv w1 k s v w2 c =>
    have hx : ∃ X, g.getD k = X ∧ (M X).here = D.here ∧ Under X (D.here ++ [.str k]) ∧ UnderName X (D.here, k) := by
      cases hg : g with
      | none =>
        obtain ⟨h1, h2⟩ := h.top hg
        refine ⟨k, rfl, ?_, ?_, ?_⟩
        · rw [h1, h2]
        · rw [h1]; rfl
        · rw [h1]; exact .inr rfl
      | some X =>
        obtain ⟨h1, h2⟩ := h.sub X hg
        exact ⟨X, rfl, h1, h2.append _, .inl h2⟩
    obtain ⟨X, e0, e1, e2, e3⟩ := hx
    have et : ∀ N, turn M g (.kv w1 k s v w2 c) N = if X = N then (M N).step (.kv w1 k s v w2 c) else M N := fun N => by rw [← e0]; rfl
    refine ⟨fun N => ?_, fun N => ?_, fun N => ?_, fun N => ?_, ?_, h.rheads, h.rarrs, ?_, fun hg => ?_, fun Y hg => ?_⟩
    · show (D.vals ++ [_]).filter _ = _
      rw [filter_new (P := fun N (e : List Key × VT) => Under N e.1) (X := X) (by simpa using e2) fun e h1 h2 => h1.eq h2, et, h.vals]
      split
      · next hX => subst hX; show _ = _ ++ _; rw [e1]
      · rfl
    · rw [et]; show D.heads.filter _ = _; rw [h.heads]; split <;> rfl
    · rw [et]; show D.arrs.filter _ = _; rw [h.arrs]; split <;> rfl
    · show (D.names ++ [_]).filter _ = _
      rw [filter_new (P := UnderName) (X := X) (by simpa using e3) fun e h1 h2 => h1.eq h2, et, h.names]
      split
      · next hX => subst hX; show _ = _ ++ _; rw [e1]
      · rfl
    · intro e he
      rcases List.mem_append.mp he with he | he
      · exact h.rvals e he
      · rw [List.mem_singleton.mp he]; exact ⟨X, e2⟩
    · intro e he
      rcases List.mem_append.mp he with he | he
      · exact h.rnames e he
      · rw [List.mem_singleton.mp he]; exact ⟨X, e3⟩
    · obtain ⟨h1, h2⟩ := h.top hg
      exact ⟨h1, fun N => by rw [et]; split <;> exact h2 N⟩
    · obtain ⟨h1, h2⟩ := h.sub Y hg
      exact ⟨by rw [et]; split <;> exact h1, h2⟩
  | table w1 t w2 c =>
    cases t with
    | std t =>
      have ht := h.target t.names
      have hw := h.wayTop t.names
      generalize hX : t.names.headD [] = X at ht hw
      have et : ∀ N, turn M g (.table w1 (.std t) w2 c) N = if X = N then (M N).step (.table w1 (.std t) w2 c) else M N := fun N => by rw [← hX]; rfl
      refine ⟨fun N => ?_, fun N => ?_, fun N => ?_, fun N => ?_, h.rvals, ?_, h.rarrs, ?_, fun hg => ?_, fun Y hg => ?_⟩
      · rw [et]; show D.vals.filter _ = _; rw [h.vals]; split <;> rfl
      · show (D.heads ++ [_]).filter _ = _
        rw [filter_new (P := Under) (X := X) (by simpa using ht.2) fun e h1 h2 => h1.eq h2, et, h.heads]
        split
        · next hX => subst hX; show _ = _ ++ [_]; rw [ht.1]
        · rfl
      · rw [et]; show D.arrs.filter _ = _; rw [h.arrs]; split <;> rfl
      · show (D.names ++ _).filter _ = _
        rw [filter_new (P := UnderName) (X := X) hw.2 fun e h1 h2 => h1.eq h2, et, h.names]
        split
        · next hX => subst hX; show _ = _ ++ _; rw [hw.1]
        · rfl
      · intro e he
        rcases List.mem_append.mp he with he | he
        · exact h.rheads e he
        · rw [List.mem_singleton.mp he]; exact ⟨X, ht.2⟩
      · intro e he
        rcases List.mem_append.mp he with he | he
        · exact h.rnames e he
        · exact ⟨X, hw.2 e he⟩
      · simp [next, ET.item?, Item.below] at hg
      · have : X = Y := by
          rw [← hX]
          simpa [next, ET.item?, Item.below, Table.names] using hg
        subst this
        rw [et, if_pos rfl]
        exact ⟨ht.1, ht.2⟩
    | arr t =>
      have ht := h.target t.names
      have hw := h.wayTop t.names
      have hc := h.count ht.2
      generalize hX : t.names.headD [] = X at ht hw hc
      have et : ∀ N, turn M g (.table w1 (.arr t) w2 c) N = if X = N then (M N).step (.table w1 (.arr t) w2 c) else M N := fun N => by rw [← hX]; rfl
      refine ⟨fun N => ?_, fun N => ?_, fun N => ?_, fun N => ?_, h.rvals, h.rheads, ?_, ?_, fun hg => ?_, fun Y hg => ?_⟩
      · rw [et]; show D.vals.filter _ = _; rw [h.vals]; split <;> rfl
      · rw [et]; show D.heads.filter _ = _; rw [h.heads]; split <;> rfl
      · show (_ :: D.arrs).filter _ = _
        rw [List.filter_cons, et, h.arrs]
        by_cases hN : X = N
        · subst hN
          rw [if_pos (by simpa using ht.2), if_pos rfl]
          show _ = _ :: _
          rw [ht.1, hc]
        · rw [if_neg (by simpa using fun h' => hN (ht.2.eq h')), if_neg hN]
      · show (D.names ++ _).filter _ = _
        rw [filter_new (P := UnderName) (X := X) hw.2 fun e h1 h2 => h1.eq h2, et, h.names]
        split
        · next hX => subst hX; show _ = _ ++ _; rw [hw.1]
        · rfl
      · intro e he
        rcases List.mem_cons.mp he with he | he
        · rw [he]; exact ⟨X, ht.2⟩
        · exact h.rarrs e he
      · intro e he
        rcases List.mem_append.mp he with he | he
        · exact h.rnames e he
        · exact ⟨X, hw.2 e he⟩
      · simp [next, ET.item?, Item.below] at hg
      · have : X = Y := by
          rw [← hX]
          simpa [next, ET.item?, Item.below, Table.names] using hg
        subst this
        rw [et, if_pos rfl]
        refine ⟨?_, ht.2.append _⟩
        show _ ++ _ = _ ++ _
        rw [ht.1, hc]

/-! ## The lines about a name -/

/-- The lines that are about a name. -/
def pick (N : Str) : Option Str → List ET → List ET
  | _, [] => []
  | g, e :: r =>
    match e.item? with
    | none => pick N g r
    | some i => if i.owner g = N then e :: pick N (i.below g) r else pick N (i.below g) r

theorem pick_about (N : Str) : ∀ (es : List ET) (g : Option Str), (pick N g es).map ET.item? = (about N g (es.filterMap ET.item?)).map some
  | [], _ => rfl
  | e :: r, g => by
    rw [pick, List.filterMap_cons]
    cases hi : e.item? with
    | none => exact pick_about N r g
    | some i =>
      dsimp only
      rw [about]
      split
      · rw [List.map_cons, List.map_cons, hi, pick_about N r]
      · exact pick_about N r _

/-- The stray name of a header, if it has one. -/
def strayIn (M : Sections) : ET → List Str
  | .table _ (.std t) _ _ => if t.names.dropLast ≠ [] ∧ M.count (M.target t.names.dropLast) ≠ none then [t.names.getLastD []] else []
  | _ => []

/-- The stray names of lines. -/
def strays : Sections → List ET → List Str
  | _, [] => []
  | M, e :: r => strayIn M e ++ strays (M.step e) r

theorem Rel.strayIn {D D' : Sections} (h : Rel VT.Equal D D') {e e' : ET} (he : e.item? = e'.item?) : strayIn D e = strayIn D' e' := by
  have hb := h.bare
  cases e with
  | blank w => cases e' with
    | table w1 t w2 c => cases t <;> simp [ET.item?] at he
    | _ => first | rfl | simp [ET.item?] at he
  | comment w c => cases e' with
    | table w1 t w2 c => cases t <;> simp [ET.item?] at he
    | _ => first | rfl | simp [ET.item?] at he
  | kv w1 k s v w2 c => cases e' with
    | table w1 t w2 c => cases t <;> simp [ET.item?] at he
    | _ => first | rfl | simp [ET.item?] at he
  | table w1 t w2 c =>
    cases e' with
    | blank => cases t <;> simp [ET.item?] at he
    | comment => cases t <;> simp [ET.item?] at he
    | kv => cases t <;> simp [ET.item?] at he
    | table w1' t' w2' c' =>
      cases t with
      | std t =>
        cases t' with
        | arr t' => simp [ET.item?] at he
        | std t' =>
          simp only [ET.item?, Option.some.injEq, Item.header.injEq, true_and] at he
          have hn : t'.names = t.names := he.symm
          simp only [Sections.strayIn, hn, hb.target, count_congr hb.arrs]
      | arr t =>
        cases t' with
        | std t' => simp [ET.item?] at he
        | arr t' => rfl

theorem Rel.items : ∀ {a b : List ET} {D D' : Sections}, a.map ET.item? = b.map ET.item? → Rel VT.Equal D D' →
    Rel VT.Equal (D.readE a) (D'.readE b) ∧ strays D a = strays D' b
  | [], [], _, _, _, h => ⟨h, rfl⟩
  | [], _ :: _, _, _, hm, _ => by simp at hm
  | _ :: _, [], _, _, hm, _ => by simp at hm
  | e :: a, e' :: b, D, D', hm, h => by
    rw [List.map_cons, List.map_cons, List.cons.injEq] at hm
    have ih := Rel.items hm.2 (h.item hm.1)
    refine ⟨ih.1, ?_⟩
    rw [strays, strays, h.strayIn hm.1, ih.2]

/-! ## All lines -/

theorem SimE.strayed {D : Sections} {st : PState} (h : D.Sim st) {w1 w2 : Str} {t : Table} {c : Option Str} (hf : D.fits (.table w1 (.std t) w2 c)) :
    t.names.dropLast ∈ D.opened ↔ t.names.dropLast ≠ [] ∧ D.count (D.target t.names.dropLast) ≠ none := by
  constructor
  · intro hm
    obtain ⟨cts, cis, A, b, ho, _, e⟩ := h.stack
    rw [e] at hm
    obtain ⟨u, hu, e1⟩ := List.mem_map.mp hm
    have := ho.counted h.good u hu
    rw [← e1]
    exact ⟨this.2.2.1, this.1⟩
  · rintro ⟨h1, h2⟩
    refine ((hf.1 _ ?_).2 h2).1
    unfold onWay
    have hl : 0 < t.names.dropLast.length := List.length_pos_iff.mpr h1
    rw [List.length_dropLast] at hl
    refine List.mem_map.mpr ⟨t.names.length - 2, List.mem_range.mpr (by omega), ?_⟩
    rw [List.dropLast_eq_take]
    congr 1
    omega

theorem Grouped.strayIn {g : Option Str} {D : Sections} {M : Str → Sections} (hG : Grouped g D M) {st : PState} (h : D.Sim st) {e : ET} (hf : D.fits e) (k : Str) :
    k ∈ (D.step e).stray ↔ k ∈ D.stray ∨ ∃ i, e.item? = some i ∧ k ∈ Sections.strayIn (M (i.owner g)) e := by
  cases e with
  | blank w => simp [Sections.step, ET.item?]
  | comment w c => simp [Sections.step, ET.item?]
  | kv w1 k s v w2 c => simp [Sections.step, ET.item?, Sections.strayIn]
  | table w1 t w2 c =>
    cases t with
    | arr t => simp [Sections.step, ET.item?, Sections.strayIn]
    | std t =>
      have hs := h.strayed hf
      have hh : t.names.dropLast ≠ [] → (t.names.headD []) = t.names.dropLast.headD [] := by
        intro hne
        match t.names, hne with
        | [], hne => simp at hne
        | [_], hne => simp at hne
        | _ :: _ :: _, _ => rfl
      show k ∈ (if t.names.dropLast ∈ D.opened then D.stray ++ [t.names.getLastD []] else D.stray) ↔ k ∈ D.stray ∨ ∃ i, some (Item.header false t.names) = some i ∧ k ∈ Sections.strayIn (M (i.owner g)) _
      have e1 : (∃ i, some (Item.header false t.names) = some i ∧ k ∈ Sections.strayIn (M (i.owner g)) (.table w1 (.std t) w2 c)) ↔
          k ∈ Sections.strayIn (M (t.names.headD [])) (.table w1 (.std t) w2 c) := by
        constructor
        · rintro ⟨i, e, h⟩
          obtain rfl := Option.some.inj e
          exact h
        · exact fun h => ⟨_, rfl, h⟩
      rw [e1]
      by_cases hm : t.names.dropLast ∈ D.opened
      · have h2 := hs.mp hm
        have ht := hG.target t.names.dropLast
        have hc := hG.count ht.2
        rw [if_pos hm, Sections.strayIn, hh h2.1, ht.1, hc, if_pos h2]
        simp
      · have h2 := mt hs.mpr hm
        rw [if_neg hm, Sections.strayIn]
        rw [if_neg]
        · simp
        · rintro ⟨h3, h4⟩
          have ht := hG.target t.names.dropLast
          have hc := hG.count ht.2
          rw [hh h3, ht.1, hc] at h4
          exact h2 ⟨h3, h4⟩

theorem Grouped.all : ∀ (ls : List (Str × ET)) {g : Option Str} {D : Sections} {M : Str → Sections} {st : PState}, Grouped g D M → D.Sim st → (∀ l ∈ ls, l.2.wf) → D.Fits ls →
    (∃ g', Grouped g' (D.readE (ls.map (·.2))) fun N => (M N).readE (pick N g (ls.map (·.2)))) ∧
    ∀ k, k ∈ (D.readE (ls.map (·.2))).stray ↔ k ∈ D.stray ∨ ∃ N, k ∈ strays (M N) (pick N g (ls.map (·.2)))
  | [], g, D, M, _, h, _, _, _ => ⟨⟨g, h⟩, by simp [readE, pick, strays]⟩
  | (nl, e) :: ls, g, D, M, st, h, hs, hw, hf => by
    obtain ⟨st1, e1, h1⟩ := (hs.lines (nlCount nl)).line (hw (nl, e) (by simp)) hf.1
    obtain ⟨⟨g', i1⟩, i2⟩ := Grouped.all ls (h.step e) h1 (fun l hl => hw l (by simp [hl])) hf.2
    have hst := h.strayIn hs hf.1
    have hp : ∀ N, pick N g (((nl, e) :: ls).map (·.2)) = (match e.item? with
        | none => []
        | some i => if i.owner g = N then [e] else []) ++ pick N (next g e) (ls.map (·.2)) := fun N => by
      rw [List.map_cons, pick]
      unfold next
      cases e.item? with
      | none => rfl
      | some i => dsimp only; split <;> rfl
    have hr : ∀ N, (M N).readE (pick N g (((nl, e) :: ls).map (·.2))) = (turn M g e N).readE (pick N (next g e) (ls.map (·.2))) := fun N => by
      rw [hp, readE, List.foldl_append]
      unfold turn
      cases e.item? with
      | none => rfl
      | some i => dsimp only; split <;> rfl
    refine ⟨⟨g', ?_⟩, fun k => ?_⟩
    · have : (fun N => (M N).readE (pick N g (((nl, e) :: ls).map (·.2)))) = fun N => (turn M g e N).readE (pick N (next g e) (ls.map (·.2))) := funext hr
      rw [this]
      exact i1
    · have hsn : ∀ N, k ∈ strays (M N) (pick N g (((nl, e) :: ls).map (·.2))) ↔
          (∃ i, e.item? = some i ∧ i.owner g = N ∧ k ∈ Sections.strayIn (M N) e) ∨ k ∈ strays (turn M g e N) (pick N (next g e) (ls.map (·.2))) := fun N => by
        rw [hp]
        unfold turn
        cases e.item? with
        | none => simp
        | some i =>
          dsimp only
          by_cases ho : i.owner g = N
          · simp [ho, strays]
          · simp [ho]
      show k ∈ ((D.step e).readE (ls.map (·.2))).stray ↔ _
      rw [i2, hst]
      simp only [hsn]
      constructor
      · rintro ((h | ⟨i, h1, h2⟩) | ⟨N, h⟩)
        · exact .inl h
        · exact .inr ⟨_, .inl ⟨i, h1, rfl, h2⟩⟩
        · exact .inr ⟨N, .inr h⟩
      · rintro (h | ⟨N, ⟨i, h1, rfl, h2⟩ | h⟩)
        · exact .inl (.inl h)
        · exact .inl (.inr ⟨i, h1, h2⟩)
        · exact .inr ⟨N, h⟩

theorem ValsRel.mem {R : VT → VT → Prop} : ∀ {a a' : List (List Key × VT)}, ValsRel R a a' → ∀ e ∈ a, ∃ e' ∈ a', e'.1 = e.1 ∧ R e.2 e'.2
  | [], _, _, _, he => by simp at he
  | (p, v) :: a, _, h, e, he => by
    obtain ⟨v', r, rfl, h1, h2⟩ := h
    rcases List.mem_cons.mp he with rfl | he
    · exact ⟨(p, v'), by simp, rfl, h1⟩
    · obtain ⟨e', h3, h4⟩ := ValsRel.mem h2 e he
      exact ⟨e', by simp [h3], h4⟩

/-- Two documents that say the same about every name of the top level. -/
theorem says_about {ls ls' : List (Str × ET)} (hw : DocWf ls) (hw' : DocWf ls') (hf : Fits {} ls) (hf' : Fits {} ls')
    (h : ∀ N, about N none (content ls) = about N none (content ls')) : (Sections.read ls).Says (Sections.read ls') := by
  obtain ⟨⟨g, hG⟩, hs⟩ := Grouped.all ls Grouped.new Sim.new hw.lines hf
  obtain ⟨⟨g', hG'⟩, hs'⟩ := Grouped.all ls' Grouped.new Sim.new hw'.lines hf'
  have hr : ∀ N, Rel VT.Equal (readE {} (pick N none (ls.map (·.2)))) (readE {} (pick N none (ls'.map (·.2)))) ∧
      strays {} (pick N none (ls.map (·.2))) = strays {} (pick N none (ls'.map (·.2))) := fun N => by
    refine Rel.items ?_ ⟨.refl _, rfl⟩
    have e : ∀ ls : List (Str × ET), (ls.map (·.2)).filterMap ET.item? = content ls := fun ls => by rw [content, List.filterMap_map]; rfl
    rw [pick_about, pick_about, e, e, h]
  rw [← readE_eq] at hG hG' hs hs'
  have memF : ∀ {α : Type} {P : Str → α → Prop} [∀ N e, Decidable (P N e)] {l l' : List α}, (∀ e ∈ l, ∃ N, P N e) → (∀ N, l.filter (fun e => decide (P N e)) = l'.filter (fun e => decide (P N e))) →
      ∀ e ∈ l, e ∈ l' := fun {α P _ l l'} h1 h2 e he => by
    obtain ⟨N, hN⟩ := h1 e he
    have : e ∈ l.filter (fun e => decide (P N e)) := List.mem_filter.mpr ⟨he, by simpa using hN⟩
    rw [h2] at this
    exact (List.mem_filter.mp this).1
  have e1 : ∀ N, _ := fun N => (hG.heads N).trans ((hr N).1.bare.heads.symm.trans (hG'.heads N).symm)
  have e2 : ∀ N, _ := fun N => (hG.names N).trans ((hr N).1.bare.names.symm.trans (hG'.names N).symm)
  have e3 : ∀ N, _ := fun N => (hG.arrs N).trans ((hr N).1.bare.arrs.symm.trans (hG'.arrs N).symm)
  refine ⟨fun e he => ?_, fun p => ⟨?_, ?_⟩, fun e => ⟨?_, ?_⟩, fun e => ⟨?_, ?_⟩, fun p => ?_, fun k => ?_⟩
  · obtain ⟨N, hN⟩ := hG.rvals e he
    have : e ∈ (readE {} (pick N none (ls.map (·.2)))).vals := by
      rw [← hG.vals]; exact List.mem_filter.mpr ⟨he, by simpa using hN⟩
    obtain ⟨e', h1, h2, h3⟩ := (hr N).1.vals.mem e this
    rw [← hG'.vals] at h1
    exact ⟨e', (List.mem_filter.mp h1).1, h2, h3⟩
  · exact memF hG.rheads e1 p
  · exact memF hG'.rheads (fun N => (e1 N).symm) p
  · exact memF hG.rnames e2 e
  · exact memF hG'.rnames (fun N => (e2 N).symm) e
  · exact memF (P := fun N (e : List Key × Nat) => Under N e.1) hG.rarrs e3 e
  · exact memF (P := fun N (e : List Key × Nat) => Under N e.1) hG'.rarrs (fun N => (e3 N).symm) e
  · by_cases hp : ∃ N, Under N p
    · obtain ⟨N, hN⟩ := hp
      rw [← hG.count hN, ← hG'.count hN]
      exact (count_congr (hr N).1.bare.arrs p).symm
    · rw [(count_none (p := p)).mpr fun e he e1 => hp (by rw [← e1]; exact hG.rarrs e he), (count_none (p := p)).mpr fun e he e1 => hp (by rw [← e1]; exact hG'.rarrs e he)]
  · rw [hs, hs']
    simp only [hr]

end Sections
end Tomllib
