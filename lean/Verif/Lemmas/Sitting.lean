import Verif.Lemmas.HistAll
import Verif.Lemmas.HistWalk
import Verif.Lemmas.Reads
import Verif.Spec.Sitting
/-!
# Several texts read with the same parser, with assignments in between
-/

namespace Tomllib

open Sections

/-! ## Lines after lines -/

theorem LinesRep.join {h : Heap} : ∀ {ls ls' : List (Str × ET)} {ns ns' : List NLExpression} {f f' : List Addr}, LinesRep h ls ns f → LinesRep h ls' ns' f' →
    LinesRep h (ls ++ ls') (ns ++ ns') (f ++ f')
  | [], _, _, _, _, _, hr, hr' => by
    obtain ⟨rfl, rfl⟩ := hr; exact hr'
  | (nl, e) :: es, _, _, _, _, _, hr, hr' => by
    obtain ⟨x, ns', f1, f2, rfl, h1, h2, rfl⟩ := hr
    exact ⟨x, ns' ++ _, f1, f2 ++ _, rfl, h1, h2.join hr', by simp⟩

theorem LinesRep.len {h : Heap} : ∀ {ls : List (Str × ET)} {ns : List NLExpression} {f : List Addr}, LinesRep h ls ns f → ns.length = ls.length
  | [], _, _, hr => by rw [hr.1]; rfl
  | (nl, e) :: es, _, _, hr => by
    obtain ⟨x, ns', f1, f2, rfl, h1, h2, rfl⟩ := hr
    simp [h2.len]

theorem LinesRep.drop {h : Heap} : ∀ {ls : List (Str × ET)} {ns : List NLExpression} {f : List Addr} (n : Nat), LinesRep h ls ns f →
    ∃ f1 f2, f = f1 ++ f2 ∧ LinesRep h (ls.drop n) (ns.drop n) f2
  | ls, ns, f, 0, hr => ⟨[], f, rfl, hr⟩
  | [], _, _, n + 1, hr => by
    obtain ⟨rfl, rfl⟩ := hr
    exact ⟨[], [], rfl, rfl, rfl⟩
  | (nl, e) :: es, _, _, n + 1, hr => by
    obtain ⟨x, ns', f1, f2, rfl, h1, h2, rfl⟩ := hr
    obtain ⟨g1, g2, rfl, h3⟩ := h2.drop n
    exact ⟨f1 ++ g1, g2, by simp, h3⟩

theorem Links.join {h : Heap} {K : List Key → Option HashValue} : ∀ {ls ls' : List (Str × ET)} {ns ns' : List NLExpression} {D : Sections}, ns.length = ls.length → Links h K D ls ns →
    Links h K (ls.foldl (fun D l => D.step l.2) D) ls' ns' → Links h K D (ls ++ ls') (ns ++ ns')
  | [], _, [], _, _, _, _, h' => h'
  | [], _, _ :: _, _, _, hl, _, _ => by simp at hl
  | _ :: _, _, [], _, _, _, h, _ => h.elim
  | l :: ls, _, n :: ns, _, D, hl, h, h' => ⟨h.1, Links.join (by simpa using hl) h.2 h'⟩

/-- The links are kept when the entries of the parts are. -/
theorem Links.keep {h h' : Heap} {K K' : List Key → Option HashValue} : ∀ {ls : List (Str × ET)} {ns : List NLExpression} {f : List Addr} {D : Sections},
    Links h K D ls ns → LinesRep h ls ns f → (∀ y ∈ f, h'[y]? = h[y]?) →
    (∀ e ∈ D.newVals ls, ∀ s t c, PathWf (e.1 ++ s) → e.2.part s = some t → K (e.1 ++ s) = some ⟨some c, t.children⟩ → K' (e.1 ++ s) = some ⟨some c, t.children⟩) → Links h' K' D ls ns
  | [], _, _, _, _, _, _, _ => trivial
  | _ :: _, [], _, _, hl, _, _, _ => hl.elim
  | (nl, .blank w) :: ls, n :: ns, f, D, hl, hr, hh, hK => by
    obtain ⟨x, ns', f1, f2, e, h1, h2, rfl⟩ := hr
    cases e
    exact ⟨trivial, Links.keep hl.2 h2 (fun y hy => hh y (by simp [hy])) hK⟩
  | (nl, .comment w c) :: ls, n :: ns, f, D, hl, hr, hh, hK => by
    obtain ⟨x, ns', f1, f2, e, h1, h2, rfl⟩ := hr
    cases e
    exact ⟨trivial, Links.keep hl.2 h2 (fun y hy => hh y (by simp [hy])) hK⟩
  | (nl, .table w1 t w2 c) :: ls, n :: ns, f, D, hl, hr, hh, hK => by
    obtain ⟨x, ns', f1, f2, e, h1, h2, rfl⟩ := hr
    cases e
    exact ⟨trivial, Links.keep hl.2 h2 (fun y hy => hh y (by simp [hy])) hK⟩
  | (nl, .kv w1 k s v w2 c) :: ls, n :: ns, f, D, hl, hr, hh, hK => by
    obtain ⟨x, ns', f1, f2, e, h1, h2, rfl⟩ := hr
    cases e
    refine ⟨?_, Links.keep hl.2 h2 (fun y hy => hh y (by simp [hy])) (fun e he => hK e (by simp [Sections.newVals, he]))⟩
    obtain ⟨a, rfl, h1⟩ := h1
    rintro kv hkv
    cases hkv
    intro s' t' hw' ht'
    obtain ⟨c', g1, g2⟩ := hl.1 _ rfl s' t' hw' ht'
    obtain ⟨c2, _, _, g3⟩ := h1.reach ht'
    have := g3 h (fun _ _ => rfl)
    dsimp only at g1
    rw [this] at g1
    cases g1
    exact ⟨c', g3 h' (fun y hy => hh y (by simp [hy])), hK (D.here ++ [.str k], v) (by simp [Sections.newVals]) s' t' c' hw' ht' g2⟩

theorem Sections.read_append (ls ls' : List (Str × ET)) : Sections.read (ls ++ ls') = ls'.foldl (fun D l => D.step l.2) (Sections.read ls) := by
  rw [read, List.foldl_append]; rfl

/-! ## An assignment touches the entries and the cells only -/

theorem setValue_frame {p p' : Parser} {k : Str} {v : Value} {b : Bool} (h : p.setValue k v = .ok (p', b)) :
    (∃ m x, p' = { p with st := { p.st with map := m, heap := x } }) ∧ ∀ T, ({ p with tree := T } : Parser).setValue k v = .ok ({ p' with tree := T }, b) := by
  unfold Parser.setValue at h ⊢
  split at h
  next a c hg =>
    split at h
    next hs =>
      simp only [Out.bind_eq] at h ⊢
      rw [Out.bind_ok] at h
      obtain ⟨x, h1, h2⟩ := h
      cases h2
      refine ⟨⟨_, _, rfl⟩, fun T => ?_⟩
      rw [hg]
      simp only [hs, if_true, h1, Out.bind]
    next hs =>
      simp only [Out.bind_eq] at h ⊢
      rw [Out.bind_ok] at h
      obtain ⟨subs, h1, h⟩ := h
      rw [Out.bind_ok] at h
      obtain ⟨⟨x, nv⟩, h2, h⟩ := h
      dsimp only at h
      split at h
      · cases h
        refine ⟨⟨_, _, rfl⟩, fun T => ?_⟩
        rw [hg]
        simp [hs, h1, Out.bind, h2]
      · rw [Out.bind_ok] at h
        obtain ⟨h3, e3, h⟩ := h
        rw [Out.bind_ok] at h
        obtain ⟨h4, e4, h⟩ := h
        cases h
        refine ⟨⟨_, _, rfl⟩, fun T => ?_⟩
        rw [hg]
        simp only [hs, h1, Out.bind, h2, e3, e4]
        simp
      · rw [Out.bind_ok] at h
        obtain ⟨h3, e3, h⟩ := h
        rw [Out.bind_ok] at h
        obtain ⟨h4, e4, h⟩ := h
        cases h
        refine ⟨⟨_, _, rfl⟩, fun T => ?_⟩
        rw [hg]
        simp only [hs, h1, Out.bind, h2, e3, e4]
        simp
      · cases h
  next hno =>
    cases h
    exact ⟨⟨_, _, rfl⟩, fun T => rfl⟩

/-! ## What the parser knows after an assignment -/

theorem Sections.Bare.open {D D' : Sections} (h : Bare D D') {ts : List TableType} {is : List Nat} {A : List Str} {b : List Key} (ho : D.Open ts is A b) : D'.Open ts is A b := by
  induction ho with
  | nil => exact .nil
  | snoc t ks c _ hw hn hne hb hk ih =>
    exact .snoc t ks c ih hw hn hne (fun x k y e => by rw [h.names]; exact hb x k y e) (by rw [count_congr h.arrs]; exact hk)

/-- The entries and the cells are exchanged, and the values. -/
theorem Sections.Sim.bare {D D' : Sections} {st : PState} (h : D.Sim st) (hb : Bare D D') {m : KMap} {x : Heap} (ho : Only m) (hg : D'.Good (KP m) x) (hd : ∀ Y, D'.Down Y) :
    D'.Sim { st with map := m, heap := x } := by
  refine ⟨h.kc, h.errs, ho, hg, hd, ?_, ?_, ?_⟩
  · have := h.hereT
    rw [hb]; exact this
  · have := h.hereS
    rw [hb]
    exact ⟨this.str, this.idx⟩
  · obtain ⟨cts, cis, A, b, h1, h2, h3⟩ := h.stack
    refine ⟨cts, cis, A, b, hb.open h1, ⟨?_, h2.err⟩, ?_⟩
    · rw [hb.here]; exact h2.top
    · rw [hb]; exact h3

theorem Hist.down_put {ls : List (Str × ET)} {p : Parser} {fp : List Addr} (hh : Hist ls p fp) (hd : ∀ Y, (Sections.read ls).Down Y) {q : List Key} (hq : PathWf q) {t : VT}
    (ht : (Sections.read ls).valueAt q = some t) (x : VT) : ∀ Y, (Sections.read (putLines {} q x ls)).Down Y := by
  have hap := hh.apart
  intro Y r k hk hne
  rw [Sections.read_put] at hk ⊢
  rcases hd Y r k hk hne with h1 | h1 | h1
  · left
    by_cases hqr : q <+: r ++ [.str k]
    · obtain ⟨s, hs⟩ := hqr
      rcases List.eq_nil_or_concat s with rfl | ⟨s, x, rfl⟩
      · rw [← hs, Sections.valueAt_put_below hap ht, VT.part_nil]; simp
      · rw [List.concat_eq_append, ← List.append_assoc] at hs
        have := List.append_inj' hs rfl
        refine absurd ?_ (hh.good.off hh.plain hq ht (p := r) (.inr (Sections.isTable_names hk)))
        rw [← this.1]; exact List.prefix_append _ _
    · have := Sections.valueAt_put_off hap x hqr
      obtain ⟨y, hy⟩ := Option.ne_none_iff_exists'.mp h1
      rw [hy] at this
      generalize Sections.valueAt { Sections.read ls with vals := Sections.putVals q x (Sections.read ls).vals } (r ++ [.str k]) = o at this ⊢
      cases o with
      | none => exact this.elim
      | some y => simp
  · exact .inr (.inl h1)
  · exact .inr (.inr h1)

/-- Every key with a cell leads into the lines or to a header. -/
theorem Sections.Good.cell {ls : List (Str × ET)} {st : PState} {ns : List NLExpression} {fp : List Addr} (g : (Sections.read ls).Good (KP st.map) st.heap) (ho : Only st.map)
    (hl : Links st.heap (KP st.map) {} ls ns) (hr : LinesRep st.heap ls ns fp) {k : Str} {a : Addr} (ha : valOf st.map k = some a) : a ∈ fp ∨ st.heap[a]? = some .table := by
  obtain ⟨c, hg⟩ := valOf_some.mp ha
  obtain ⟨r, hw, rfl⟩ := ho k (by rw [hg]; simp)
  have hg' : KP st.map r = some ⟨some a, c⟩ := hg
  cases hv : (Sections.read ls).valueAt r with
  | some t =>
    obtain ⟨e, s, he, rfl, hs⟩ := valueAt_entry hv
    rw [vals_read] at he
    obtain ⟨c', h1, _, h2⟩ := hl.cell hr e he s t hw hs
    rw [hg'] at h2
    cases h2
    exact .inl h1
  | none =>
    right
    cases hc : (Sections.read ls).count r with
    | some n =>
      have := (g.slot r hw).arr n hc
      rw [hg'] at this
      simp at this
    | none =>
      by_cases ht : (Sections.read ls).isTable r
      · obtain ⟨v, l, e1, _, e3, e4⟩ := (g.slot r hw).tab ht
        rw [hg'] at e1
        cases e1
        by_cases hh : r ∈ (Sections.read ls).heads
        · obtain ⟨a', h1, h2⟩ := e3 hh
          cases h1
          exact h2
        · have := e4 hh
          simp at this
      · have := (g.slot r hw).none hv hc ht
        rw [hg'] at this
        simp at this

/-! ## Reading on -/

/-- One more text is read; the tree is that of all the texts. -/
theorem Hist.more {all ls : List (Str × ET)} {g : Parser} {fp : List Addr} (h : Hist all g fp) (hm : (Sections.read all).Sim g.st) (hw : ∀ l ∈ ls, l.2.wf)
    (hf : (Sections.read all).Fits ls) {st : PState} {ns : List NLExpression} (he : linesEff ls g.st = .ok (st, ns)) (hi : Inv st) {o : Str} :
    (∃ fp', Hist (all ++ ls) ⟨⟨g.tree.exprs ++ ns⟩, st, o⟩ fp') ∧ (Sections.read (all ++ ls)).Sim st := by
  obtain ⟨st', ns', he', hm'⟩ := Sim.all ls hm hw hf
  rw [he] at he'
  cases he'
  rw [← read_append] at hm'
  refine ⟨?_, hm'⟩
  obtain ⟨l, f2, a1, a2, a3, a4, a5⟩ := linesEff_rep he
  have hcell : ∀ y ∈ fp, st.heap[y]? = g.st.heap[y]? := fun y hy => by
    rw [a1]; exact List.getElem?_append_left (h.anch.rep.bound y hy).1
  have hl1 : Links st.heap (KP st.map) {} all g.tree.exprs := by
    refine h.links.keep h.anch.rep hcell fun e he1 s t c hs ht hc => ?_
    exact Sim.keepsAll ls hm h.plain hw hf he (x := e) (by rw [vals_read]; exact he1) hs ht hc
  have hl : Links st.heap (KP st.map) {} (all ++ ls) (g.tree.exprs ++ ns) :=
    Links.join h.anch.rep.len hl1 (Sim.links ls hm h.plain hw hf he)
  have hr : LinesRep st.heap (all ++ ls) (g.tree.exprs ++ ns) (fp ++ f2) := (h.anch.rep.congr hcell).join a2
  have hpl : (Sections.read (all ++ ls)).Plain := by rw [read_append]; exact Plain.all ls h.plain hf
  refine ⟨fp ++ f2, ⟨⟨hi, hr, ?_, ?_⟩, fun k a ha => hm'.good.cell hm'.only hl hr ha⟩, hm'.only, hm'.good, hpl, hl, ?_⟩
  · rw [List.nodup_append]
    refine ⟨h.anch.nodup, a3, fun x hx y hy e => ?_⟩
    have h1 := (h.anch.rep.bound x hx).1
    have h2 := a4 y hy
    subst e
    exact absurd h1 (Nat.not_lt.mpr h2)
  · have := h.anch.ne
    simp [this]
  · intro r hr'
    obtain ⟨t, ht⟩ := Option.ne_none_iff_exists'.mp hr'
    obtain ⟨e, s, he1, rfl, h6⟩ := valueAt_entry ht
    rw [read_append, vals_all, List.mem_append] at he1
    rcases he1 with he1 | he1
    · refine h.vwf _ ?_
      rw [valueAt_apart h.apart he1 s, h6]; simp
    · have he2 : e ∈ (Sections.read (all ++ ls)).vals := by rw [read_append, vals_all, List.mem_append]; exact .inr he1
      have hw' := hm'.good.wf e.1 (.inl ⟨e, he2, rfl⟩)
      have hk : e.1 ≠ [] := by
        obtain ⟨b, k, h7, _⟩ := hpl.keyed e he2
        rw [h7]; simp
      exact hw'.append hk (VT.part_keys e.2 s (newVals_wf ls _ hw e he1) (by rw [h6]; simp))

/-! ## Sittings -/

theorem Sitting.reachable {P : VT → Prop} {all : List (Str × ET)} {n : Nat} {p : Parser} (h : Sitting P all n p) : Reachable p := by
  induction h with
  | new => exact .new
  | read _ _ _ h ih => exact .parse ih h
  | assign _ _ _ _ _ _ h ih => exact .set ih h
  | refused _ _ h ih => exact .set ih h

/-- The parser with the trees of the texts before the last one put in front. -/
def Parser.whole (p : Parser) (ns : List NLExpression) : Parser := { p with tree := ⟨ns ++ p.tree.exprs⟩ }

/-- What holds during a sitting. -/
theorem Sitting.inv {P : VT → Prop} {all : List (Str × ET)} {n : Nat} {p : Parser} (h : Sitting P all n p) :
    (Sections.read all).Sim p.st ∧ ((all = [] ∧ n = 0 ∧ p = Parser.new) ∨ ∃ ns fp, ns.length = n ∧ n < all.length ∧ Hist all (p.whole ns) fp) := by
  induction h with
  | new => exact ⟨Sim.new, .inl ⟨rfl, rfl, rfl⟩⟩
  | @read all ls n p p' r hp hs hf h ih =>
    obtain ⟨hm, ih⟩ := ih
    rw [parse_fwd_any hs, Out.bind_ok] at h
    obtain ⟨⟨st, ns'⟩, h1, h2⟩ := h
    simp only [Out.ok.injEq, Prod.mk.injEq] at h2
    have hr : Reachable p' := (Sitting.read hp hs hf (p' := p') (r := r) (by rw [parse_fwd_any hs, h1]; simp [Out.bind, h2])).reachable
    obtain ⟨rfl, _⟩ := h2
    have hne : ls ≠ [] := by rintro rfl; exact hs
    rcases ih with ⟨rfl, rfl, rfl⟩ | ⟨ns, fp, e1, e2, hh⟩
    · rw [List.nil_append]
      refine ⟨?_, .inr ?_⟩
      · obtain ⟨st', es, e, hsim⟩ := Sections.Fits.linesEff hs.wf hf
        have : linesEff ls PState.new = .ok (st, ns') := h1
        rw [e] at this
        cases this
        exact hsim
      · have hp' := parse_fwd hs
        rw [show linesEff ls PState.new = .ok (st, ns') from h1] at hp'
        obtain ⟨fp, hh⟩ := Hist.read hs hf hp'
        exact ⟨[], fp, rfl, List.length_pos_iff.mpr hne, hh⟩
    · obtain ⟨⟨fp', h3⟩, h4⟩ := hh.more hm hs.wf.lines hf h1 hr.inv.inv (o := [])
      refine ⟨h4, .inr ⟨ns ++ p.tree.exprs, fp', ?_, ?_, h3⟩⟩
      · exact hh.anch.rep.len
      · have := List.length_pos_iff.mpr hne
        rw [List.length_append]; omega
  | @assign all n p p' q t v b hp hq ht hv hc _ h ih =>
    obtain ⟨hm, ih⟩ := ih
    rcases ih with ⟨rfl, _⟩ | ⟨ns, fp, e1, e2, hh⟩
    · simp [Sections.read, Sections.valueAt] at ht
    · obtain ⟨⟨m, x, rfl⟩, h2⟩ := setValue_frame h
      have hP : PInv (p.whole ns) := ⟨hh.anch.inv, _, _, hh.anch.rep, hh.anch.nodup⟩
      obtain ⟨g', h3, fp', h4⟩ := hh.assign hP hq ht hv hc
      have h5 := h2 ⟨ns ++ p.tree.exprs⟩
      have h6 : (p.whole ns).setValue (keyOf [] q) v = _ := h5
      rw [h6] at h3
      simp only [Out.ok.injEq, Prod.mk.injEq] at h3
      obtain ⟨rfl, _⟩ := h3
      refine ⟨?_, .inr ⟨ns, fp', e1, ?_, h4⟩⟩
      · exact hm.bare (by rw [read_put]; rfl) h4.only h4.good (hh.down_put hm.down hq ht _)
      · have := h4.anch.rep.len
        have h7 := hh.anch.rep.len
        simp only [Parser.whole] at this h7
        omega
  | @refused all n p p' k v hp hw h ih =>
    obtain ⟨hm, ih⟩ := ih
    rcases ih with ⟨rfl, rfl, rfl⟩ | ⟨ns, fp, e1, e2, hh⟩
    · have : p' = Parser.new := by
        have hno : valOf Parser.new.st.map k = none := by
          cases hv : valOf Parser.new.st.map k with
          | none => rfl
          | some a =>
            obtain ⟨c, hg⟩ := valOf_some.mp hv
            simp [Parser.new, PState.new, SMap.get?] at hg
        unfold Parser.setValue at h
        split at h
        next hg => simp [valOf, hg] at hno
        · simp at h; exact h.symm
      rw [this]
      exact ⟨hm, .inl ⟨rfl, rfl, rfl⟩⟩
    · obtain ⟨⟨m, x, rfl⟩, h2⟩ := setValue_frame h
      have h4 := hh.refused hw (h2 ⟨ns ++ p.tree.exprs⟩)
      exact ⟨hm.bare (Bare.refl _) h4.only h4.good hm.down, .inr ⟨ns, fp, e1, e2, h4⟩⟩

end Tomllib
