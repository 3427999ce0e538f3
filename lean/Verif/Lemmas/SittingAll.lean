import Verif.Lemmas.Sitting
import Verif.Lemmas.Order
import Verif.Lemmas.Anytime
/-!
# Where an assignment is seen, and one document for many texts
-/

namespace Tomllib

open Sections

/-! ## Exchanging a value in lines after lines -/

theorem Sections.newVals_append : ∀ (a b : List (Str × ET)) (D : Sections), D.newVals (a ++ b) = D.newVals a ++ (a.foldl (fun D l => D.step l.2) D).newVals b
  | [], _, _ => rfl
  | (nl, .blank w) :: a, b, D => newVals_append a b _
  | (nl, .comment w c) :: a, b, D => newVals_append a b _
  | (nl, .table w1 t w2 c) :: a, b, D => newVals_append a b _
  | (nl, .kv w1 k s v w2 c) :: a, b, D => by
    rw [List.cons_append, newVals, newVals, newVals_append a b]; rfl

theorem putLines_left {q : List Key} {x : VT} : ∀ {a : List (Str × ET)} (b : List (Str × ET)) {D : Sections}, (∃ e ∈ D.newVals a, e.1 <+: q) →
    putLines D q x (a ++ b) = putLines D q x a ++ b
  | [], _, _, h => by simp [newVals] at h
  | (nl, .blank w) :: a, b, D, h => by
    show _ :: _ = _ :: _ ++ b
    rw [List.cons_append]; exact congrArg _ (putLines_left (a := a) b h)
  | (nl, .comment w c) :: a, b, D, h => by
    show _ :: _ = _ :: _ ++ b
    rw [List.cons_append]; exact congrArg _ (putLines_left (a := a) b h)
  | (nl, .table w1 t w2 c) :: a, b, D, h => by
    show _ :: _ = _ :: _ ++ b
    rw [List.cons_append]; exact congrArg _ (putLines_left (a := a) b h)
  | (nl, .kv w1 k s v w2 c) :: a, b, D, h => by
    rw [List.cons_append, putLines, putLines]
    split
    · rfl
    next hn =>
      rw [List.cons_append]
      refine congrArg _ (putLines_left (a := a) b ?_)
      obtain ⟨e, he, h1⟩ := h
      rw [newVals, List.mem_cons] at he
      rcases he with rfl | he
      · exact absurd (List.isPrefixOf_iff_prefix.mpr h1) hn
      · exact ⟨e, he, h1⟩

theorem putLines_right {q : List Key} {x : VT} : ∀ {a : List (Str × ET)} (b : List (Str × ET)) {D : Sections}, (∀ e ∈ D.newVals a, ¬ e.1 <+: q) →
    putLines D q x (a ++ b) = a ++ putLines (a.foldl (fun D l => D.step l.2) D) q x b
  | [], _, _, _ => rfl
  | (nl, .blank w) :: a, b, D, h => by
    show _ :: _ = _
    rw [List.cons_append]; exact congrArg _ (putLines_right (a := a) b h)
  | (nl, .comment w c) :: a, b, D, h => by
    show _ :: _ = _
    rw [List.cons_append]; exact congrArg _ (putLines_right (a := a) b h)
  | (nl, .table w1 t w2 c) :: a, b, D, h => by
    show _ :: _ = _
    rw [List.cons_append]; exact congrArg _ (putLines_right (a := a) b h)
  | (nl, .kv w1 k s v w2 c) :: a, b, D, h => by
    rw [List.cons_append, putLines, if_neg]
    · rw [List.cons_append]
      exact congrArg _ (putLines_right (a := a) b fun e he => h e (by simp [newVals, he]))
    · exact fun hn => h (D.here ++ [.str k], v) (by simp [newVals]) (List.isPrefixOf_iff_prefix.mp hn)

theorem putLines_length (q : List Key) (x : VT) : ∀ (a : List (Str × ET)) (D : Sections), (putLines D q x a).length = a.length
  | [], _ => rfl
  | (nl, .blank w) :: a, D => by simp [putLines, putLines_length q x a]
  | (nl, .comment w c) :: a, D => by simp [putLines, putLines_length q x a]
  | (nl, .table w1 t w2 c) :: a, D => by simp [putLines, putLines_length q x a]
  | (nl, .kv w1 k s v w2 c) :: a, D => by
    rw [putLines]
    split
    · rfl
    · simp [putLines_length q x a]

theorem Links.right {h : Heap} {K : List Key → Option HashValue} : ∀ {ls ls' : List (Str × ET)} {ns ns' : List NLExpression} {D : Sections}, ns.length = ls.length →
    Links h K D (ls ++ ls') (ns ++ ns') → Links h K (ls.foldl (fun D l => D.step l.2) D) ls' ns'
  | [], _, [], _, _, _, h => h
  | [], _, _ :: _, _, _, hl, _ => by simp at hl
  | _ :: _, _, [], _, _, hl, _ => by simp at hl
  | l :: ls, _, n :: ns, _, D, hl, h => Links.right (ls := ls) (ns := ns) (D := D.step l.2) (by simpa using hl) h.2

/-- Where the text changes when a value is exchanged in the lines after others. -/
theorem Hist.textAfter {a b : List (Str × ET)} {p : Parser} {fp : List Addr} (h : Hist (a ++ b) p fp) {q : List Key} (hq : PathWf q) {t : VT}
    (ht : (Sections.read (a ++ b)).valueAt q = some t) :
    ((Sections.read a).valueAt q ≠ none → ∀ x, putLines {} q x (a ++ b) = putLines {} q x a ++ b) ∧
    ((Sections.read a).valueAt q = none → ∃ pre post, linesText b = pre ++ t.text ++ post ∧
      ∀ x, ∃ b', putLines {} q x (a ++ b) = a ++ b' ∧ linesText b' = pre ++ x.text ++ post) := by
  have hap := h.apart
  rw [vals_read, newVals_append] at hap
  constructor
  · intro hn x
    obtain ⟨t', ht'⟩ := Option.ne_none_iff_exists'.mp hn
    obtain ⟨e, s, he, rfl, _⟩ := valueAt_entry ht'
    rw [vals_read] at he
    exact putLines_left b ⟨e, he, List.prefix_append _ _⟩
  · intro hn
    obtain ⟨e, r, he, hqe, hr⟩ := valueAt_entry ht
    rw [vals_read, newVals_append, List.mem_append] at he
    rcases he with he | he
    · exfalso
      have := valueAt_none.mp hn e (by rw [vals_read]; exact he) ⟨r, hqe.symm⟩
      rw [hqe, List.drop_left, hr] at this
      simp at this
    · have hlen := h.anch.rep.len
      rw [List.length_append] at hlen
      have hsplit : p.tree.exprs = p.tree.exprs.take a.length ++ p.tree.exprs.drop a.length := (List.take_append_drop ..).symm
      have hl : Links p.st.heap (KP p.st.map) {} (a ++ b) (p.tree.exprs.take a.length ++ p.tree.exprs.drop a.length) := by rw [← hsplit]; exact h.links
      have hl2 := hl.right (by rw [List.length_take]; omega)
      obtain ⟨f1, f2, rfl, hrep⟩ := h.anch.rep.drop a.length
      rw [List.drop_left] at hrep
      obtain ⟨c, F, hF1, hF2, _⟩ := hl2.focusAt hq hrep (List.pairwise_append.mp hap).2.1 he hqe hr
      refine ⟨F.pre, F.post, ?_, fun x => ⟨_, putLines_right b ?_, ?_⟩⟩
      · have := F.text_eq F.sub
        rw [F.plug_sub, hF1] at this
        exact this
      · intro e' he' hpre
        exact ((List.pairwise_append.mp hap).2.2 e' he' e he).of_prefix hpre ⟨r, hqe.symm⟩
      · have := F.text_eq x
        rw [hF2] at this
        exact this

/-! ## Documents that say the same -/

/-- The same value, in whatever layout. -/
def VT.Equal (t t' : VT) : Prop := t'.value = t.value

theorem Sections.Rel.item {D D' : Sections} (h : Rel VT.Equal D D') {e e' : ET} (he : e.item? = e'.item?) : Rel VT.Equal (D.step e) (D'.step e') := by
  have hb := h.bare
  cases e with
  | blank w => cases e' with
    | table w1 t w2 c => cases t <;> simp [ET.item?] at he
    | _ => first | exact h | simp [ET.item?] at he
  | comment w c => cases e' with
    | table w1 t w2 c => cases t <;> simp [ET.item?] at he
    | _ => first | exact h | simp [ET.item?] at he
  | kv w1 k s v w2 c =>
    cases e' with
    | blank => simp [ET.item?] at he
    | comment => simp [ET.item?] at he
    | table w1 t w2 c => cases t <;> simp [ET.item?] at he
    | kv w1' k' s' v' w2' c' =>
      simp only [ET.item?, Option.some.injEq, Item.pair.injEq] at he
      obtain ⟨rfl, hv⟩ := he
      refine ⟨?_, ?_⟩
      · unfold Bare at *
        rw [hb]; rfl
      · show ValsRel VT.Equal (D.vals ++ [(D.here ++ [Key.str k], v)]) (D'.vals ++ [(D'.here ++ [Key.str k], v')])
        rw [hb.here]
        exact h.vals.append ⟨v', [], rfl, hv.symm, rfl⟩
  | table w1 t w2 c =>
    cases e' with
    | blank => cases t <;> simp [ET.item?] at he
    | comment => cases t <;> simp [ET.item?] at he
    | kv => cases t <;> simp [ET.item?] at he
    | table w1' t' w2' c' =>
      cases t with
      | std t =>
        cases t' with
        | arr t' => simp [ET.item?] at he
        | std t' =>
          simp only [ET.item?, Option.some.injEq, Item.header.injEq, true_and] at he
          have hn : t'.names = t.names := he.symm
          refine ⟨?_, ?_⟩
          · unfold Bare
            simp only [Sections.step, hn, hb.target, hb.way, hb.heads, hb.names, hb.arrs, hb.stray]
            rw [hb]
          · exact h.vals
      | arr t =>
        cases t' with
        | std t' => simp [ET.item?] at he
        | arr t' =>
          simp only [ET.item?, Option.some.injEq, Item.header.injEq, true_and] at he
          have hn : t'.names = t.names := he.symm
          refine ⟨?_, ?_⟩
          · unfold Bare
            simp only [Sections.step, hn, hb.target, hb.way, hb.heads, hb.names, hb.arrs, hb.stray, count_congr hb.arrs]
            rw [hb]
          · exact h.vals

theorem Sections.step_quiet {e : ET} (h : e.item? = none) (D : Sections) : D.step e = D := by
  cases e with
  | blank => rfl
  | comment => rfl
  | kv => simp [ET.item?] at h
  | table w1 t w2 c => cases t <;> simp [ET.item?] at h

theorem Sections.fold_quiet : ∀ {ls : List (Str × ET)}, (∀ l ∈ ls, l.2.item? = none) → ∀ D : Sections, ls.foldl (fun D l => D.step l.2) D = D
  | [], _, _ => rfl
  | l :: ls, h, D => by
    rw [List.foldl_cons, step_quiet (h l (by simp)), fold_quiet (fun l hl => h l (by simp [hl]))]

theorem Sections.Rel.content : ∀ {ls ls' : List (Str × ET)} {D D' : Sections}, Tomllib.content ls = Tomllib.content ls' → Rel VT.Equal D D' →
    Rel VT.Equal (ls.foldl (fun D l => D.step l.2) D) (ls'.foldl (fun D l => D.step l.2) D')
  | [], ls', D, D', hc, h => by
    have : ∀ l ∈ ls', l.2.item? = none := List.filterMap_eq_nil_iff.mp hc.symm
    rw [fold_quiet this]; exact h
  | l :: ls, ls', D, D', hc, h => by
    cases hi : l.2.item? with
    | none =>
      rw [List.foldl_cons, step_quiet hi]
      refine Rel.content ?_ h
      rw [← hc, Tomllib.content, Tomllib.content, List.filterMap_cons, hi]
    | some i =>
      rw [Tomllib.content, List.filterMap_cons, hi] at hc
      obtain ⟨a, m, b, rfl, h1, h2, h3⟩ := List.filterMap_eq_cons_iff.mp hc.symm
      rw [List.foldl_append, fold_quiet h1, List.foldl_cons, List.foldl_cons]
      exact Rel.content h3.symm (h.item (hi.trans h2.symm))

theorem findSome_equal (q : List Key) : ∀ {a a' : List (List Key × VT)}, ValsRel VT.Equal a a' →
    (a.findSome? fun e => if e.1.isPrefixOf q then e.2.part (q.drop e.1.length) else none).map VT.value =
      (a'.findSome? fun e => if e.1.isPrefixOf q then e.2.part (q.drop e.1.length) else none).map VT.value
  | [], _, h => by cases h; rfl
  | (p, v) :: a, _, h => by
    obtain ⟨v', r, rfl, h1, h2⟩ := h
    have ih := findSome_equal q h2
    rw [List.findSome?_cons, List.findSome?_cons]
    dsimp only
    by_cases hp : p.isPrefixOf q = true
    · rw [if_pos hp, if_pos hp]
      have := VT.part_alike v v' (q.drop p.length) h1.symm
      cases e1 : v.part (q.drop p.length) with
      | none =>
        rw [e1] at this
        cases e2 : v'.part (q.drop p.length) with
        | none => exact ih
        | some => rw [e2] at this; simp at this
      | some t =>
        rw [e1] at this
        cases e2 : v'.part (q.drop p.length) with
        | none => rw [e2] at this; simp at this
        | some => rw [e2] at this; exact this
    · rw [if_neg hp, if_neg hp]; exact ih

/-- Documents that say the same lead to the same answers. -/
theorem Sections.Rel.equal {D D' : Sections} (h : Sections.Rel VT.Equal D D') {p p' : Parser} (hp : D.Answers p) (hp' : D'.Answers p') :
    (∀ k, k ≠ [] → k ≠ root → p'.getValue k = p.getValue k ∧ p'.getChildren k = p.getChildren k) ∧
    ∃ l l', p.getChildren [] = some (.keys l) ∧ p'.getChildren [] = some (.keys l') ∧ (∀ n, n ∈ l' ↔ n ∈ l) ∧ (D.stray = [] → l' = l) := by
  constructor
  · intro k hk hr
    by_cases hq : ∃ q, PathWf q ∧ k = keyOf [] q
    · obtain ⟨q, hq, rfl⟩ := hq
      have hne : q ≠ [] := by rintro rfl; exact hk rfl
      rw [hp.value q hq hne, hp'.value q hq hne, hp.children q hq hne, hp'.children q hq hne]
      have hv : (D.valueAt q).map VT.value = (D'.valueAt q).map VT.value := findSome_equal q h.vals
      unfold Sections.childrenAt
      have hc : D'.count q = D.count q := count_congr h.bare.arrs q
      have ht : D'.isTable q ↔ D.isTable q := by
        unfold Sections.isTable; rw [h.bare.heads, h.bare.arrs, h.bare.names]
      have hn : D'.namesOf q = D.namesOf q := by unfold Sections.namesOf; rw [h.bare.names]
      generalize D.valueAt q = a at hv ⊢
      generalize D'.valueAt q = b at hv ⊢
      cases a with
      | none =>
        cases b with
        | some => simp at hv
        | none =>
          simp only [hc, hn, h.bare.heads, true_and]
          split
          · rfl
          · by_cases hi : D.isTable q
            · rw [if_pos hi, if_pos (ht.mpr hi)]
            · rw [if_neg hi, if_neg fun g => hi (ht.mp g)]
      | some t =>
        cases b with
        | none => simp at hv
        | some t' =>
          simp at hv
          exact ⟨by simp only [hv], by simp only [VT.children_value hv]⟩
    · have hq' : ∀ q, PathWf q → k ≠ keyOf [] q := fun q h1 h2 => hq ⟨q, h1, h2⟩
      obtain ⟨a1, a2⟩ := hp.other k hk hr hq'
      obtain ⟨b1, b2⟩ := hp'.other k hk hr hq'
      rw [a1, a2, b1, b2]; exact ⟨rfl, rfl⟩
  · obtain ⟨l, a1, a2, a3⟩ := hp.top
    obtain ⟨l', b1, b2, b3⟩ := hp'.top
    have hn : D'.namesOf [] = D.namesOf [] := by unfold Sections.namesOf; rw [h.bare.names]
    refine ⟨l, l', a1, b1, fun n => ?_, fun hs => ?_⟩
    · rw [a3, b3, hn, h.bare.stray]
    · rw [a2 hs, b2 (by rw [h.bare.stray]; exact hs), hn]

/-! ## What a sitting looks like -/

theorem Sitting.answers {P : VT → Prop} {all : List (Str × ET)} {n : Nat} {p : Parser} (h : Sitting P all n p) : (Sections.read all).Answers p :=
  h.inv.1.answers h.reachable.inv.inv

theorem Sitting.display {P : VT → Prop} {all : List (Str × ET)} {n : Nat} {p : Parser} (h : Sitting P all n p) (hne : all ≠ []) :
    p.display = textOr (hasEmptyTable (all.drop n)) (linesText (all.drop n)) := by
  rcases h.inv.2 with ⟨h1, _⟩ | ⟨ns, fp, rfl, h2, hh⟩
  · exact absurd h1 hne
  · obtain ⟨f1, f2, rfl, h3⟩ := hh.anch.rep.drop ns.length
    have e : (p.whole ns).tree.exprs.drop ns.length = p.tree.exprs := by simp [Parser.whole]
    rw [e] at h3
    have h4 : Shown p (all.drop ns.length) f2 := ⟨hh.anch.inv, h3, (List.nodup_append.mp hh.anch.nodup).2.1, fun h => by
      rw [List.drop_eq_nil_iff] at h; omega⟩
    exact h4.display

theorem Sitting.any {P : VT → Prop} {all : List (Str × ET)} {n : Nat} {p : Parser} (h : Sitting P all n p) : Sitting (fun _ => True) all n p := by
  induction h with
  | new => exact .new
  | read _ hs hf h ih => exact .read ih hs hf h
  | assign _ hq ht hv hc _ h ih => exact .assign ih hq ht hv hc trivial h
  | refused _ hw h ih => exact .refused ih hw h

theorem Sitting.keyed {P : VT → Prop} {all : List (Str × ET)} {n : Nat} {p : Parser} (h : Sitting P all n p) : (Sections.read all).Keyed := by
  rcases h.inv.2 with ⟨rfl, _⟩ | ⟨ns, fp, _, _, hh⟩
  · intro e he; simp [Sections.read] at he
  · intro e he
    obtain ⟨b, k, h1, _⟩ := hh.plain.keyed e he
    exact ⟨b, k, h1⟩

theorem ValsRel.equal : ∀ (a : List (List Key × VT)), ValsRel VT.Equal a a
  | [] => rfl
  | (_, v) :: a => ⟨v, a, rfl, rfl, ValsRel.equal a⟩

theorem ValsRel.of_fst : ∀ {a a' : List (List Key × VT)}, a'.map (·.1) = a.map (·.1) → ValsRel (fun _ _ => True) a a'
  | [], a', h => by
    show a' = []
    simpa using h
  | (p, v) :: a, [], h => by simp at h
  | (p, v) :: a, (p', v') :: a', h => by
    simp at h
    obtain ⟨rfl, h⟩ := h
    exact ⟨v', a', rfl, trivial, ValsRel.of_fst h⟩

/-- Whether lines are in order does not depend on the values before. -/
theorem Sections.Fits.put {D : Sections} {ls : List (Str × ET)} (hf : D.Fits ls) (hw : ∀ l ∈ ls, l.2.wf) (hk : D.Keyed) (q : List Key) (x : VT) :
    Fits { D with vals := putVals q x D.vals } ls := by
  have hb : Bare D { D with vals := putVals q x D.vals } := rfl
  refine Fits.rel (R := fun _ _ => True) ⟨hb, ValsRel.of_fst (putVals_fst _ _ _)⟩ hk (LinesRel.refl (fun _ => trivial) ls) ?_ ?_ hf
  · rw [hb.newVals]
    exact Fits.sound hf
  · intro l hl w1 t w2 c e
    have := hw l hl
    rw [e, ET.wf] at this
    exact this.2.1.1

theorem Sitting.stray {P : VT → Prop} {all : List (Str × ET)} {n : Nat} {p : Parser} (h : Sitting P all n p) : ∀ k ∈ (Sections.read all).stray, KeyWf k := by
  induction h with
  | new => simp [Sections.read]
  | read _ hs _ _ ih => rw [read_append]; exact Sections.stray_wf _ ih hs.wf.lines
  | assign _ _ _ _ _ _ _ ih => rw [Sections.read_put]; exact ih
  | refused _ _ _ ih => exact ih

theorem Sitting.apart {P : VT → Prop} {all : List (Str × ET)} {n : Nat} {p : Parser} (h : Sitting P all n p) {q : List Key} {t : VT}
    (ht : (Sections.read all).valueAt q = some t) : ∃ g fp, Hist all g fp := by
  rcases h.inv.2 with ⟨rfl, rfl, rfl⟩ | ⟨ns, fp, _, _, hh⟩
  · simp [Sections.read, Sections.valueAt] at ht
  · exact ⟨_, _, hh⟩

/-- Two parsers with the same texts, as they are by now, look the same. -/
theorem Sitting.looks {P : VT → Prop} {all : List (Str × ET)} {n : Nat} {p p' : Parser} (h : Sitting P all n p) (h' : Sitting P all n p') (hr : p'.getChildren [] = p.getChildren []) :
    LooksSame p p' := by
  rcases h.inv.2 with ⟨rfl, rfl, rfl⟩ | ⟨ns, fp, e1, e2, hh⟩
  · rcases h'.inv.2 with ⟨_, _, rfl⟩ | ⟨ns, fp, e1, e2, hh⟩
    · exact ⟨rfl, fun _ => ⟨rfl, rfl⟩⟩
    · simp at e2
  · rcases h'.inv.2 with ⟨rfl, _, _⟩ | ⟨ns', fp', e1', e2', hh'⟩
    · simp at e2
    · have hne : all ≠ [] := by rintro rfl; simp at e2
      exact ⟨by rw [h.display hne, h'.display hne], (hh.looks hh' hr).2⟩

theorem Sitting.valids {P : VT → Prop} {all : List (Str × ET)} {n : Nat} {p : Parser} (h : Sitting P all n p) : ∀ e ∈ (Sections.read all).vals, e.2.value.deepValid = true := by
  induction h with
  | new => simp [Sections.read]
  | @read all ls _ _ _ _ _ hs hf h ih =>
    intro e he
    rw [read_append, vals_all, List.mem_append] at he
    rcases he with he | he
    · exact ih e he
    · exact VT.wf.valid (newVals_wf _ _ hs.wf.lines e he) (Fits.sound hf e he)
  | assign hp hq ht hv hc _ h ih =>
    rw [Sections.read_put]
    exact putVals_valid (by rw [VT.assigned_value hv]; exact hv) ih
  | refused _ _ _ ih => exact ih

end Tomllib
