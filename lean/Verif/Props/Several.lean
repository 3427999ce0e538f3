import Verif.Props.Sitting
import Verif.Props.Assign
import Verif.Lemmas.Anytime
/-!
# C17, C38, C48 and C57 while several texts are read with the same parser
-/

namespace Tomllib

open Sections

/-- C17, when several texts are read and values are assigned in between: `get_value` panics exactly at the keys of the tables that have a header in one of the texts. -/
theorem C17_several {P : VT → Prop} {all : List (Str × ET)} {n : Nat} {p : Parser} (h : Sitting P all n p) (K : Str) :
    (∃ x, p.getValue K = .panic x) ↔ ∃ q ∈ (Sections.read all).heads, K = keyOf [] q := by
  rcases h.inv.2 with ⟨rfl, rfl, rfl⟩ | ⟨ns, fp, _, _, hh⟩
  · constructor
    · rintro ⟨x, hx⟩
      unfold Parser.getValue at hx
      split at hx
      next a c hg => simp [Parser.new, PState.new, SMap.get?] at hg
      · simp at hx
    · rintro ⟨q, hq, _⟩
      simp [Sections.read] at hq
  · exact hh.panics_iff K

/-- C38, when several texts are read and values are assigned in between. -/
theorem C38_several {P : VT → Prop} {all : List (Str × ET)} {n : Nat} {p : Parser} (h : Sitting P all n p) (K : Str) :
    (∀ vs, p.getValue K = .ok (some (.arr vs)) →
      (∀ n, p.getValue (indexed K n) = .ok vs[n]?) ∧ p.getChildren K = some (.count vs.length) ∧
      ∀ k, KeyWf k → p.getValue (dotted K k) = .ok none) ∧
    (∀ kvs, p.getValue K = .ok (some (.itab kvs)) →
      (∀ k, KeyWf k → p.getValue (dotted K k) = .ok ((kvs.find? fun e => e.1 = k).map (·.2))) ∧ p.getChildren K = some (.keys (kvs.map (·.1))) ∧
      ∀ n, p.getValue (indexed K n) = .ok none) ∧
    (∀ v, p.getValue K = .ok (some v) → v.scalar?.isSome = true →
      p.getChildren K = some (.count 0) ∧ (∀ n, p.getValue (indexed K n) = .ok none) ∧ ∀ k, KeyWf k → p.getValue (dotted K k) = .ok none) := by
  rcases h.inv.2 with ⟨rfl, rfl, rfl⟩ | ⟨ns, fp, _, _, hh⟩
  · have : ∀ v, Parser.new.getValue K ≠ .ok (some v) := by
      intro v hx
      unfold Parser.getValue at hx
      split at hx
      next a c hg => simp [Parser.new, PState.new, SMap.get?] at hg
      · simp at hx
    exact ⟨fun vs hv => absurd hv (this _), fun vs hv => absurd hv (this _), fun vs hv => absurd hv (this _)⟩
  · exact hh.parts K

/-- C48, when several texts are read and values are assigned in between: what becomes of an assignment depends on the old and the new value only. -/
theorem C48_several {P : VT → Prop} {all : List (Str × ET)} {n : Nat} {p : Parser} (h : Sitting P all n p) {key : Str} (hk : key ≠ []) (hroot : key ≠ root) {w : Value}
    (hw : p.getValue key = .ok (some w)) (v : Value) (hv : v.named) :
    match assignment w v with
    | .taken => ∃ p', p.setValue key v = .ok (p', true)
    | .refused => ∃ p', p.setValue key v = .ok (p', false)
    | .panics => ∃ x, p.setValue key v = .panic x := by
  rcases h.inv.2 with ⟨rfl, rfl, rfl⟩ | ⟨ns, fp, _, _, hh⟩
  · exfalso
    unfold Parser.getValue at hw
    split at hw
    next a c hg => simp [Parser.new, PState.new, SMap.get?] at hg
    · simp at hw
  · have hwk := hh.walks h.inv.1.down
    exact outcome_of h.reachable ⟨h.answers, hwk.listed, hwk.wf, hwk.noTop⟩ hk hroot hw v hv

/-- C57, when several texts are read and values are assigned in between: assignments to two paths of which neither begins with the other can be made in either order. -/
theorem C57_several_commute {P : VT → Prop} {all : List (Str × ET)} {n : Nat} {p : Parser} (h : Sitting P all n p) {q r : List Key} (hq : PathWf q) (hr : PathWf r)
    (hqr : ¬ q <+: r) (hrq : ¬ r <+: q) {t u : VT} (ht : (Sections.read all).valueAt q = some t) (hu : (Sections.read all).valueAt r = some u)
    {v w : Value} (hv : v.deepValid = true) (hw : w.deepValid = true) (hc : Assignable t v) (hd : Assignable u w) :
    ∃ p1 p2 p12 p21, p.setValue (keyOf [] q) v = .ok (p1, true) ∧ p1.setValue (keyOf [] r) w = .ok (p12, true) ∧
      p.setValue (keyOf [] r) w = .ok (p2, true) ∧ p2.setValue (keyOf [] q) v = .ok (p21, true) ∧ LooksSame p12 p21 := by
  have h := h.any
  obtain ⟨g, fp, hh⟩ := h.apart ht
  have hap := hh.apart
  obtain ⟨p1, e1, _⟩ := C75_assign h hq ht hv hc
  obtain ⟨p2, e2, _⟩ := C75_assign h hr hu hw hd
  have h1 := h.assign hq ht hv hc trivial e1
  have h2 := h.assign hr hu hw hd trivial e2
  have hu1 : (Sections.read (putLines {} q (t.assigned v) all)).valueAt r = some u := by
    rw [Sections.read_put, Sections.valueAt_put_apart hap _ hqr hrq, hu]
  have ht2 : (Sections.read (putLines {} r (u.assigned w) all)).valueAt q = some t := by
    rw [Sections.read_put, Sections.valueAt_put_apart hap _ hrq hqr, ht]
  obtain ⟨p12, e12, _⟩ := C75_assign h1 hr hu1 hw hd
  obtain ⟨p21, e21, _⟩ := C75_assign h2 hq ht2 hv hc
  have h12 := h1.assign hr hu1 hw hd trivial e12
  have h21 := h2.assign hq ht2 hv hc trivial e21
  refine ⟨p1, p2, p12, p21, e1, e12, e2, e21, ?_⟩
  rw [putLines_comm hqr hrq] at h12
  refine h12.looks h21 ?_
  rw [setValue_top hq (hh.ne ht) e21, setValue_top hr (hh.ne hu) e2, setValue_top hr (hh.ne hu) e12, setValue_top hq (hh.ne ht) e1]

/-- C57, when several texts are read and values are assigned in between: assigning a value of the same structure and then what was read there before leaves everything as it was. -/
theorem C57_several_undo {P : VT → Prop} {all : List (Str × ET)} {n : Nat} {p : Parser} (h : Sitting P all n p) {q : List Key} (hq : PathWf q) (hne : q ≠ []) {x v : Value}
    (hx : p.getValue (keyOf [] q) = .ok (some x)) (hv : v.deepValid = true) (hs : x.sameShape v = true) :
    ∃ p1 p2, p.setValue (keyOf [] q) v = .ok (p1, true) ∧ p1.setValue (keyOf [] q) x = .ok (p2, true) ∧ LooksSame p p2 := by
  have h := h.any
  obtain ⟨t, ht, rfl⟩ : ∃ t, (Sections.read all).valueAt q = some t ∧ t.value = x := by
    rw [h.answers.value q hq hne] at hx
    cases e : (Sections.read all).valueAt q with
    | some t =>
      rw [e] at hx
      simp at hx
      exact ⟨t, rfl, hx⟩
    | none =>
      rw [e] at hx
      dsimp only at hx
      split at hx <;> simp at hx
  obtain ⟨g, fp, hh⟩ := h.apart ht
  have hap := hh.apart
  have hself : t.value.sameShape t.value = true := by
    rw [Value.sameShape_congr _ hs]; exact Value.sameShape_symm hs
  have hval : t.value.deepValid = true := by
    unfold Sections.valueAt at ht
    obtain ⟨e, h1, h2⟩ := List.exists_of_findSome?_eq_some ht
    split at h2
    · exact VT.part_valid _ _ (h.valids e h1) h2
    · simp at h2
  obtain ⟨p1, e1, _⟩ := C75_assign h hq ht hv (.inl hs)
  have h1 := h.assign hq ht hv (.inl hs) trivial e1
  have ht1 : (Sections.read (putLines {} q (t.assigned v) all)).valueAt q = some (t.assigned v) := by
    have := Sections.valueAt_put_below hap ht (t.assigned v) []
    rw [List.append_nil, VT.part_nil] at this
    rw [Sections.read_put, this]
  have hc : Assignable (t.assigned v) t.value := .after hv hs (.inl hself)
  obtain ⟨p2, e2, _⟩ := C75_assign h1 hq ht1 hval hc
  have h2 := h1.assign hq ht1 hval hc trivial e2
  refine ⟨p1, p2, e1, e2, ?_⟩
  rw [putLines_put, VT.assigned_assigned hv hs, VT.assigned_self _ hself, putLines_same all {} (by rw [← Sections.vals_read]; exact hap)
    (by rw [← Sections.vals_read]; exact ht)] at h2
  refine h.looks h2 ?_
  rw [setValue_top hq hne e2, setValue_top hq hne e1]

/-- C57, when several texts are read and values are assigned in between: of two assignments to the same path the last counts, if the first has kept the structure. -/
theorem C57_several_last {P : VT → Prop} {all : List (Str × ET)} {n : Nat} {p : Parser} (h : Sitting P all n p) {q : List Key} (hq : PathWf q) {t : VT}
    (ht : (Sections.read all).valueAt q = some t) {v w : Value} (hv : v.deepValid = true) (hs : t.value.sameShape v = true) (hw : w.deepValid = true) (hd : Assignable t w) :
    ∃ p1 p2 p12, p.setValue (keyOf [] q) v = .ok (p1, true) ∧ p1.setValue (keyOf [] q) w = .ok (p12, true) ∧
      p.setValue (keyOf [] q) w = .ok (p2, true) ∧ LooksSame p2 p12 := by
  have h := h.any
  obtain ⟨g, fp, hh⟩ := h.apart ht
  have hap := hh.apart
  have hne := hh.ne ht
  obtain ⟨p1, e1, _⟩ := C75_assign h hq ht hv (.inl hs)
  obtain ⟨p2, e2, _⟩ := C75_assign h hq ht hw hd
  have h1 := h.assign hq ht hv (.inl hs) trivial e1
  have h2 := h.assign hq ht hw hd trivial e2
  have ht1 : (Sections.read (putLines {} q (t.assigned v) all)).valueAt q = some (t.assigned v) := by
    have := Sections.valueAt_put_below hap ht (t.assigned v) []
    rw [List.append_nil, VT.part_nil] at this
    rw [Sections.read_put, this]
  have hc : Assignable (t.assigned v) w := .after hv hs hd
  obtain ⟨p12, e12, _⟩ := C75_assign h1 hq ht1 hw hc
  have h12 := h1.assign hq ht1 hw hc trivial e12
  refine ⟨p1, p2, p12, e1, e12, e2, ?_⟩
  rw [putLines_put, VT.assigned_assigned hv hs] at h12
  refine h2.looks h12 ?_
  rw [setValue_top hq hne e12, setValue_top hq hne e1, setValue_top hq hne e2]

/-- All are met in the sitting of C75, where two texts are read and three values assigned: `t[1].a` has become an array. -/
example : ∃ all p, Sitting (fun _ => True) all 3 p ∧ p.getValue (lit% "x") = .ok (some (.int (lit% "5"))) ∧ p.getValue (lit% "t[1].a") = .ok (some (.arr [.int (lit% "7"), .int (lit% "8")])) := by
  obtain ⟨_, _, all, p, h1, _, _, _, h2, h3, _, _, h4⟩ := exSitting
  exact ⟨all, p, h1, h2, h4⟩

end Tomllib
