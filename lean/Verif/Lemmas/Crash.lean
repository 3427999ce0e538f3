import Verif.Lemmas.Settle
import Verif.Lemmas.Report
/-!
# Which line makes `parse` panic
-/

namespace Tomllib
namespace Sections

theorem arrayTableAct_flags (t : Table) (st : PState) (a : Bool) (l : Option TableType) :
    (arrayTableAct t { st with arrayError := a, lastTable := l }).map' (·.1.errors) = (arrayTableAct t st).map' (·.1.errors) := by
  unfold arrayTableAct
  dsimp only
  split
  · rfl
  · cases arrPlace st.map st.heap (.arr t) (if isTopStd st.lastArrayTables then st.lastArrayTables.dropLast else st.lastArrayTables)
      (if isTopStd st.lastArrayTables then st.lastArrayTablesIndex.dropLast else st.lastArrayTablesIndex) with
    | panic x => rfl
    | fuel => rfl
    | ok x =>
      obtain ⟨m, ts, is⟩ := x
      simp only [Out.bind_eq, Out.bind]
      cases getArrayTableKey m st.heap ts is with
      | panic x => rfl
      | fuel => rfl
      | ok y =>
        obtain ⟨v, f, p⟩ := y
        cases v <;> rfl

theorem SimE.crash_iff {D : Sections} {st : PState} {E : List ParseError} (h : D.SimE E st) {w1 w2 : Str} {t : Table} {c : Option Str} (hw : (TableType.arr t).wf)
    (hr : D.regular (.table w1 (.arr t) w2 c)) (hnf : ¬ D.fits (.table w1 (.arr t) w2 c)) :
    if D.crashes (.table w1 (.arr t) w2 c) then ∃ x, (ET.table w1 (.arr t) w2 c).eff st = .panic x
    else ∃ st', (ET.table w1 (.arr t) w2 c).eff st = .ok st' ∧
      st'.errors = E ++ [.invalidTable (keyOf [] (D.target t.names ++ [.idx (D.badIndex t.names)])) st.lineCount 0 []] := by
  refine h.arr_refused hw hr.2.2.1 hr.2.2.2 (fun a ha => (hr.1 a ha).1) hr.2.1 (fun a ha hne kvs ws hv => ?_) hnf
  have := (hr.1 a ha).2 hne
  rw [hv] at this
  simp [inlined] at this

/-- The header of an array of tables that is not in order. -/
theorem RSim.arrBad {R : Account} {st : PState} (h : RSim R st) {w1 w2 : Str} {t : Table} {c : Option Str} (hw : (TableType.arr t).wf)
    (hr : R.doc.regular (.table w1 (.arr t) w2 c)) (hnf : ¬ R.doc.fits (.table w1 (.arr t) w2 c)) :
    if R.doc.crashes (.table w1 (.arr t) w2 c) then ∃ x, (ET.table w1 (.arr t) w2 c).eff st = .panic x
    else ∃ st', (ET.table w1 (.arr t) w2 c).eff st = .ok st' ∧
      st'.errors = R.errors ++ [.invalidTable (keyOf [] (R.doc.target t.names ++ [.idx (R.doc.badIndex t.names)])) st.lineCount 0 []] := by
  unfold RSim at h
  split at h
  · obtain ⟨h1, h2, lt, h3⟩ := h
    have key := h3.crash_iff hw hr hnf
    have hfl := arrayTableAct_flags t (st.pushKs (t.keys.map (·.key))) false lt
    have hfl : (arrayTableAct t (PState.pushKs { st with arrayError := false, lastTable := lt } (t.keys.map (·.key)))).map' (·.1.errors) = _ := hfl
    simp only [ET.eff, TableType.eff] at key ⊢
    split at key
    next hc =>
      rw [if_pos hc]
      obtain ⟨x, hx⟩ := key
      cases ha : arrayTableAct t (PState.pushKs { st with arrayError := false, lastTable := lt } (t.keys.map (·.key))) with
      | ok y => rw [ha] at hx; simp [Out.bind] at hx
      | fuel => rw [ha] at hx; simp [Out.bind] at hx
      | panic z =>
        rw [ha] at hfl
        cases hb : arrayTableAct t (st.pushKs (t.keys.map (·.key))) with
        | ok y => rw [hb] at hfl; simp [Out.map'] at hfl
        | fuel => rw [hb] at hfl; simp [Out.map'] at hfl
        | panic z => exact ⟨_, rfl⟩
    next hc =>
      rw [if_neg hc]
      obtain ⟨st', hx, he⟩ := key
      obtain ⟨y, ha, hy⟩ := Out.bind_ok.mp hx
      simp at hy
      subst hy
      rw [ha] at hfl
      cases hb : arrayTableAct t (st.pushKs (t.keys.map (·.key))) with
      | ok z =>
        rw [hb] at hfl
        simp [Out.map'] at hfl
        exact ⟨z.1, rfl, by rw [← hfl]; exact he⟩
      | fuel => rw [hb] at hfl; simp [Out.map'] at hfl
      | panic z => rw [hb] at hfl; simp [Out.map'] at hfl
  · exact SimE.crash_iff h hw hr hnf

/-- Lines at which the library does not panic. -/
theorem RSim.calm {R : Account} {st : PState} (h : RSim R st) (hi : Inv st) {e : ET} (hw : e.wf) (hr : R.doc.regular e) (hv : e.keyed → R.lost = false)
    (hc : ¬ R.doc.crashes e) : ∃ st', e.eff st = .ok st' := by
  cases e with
  | blank w => exact ⟨st, rfl⟩
  | comment w c => exact ⟨st, rfl⟩
  | kv w1 k s v w2 c =>
    rw [ET.wf] at hw
    have hl := hv trivial
    unfold RSim at h
    rw [if_neg (by rw [hl]; simp)] at h
    exact kv_calm ⟨hi, h.at, h.level⟩ h.kc hw.2.1 hw.2.2.2.1
  | table w1 t w2 c =>
    cases t with
    | arr t =>
      by_cases hf : R.doc.fits (.table w1 (.arr t) w2 c)
      · obtain ⟨st', e1, _⟩ := h.next hw (show R.allows _ from hf)
        exact ⟨st', e1⟩
      · have := h.arrBad hw.2.1 hr hf
        rw [if_neg hc] at this
        obtain ⟨st', e1, _⟩ := this
        exact ⟨st', e1⟩
    | std t =>
      obtain ⟨st', e1, _⟩ := h.next hw (show R.allows _ from .inr hr)
      exact ⟨st', e1⟩

/-- A line that is in order is none at which the library panics. -/
theorem fits_calm {D : Sections} {e : ET} (hw : e.wf) (h : D.fits e) : ¬ D.crashes e := by
  cases e with
  | table w1 t w2 c =>
    cases t with
    | std t => exact id
    | arr t =>
      obtain ⟨h1, h2, _⟩ := h
      rintro (⟨a, ha, _, hs, _⟩ | ⟨hb, _⟩)
      · have := (h1 a ha).1
        rw [Option.isNone_iff_eq_none] at this
        rw [this] at hs
        simp at hs
      · have := (h1 t.names (mem_onWay.mpr ⟨(wf_names hw.2.1).1, List.prefix_refl _⟩)).1
        rw [Option.isNone_iff_eq_none] at this
        rw [this] at hb
        simp [bare] at hb
  | _ => exact id

end Sections
end Tomllib
