import Verif.Spec.Results
import Verif.Lemmas.Doc
import Verif.Api
/-!
# Cells and the trees they hold
-/

namespace Tomllib

/-- The cells directly below a cell. -/
def TVal.kids : TVal → List Addr
  | .arr vals _ _ => vals.map (·.val)
  | .itab kvs _ => kvs.map (·.keyval.val)
  | _ => []

/-- The cells below a cell have a smaller rank, and are not table headers; ranks are below the size of the heap. -/
def Ranked (h : Heap) (rank : Addr → Nat) : Prop :=
  ∀ (a : Nat) (v : TVal), h[a]? = some v → rank a < h.length ∧ ∀ c : Nat, c ∈ v.kids → c < h.length ∧ rank c < rank a ∧ h[c]? ≠ some .table

mutual
/-- The cell at an address holds a tree; the last argument lists the addresses of its cells. -/
def VT.Rep (h : Heap) : VT → Addr → List Addr → Prop
  | .leaf s, a, fp => h[a]? = some s.cell ∧ fp = [a]
  | .arr es c1 c2, a, fp => ∃ avs fp', h[a]? = some (.arr avs c1 c2) ∧ es.Rep h avs fp' ∧ fp = a :: fp'
  | .itab kvs ws, a, fp => ∃ tkvs fp', h[a]? = some (.itab tkvs ws) ∧ kvs.Rep h tkvs fp' ∧ fp = a :: fp'
def Elems.Rep (h : Heap) : Elems → List ArrayValue → List Addr → Prop
  | .nil, avs, fp => avs = [] ∧ fp = []
  | .cons v sep cn r, avs, fp => ∃ a avs' f1 f2, avs = ⟨a, sep, cn⟩ :: avs' ∧ v.Rep h a f1 ∧ r.Rep h avs' f2 ∧ fp = f1 ++ f2
def Pairs.Rep (h : Heap) : Pairs → List TableKeyVal → List Addr → Prop
  | .nil, kvs, fp => kvs = [] ∧ fp = []
  | .cons k ws v sep cn r, kvs, fp => ∃ a kvs' f1 f2, kvs = ⟨⟨k, ws, a⟩, sep, cn⟩ :: kvs' ∧ v.Rep h a f1 ∧ r.Rep h kvs' f2 ∧ fp = f1 ++ f2
end

mutual
/-- Nesting depth. -/
def VT.depth : VT → Nat
  | .leaf _ => 1
  | .arr es _ _ => es.depth + 1
  | .itab kvs _ => kvs.depth + 1
def Elems.depth : Elems → Nat
  | .nil => 0
  | .cons v _ _ r => max v.depth r.depth
def Pairs.depth : Pairs → Nat
  | .nil => 0
  | .cons _ _ v _ _ r => max v.depth r.depth
end

/-! ## Values of cells -/

mutual
theorem VT.toVal_rep (h : Heap) : ∀ (t : VT) (a : Addr) (fp : List Addr) (f : Nat), t.Rep h a fp → t.depth ≤ f → toValAt f h a = .ok t.value
  | .leaf s, a, fp, f, hr, hf => by
    obtain ⟨h1, _⟩ := hr
    obtain ⟨f, rfl⟩ : ∃ g, f = g + 1 := ⟨f - 1, by simp [VT.depth] at hf; omega⟩
    simp only [toValAt, h1]
    cases s <;> rfl
  | .arr es c1 c2, a, fp, f, hr, hf => by
    obtain ⟨avs, fp', h1, h2, _⟩ := hr
    obtain ⟨f, rfl⟩ : ∃ g, f = g + 1 := ⟨f - 1, by simp [VT.depth] at hf; omega⟩
    simp only [toValAt, h1, toValTV, Out.bind_eq]
    rw [Elems.toVal_rep h es avs fp' f h2 (by simp [VT.depth] at hf; omega)]
    rfl
  | .itab kvs ws, a, fp, f, hr, hf => by
    obtain ⟨avs, fp', h1, h2, _⟩ := hr
    obtain ⟨f, rfl⟩ : ∃ g, f = g + 1 := ⟨f - 1, by simp [VT.depth] at hf; omega⟩
    simp only [toValAt, h1, toValTV, Out.bind_eq]
    rw [Pairs.toVal_rep h kvs avs fp' f h2 (by simp [VT.depth] at hf; omega)]
    rfl
theorem Elems.toVal_rep (h : Heap) : ∀ (t : Elems) (avs : List ArrayValue) (fp : List Addr) (f : Nat), t.Rep h avs fp → t.depth ≤ f →
    toValAVs (toValAt f h) avs = .ok t.values
  | .nil, avs, fp, f, hr, hf => by
    obtain ⟨rfl, _⟩ := hr
    rfl
  | .cons v sep cn r, avs, fp, f, hr, hf => by
    obtain ⟨a, avs', f1, f2, rfl, h1, h2, _⟩ := hr
    simp only [Elems.depth] at hf
    simp only [toValAVs, Out.bind_eq]
    rw [VT.toVal_rep h v a f1 f h1 (by omega), Elems.toVal_rep h r avs' f2 f h2 (by omega)]
    rfl
theorem Pairs.toVal_rep (h : Heap) : ∀ (t : Pairs) (kvs : List TableKeyVal) (fp : List Addr) (f : Nat), t.Rep h kvs fp → t.depth ≤ f →
    toValTKVs (toValAt f h) kvs = .ok t.values
  | .nil, avs, fp, f, hr, hf => by
    obtain ⟨rfl, _⟩ := hr
    rfl
  | .cons k ws v sep cn r, avs, fp, f, hr, hf => by
    obtain ⟨a, avs', f1, f2, rfl, h1, h2, _⟩ := hr
    simp only [Pairs.depth] at hf
    simp only [toValTKVs, Out.bind_eq]
    rw [VT.toVal_rep h v a f1 f h1 (by omega), Pairs.toVal_rep h r avs' f2 f h2 (by omega)]
    rfl
end

/-! ## Text of cells -/

theorem textOr_bind (e : Bool) (s : Str) (f : Str → Out Str) : (textOr e s).bind f = if e then .panic .underflow else f s := by
  cases e <;> rfl

mutual
theorem VT.render_rep (h : Heap) : ∀ (t : VT) (a : Addr) (fp : List Addr) (f : Nat), t.Rep h a fp → t.depth ≤ f →
    renderAt f h a = textOr t.hasEmptyTable t.text
  | .leaf s, a, fp, f, hr, hf => by
    obtain ⟨h1, _⟩ := hr
    obtain ⟨f, rfl⟩ : ∃ g, f = g + 1 := ⟨f - 1, by simp [VT.depth] at hf; omega⟩
    simp only [renderAt, h1]
    cases s <;> simp [renderTV, Scalar.cell, VT.hasEmptyTable, textOr, VT.text, Scalar.text]
  | .arr es c1 c2, a, fp, f, hr, hf => by
    obtain ⟨avs, fp', h1, h2, _⟩ := hr
    obtain ⟨f, rfl⟩ : ∃ g, f = g + 1 := ⟨f - 1, by simp [VT.depth] at hf; omega⟩
    simp only [renderAt, h1, renderTV, Out.bind_eq]
    rw [Elems.render_rep h es avs fp' f h2 (by simp [VT.depth] at hf; omega), textOr_bind]
    simp [VT.hasEmptyTable, textOr, VT.text]
  | .itab .nil ws, a, fp, f, hr, hf => by
    obtain ⟨avs, fp', h1, ⟨rfl, _⟩, _⟩ := hr
    obtain ⟨f, rfl⟩ : ∃ g, f = g + 1 := ⟨f - 1, by simp [VT.depth] at hf; omega⟩
    simp only [renderAt, h1, renderTV, VT.hasEmptyTable, textOr, if_true]
  | .itab (.cons k w v sep cn r) ws, a, fp, f, hr, hf => by
    obtain ⟨avs, fp', h1, h2, _⟩ := hr
    obtain ⟨f, rfl⟩ : ∃ g, f = g + 1 := ⟨f - 1, by simp [VT.depth] at hf; omega⟩
    have := Pairs.render_rep h (.cons k w v sep cn r) avs fp' f h2 (by simp [VT.depth] at hf; omega)
    obtain ⟨b, avs', f1, f2, rfl, _⟩ := h2
    simp only [renderAt, h1, renderTV, Out.bind_eq]
    rw [this, textOr_bind]
    simp [VT.hasEmptyTable, Pairs.hasEmptyTable, textOr, VT.text]
theorem Elems.render_rep (h : Heap) : ∀ (t : Elems) (avs : List ArrayValue) (fp : List Addr) (f : Nat), t.Rep h avs fp → t.depth ≤ f →
    renderAVs (renderAt f h) avs = textOr t.hasEmptyTable t.text
  | .nil, avs, fp, f, hr, hf => by
    obtain ⟨rfl, _⟩ := hr
    rfl
  | .cons v sep cn r, avs, fp, f, hr, hf => by
    obtain ⟨a, avs', f1, f2, rfl, h1, h2, _⟩ := hr
    simp only [Elems.depth] at hf
    simp only [renderAVs, Out.bind_eq]
    rw [VT.render_rep h v a f1 f h1 (by omega), Elems.render_rep h r avs' f2 f h2 (by omega), textOr_bind]
    cases hv : v.hasEmptyTable <;> cases hr : r.hasEmptyTable <;>
      simp [textOr, Elems.hasEmptyTable, hv, hr, Elems.text, Out.bind]
theorem Pairs.render_rep (h : Heap) : ∀ (t : Pairs) (kvs : List TableKeyVal) (fp : List Addr) (f : Nat), t.Rep h kvs fp → t.depth ≤ f →
    renderTKVs (renderAt f h) kvs = textOr t.hasEmptyTable t.text
  | .nil, avs, fp, f, hr, hf => by
    obtain ⟨rfl, _⟩ := hr
    rfl
  | .cons k ws v sep cn r, avs, fp, f, hr, hf => by
    obtain ⟨a, avs', f1, f2, rfl, h1, h2, _⟩ := hr
    simp only [Pairs.depth] at hf
    simp only [renderTKVs, renderKV, Out.bind_eq]
    rw [VT.render_rep h v a f1 f h1 (by omega), Pairs.render_rep h r avs' f2 f h2 (by omega), textOr_bind]
    cases hv : v.hasEmptyTable <;> cases hr : r.hasEmptyTable <;>
      simp [textOr, Pairs.hasEmptyTable, hv, hr, Pairs.text, Out.bind]
end

/-! ## Every ranked cell holds a tree -/

theorem TVal.cases_scalar (v : TVal) :
    v = .table ∨ (∃ s : Scalar, v = s.cell) ∨ (∃ vals c1 c2, v = .arr vals c1 c2) ∨ ∃ kvs ws, v = .itab kvs ws := by
  cases v with
  | int s => exact .inr (.inl ⟨.int s, rfl⟩)
  | float s => exact .inr (.inl ⟨.float s, rfl⟩)
  | bool s => exact .inr (.inl ⟨.bool s, rfl⟩)
  | dt s => exact .inr (.inl ⟨.dt s, rfl⟩)
  | str s t => exact .inr (.inl ⟨.str s t, rfl⟩)
  | arr a b c => exact .inr (.inr (.inl ⟨a, b, c, rfl⟩))
  | itab a b => exact .inr (.inr (.inr ⟨a, b, rfl⟩))
  | table => exact .inl rfl

theorem Elems.rep_of {h : Heap} {P : Nat} : ∀ avs : List ArrayValue,
    (∀ av ∈ avs, ∃ t fp, VT.Rep h t av.val fp ∧ t.depth ≤ P) → ∃ es fp, Elems.Rep h es avs fp ∧ es.depth ≤ P
  | [], _ => ⟨.nil, [], ⟨rfl, rfl⟩, Nat.zero_le _⟩
  | av :: avs, hh => by
    obtain ⟨t, f1, h1, d1⟩ := hh av (by simp)
    obtain ⟨es, f2, h2, d2⟩ := Elems.rep_of avs (fun x hx => hh x (by simp [hx]))
    exact ⟨.cons t av.sep av.cnls es, f1 ++ f2, ⟨av.val, avs, f1, f2, rfl, h1, h2, rfl⟩, by simp [Elems.depth]; omega⟩

theorem Pairs.rep_of {h : Heap} {P : Nat} : ∀ kvs : List TableKeyVal,
    (∀ kv ∈ kvs, ∃ t fp, VT.Rep h t kv.keyval.val fp ∧ t.depth ≤ P) → ∃ es fp, Pairs.Rep h es kvs fp ∧ es.depth ≤ P
  | [], _ => ⟨.nil, [], ⟨rfl, rfl⟩, Nat.zero_le _⟩
  | kv :: kvs, hh => by
    obtain ⟨t, f1, h1, d1⟩ := hh kv (by simp)
    obtain ⟨es, f2, h2, d2⟩ := Pairs.rep_of kvs (fun x hx => hh x (by simp [hx]))
    exact ⟨.cons kv.keyval.key kv.keyval.sep t kv.sep kv.cnls es, f1 ++ f2, ⟨kv.keyval.val, kvs, f1, f2, rfl, h1, h2, rfl⟩, by simp [Pairs.depth]; omega⟩

theorem Ranked.rep {h : Heap} {rank : Addr → Nat} (hr : Ranked h rank) : ∀ (n : Nat) (a : Addr), rank a < n → a < h.length → h[a]? ≠ some .table →
    ∃ t fp, VT.Rep h t a fp ∧ t.depth ≤ n
  | 0, a, hn, _, _ => by omega
  | n + 1, a, hn, hl, ht => by
    have hv : h[a]? = some h[a] := List.getElem?_eq_getElem hl
    generalize h[a] = v at hv
    have hk := (hr a v hv).2
    have hrec : ∀ c ∈ v.kids, ∃ t fp, VT.Rep h t c fp ∧ t.depth ≤ n := fun c hc =>
      hr.rep n c (by have := (hk c hc).2.1; omega) (hk c hc).1 (hk c hc).2.2
    rcases v.cases_scalar with rfl | ⟨s, rfl⟩ | ⟨vals, c1, c2, rfl⟩ | ⟨kvs, ws, rfl⟩
    · exact absurd hv ht
    · exact ⟨.leaf s, [a], ⟨hv, rfl⟩, by simp [VT.depth]⟩
    · obtain ⟨es, fp, h1, h2⟩ := Elems.rep_of (h := h) (P := n) vals (fun av hav => hrec _ (by simp [TVal.kids]; exact ⟨av, hav, rfl⟩))
      exact ⟨.arr es c1 c2, a :: fp, ⟨vals, fp, hv, h1, rfl⟩, by simp [VT.depth]; omega⟩
    · obtain ⟨es, fp, h1, h2⟩ := Pairs.rep_of (h := h) (P := n) kvs (fun av hav => hrec _ (by simp [TVal.kids]; exact ⟨av, hav, rfl⟩))
      exact ⟨.itab es ws, a :: fp, ⟨kvs, fp, hv, h1, rfl⟩, by simp [VT.depth]; omega⟩

theorem Ranked.lt {h : Heap} {rank : Addr → Nat} (hr : Ranked h rank) {a : Addr} (ha : a < h.length) : rank a < h.length :=
  (hr a _ (List.getElem?_eq_getElem ha)).1

theorem Ranked.tree {h : Heap} {rank : Addr → Nat} (hr : Ranked h rank) {a : Addr} (ha : a < h.length) (ht : h[a]? ≠ some .table) :
    ∃ t fp, VT.Rep h t a fp ∧ t.depth ≤ h.length :=
  hr.rep _ a (hr.lt ha) ha ht

theorem Ranked.toVal_ok {h : Heap} {rank : Addr → Nat} (hr : Ranked h rank) {a : Addr} (ha : a < h.length) (ht : h[a]? ≠ some .table) :
    ∃ v, toVal h a = .ok v := by
  obtain ⟨t, fp, h1, h2⟩ := hr.tree ha ht
  exact ⟨_, t.toVal_rep h a fp _ h1 (by omega)⟩

theorem toVal_table {h : Heap} {a : Addr} (ht : h[a]? = some .table) : toVal h a = .panic .tableToVal := by
  simp [toVal, toValAt, ht, toValTV]

/-! ## Trees are unique -/

theorem Scalar.cell_inj {s s' : Scalar} (h : s.cell = s'.cell) : s = s' := by
  cases s <;> cases s' <;> simp_all [Scalar.cell]

theorem Scalar.cell_ne_arr {s : Scalar} {a b c} : s.cell ≠ .arr a b c := by cases s <;> simp [Scalar.cell]
theorem Scalar.cell_ne_itab {s : Scalar} {a b} : s.cell ≠ .itab a b := by cases s <;> simp [Scalar.cell]
theorem Scalar.cell_ne_table {s : Scalar} : s.cell ≠ .table := by cases s <;> simp [Scalar.cell]

mutual
theorem VT.Rep.unique {h : Heap} : ∀ {t t' : VT} {a : Addr} {f f' : List Addr}, t.Rep h a f → t'.Rep h a f' → t = t' ∧ f = f'
  | .leaf s, .leaf s', a, f, f', h1, h2 => by
    obtain ⟨h1, rfl⟩ := h1
    obtain ⟨h2, rfl⟩ := h2
    rw [h1] at h2
    simp at h2
    exact ⟨by rw [Scalar.cell_inj h2], rfl⟩
  | .leaf s, .arr .., a, f, f', h1, h2 => by
    obtain ⟨h1, rfl⟩ := h1
    obtain ⟨_, _, h2, _⟩ := h2
    rw [h1] at h2; simp at h2; exact absurd h2 Scalar.cell_ne_arr
  | .leaf s, .itab .., a, f, f', h1, h2 => by
    obtain ⟨h1, rfl⟩ := h1
    obtain ⟨_, _, h2, _⟩ := h2
    rw [h1] at h2; simp at h2; exact absurd h2 Scalar.cell_ne_itab
  | .arr es c1 c2, .leaf s, a, f, f', h2, h1 => by
    obtain ⟨h1, rfl⟩ := h1
    obtain ⟨_, _, h2, _⟩ := h2
    rw [h1] at h2; simp at h2; exact absurd h2 Scalar.cell_ne_arr
  | .arr es c1 c2, .arr es' d1 d2, a, f, f', h1, h2 => by
    obtain ⟨avs, g, e1, r1, rfl⟩ := h1
    obtain ⟨avs', g', e2, r2, rfl⟩ := h2
    rw [e1] at e2; simp at e2
    obtain ⟨rfl, rfl, rfl⟩ := e2
    obtain ⟨rfl, rfl⟩ := Elems.Rep.unique r1 r2
    exact ⟨rfl, rfl⟩
  | .arr es c1 c2, .itab .., a, f, f', h1, h2 => by
    obtain ⟨_, _, h1, _⟩ := h1
    obtain ⟨_, _, h2, _⟩ := h2
    rw [h1] at h2; simp at h2
  | .itab kvs ws, .leaf s, a, f, f', h2, h1 => by
    obtain ⟨h1, rfl⟩ := h1
    obtain ⟨_, _, h2, _⟩ := h2
    rw [h1] at h2; simp at h2; exact absurd h2 Scalar.cell_ne_itab
  | .itab kvs ws, .arr .., a, f, f', h1, h2 => by
    obtain ⟨_, _, h1, _⟩ := h1
    obtain ⟨_, _, h2, _⟩ := h2
    rw [h1] at h2; simp at h2
  | .itab kvs ws, .itab kvs' ws', a, f, f', h1, h2 => by
    obtain ⟨avs, g, e1, r1, rfl⟩ := h1
    obtain ⟨avs', g', e2, r2, rfl⟩ := h2
    rw [e1] at e2; simp at e2
    obtain ⟨rfl, rfl⟩ := e2
    obtain ⟨rfl, rfl⟩ := Pairs.Rep.unique r1 r2
    exact ⟨rfl, rfl⟩
theorem Elems.Rep.unique {h : Heap} : ∀ {t t' : Elems} {a : List ArrayValue} {f f' : List Addr}, t.Rep h a f → t'.Rep h a f' → t = t' ∧ f = f'
  | .nil, .nil, a, f, f', h1, h2 => ⟨rfl, by rw [h1.2, h2.2]⟩
  | .nil, .cons .., a, f, f', h1, h2 => by
    obtain ⟨rfl, _⟩ := h1
    obtain ⟨_, _, _, _, h2, _⟩ := h2
    simp at h2
  | .cons .., .nil, a, f, f', h1, h2 => by
    obtain ⟨rfl, _⟩ := h2
    obtain ⟨_, _, _, _, h1, _⟩ := h1
    simp at h1
  | .cons v sep cn r, .cons v' sep' cn' r', a, f, f', h1, h2 => by
    obtain ⟨b, avs, f1, f2, e1, r1, s1, rfl⟩ := h1
    obtain ⟨b', avs', f1', f2', e2, r2, s2, rfl⟩ := h2
    rw [e1] at e2; simp at e2
    obtain ⟨⟨rfl, rfl, rfl⟩, rfl⟩ := e2
    obtain ⟨rfl, rfl⟩ := VT.Rep.unique r1 r2
    obtain ⟨rfl, rfl⟩ := Elems.Rep.unique s1 s2
    exact ⟨rfl, rfl⟩
theorem Pairs.Rep.unique {h : Heap} : ∀ {t t' : Pairs} {a : List TableKeyVal} {f f' : List Addr}, t.Rep h a f → t'.Rep h a f' → t = t' ∧ f = f'
  | .nil, .nil, a, f, f', h1, h2 => ⟨rfl, by rw [h1.2, h2.2]⟩
  | .nil, .cons .., a, f, f', h1, h2 => by
    obtain ⟨rfl, _⟩ := h1
    obtain ⟨_, _, _, _, h2, _⟩ := h2
    simp at h2
  | .cons .., .nil, a, f, f', h1, h2 => by
    obtain ⟨rfl, _⟩ := h2
    obtain ⟨_, _, _, _, h1, _⟩ := h1
    simp at h1
  | .cons k w v sep cn r, .cons k' w' v' sep' cn' r', a, f, f', h1, h2 => by
    obtain ⟨b, avs, f1, f2, e1, r1, s1, rfl⟩ := h1
    obtain ⟨b', avs', f1', f2', e2, r2, s2, rfl⟩ := h2
    rw [e1] at e2; simp at e2
    obtain ⟨⟨⟨rfl, rfl, rfl⟩, rfl, rfl⟩, rfl⟩ := e2
    obtain ⟨rfl, rfl⟩ := VT.Rep.unique r1 r2
    obtain ⟨rfl, rfl⟩ := Pairs.Rep.unique s1 s2
    exact ⟨rfl, rfl⟩
end

/-! ## Trees depend on their own cells only -/

mutual
theorem VT.Rep.congr {h h' : Heap} : ∀ {t : VT} {a : Addr} {f : List Addr}, t.Rep h a f → (∀ x ∈ f, h'[x]? = h[x]?) → t.Rep h' a f
  | .leaf s, a, f, h1, he => by
    obtain ⟨h1, rfl⟩ := h1
    exact ⟨by rw [he a (by simp), h1], rfl⟩
  | .arr es c1 c2, a, f, h1, he => by
    obtain ⟨avs, g, e1, r1, rfl⟩ := h1
    exact ⟨avs, g, by rw [he a (by simp), e1], Elems.Rep.congr r1 (fun x hx => he x (by simp [hx])), rfl⟩
  | .itab es ws, a, f, h1, he => by
    obtain ⟨avs, g, e1, r1, rfl⟩ := h1
    exact ⟨avs, g, by rw [he a (by simp), e1], Pairs.Rep.congr r1 (fun x hx => he x (by simp [hx])), rfl⟩
theorem Elems.Rep.congr {h h' : Heap} : ∀ {t : Elems} {a : List ArrayValue} {f : List Addr}, t.Rep h a f → (∀ x ∈ f, h'[x]? = h[x]?) → t.Rep h' a f
  | .nil, _, _, h1, _ => h1
  | .cons v sep cn r, a, f, h1, he => by
    obtain ⟨b, avs, f1, f2, e1, r1, s1, rfl⟩ := h1
    exact ⟨b, avs, f1, f2, e1, VT.Rep.congr r1 (fun x hx => he x (by simp [hx])), Elems.Rep.congr s1 (fun x hx => he x (by simp [hx])), rfl⟩
theorem Pairs.Rep.congr {h h' : Heap} : ∀ {t : Pairs} {a : List TableKeyVal} {f : List Addr}, t.Rep h a f → (∀ x ∈ f, h'[x]? = h[x]?) → t.Rep h' a f
  | .nil, _, _, h1, _ => h1
  | .cons k w v sep cn r, a, f, h1, he => by
    obtain ⟨b, avs, f1, f2, e1, r1, s1, rfl⟩ := h1
    exact ⟨b, avs, f1, f2, e1, VT.Rep.congr r1 (fun x hx => he x (by simp [hx])), Pairs.Rep.congr s1 (fun x hx => he x (by simp [hx])), rfl⟩
end

mutual
theorem VT.Rep.bound {h : Heap} : ∀ {t : VT} {a : Addr} {f : List Addr}, t.Rep h a f → ∀ x ∈ f, x < h.length ∧ h[x]? ≠ some .table
  | .leaf s, a, f, h1 => by
    obtain ⟨h1, rfl⟩ := h1
    intro x hx; simp at hx; subst hx
    exact ⟨(List.getElem?_eq_some_iff.mp h1).1, by rw [h1]; simp [Scalar.cell_ne_table]⟩
  | .arr es c1 c2, a, f, h1 => by
    obtain ⟨avs, g, e1, r1, rfl⟩ := h1
    intro x hx; simp at hx
    rcases hx with rfl | hx
    · exact ⟨(List.getElem?_eq_some_iff.mp e1).1, by rw [e1]; simp⟩
    · exact Elems.Rep.bound r1 x hx
  | .itab es ws, a, f, h1 => by
    obtain ⟨avs, g, e1, r1, rfl⟩ := h1
    intro x hx; simp at hx
    rcases hx with rfl | hx
    · exact ⟨(List.getElem?_eq_some_iff.mp e1).1, by rw [e1]; simp⟩
    · exact Pairs.Rep.bound r1 x hx
theorem Elems.Rep.bound {h : Heap} : ∀ {t : Elems} {a : List ArrayValue} {f : List Addr}, t.Rep h a f → ∀ x ∈ f, x < h.length ∧ h[x]? ≠ some .table
  | .nil, _, _, h1 => by rw [h1.2]; simp
  | .cons v sep cn r, a, f, h1 => by
    obtain ⟨b, avs, f1, f2, e1, r1, s1, rfl⟩ := h1
    intro x hx; simp at hx
    rcases hx with hx | hx
    · exact VT.Rep.bound r1 x hx
    · exact Elems.Rep.bound s1 x hx
theorem Pairs.Rep.bound {h : Heap} : ∀ {t : Pairs} {a : List TableKeyVal} {f : List Addr}, t.Rep h a f → ∀ x ∈ f, x < h.length ∧ h[x]? ≠ some .table
  | .nil, _, _, h1 => by rw [h1.2]; simp
  | .cons k w v sep cn r, a, f, h1 => by
    obtain ⟨b, avs, f1, f2, e1, r1, s1, rfl⟩ := h1
    intro x hx; simp at hx
    rcases hx with hx | hx
    · exact VT.Rep.bound r1 x hx
    · exact Pairs.Rep.bound s1 x hx
end

theorem VT.Rep.append {h : Heap} {t : VT} {a : Addr} {f : List Addr} (hr : t.Rep h a f) (l : Heap) : t.Rep (h ++ l) a f :=
  hr.congr fun x hx => List.getElem?_append_left (hr.bound x hx).1

/-! ## The cells laid out by the parser -/

mutual
theorem VT.rep_cells : ∀ (t : VT) (pre post : Heap), ∃ fp, t.Rep (pre ++ t.cells pre.length ++ post) (t.addr pre.length) fp ∧
    fp.Nodup ∧ ∀ x : Nat, x ∈ fp ↔ pre.length ≤ x ∧ x < pre.length + t.size
  | .leaf s, pre, post => by
    refine ⟨[pre.length], ⟨?_, ?_⟩, by simp, ?_⟩
    · simp [VT.addr, VT.size, VT.cells]
    · simp [VT.addr, VT.size]
    · intro x; simp [VT.size]; omega
  | .arr es c1 c2, pre, post => by
    obtain ⟨fp, h1, h2, h3⟩ := Elems.rep_cells es pre (.arr (es.avs pre.length) c1 c2 :: post)
    have ha : (VT.arr es c1 c2).addr pre.length = pre.length + es.size := by simp [VT.addr, VT.size]
    refine ⟨(VT.arr es c1 c2).addr pre.length :: fp, ⟨es.avs pre.length, fp, ?_, ?_, rfl⟩, ?_, ?_⟩
    · rw [ha]
      simp only [VT.cells, List.append_assoc]
      rw [List.getElem?_append_right (by omega), List.getElem?_append_right (by simp [Elems.cells_length])]
      simp [Elems.cells_length]
    · simpa [VT.cells] using h1
    · rw [List.nodup_cons]
      refine ⟨?_, h2⟩
      rw [h3, ha]; omega
    · intro x
      rw [List.mem_cons, h3, ha]
      simp [VT.size]; omega
  | .itab es ws, pre, post => by
    obtain ⟨fp, h1, h2, h3⟩ := Pairs.rep_cells es pre (.itab (es.tkvs pre.length) ws :: post)
    have ha : (VT.itab es ws).addr pre.length = pre.length + es.size := by simp [VT.addr, VT.size]
    refine ⟨(VT.itab es ws).addr pre.length :: fp, ⟨es.tkvs pre.length, fp, ?_, ?_, rfl⟩, ?_, ?_⟩
    · rw [ha]
      simp only [VT.cells, List.append_assoc]
      rw [List.getElem?_append_right (by omega), List.getElem?_append_right (by simp [Pairs.cells_length])]
      simp [Pairs.cells_length]
    · simpa [VT.cells] using h1
    · rw [List.nodup_cons]
      refine ⟨?_, h2⟩
      rw [h3, ha]; omega
    · intro x
      rw [List.mem_cons, h3, ha]
      simp [VT.size]; omega
theorem Elems.rep_cells : ∀ (t : Elems) (pre post : Heap), ∃ fp, t.Rep (pre ++ t.cells pre.length ++ post) (t.avs pre.length) fp ∧
    fp.Nodup ∧ ∀ x : Nat, x ∈ fp ↔ pre.length ≤ x ∧ x < pre.length + t.size
  | .nil, pre, post => ⟨[], ⟨rfl, rfl⟩, by simp, by intro x; simp [Elems.size]⟩
  | .cons v sep cn r, pre, post => by
    obtain ⟨f1, h1, h2, h3⟩ := VT.rep_cells v pre (r.cells (pre.length + v.size) ++ post)
    obtain ⟨f2, g1, g2, g3⟩ := Elems.rep_cells r (pre ++ v.cells pre.length) post
    have hl : (pre ++ v.cells pre.length).length = pre.length + v.size := by simp [VT.cells_length]
    rw [hl] at g1 g3
    refine ⟨f1 ++ f2, ⟨v.addr pre.length, r.avs (pre.length + v.size), f1, f2, rfl, ?_, ?_, rfl⟩, ?_, ?_⟩
    · simpa [Elems.cells] using h1
    · simpa [Elems.cells] using g1
    · rw [List.nodup_append]
      refine ⟨h2, g2, ?_⟩
      intro a ha b hb
      have := (h3 a).mp ha
      have := (g3 b).mp hb
      exact Nat.ne_of_lt (by omega)
    · intro x
      rw [List.mem_append, h3, g3]
      simp [Elems.size]; omega
theorem Pairs.rep_cells : ∀ (t : Pairs) (pre post : Heap), ∃ fp, t.Rep (pre ++ t.cells pre.length ++ post) (t.tkvs pre.length) fp ∧
    fp.Nodup ∧ ∀ x : Nat, x ∈ fp ↔ pre.length ≤ x ∧ x < pre.length + t.size
  | .nil, pre, post => ⟨[], ⟨rfl, rfl⟩, by simp, by intro x; simp [Pairs.size]⟩
  | .cons k ws v sep cn r, pre, post => by
    obtain ⟨f1, h1, h2, h3⟩ := VT.rep_cells v pre (r.cells (pre.length + v.size) ++ post)
    obtain ⟨f2, g1, g2, g3⟩ := Pairs.rep_cells r (pre ++ v.cells pre.length) post
    have hl : (pre ++ v.cells pre.length).length = pre.length + v.size := by simp [VT.cells_length]
    rw [hl] at g1 g3
    refine ⟨f1 ++ f2, ⟨v.addr pre.length, r.tkvs (pre.length + v.size), f1, f2, rfl, ?_, ?_, rfl⟩, ?_, ?_⟩
    · simpa [Pairs.cells] using h1
    · simpa [Pairs.cells] using g1
    · rw [List.nodup_append]
      refine ⟨h2, g2, ?_⟩
      intro a ha b hb
      have := (h3 a).mp ha
      have := (g3 b).mp hb
      exact Nat.ne_of_lt (by omega)
    · intro x
      rw [List.mem_append, h3, g3]
      simp [Pairs.size]; omega
end

mutual
theorem VT.Rep.kids {h : Heap} : ∀ {t : VT} {a : Addr} {f : List Addr}, t.Rep h a f → a ∈ f ∧ ∀ v, h[a]? = some v → ∀ c ∈ v.kids, c ∈ f
  | .leaf s, a, f, h1 => by
    obtain ⟨h1, rfl⟩ := h1
    refine ⟨by simp, fun v hv => ?_⟩
    rw [h1] at hv; simp at hv; subst hv
    cases s <;> simp [Scalar.cell, TVal.kids]
  | .arr es c1 c2, a, f, h1 => by
    obtain ⟨avs, g, e1, r1, rfl⟩ := h1
    refine ⟨by simp, fun v hv => ?_⟩
    rw [e1] at hv; simp at hv; subst hv
    intro c hc
    simp only [TVal.kids] at hc
    exact List.mem_cons_of_mem _ (Elems.Rep.kids r1 c hc)
  | .itab es ws, a, f, h1 => by
    obtain ⟨avs, g, e1, r1, rfl⟩ := h1
    refine ⟨by simp, fun v hv => ?_⟩
    rw [e1] at hv; simp at hv; subst hv
    intro c hc
    simp only [TVal.kids] at hc
    exact List.mem_cons_of_mem _ (Pairs.Rep.kids r1 c hc)
theorem Elems.Rep.kids {h : Heap} : ∀ {t : Elems} {a : List ArrayValue} {f : List Addr}, t.Rep h a f → ∀ c ∈ a.map (·.val), c ∈ f
  | .nil, _, _, h1 => by rw [h1.1]; simp
  | .cons v sep cn r, a, f, h1 => by
    obtain ⟨b, avs, f1, f2, rfl, r1, s1, rfl⟩ := h1
    intro c hc
    rw [List.map_cons, List.mem_cons] at hc
    rcases hc with rfl | hc
    · exact List.mem_append_left _ (VT.Rep.kids r1).1
    · exact List.mem_append_right _ (Elems.Rep.kids s1 c hc)
theorem Pairs.Rep.kids {h : Heap} : ∀ {t : Pairs} {a : List TableKeyVal} {f : List Addr}, t.Rep h a f → ∀ c ∈ a.map (·.keyval.val), c ∈ f
  | .nil, _, _, h1 => by rw [h1.1]; simp
  | .cons k w v sep cn r, a, f, h1 => by
    obtain ⟨b, avs, f1, f2, rfl, r1, s1, rfl⟩ := h1
    intro c hc
    rw [List.map_cons, List.mem_cons] at hc
    rcases hc with rfl | hc
    · exact List.mem_append_left _ (VT.Rep.kids r1).1
    · exact List.mem_append_right _ (Pairs.Rep.kids s1 c hc)
end

/-- The heaps built by the parser: cells below have smaller addresses. -/
def Grown (h : Heap) : Prop := ∀ (a : Nat) (v : TVal), h[a]? = some v → ∀ c : Nat, c ∈ v.kids → c < a ∧ h[c]? ≠ some .table

theorem Grown.ranked {h : Heap} (hg : Grown h) : Ranked h id := by
  intro a v hv
  have hl := (List.getElem?_eq_some_iff.mp hv).1
  refine ⟨hl, fun c hc => ?_⟩
  have := hg a v hv c hc
  exact ⟨by omega, this.1, this.2⟩

theorem Grown.nil : Grown [] := by intro a v hv; simp at hv

theorem Grown.snoc {h : Heap} (hg : Grown h) {v : TVal} (hv : ∀ c : Nat, c ∈ v.kids → c < h.length ∧ h[c]? ≠ some .table) : Grown (h ++ [v]) := by
  intro a w hw c hc
  have hcase : a < h.length ∨ a = h.length := by
    have := (List.getElem?_eq_some_iff.mp hw).1
    simp at this; omega
  rcases hcase with hl | rfl
  · rw [List.getElem?_append_left hl] at hw
    have := hg a w hw c hc
    rw [List.getElem?_append_left (by omega)]
    exact this
  · rw [List.getElem?_append_right (by omega)] at hw
    simp at hw; subst hw
    have := hv c hc
    rw [List.getElem?_append_left this.1]
    exact this

end Tomllib
