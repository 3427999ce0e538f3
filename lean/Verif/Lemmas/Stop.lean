import Verif.Spec.Stop
import Verif.Lemmas.Parse
import Verif.Lemmas.Read
import Verif.Lemmas.Reread
import Verif.Lemmas.Table
import Verif.Lemmas.Place
import Verif.Lemmas.TidyHist
/-!
# Where reading stops
-/

namespace Tomllib
open P

/-! ## Lines followed by another text -/

/-- The line is read as it stands when followed by the text. -/
def Follows (i : Str) (e : ET) : Prop :=
  ∀ st : PState, expression st (e.text ++ i) = (e.eff st).bind fun st' => .ok (st', .done i (e.expr st.heap.length))

/-! ## Blank lines -/

theorem ET.blank_of_text {e : ET} (hb : Blank e.text) : e = .blank e.text := by
  cases e with
  | blank w => rfl
  | comment w c =>
    have := hb '#' (by simp [ET.text, remark])
    simp at this
  | kv w1 k s v w2 c =>
    have := hb '=' (by simp [ET.text])
    simp at this
  | table w1 t w2 c =>
    have := hb '[' (by cases t <;> simp [ET.text, TableType.text])
    simp at this

/-! ## Reading stops there -/

theorem toml_of_parse {p p' : Parser} {i : Str} {r : ParseResult} (h : p.parse i = .ok (p', r)) :
    toml p.st i = .ok (p'.st, .done p'.leftover p'.tree) ∧ r = resultOf p.leftover p'.st p'.leftover := by
  have hs := toml_spec p.st i
  unfold Parser.parse at h
  generalize toml p.st i = o at hs h
  cases hs with
  | done ls px nodes r0 r' st1 st2 h1 h2 h3 h4 h5 h6 h7 =>
    dsimp only at h
    unfold resultOf
    split at h <;> split at h <;> simp at h <;> simp_all <;> (obtain ⟨rfl, rfl⟩ := h; simp_all)
  | abort ls' nl w px nodes r st1 e _ _ _ _ _ h1 h2 =>
    cases e <;> simp [Abort.out] at h

/-! ## What is kept -/

/-- Values stay, and children are only added to. -/
structure Kept (m m' : KMap) : Prop where
  vals : ∀ x a, valOf m x = some a → valOf m' x = some a
  kids : ∀ x c, kidsOf m x = some c → ∃ c', kidsOf m' x = some c' ∧ c.grown c'

theorem Children.grown_refl (c : Children) : c.grown c := by
  cases c with
  | keys ks => exact List.prefix_refl _
  | count n => exact Nat.le_refl n

theorem Children.grown_trans {a b c : Children} (h : a.grown b) (h' : b.grown c) : a.grown c := by
  cases a <;> cases b <;> cases c <;> simp only [Children.grown] at *
  · exact Nat.le_trans h h'
  · exact h.trans h'

theorem Kept.refl (m : KMap) : Kept m m := ⟨fun _ _ h => h, fun _ c h => ⟨c, h, c.grown_refl⟩⟩
theorem Kept.trans {a b c : KMap} (h : Kept a b) (h' : Kept b c) : Kept a c :=
  ⟨fun x v hv => h'.vals x v (h.vals x v hv), fun x k hk => by
    obtain ⟨k1, h1, h2⟩ := h.kids x k hk
    obtain ⟨k2, h3, h4⟩ := h'.kids x k1 h1
    exact ⟨k2, h3, Children.grown_trans h2 h4⟩⟩

theorem Kept.insert {m : KMap} {k : Str} {hv : HashValue} (h1 : ∀ a, valOf m k = some a → hv.value = some a)
    (h2 : ∀ c, kidsOf m k = some c → c.grown hv.subkeys) : Kept m (m.insert k hv) := by
  refine ⟨fun x a hx => ?_, fun x c hx => ?_⟩
  · rw [valOf_insert]; split
    next e => subst e; exact h1 a hx
    · exact hx
  · rw [kidsOf_insert]; split
    next e => subst e; exact ⟨_, rfl, h2 c hx⟩
    · exact ⟨c, hx, c.grown_refl⟩

theorem insertUniq_prefix (ks : List Str) (k : Str) : ks <+: (insertUniq ks k).1 := by
  unfold insertUniq
  split
  · exact List.prefix_refl _
  · exact List.prefix_append _ _

theorem updateParent_kept (m : KMap) (P : Str) (last : Key) : Kept m (updateParent m P last) := by
  unfold updateParent
  split
  next hv hg =>
    split
    next c _ hc =>
      refine Kept.insert (fun a ha => by simpa [valOf, hg] using ha) fun c' h => ?_
      simp [kidsOf, hg, hc] at h; subst h; simp [Children.grown]
    next ks s hc =>
      refine Kept.insert (fun a ha => by simpa [valOf, hg] using ha) fun c' h => ?_
      simp [kidsOf, hg, hc] at h; subst h; exact insertUniq_prefix _ _
    · exact .refl _
  next hg =>
    split <;> exact Kept.insert (fun a ha => by simp [valOf, hg] at ha) fun c' h => by simp [kidsOf, hg] at h

theorem insertKeyval_kept {st st' : PState} {a : Addr} (h : insertKeyval st a = .ok st') : Kept st.map st'.map := by
  simp only [insertKeyval, Out.bind_eq, Out.bind_ok] at h
  obtain ⟨⟨full, parent⟩, _, h⟩ := h
  dsimp only at h
  split at h
  · rw [Out.bind_ok] at h
    obtain ⟨v, _, h⟩ := h
    simp at h; subst h; exact .refl _
  next hno =>
    split at h
    · simp at h
    · simp at h; subst h
      refine Kept.trans ?_ (updateParent_kept _ _ _)
      split
      next hv hg =>
        obtain ⟨v, c⟩ := hv
        refine Kept.insert (fun b hb => ?_) (fun c' h => ?_)
        · obtain ⟨s, hs⟩ := valOf_some.mp hb
          exact absurd hs (hno _ _)
        · simp [kidsOf, hg] at h; subst h; exact Children.grown_refl _
      next hg =>
        split <;> exact Kept.insert (fun a ha => by simp [valOf, hg] at ha) fun c' h => by simp [kidsOf, hg] at h

theorem arrayValueAct_kept {a : Addr} {st st' : PState} (h : arrayValueAct a st = .ok st') : Kept st.map st'.map := by
  simp only [arrayValueAct, Out.bind_eq, Out.bind_ok] at h
  obtain ⟨v, _, t, _, st1, h1, st2, h2, h⟩ := h
  have e1 := checkMixed_map h1
  have e2 := insertKeyval_kept h2
  dsimp only at e2
  rw [e1] at e2
  split at h
  · simp at h
  · simp at h; subst h; exact e2

theorem keyvalAct_kept {k : Str} {a : Addr} {st st' : PState} (h : keyvalAct k a st = .ok st') : Kept st.map st'.map := by
  simp only [keyvalAct, Out.bind_eq, Out.bind_ok] at h
  obtain ⟨st1, h1, h⟩ := h
  simp at h; subst h
  show Kept st.map st1.map
  split at h1
  · split at h1
    · simp at h1
    all_goals first
      | (rw [Out.bind_ok] at h1; obtain ⟨_, _, h1⟩ := h1; simp at h1; subst h1; exact .refl _)
      | (simp at h1; subst h1; exact .refl _)
  · exact insertKeyval_kept h1

mutual
theorem VT.eff_kept : ∀ (t : VT) {st st' : PState}, t.eff st = .ok st' → Kept st.map st'.map
  | .leaf s, st, st', h => by
    rw [VT.eff, Out.bind_ok] at h
    obtain ⟨st1, h1, h⟩ := h
    simp at h; subst h
    have hm : (st1.cell s.cell).map = st.map := (show _ = st1.map from rfl).trans (Scalar.eff_map h1)
    rw [hm]; exact .refl _
  | .arr es c1 c2, st, st', h => by
    rw [VT.eff, Out.bind_ok] at h
    obtain ⟨st1, h1, h⟩ := h
    simp at h; subst h
    have := Elems.eff_kept es h1
    exact this
  | .itab kvs ws, st, st', h => by
    rw [VT.eff, Out.bind_ok] at h
    obtain ⟨st1, h1, h⟩ := h
    simp at h; subst h
    have := Pairs.eff_kept kvs h1
    exact this
theorem Elems.eff_kept : ∀ (t : Elems) {st st' : PState}, t.eff st = .ok st' → Kept st.map st'.map
  | .nil, st, st', h => by simp [Elems.eff] at h; subst h; exact .refl _
  | .cons v sep cn r, st, st', h => by
    rw [Elems.eff, Out.bind_ok] at h
    obtain ⟨st1, h1, h⟩ := h
    rw [Out.bind_ok] at h
    obtain ⟨st2, h2, h⟩ := h
    exact ((VT.eff_kept v h1).trans (arrayValueAct_kept h2)).trans (Elems.eff_kept r h)
theorem Pairs.eff_kept : ∀ (t : Pairs) {st st' : PState}, t.eff st = .ok st' → Kept st.map st'.map
  | .nil, st, st', h => by simp [Pairs.eff] at h; subst h; exact .refl _
  | .cons k ws v sep cn r, st, st', h => by
    rw [Pairs.eff, Out.bind_ok] at h
    obtain ⟨st1, h1, h⟩ := h
    rw [Out.bind_ok] at h
    obtain ⟨st2, h2, h⟩ := h
    have := (VT.eff_kept v h1)
    exact (Kept.trans (a := st.map) this (keyvalAct_kept h2)).trans (Pairs.eff_kept r h)
end

theorem PV.eff_kept : ∀ (t : PV) {st st' : PState}, t.eff st = .ok st' → Kept st.map st'.map ∧ Adds NoTable st st'
  | .nothing, st, st', h => by simp [PV.eff] at h; subst h; exact ⟨.refl _, .same rfl (Nat.le_refl _)⟩
  | .val t, st, st', h => ⟨VT.eff_kept t h, VT.eff_adds h⟩
  | .arr _ es last, st, st', h => by
    simp only [PV.eff, Out.bind_ok] at h
    obtain ⟨s1, h1, s2, h2, h3⟩ := h
    simp at h3; subst h3
    have a := Elems.eff_kept es h1
    have b := PV.eff_kept last h2
    exact ⟨Kept.trans (a := st.map) a b.1, (Adds.trans (Elems.eff_adds h1) b.2).congr rfl rfl rfl rfl⟩
  | .itab _ kvs, st, st', h => ⟨Pairs.eff_kept kvs h, Pairs.eff_adds h⟩
  | .itabK _ kvs k, st, st', h => by
    simp only [PV.eff, Out.bind_ok] at h
    obtain ⟨s1, h1, h3⟩ := h
    simp at h3; subst h3
    have := Pairs.eff_kept kvs h1
    exact ⟨this, (Pairs.eff_adds h1).congr rfl rfl rfl rfl⟩
  | .itabKV _ kvs k _ last, st, st', h => by
    simp only [PV.eff, Out.bind_ok] at h
    obtain ⟨s1, h1, h2⟩ := h
    have b := PV.eff_kept last h2
    exact ⟨(Pairs.eff_kept kvs h1).trans b.1, (Pairs.eff_adds h1).trans (b.2.congr rfl rfl rfl rfl)⟩

/-- What is left of the line at which reading stops. -/
theorem PX.eff_kept {px : PX} (ho : px.opened) {st st' : PState} (h : px.eff st = .ok st') : Kept st.map st'.map ∧ Adds NoTable st st' := by
  cases px with
  | nothing => simp [PX.eff] at h; subst h; exact ⟨.refl _, .same rfl (Nat.le_refl _)⟩
  | header txt ks => simp [PX.eff] at h; subst h; exact ⟨.refl _, .same rfl (Nat.le_refl _)⟩
  | key k => simp [PX.eff] at h; subst h; exact ⟨.refl _, .same rfl (Nat.le_refl _)⟩
  | kv k s last =>
    have := PV.eff_kept last h
    exact ⟨this.1, this.2.congr rfl rfl rfl rfl⟩
  | pair => exact ho.elim
  | table => exact ho.elim

/-- Without an array or an inline table nothing is left but the names on the key chain. -/
theorem PX.eff_clean {px : PX} (hw : px.wf) (ho : px.opened) {bad r' : Str} (hb : bad = px.text ++ r') (hn : ¬ BeginsValue bad) {st st' : PState}
    (h : px.eff st = .ok st') : st'.map = st.map ∧ st'.heap = st.heap ∧ st'.errors = st.errors ∧ st'.lineCount = st.lineCount := by
  cases px with
  | nothing => simp [PX.eff] at h; subst h; exact ⟨rfl, rfl, rfl, rfl⟩
  | header txt ks => simp [PX.eff] at h; subst h; exact ⟨rfl, rfl, rfl, rfl⟩
  | key k => simp [PX.eff] at h; subst h; exact ⟨rfl, rfl, rfl, rfl⟩
  | kv k s last =>
    rcases ho with rfl | ⟨c, t, e, hc⟩
    · simp [PX.eff, PV.eff] at h; subst h; exact ⟨rfl, rfl, rfl, rfl⟩
    · exact absurd ⟨k, s.ws1, s.ws2, c, t ++ r', hw.1, hw.2.1.1, hw.2.1.2, by simp [hb, PX.text, e], hc⟩ hn
  | pair => exact ho.elim
  | table => exact ho.elim

theorem resultOf_errs (old : Str) (st : PState) (rest : Str) : (resultOf old st rest).errs = st.errors := by
  unfold resultOf
  split <;> split <;> simp_all [ParseResult.errs]

/-- The values of keys that had one. -/
theorem Kept.getValue {p p' : Parser} (hp : PInv p) (hp' : PInv p') (hk : Kept p.st.map p'.st.map) {l : Heap} (hh : p'.st.heap = p.st.heap ++ l) {k : Str} {v : Value}
    (h : p.getValue k = .ok (some v)) : p'.getValue k = .ok (some v) := by
  unfold Parser.getValue at h ⊢
  split at h
  next a c hg =>
    have h1 : valOf p.st.map k = some a := valOf_some.mpr ⟨c, hg⟩
    obtain ⟨c', hg'⟩ := valOf_some.mp (hk.vals k a h1)
    rw [hg']
    dsimp only
    simp only [Out.bind_eq, Out.bind_ok] at h ⊢
    obtain ⟨v', h2, h3⟩ := h
    refine ⟨v', ?_, h3⟩
    obtain ⟨rank, hr⟩ := hp.inv.rank
    obtain ⟨rank', hr'⟩ := hp'.inv.rank
    have hlt : a < p.st.heap.length := by
      by_cases hlt : a < p.st.heap.length
      · exact hlt
      · have : p.st.heap[a]? = none := List.getElem?_eq_none (Nat.not_lt.mp hlt)
        simp [toVal, toValAt, this] at h2
    have hnt : p.st.heap[a]? ≠ some .table := by
      intro e
      rw [toVal_table e] at h2
      simp at h2
    obtain ⟨t, fp, h4, _⟩ := hr.tree hlt hnt
    have h5 := h4.toVal hr
    rw [h2] at h5
    have h6 := (h4.append l)
    rw [← hh] at h6
    rw [h6.toVal hr', ← h5]
  · simp at h

theorem Kept.getChildren {p p' : Parser} (hk : Kept p.st.map p'.st.map) {k : Str} {c : Children} (h : p.getChildren k = some c) :
    ∃ c', p'.getChildren k = some c' ∧ c.grown c' := by
  have e : ∀ q : Parser, q.getChildren k = kidsOf q.st.map (if k = [] then root else k) := by
    intro q
    unfold Parser.getChildren kidsOf
    dsimp only
    cases q.st.map.get? (if k = [] then root else k) <;> rfl
  rw [e] at h ⊢
  exact hk.kids _ c h

end Tomllib
