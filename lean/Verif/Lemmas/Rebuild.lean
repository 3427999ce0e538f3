import Verif.Lemmas.Conv
/-!
# Rebuilding the key table, and the invariants of every reachable parser
-/

namespace Tomllib

/-- What rebuilding the entries of a tree with cells `fp` does to the key table. -/
def RebOk (m : KMap) (fp : List Addr) (n : Nat) (m' : KMap) : Prop :=
  MapInv m' n ∧ ∀ k x, valOf m' k = some x → valOf m k = some x ∨ x ∈ fp

/-- What it needs. -/
structure RebPre (m : KMap) (fp : List Addr) (n : Nat) : Prop where
  inv : MapInv m n
  lt : ∀ x : Nat, x ∈ fp → x < n
  off : ∀ k x, valOf m k = some x → x ∉ fp

theorem RebPre.insert {m : KMap} {a : Addr} {g : List Addr} {n : Nat} (h : RebPre m (a :: g) n) (hd : a ∉ g) {key : Str} {hv : HashValue}
    (hg : m.get? key = some hv) (skip : Bool) {c : Children} (hc : KidsOk c) :
    RebPre (m.insert key ⟨if skip then hv.value else some a, c⟩) g n := by
  have hval : valOf m key = hv.value := by simp [valOf, hg]
  refine ⟨h.inv.insert (fun x hx => ?_) hc, fun x hx => h.lt x (by simp [hx]), ?_⟩
  · cases skip with
    | true =>
      simp at hx
      rw [hx] at hval
      exact ⟨h.inv.lt _ _ hval, fun k' hk' => h.inv.inj _ _ _ hk' hval⟩
    | false =>
      simp at hx; subst hx
      exact ⟨h.lt a (by simp), fun k' hk' => absurd (by simp) (h.off k' a hk')⟩
  · intro k x hk
    rw [valOf_insert] at hk
    split at hk
    · cases skip with
      | true =>
        simp at hk
        rw [hk] at hval
        exact fun hm => h.off key x hval (by simp [hm])
      | false => simp at hk; subst hk; exact hd
    · exact fun hm => h.off k x hk (by simp [hm])

theorem RebOk.insert {m m' : KMap} {a : Addr} {g : List Addr} {n : Nat} {key : Str} {hv : HashValue}
    (hg : m.get? key = some hv) {skip : Bool} {c : Children} (h : RebOk (m.insert key ⟨if skip then hv.value else some a, c⟩) g n m') :
    RebOk m (a :: g) n m' := by
  refine ⟨h.1, fun k x hk => ?_⟩
  rcases h.2 k x hk with h1 | h1
  · rw [valOf_insert] at h1
    split at h1
    next e =>
      subst e
      cases skip with
      | true => left; simp at h1; simp [valOf, hg, h1]
      | false => right; simp at h1; simp [h1]
    · exact .inl h1
  · exact .inr (by simp [h1])

theorem foldl_insertUniq_nodup : ∀ (kvs : List TableKeyVal) (ks : List Str), ks.Nodup →
    (kvs.foldl (fun ks kv => (insertUniq ks kv.keyval.key).1) ks).Nodup
  | [], _, h => h
  | _ :: kvs, _, h => foldl_insertUniq_nodup kvs _ (insertUniq_nodup h)

theorem foldl_insertUniq_new : ∀ (kvs : List TableKeyVal) (ks : List Str), (kvs.map (·.keyval.key)).Nodup →
    kvs.foldl (fun ks kv => (insertUniq ks kv.keyval.key).1) ks = ks ++ (kvs.map (·.keyval.key)).filter (· ∉ ks)
  | [], _, _ => by simp
  | kv :: kvs, ks, h => by
    rw [List.map_cons, List.nodup_cons] at h
    rw [List.foldl_cons, foldl_insertUniq_new kvs _ h.2, List.map_cons, List.filter_cons, insertUniq]
    by_cases hm : kv.keyval.key ∈ ks
    · simp [hm]
    · simp only [hm, if_false, not_false_eq_true, decide_true, if_true, List.append_assoc, List.cons_append, List.nil_append]
      congr 2
      apply List.filter_congr
      intro x hx
      have : x ≠ kv.keyval.key := fun e => h.1 (e ▸ hx)
      simp [this]

mutual
theorem rebuildAt_all {h : Heap} {n : Nat} : ∀ (t : VT) (f : Nat) {m : KMap} {key : Str} {a : Addr} {fp : List Addr} {skip : Bool}, t.Rep h a fp →
    fp.Nodup → t.depth ≤ f → RebPre m fp n → (rebuildAt h f m key a skip).All (RebOk m fp n) (· = .rebuildVacant)
  | .leaf s, f, m, key, a, fp, skip, hr, hd, hf, hp => by
    obtain ⟨f, rfl⟩ : ∃ g, f = g + 1 := ⟨f - 1, by simp [VT.depth] at hf; omega⟩
    obtain ⟨h1, rfl⟩ := hr
    have key' : (match m.get? key with
      | some _ => Out.ok m
      | none => Out.ok (m.insert key ⟨some a, .count 0⟩)).All (RebOk m [a] n) (· = Panic.rebuildVacant) := by
      split
      · exact ⟨hp.inv, fun k x hk => .inl hk⟩
      · refine ⟨hp.inv.insert (fun x hx => ?_) trivial, fun k x hk => ?_⟩
        · simp at hx; subst hx
          exact ⟨hp.lt a (by simp), fun k' hk' => absurd (by simp) (hp.off k' a hk')⟩
        · rw [valOf_insert] at hk
          split at hk
          · simp at hk; subst hk; exact .inr (by simp)
          · exact .inl hk
    cases s <;> simp only [rebuildAt, h1, Scalar.cell] <;> exact key'
  | .arr es c1 c2, f, m, key, a, fp, skip, hr, hd, hf, hp => by
    obtain ⟨f, rfl⟩ : ∃ g, f = g + 1 := ⟨f - 1, by simp [VT.depth] at hf; omega⟩
    obtain ⟨avs, g, h1, r1, rfl⟩ := hr
    rw [List.nodup_cons] at hd
    simp only [rebuildAt, h1]
    split
    · rfl
    next hv hg =>
      have hp' := hp.insert hd.1 hg skip (c := .count avs.length) trivial
      exact (rebuildAVs_all es f r1 hd.2 (by simp [VT.depth] at hf; omega) hp' (i := 0) (key := key)).mono (fun m' h' => h'.insert hg) (fun _ h => h)
  | .itab es c1, f, m, key, a, fp, skip, hr, hd, hf, hp => by
    obtain ⟨f, rfl⟩ : ∃ g, f = g + 1 := ⟨f - 1, by simp [VT.depth] at hf; omega⟩
    obtain ⟨avs, g, h1, r1, rfl⟩ := hr
    rw [List.nodup_cons] at hd
    simp only [rebuildAt, h1]
    split
    · rfl
    next hv hg =>
      have hk : KidsOk (match hv.subkeys with
          | .keys ks => Children.keys (avs.foldl (fun ks kv => (insertUniq ks kv.keyval.key).1) ks)
          | .count c => .count c) := by
        have := hp.inv.get hg
        split
        next ks e => rw [e] at this; exact foldl_insertUniq_nodup _ _ this
        · trivial
      have hp' := hp.insert hd.1 hg skip hk
      exact (rebuildKVs_all es f r1 hd.2 (by simp [VT.depth] at hf; omega) hp' (key := key)).mono (fun m' h' => h'.insert hg) (fun _ h => h)
theorem rebuildAVs_all {h : Heap} {n : Nat} : ∀ (t : Elems) (f : Nat) {m : KMap} {key : Str} {i : Nat} {avs : List ArrayValue} {fp : List Addr}, t.Rep h avs fp →
    fp.Nodup → t.depth ≤ f → RebPre m fp n →
    (rebuildAVs (fun m k a => rebuildAt h f m k a false) key i avs m).All (RebOk m fp n) (· = .rebuildVacant)
  | .nil, f, m, key, i, avs, fp, hr, hd, hf, hp => by
    rw [hr.1]
    exact ⟨hp.inv, fun k x hk => .inl hk⟩
  | .cons v sep cn r, f, m, key, i, avs, fp, hr, hd, hf, hp => by
    obtain ⟨b, avs', f1, f2, rfl, r1, s1, rfl⟩ := hr
    rw [List.nodup_append] at hd
    simp only [Elems.depth] at hf
    have h1 := rebuildAt_all v f (key := key ++ idxStr i) (skip := false) r1 hd.1 (by omega)
      (m := m) (n := n) ⟨hp.inv, fun x hx => hp.lt x (by simp [hx]), fun k x hk hm => hp.off k x hk (by simp [hm])⟩
    rw [rebuildAVs]
    split
    next m' e =>
      rw [e] at h1
      have h2 := rebuildAVs_all r f (key := key) (i := i + 1) s1 hd.2.1 (by omega) (m := m') (n := n)
        ⟨h1.1, fun x hx => hp.lt x (by simp [hx]), fun k x hk hm => by
          rcases h1.2 k x hk with h3 | h3
          · exact hp.off k x h3 (by simp [hm])
          · exact hd.2.2 x h3 x hm rfl⟩
      refine h2.mono (fun m'' h3 => ⟨h3.1, fun k x hk => ?_⟩) (fun _ h => h)
      rcases h3.2 k x hk with h4 | h4
      · rcases h1.2 k x h4 with h5 | h5
        · exact .inl h5
        · exact .inr (by simp [h5])
      · exact .inr (by simp [h4])
    next e => rw [e] at h1; exact h1
    next e => rw [e] at h1; exact h1
theorem rebuildKVs_all {h : Heap} {n : Nat} : ∀ (t : Pairs) (f : Nat) {m : KMap} {key : Str} {avs : List TableKeyVal} {fp : List Addr}, t.Rep h avs fp →
    fp.Nodup → t.depth ≤ f → RebPre m fp n →
    (rebuildKVs (fun m k a => rebuildAt h f m k a false) key avs m).All (RebOk m fp n) (· = .rebuildVacant)
  | .nil, f, m, key, avs, fp, hr, hd, hf, hp => by
    rw [hr.1]
    exact ⟨hp.inv, fun k x hk => .inl hk⟩
  | .cons k ws v sep cn r, f, m, key, avs, fp, hr, hd, hf, hp => by
    obtain ⟨b, avs', f1, f2, rfl, r1, s1, rfl⟩ := hr
    rw [List.nodup_append] at hd
    simp only [Pairs.depth] at hf
    have h1 := rebuildAt_all v f (key := key ++ lit% "." ++ k) (skip := false) r1 hd.1 (by omega)
      (m := m) (n := n) ⟨hp.inv, fun x hx => hp.lt x (by simp [hx]), fun k x hk hm => hp.off k x hk (by simp [hm])⟩
    rw [rebuildKVs]
    split
    next m' e =>
      rw [e] at h1
      have h2 := rebuildKVs_all r f (key := key) s1 hd.2.1 (by omega) (m := m') (n := n)
        ⟨h1.1, fun x hx => hp.lt x (by simp [hx]), fun k x hk hm => by
          rcases h1.2 k x hk with h3 | h3
          · exact hp.off k x h3 (by simp [hm])
          · exact hd.2.2 x h3 x hm rfl⟩
      refine h2.mono (fun m'' h3 => ⟨h3.1, fun k x hk => ?_⟩) (fun _ h => h)
      rcases h3.2 k x hk with h4 | h4
      · rcases h1.2 k x h4 with h5 | h5
        · exact .inl h5
        · exact .inr (by simp [h5])
      · exact .inr (by simp [h4])
    next e => rw [e] at h1; exact h1
    next e => rw [e] at h1; exact h1
end

/-! ## What `set_value` ends in -/

/-- The panics of `set_value`. -/
def setPanic (p : Panic) : Prop := p = .setNotVector ∨ p = .unwrapNone ∨ p = .rebuildVacant

theorem Agree.vrep {h h' : Heap} (ha : Agree h h') {t : VT} {a : Addr} {fp : List Addr} (ht : t.Rep h a fp) :
    ∃ t', VT.Rep h' t' a fp := by
  have main : (∀ (t : VT) (a : Addr) (fp : List Addr), t.Rep h a fp → ∃ t', VT.Rep h' t' a fp) := by
    intro t
    exact VT.rec (motive_1 := fun t => ∀ (a : Addr) (fp : List Addr), t.Rep h a fp → ∃ t', VT.Rep h' t' a fp)
      (motive_2 := fun t => ∀ (a : List ArrayValue) (fp : List Addr), t.Rep h a fp → ∃ t', Elems.Rep h' t' a fp)
      (motive_3 := fun t => ∀ (a : List TableKeyVal) (fp : List Addr), t.Rep h a fp → ∃ t', Pairs.Rep h' t' a fp)
      (fun s a fp hr => by
        obtain ⟨h1, rfl⟩ := hr
        rcases ha.2 a with h2 | ⟨_, s', h2⟩
        · exact ⟨.leaf s, by rw [h2, h1], rfl⟩
        · exact ⟨.leaf s', h2, rfl⟩)
      (fun es c1 c2 ih a fp hr => by
        obtain ⟨avs, g, h1, r1, rfl⟩ := hr
        obtain ⟨t', ht'⟩ := ih avs g r1
        exact ⟨.arr t' c1 c2, avs, g, ha.arr h1, ht', rfl⟩)
      (fun es c1 ih a fp hr => by
        obtain ⟨avs, g, h1, r1, rfl⟩ := hr
        obtain ⟨t', ht'⟩ := ih avs g r1
        exact ⟨.itab t' c1, avs, g, ha.itab h1, ht', rfl⟩)
      (fun a fp hr => ⟨.nil, hr⟩)
      (fun v sep cn r ih1 ih2 a fp hr => by
        obtain ⟨b, avs', f1, f2, rfl, r1, s1, rfl⟩ := hr
        obtain ⟨t1, h1⟩ := ih1 b f1 r1
        obtain ⟨t2, h2⟩ := ih2 avs' f2 s1
        exact ⟨.cons t1 sep cn t2, b, avs', f1, f2, rfl, h1, h2, rfl⟩)
      (fun a fp hr => ⟨.nil, hr⟩)
      (fun k ws v sep cn r ih1 ih2 a fp hr => by
        obtain ⟨b, avs', f1, f2, rfl, r1, s1, rfl⟩ := hr
        obtain ⟨t1, h1⟩ := ih1 b f1 r1
        obtain ⟨t2, h2⟩ := ih2 avs' f2 s1
        exact ⟨.cons k ws t1 sep cn t2, b, avs', f1, f2, rfl, h1, h2, rfl⟩) t
  exact main t a fp ht

theorem Agree.lrep {h h' : Heap} (ha : Agree h h') : ∀ {ls : List (Str × ET)} {ns : List NLExpression} {fp : List Addr},
    LinesRep h ls ns fp → ∃ ls', LinesRep h' ls' ns fp
  | [], ns, fp, hl => ⟨[], hl⟩
  | (nl, e) :: es, ns, fp, hl => by
    obtain ⟨x, ns', f1, f2, rfl, h1, h2, rfl⟩ := hl
    obtain ⟨es', h3⟩ := Agree.lrep ha h2
    cases e with
    | kv w1 k s v w2 c =>
      obtain ⟨a, rfl, h1⟩ := h1
      obtain ⟨t', ht'⟩ := ha.vrep h1
      exact ⟨(nl, .kv w1 k s t' w2 c) :: es', _, ns', f1, f2, rfl, ⟨a, rfl, ht'⟩, h3, rfl⟩
    | blank w => exact ⟨(nl, .blank w) :: es', _, ns', f1, f2, rfl, h1, h3, rfl⟩
    | comment w c => exact ⟨(nl, .comment w c) :: es', _, ns', f1, f2, rfl, h1, h3, rfl⟩
    | table w1 t w2 c => exact ⟨(nl, .table w1 t w2 c) :: es', _, ns', f1, f2, rfl, h1, h3, rfl⟩

mutual
theorem convertVector_valid : ∀ (v : Value) {h h' : Heap} {tv : TVal}, convertVector h v = .ok (h', some tv) → v.deepValid = true
  | .int s, h, h', tv, hc => by simp [convertVector] at hc; simpa [Value.deepValid] using hc.2.1
  | .float s, h, h', tv, hc => by simp [convertVector] at hc; simpa [Value.deepValid] using hc.2.1
  | .bool s, h, h', tv, hc => by simp [Value.deepValid, Value.validate]
  | .dt s, h, h', tv, hc => by simp [convertVector] at hc; simpa [Value.deepValid] using hc.2.1
  | .str s t, h, h', tv, hc => by simp [convertVector] at hc; simpa [Value.deepValid] using hc.2.1
  | .arr vs, h, h', tv, hc => by
    rw [convertVector] at hc
    split at hc <;> simp at hc
    next e => exact convertAVs_valid vs e
  | .itab vs, h, h', tv, hc => by
    rw [convertVector] at hc
    split at hc <;> simp at hc
    next e => exact convertKVs_valid vs e
theorem convertAVs_valid : ∀ (vs : List Value) {h h' : Heap} {avs : List ArrayValue}, convertAVs h vs = .ok (h', some avs) → deepValids vs = true
  | [], _, _, _, _ => rfl
  | v :: vs, h, h', avs, hc => by
    rw [convertAVs] at hc
    split at hc <;> try (simp at hc; done)
    next e =>
      split at hc <;> try (simp at hc; done)
      next e2 =>
        simp only [deepValids, Bool.and_eq_true]
        exact ⟨convertVector_valid v e, convertAVs_valid vs e2⟩
theorem convertKVs_valid : ∀ (vs : List (Str × Value)) {h h' : Heap} {avs : List TableKeyVal}, convertKVs h vs = .ok (h', avs) → deepValidKVs vs = true
  | [], _, _, _, _ => rfl
  | (k, v) :: vs, h, h', avs, hc => by
    rw [convertKVs] at hc
    split at hc <;> try (simp at hc; done)
    next e =>
      split at hc <;> try (simp at hc; done)
      next e2 =>
        simp only [deepValidKVs, Bool.and_eq_true]
        exact ⟨convertVector_valid v e, convertKVs_valid vs e2⟩
end

/-! ## The invariants of every reachable parser -/

/-- The tree stands for lines; the state is as `Inv` says. -/
structure PInv (p : Parser) : Prop where
  inv : Inv p.st
  tree : ∃ ls fp, LinesRep p.st.heap ls p.tree.exprs fp ∧ fp.Nodup

/-- The heap after a valid array or inline table `v` has been put in the cell `a`. -/
def graftHeap (h : Heap) (a : Addr) (v : Value) : Heap :=
  (h ++ v.fresh.cells h.length).set a ((v.fresh.cells h.length).getLastD .table)

/-- A vector value has a fresh tree whose root cell has the cells below it. -/
theorem graft_spec {h : Heap} {r : Addr → Nat} (hr : Ranked h r) {a : Nat} (ha : a < h.length) (v : Value) :
    ∃ (r' : Addr → Nat) (g : List Addr) (c : List TVal) (tv : TVal), v.fresh.cells h.length = c ++ [tv] ∧
      graftHeap h a v = (h ++ c).set a tv ++ [tv] ∧ (h ++ c).length = v.fresh.addr h.length ∧
      Ranked (graftHeap h a v) r' ∧ v.fresh.Rep (graftHeap h a v) a (a :: g) ∧
      v.fresh.Rep (graftHeap h a v) (v.fresh.addr h.length) (v.fresh.addr h.length :: g) ∧
      (v.fresh.addr h.length :: g).Nodup ∧
      (∀ x : Nat, x ∈ v.fresh.addr h.length :: g → h.length ≤ x ∧ x < (graftHeap h a v).length) ∧
      (∀ x : Nat, x < h.length → x ≠ a → (graftHeap h a v)[x]? = h[x]?) := by
  obtain ⟨fp, h1, h2, h3⟩ := v.fresh.rep_cells h []
  rw [List.append_nil] at h1
  have hsz := v.fresh.size_pos
  have hlen := v.fresh.cells_length h.length
  have hne : v.fresh.cells h.length ≠ [] := by
    intro e; rw [e] at hlen; simp at hlen; omega
  obtain ⟨c, tv, hcv⟩ : ∃ c tv, v.fresh.cells h.length = c ++ [tv] := ⟨_, _, (List.dropLast_concat_getLast hne).symm⟩
  have hclen : c.length + 1 = v.fresh.size := by rw [← hlen, hcv]; simp
  have hb : (h ++ c).length = v.fresh.addr h.length := by simp [VT.addr]; omega
  have hG : graftHeap h a v = (h ++ c).set a tv ++ [tv] := by
    unfold graftHeap
    rw [hcv, ← List.append_assoc, List.set_append_left _ _ (by simp; exact Nat.lt_add_right _ ha)]
    simp
  have hG2 : graftHeap h a v = (h ++ (c ++ [tv])).set a tv := by
    unfold graftHeap; rw [hcv]; simp
  have hnew := v.fresh.cells_new h.length
  rw [hcv] at hnew h1
  have htv := hnew c.length tv (by simp)
  have hrank := hr.graft hnew ha htv.1 (fun x hx => by have := htv.2 x hx; simp; omega)
  rw [← hG2] at hrank
  have hoff : ∀ x : Nat, x ≠ a → (graftHeap h a v)[x]? = (h ++ (c ++ [tv]))[x]? := by
    intro x hx
    rw [hG2, List.getElem?_set_ne (Ne.symm hx)]
  have hrepB := h1.congr (h' := graftHeap h a v) (fun x hx => hoff x (by have := ((h3 x).mp hx).1; omega))
  have hGlen : (graftHeap h a v).length = h.length + v.fresh.size := by rw [hG2]; simp; omega
  -- the cells below the root
  have hsplit : ∃ g, fp = v.fresh.addr h.length :: g := by
    cases hf : v.fresh with
    | leaf s => rw [hf] at hrepB; exact ⟨[], hrepB.2⟩
    | arr es c1 c2 => rw [hf] at hrepB; obtain ⟨_, g, _, _, e⟩ := hrepB; exact ⟨g, e⟩
    | itab es ws => rw [hf] at hrepB; obtain ⟨_, g, _, _, e⟩ := hrepB; exact ⟨g, e⟩
  obtain ⟨g, rfl⟩ := hsplit
  have hcellA : (graftHeap h a v)[a]? = some tv := by
    rw [hG2, List.getElem?_set_self (by simp; omega)]
  have hcellB : (graftHeap h a v)[v.fresh.addr h.length]? = some tv := by
    rw [hoff _ (by have := hb; simp at this; omega), ← List.append_assoc, ← hb]; simp
  refine ⟨_, g, c, tv, hcv, hG, hb, hrank, ?_, hrepB, h2, ?_, ?_⟩
  · revert hrepB
    cases hf : v.fresh with
    | leaf s =>
      rintro ⟨e1, e2⟩
      rw [← hf, hcellB] at e1
      rw [← hf] at e2
      simp at e2; subst e2
      exact ⟨by rw [hcellA, e1], rfl⟩
    | arr es c1 c2 =>
      rintro ⟨avs, g', e1, e2, e3⟩
      rw [← hf, hcellB] at e1
      simp at e3; subst e3
      exact ⟨avs, _, by rw [hcellA, e1], e2, rfl⟩
    | itab es ws =>
      rintro ⟨avs, g', e1, e2, e3⟩
      rw [← hf, hcellB] at e1
      simp at e3; subst e3
      exact ⟨avs, _, by rw [hcellA, e1], e2, rfl⟩
  · intro x hx
    have := (h3 x).mp hx
    omega
  · intro x hx hxa
    rw [hoff x hxa, List.getElem?_append_left hx]

/-- `set_value` of an array or inline table with a new structure. -/
theorem setValue_vector {p : Parser} {key : Str} {v : Value} {a : Addr} {r : Addr → Nat} (hr : Ranked p.st.heap r) (ha : valOf p.st.map key = some a)
    (hlt : a < p.st.heap.length)
    (hs : sameStructure p.st.heap a v = false) (hv : v.scalar? = none) (hd : v.deepValid = true) {subs : List Str}
    (hsub : allSubkeys p.st.map key = .ok subs) :
    p.setValue key v = (rebuildAt (graftHeap p.st.heap a v) ((graftHeap p.st.heap a v).length + 1) (eraseAll p.st.map subs) key
      (v.fresh.addr p.st.heap.length) true).bind fun m => .ok ({ p with st := { p.st with map := m, heap := graftHeap p.st.heap a v } }, true) := by
  obtain ⟨c0, hg⟩ := valOf_some.mp ha
  obtain ⟨l, hl, hlong⟩ := allSubkeys_ok p.st.map key
  rw [hsub] at hl
  simp at hl; subst hl
  have hgm : (eraseAll p.st.map subs).get? key = some ⟨some a, c0⟩ := by
    rw [eraseAll_get, if_neg, hg]
    intro hm
    exact absurd (hlong key hm) (Nat.lt_irrefl _)
  obtain ⟨r', g, c, tv, e1, e2, e3, _⟩ := graft_spec hr hlt v
  obtain ⟨h', tv', hc, hc2⟩ := convertVector_fresh v p.st.heap hd
  rw [e1, ← List.append_assoc] at hc2
  obtain ⟨rfl, hc3⟩ := List.append_inj' hc2 rfl
  simp at hc3; subst hc3
  have hw : writeCell (p.st.heap ++ c) a tv' = .ok ((p.st.heap ++ c).set a tv') := by
    unfold writeCell; rw [if_pos]; simp; exact Nat.lt_add_right _ hlt
  have htv : (∃ vals c1 c2, tv' = .arr vals c1 c2) ∨ ∃ kvs ws, tv' = .itab kvs ws := by
    cases v with
    | arr vs =>
      rw [convertVector] at hc
      split at hc <;> simp at hc
      exact .inl ⟨_, _, _, hc.2.symm⟩
    | itab vs =>
      rw [convertVector] at hc
      split at hc <;> simp at hc
      exact .inr ⟨_, _, hc.2.symm⟩
    | _ => simp [Value.scalar?] at hv
  have hb : ((p.st.heap ++ c).set a tv').length = v.fresh.addr p.st.heap.length := by rw [← e3]; simp
  unfold Parser.setValue
  simp only [hg, hs, Out.bind_eq, hsub, Out.bind, hc, Bool.false_eq_true, if_false]
  rcases htv with ⟨vals, c1, c2, rfl⟩ | ⟨kvs, ws, rfl⟩ <;>
    simp only [hgm, hw, ← e2, hb]

theorem setValue_all {p : Parser} (hp : PInv p) (key : Str) (v : Value) : (p.setValue key v).All (fun x => PInv x.1) setPanic := by
  obtain ⟨hi, ls, fp, hl, hnd⟩ := hp
  obtain ⟨r, hr⟩ := hi.rank
  cases ha : valOf p.st.map key with
  | none =>
    unfold Parser.setValue
    split
    next hg => simp [valOf, hg] at ha
    · exact ⟨hi, ls, fp, hl, hnd⟩
  | some a =>
    have hlt := hi.map.lt key a ha
    obtain ⟨c0, hg⟩ := valOf_some.mp ha
    cases hs : sameStructure p.st.heap a v with
    | true =>
      obtain ⟨h', e1, a1⟩ := replaceValues_agree v hs (Agree.refl p.st.heap)
      unfold Parser.setValue
      simp only [hg, hs, Out.bind_eq, e1, Out.bind]
      obtain ⟨ls', hl'⟩ := a1.lrep hl
      refine ⟨⟨⟨r, a1.ranked hr⟩, ?_, hi.stack, hi.err, hi.cols, hi.lines, hi.line1⟩, ls', fp, hl', hnd⟩
      dsimp only
      rw [a1.1]; exact hi.map
    | false =>
      obtain ⟨subs, hsub, hlong⟩ := allSubkeys_ok p.st.map key
      have hme := eraseAll_inv hi.map subs
      have hconv := convertVector_conv v p.st.heap
      by_cases hvec : v.scalar? = none ∧ v.deepValid = true
      · rw [setValue_vector hr ha hlt hs hvec.1 hvec.2 hsub]
        obtain ⟨r', g, c, tv, _, _, _, hrk, ra, rb, nd, hb, hoff⟩ := graft_spec hr hlt v
        have hreb := rebuildAt_all (n := (graftHeap p.st.heap a v).length) v.fresh ((graftHeap p.st.heap a v).length + 1)
          (m := eraseAll p.st.map subs) (key := key) (skip := true) rb nd (by have := rb.depth hrk; omega)
          ⟨hme.mono (by simp [graftHeap]), fun x hx => (hb x hx).2, fun k x hk hm => by
            have h1 := hme.lt k x hk
            have h2 := (hb x hm).1
            omega⟩
        refine (hreb.mono (fun _ h => h) (fun p hp => .inr (.inr hp))).bind fun m hm _ => ?_
        refine ⟨⟨⟨r', hrk⟩, hm.1, hi.stack, hi.err, hi.cols, hi.lines, hi.line1⟩, ?_⟩
        by_cases haf : a ∈ fp
        · obtain ⟨F⟩ := hl.focus haf
          have hfp := F.fp_eq
          have hsub : ∀ x ∈ F.f1 ++ F.f2, x ∈ fp := by intro x hx; rw [hfp]; grind
          have hafb : a ∈ F.fb := F.sub_rep.kids.1
          have hnd2 := hnd
          rw [hfp] at hnd2
          have hane : ∀ x ∈ F.f1 ++ F.f2, x ≠ a := by
            intro x hx e
            subst e
            rw [List.nodup_append, List.nodup_append] at hnd2
            grind
          refine ⟨_, _, F.rep_eq _ v.fresh (a :: g) ra (fun x hx => hoff x (hl.bound x (hsub x hx)).1 (hane x hx)), ?_⟩
          rw [List.nodup_cons] at nd
          have hgn : ∀ x ∈ g, ∀ y ∈ fp, x ≠ y := by
            intro x hx y hy e
            subst e
            have h1 := (hb x (by simp [hx])).1
            have h2 := (hl.bound x hy).1
            exact absurd (Nat.lt_of_lt_of_le h2 h1) (Nat.lt_irrefl _)
          have hag : a ∉ g := fun h => hgn a h a haf rfl
          rw [List.nodup_append, List.nodup_append] at hnd2 ⊢
          obtain ⟨⟨n1, n2, n3⟩, n4, n5⟩ := hnd2
          refine ⟨⟨n1, by rw [List.nodup_cons]; exact ⟨hag, nd.2⟩, ?_⟩, n4, ?_⟩
          · intro x hx y hy
            rw [List.mem_cons] at hy
            rcases hy with rfl | hy
            · exact hane x (by simp [hx])
            · exact fun e => hgn y hy x (hsub x (by simp [hx])) e.symm
          · intro x hx y hy
            rw [List.mem_append, List.mem_cons] at hx
            rcases hx with hx | rfl | hx
            · exact n5 x (by simp [hx]) y hy
            · exact fun e => hane y (by simp [hy]) e.symm
            · exact hgn x hx y (hsub y (by simp [hy]))
        · exact ⟨ls, fp, hl.congr (fun x hx => hoff x (hl.bound x hx).1 (fun e => haf (e ▸ hx))), hnd⟩
      · unfold Parser.setValue
        simp only [hg, hs, Out.bind_eq, hsub, Out.bind, Bool.false_eq_true, if_false]
        generalize hx : convertVector p.st.heap v = x at hconv
        cases x with
        | panic q => exact .inr (.inl hconv)
        | fuel => exact hconv
        | ok y =>
          obtain ⟨h', nv⟩ := y
          obtain ⟨l, e1, e2, e3⟩ := hconv
          dsimp only at e1
          subst e1
          dsimp only
          cases nv with
          | none =>
            refine ⟨⟨⟨_, hr.grow e2⟩, hme.mono (by simp), hi.stack, hi.err, hi.cols, hi.lines, hi.line1⟩, ls, fp, hl.append _, hnd⟩
          | some tv =>
            have hdv := convertVector_valid v hx
            have hsc : v.scalar? ≠ none := fun h => hvec ⟨h, hdv⟩
            have : setPanic .setNotVector := .inl rfl
            cases v with
            | arr => simp [Value.scalar?] at hsc
            | itab => simp [Value.scalar?] at hsc
            | bool b => simp [convertVector] at hx; obtain ⟨_, rfl⟩ := hx; exact this
            | int b => simp [convertVector] at hx; obtain ⟨_, _, rfl⟩ := hx; exact this
            | float b => simp [convertVector] at hx; obtain ⟨_, _, rfl⟩ := hx; exact this
            | dt b => simp [convertVector] at hx; obtain ⟨_, _, rfl⟩ := hx; exact this
            | str b t => simp [convertVector] at hx; obtain ⟨_, _, rfl⟩ := hx; exact this

theorem parse_all {p : Parser} (hp : PInv p) (i : Str) : (p.parse i).All (fun x => PInv x.1) parsePanic := by
  obtain ⟨hi, ls, fp, hl, hnd⟩ := hp
  have hs := toml_spec p.st i
  have ha := toml_all hi i
  unfold Parser.parse
  generalize toml p.st i = o at hs ha
  cases hs with
  | done ls' px nodes r r' st1 st2 _ _ h1 _ _ h2 _ =>
    obtain ⟨l1, fp', e1, e2, e3, _⟩ := linesEff_rep h1
    obtain ⟨l2, g1⟩ := PX.eff_heap h2
    have key : PInv ⟨⟨nodes⟩, st2, r⟩ := ⟨ha, ls', fp', by dsimp only; rw [g1]; exact e2.append _, e3⟩
    dsimp only
    split <;> split <;> exact key
  | abort ls' nl w px nodes r st1 e _ _ _ _ _ h1 h2 =>
    cases e with
    | panic q => exact ha
    | fuel => exact ha

theorem PInv.new : PInv Parser.new := ⟨Inv.new, [], [], ⟨rfl, rfl⟩, by simp⟩

theorem MapInv.kidsPut {m : KMap} {n : Nat} (h : MapInv m n) {k : Str} {hv : HashValue} (hg : m.get? k = some hv) {c : Children} (hc : KidsOk c) :
    MapInv (m.insert k { hv with subkeys := c }) n := by
  have hv' : ∀ k', valOf (m.insert k { hv with subkeys := c }) k' = valOf m k' := by
    intro k'
    rw [valOf_insert]
    split
    next e => subst e; simp [valOf, hg]
    · rfl
  refine ⟨fun k' a ha => h.lt k' a (by rwa [hv'] at ha), fun k1 k2 a h1 h2 => h.inj k1 k2 a (by rwa [hv'] at h1) (by rwa [hv'] at h2), fun k' c' hc' => ?_⟩
  rw [kidsOf_insert] at hc'
  split at hc'
  · simp at hc'; exact hc' ▸ hc
  · exact h.kids k' c' hc'

theorem PInv.putChildren {p : Parser} (h : PInv p) {k : Str} {c : Children} (hc : c.distinct) : PInv (p.putChildren k c) := by
  have hk : KidsOk c := by cases c <;> exact hc
  unfold Parser.putChildren
  dsimp only
  split
  next hv hg =>
    have hm := h.inv.map.kidsPut hg hk
    split <;> first | exact h | exact ⟨⟨h.inv.rank, hm, h.inv.stack, h.inv.err, h.inv.cols, h.inv.lines, h.inv.line1⟩, h.tree⟩
  · exact h

theorem Reachable.inv {p : Parser} (h : Reachable p) : PInv p := by
  induction h with
  | new => exact PInv.new
  | parse _ h ih => exact (h ▸ parse_all ih _ : (Out.ok _).All (fun x : Parser × ParseResult => PInv x.1) parsePanic)
  | set _ h ih => exact (h ▸ setValue_all ih _ _ : (Out.ok _).All (fun x : Parser × Bool => PInv x.1) setPanic)
  | children _ h ih => exact ih.putChildren h

end Tomllib
