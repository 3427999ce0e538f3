import Verif.Lemmas.Sets
import Verif.Spec.Session
/-!
# Histories of a document keep the tree and the key table together
-/

namespace Tomllib

theorem convertVector_none_invalid (v : Value) (h h' : Heap) (e : convertVector h v = .ok (h', none)) : v.deepValid = false := by
  cases hd : v.deepValid with
  | false => rfl
  | true =>
    obtain ⟨_, _, h1, _⟩ := convertVector_fresh v h hd
    rw [e] at h1; simp at h1

/-- The two ways in which `set_value` refuses. -/
theorem setValue_false {p p' : Parser} {k : Str} {v : Value} (h : p.setValue k v = .ok (p', false)) :
    (valOf p.st.map k = none ∧ p' = p) ∨ ∃ subs l, allSubkeys p.st.map k = .ok subs ∧ NewCells p.st.heap.length l ∧ v.deepValid = false ∧
      p' = { p with st := { p.st with map := eraseAll p.st.map subs, heap := p.st.heap ++ l } } := by
  cases ha : valOf p.st.map k with
  | none =>
    left
    refine ⟨rfl, ?_⟩
    unfold Parser.setValue at h
    split at h
    next hg => simp [valOf, hg] at ha
    · simp at h; exact h.symm
  | some a =>
    right
    obtain ⟨c0, hg⟩ := valOf_some.mp ha
    obtain ⟨subs, hsub, hlong⟩ := allSubkeys_ok p.st.map k
    refine ⟨subs, ?_⟩
    have hconv := convertVector_conv v p.st.heap
    unfold Parser.setValue at h
    simp only [hg] at h
    split at h
    · simp only [Out.bind_eq] at h
      cases hr : replaceValues p.st.heap a v <;> simp [hr, Out.bind] at h
    · simp only [hsub, Out.bind_eq, Out.bind] at h
      generalize hx : convertVector p.st.heap v = x at hconv h
      cases x with
      | panic q => simp at h
      | fuel => simp at h
      | ok y =>
        obtain ⟨h', nv⟩ := y
        obtain ⟨l, e1, e2, e3⟩ := hconv
        dsimp only at e1
        subst e1
        cases nv with
        | none =>
          simp at h
          exact ⟨l, hsub, e2, convertVector_none_invalid _ _ _ hx, h.symm⟩
        | some tv =>
          exfalso
          cases tv <;> simp at h
          all_goals
            split at h <;> try (simp at h; done)
            dsimp only at h
            split at h <;> simp at h

theorem eraseAll_valOf {m : KMap} {subs : List Str} {k : Str} {x : Addr} (h : valOf (eraseAll m subs) k = some x) : valOf m k = some x := by
  unfold valOf at h ⊢
  rw [eraseAll_get] at h
  split at h
  · simp at h
  · exact h

theorem Anchored.refused {p p' : Parser} {ls : List (Str × ET)} {fp : List Addr} (h : Anchored p ls fp) {k : Str} {v : Value}
    (hs : p.setValue k v = .ok (p', false)) : Anchored p' ls fp := by
  rcases setValue_false hs with ⟨_, rfl⟩ | ⟨subs, l, _, hl, _, rfl⟩
  · exact h
  · obtain ⟨r, hr⟩ := h.inv.rank
    refine ⟨⟨⟨⟨_, hr.grow hl⟩, (eraseAll_inv h.inv.map subs).mono (by simp), h.inv.stack, h.inv.err, h.inv.cols, h.inv.lines, h.inv.line1⟩,
      h.rep.append _, h.nodup, h.ne⟩, fun k x hk => ?_⟩
    have hk' := eraseAll_valOf hk
    rcases h.cell k x hk' with h1 | h1
    · exact .inl h1
    · right
      show (p.st.heap ++ l)[x]? = _
      rw [List.getElem?_append_left (h.inv.map.lt k x hk'), h1]

/-- The invariant of histories. -/
theorem Session.anchored {p : Parser} (h : Session p) : ∃ ls fp, Anchored p ls fp := by
  induction h with
  | start h hr =>
    obtain ⟨ls, fp, h1, _⟩ := Anchored.parse h hr
    exact ⟨ls, fp, h1⟩
  | same _ hw hs hv h ih =>
    obtain ⟨ls, fp, hA⟩ := ih
    obtain ⟨a, ha, F, hF⟩ := hA.focus hw
    have hf := F.sub.fits_eq
    obtain ⟨h', e1, e2, _⟩ := hA.set_same ha F (by rw [VT.fits_eq, hF, hs, hv]; rfl)
    rw [h] at e1
    simp at e1
    rw [e1.1]
    exact ⟨_, _, e2⟩
  | vector _ hw hs hv h ih =>
    rename_i p p' k w v b hp
    obtain ⟨ls, fp, hA⟩ := ih
    cases b with
    | false => exact ⟨ls, fp, hA.refused h⟩
    | true =>
      obtain ⟨a, ha, F, hF⟩ := hA.focus hw
      obtain ⟨s, hs'⟩ := Option.isSome_iff_exists.mp hs
      have hw' := Value.scalar_eq hs'
      obtain ⟨b, hb, hc⟩ := hA.inv.scalar_cell (hw' ▸ hw)
      rw [ha] at hb; simp at hb; subst hb
      have hfits : F.sub.fits v = false := by
        rw [VT.fits_eq, hF, hw']
        cases v <;> simp [Value.scalar?] at hv <;> cases s <;> simp [Value.sameShape, Scalar.value, Value.scalar?]
      have hfb : F.fb = [a] := by
        have := F.sub_rep
        cases hsub : F.sub with
        | leaf s => rw [hsub] at this; exact this.2
        | arr => rw [hsub] at hF; rw [hw'] at hF; cases s <;> simp [VT.value, Scalar.value] at hF
        | itab => rw [hsub] at hF; rw [hw'] at hF; cases s <;> simp [VT.value, Scalar.value] at hF
      obtain ⟨subs, hsubs, _⟩ := allSubkeys_ok p.st.map k
      have hd : v.deepValid = true := by
        cases hd : v.deepValid with
        | true => rfl
        | false =>
          exfalso
          obtain ⟨c0, hg⟩ := valOf_some.mp ha
          have hst : sameStructure p.st.heap a v = false := by rw [sameStructure_rep v F.sub_rep, hfits]
          unfold Parser.setValue at h
          simp only [hg, hst, hsubs, Out.bind_eq, Out.bind, Bool.false_eq_true, if_false] at h
          generalize hx : convertVector p.st.heap v = x at h
          cases x with
          | panic q => simp at h
          | fuel => simp at h
          | ok y =>
            obtain ⟨h', nv⟩ := y
            cases nv with
            | none => simp at h
            | some tv => rw [convertVector_valid v hx] at hd; simp at hd
      obtain ⟨g, hR⟩ := hA.set_vector ha F hfits hv hd hsubs
      generalize rebuildAt _ _ _ _ _ _ = R at hR
      cases R with
      | fuel => exact hR.elim
      | panic x => have := hR.2; rw [h] at this; simp at this
      | ok m =>
        obtain ⟨h1, h2, h3, _⟩ := hR
        rw [h] at h1; simp at h1
        rw [h1]
        exact ⟨_, _, h3 (fun k x _ hx hne => by rw [hfb] at hx; simp at hx; exact absurd hx hne)⟩
  | refused _ h ih =>
    obtain ⟨ls, fp, hA⟩ := ih
    exact ⟨ls, fp, hA.refused h⟩

theorem Session.reachable {p : Parser} (h : Session p) : Reachable p := by
  induction h with
  | start h hr => exact .parse .new h
  | same _ _ _ _ h ih => exact .set ih h
  | vector _ _ _ _ h ih => exact .set ih h
  | refused _ h ih => exact .set ih h

end Tomllib
