import Verif.Lemmas.Edit
import Verif.Lemmas.Session
import Verif.Lemmas.ForTool
/-!
# Whether the document can be printed, after scalars have been assigned
-/

namespace Tomllib

open Cli

theorem Cli.Denotes.scalar {v t : Str} {x : Value} (h : Denotes v t x) : x.scalar?.isSome = Bool.true := by
  cases h <;> rfl

/-- A scalar is taken only where a scalar or a table header is. -/
theorem setValue_scalar_true {p p' : Parser} {k : Str} {s : Scalar} (h : p.setValue k s.value = .ok (p', true)) :
    ∃ a, valOf p.st.map k = some a ∧ sameStructure p.st.heap a s.value = true := by
  unfold Parser.setValue at h
  split at h
  next a c hg =>
    refine ⟨a, valOf_some.mpr ⟨c, hg⟩, ?_⟩
    split at h
    next hs => exact hs
    · exfalso
      obtain ⟨subs, hsub, _⟩ := allSubkeys_ok p.st.map k
      simp only [hsub, Out.bind_eq, Out.bind] at h
      cases s <;> simp only [Scalar.value, convertVector] at h <;> (first | (simp at h; done) | (repeat' (split at h)) <;> simp_all)
  · simp at h

/-- After a scalar has been taken there are as many empty inline tables as before. -/
theorem Shown.set_taken {p p' : Parser} {ls : List (Str × ET)} {fp : List Addr} (h : Shown p ls fp) {k : Str} {v : Value} (hv : v.scalar?.isSome = true)
    (hs : p.setValue k v = .ok (p', true)) : ∃ ls', Shown p' ls' fp ∧ hasEmptyTable ls' = hasEmptyTable ls := by
  obtain ⟨s, e⟩ := Option.isSome_iff_exists.mp hv
  rw [Value.scalar_eq e] at hs
  obtain ⟨a, ha, hst⟩ := setValue_scalar_true hs
  by_cases hm : a ∈ fp
  · obtain ⟨F⟩ := h.rep.focus hm
    have hf : F.sub.fits s.value = true := by rw [← sameStructure_rep _ F.sub_rep, hst]
    obtain ⟨h', h1, h2, _⟩ := h.set_same ha F hf
    rw [hs] at h1
    simp only [Out.ok.injEq, Prod.mk.injEq, and_true] at h1
    subst h1
    refine ⟨_, h2, ?_⟩
    rw [F.emp_eq, (VT.replace_value F.sub s.value hf).2, ← F.emp_eq, F.plug_sub]
  · have hl : (a : Nat) < p.st.heap.length := h.inv.map.lt k a ha
    rw [sameStructure_scalar, Bool.and_eq_true] at hst
    obtain ⟨c, hg⟩ := valOf_some.mp ha
    have hset : p.setValue k s.value = .ok ({ p with st := { p.st with heap := p.st.heap.set a s.cell } }, true) := by
      have hst : sameStructure p.st.heap a s.value = true := by rw [sameStructure_scalar, hst.1, hst.2]; rfl
      unfold Parser.setValue
      simp only [hg, hst, Out.bind_eq, replaceValues_scalar, writeCell, if_pos hl, Out.bind, if_true]
    rw [hs] at hset
    simp only [Out.ok.injEq, Prod.mk.injEq, and_true] at hset
    subst hset
    have hag : Agree p.st.heap (p.st.heap.set a s.cell) := (Agree.refl _).set hst.2 s
    obtain ⟨r, hr⟩ := h.inv.rank
    refine ⟨ls, ⟨⟨⟨r, hag.ranked hr⟩, ?_, h.inv.stack, h.inv.err, h.inv.cols, h.inv.lines, h.inv.line1⟩, ?_, h.nodup, h.ne⟩, rfl⟩
    · dsimp only
      rw [hag.1]; exact h.inv.map
    · exact h.rep.congr (fun x hx => List.getElem?_set_ne (show a ≠ x from fun e => hm (e ▸ hx)))

theorem Cli.Applied.shown {fields : List Str} {doc doc' : Parser} (h : Applied fields doc doc') : ∀ {ls : List (Str × ET)} {fp : List Addr}, Shown doc ls fp →
    ∃ ls', Shown doc' ls' fp ∧ hasEmptyTable ls' = hasEmptyTable ls := by
  induction h with
  | nil => exact fun h => ⟨_, h, rfl⟩
  | cons hd hs _ ih =>
    intro ls fp h
    obtain ⟨ls1, h1, h2⟩ := h.set_taken hd.scalar hs
    obtain ⟨ls2, h3, h4⟩ := ih h1
    exact ⟨ls2, h3, h4.trans h2⟩

/-- Whether a document that was read in full can be printed after the assignments. -/
theorem applied_display {fields : List Str} {text : Str} {doc doc' : Parser} (hp : Parser.new.parse text = .ok (doc, .full)) (ha : Applied fields doc doc') :
    ∃ ls s, DocWf ls ∧ text = linesText ls ∧ doc'.display = if hasEmptyTable ls then .panic .underflow else .ok s := by
  obtain ⟨ls, fp, h1, h2, h3⟩ := Anchored.parse hp (.inl rfl)
  obtain ⟨ls', h4, h5⟩ := ha.shown h1.toShown
  refine ⟨ls, linesText ls', h2, h3, ?_⟩
  rw [h4.display, ← h5]
  rfl

end Tomllib
