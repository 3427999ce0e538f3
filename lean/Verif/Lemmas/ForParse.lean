import Verif.Lemmas.Count
import Verif.Lemmas.Witness
/-!
# Lemmas for Props/Parse
-/

namespace Tomllib

theorem HasBraces.left {s : Str} (h : HasBraces s) (t : Str) : HasBraces (t ++ s) := by
  obtain ⟨pre, w, post, rfl, hw⟩ := h
  exact ⟨t ++ pre, w, post, by simp, hw⟩

theorem HasBraces.right {s : Str} (h : HasBraces s) (t : Str) : HasBraces (s ++ t) := by
  obtain ⟨pre, w, post, rfl, hw⟩ := h
  exact ⟨pre, w, post ++ t, by simp, hw⟩

mutual
theorem VT.hasBraces : ∀ {t : VT}, t.wf → t.hasEmptyTable = true → HasBraces t.text
  | .leaf s, _, h => by simp [VT.hasEmptyTable] at h
  | .arr es c1 c2, hw, h => ((((Elems.hasBraces (t := es) hw.2.1 h).left _).right _).right _)
  | .itab .nil ws, hw, _ => ⟨[], ws.ws1 ++ ws.ws2, [], by simp [VT.text, Pairs.text], fun c hc => by
      rw [List.mem_append] at hc
      exact hc.elim (hw.1.1 c) (hw.1.2 c)⟩
  | .itab (.cons k s v sep cn r) ws, hw, h =>
    (((Pairs.hasBraces (t := .cons k s v sep cn r) hw.2 h).left _).right _).right _
theorem Elems.hasBraces : ∀ {t : Elems}, t.wf → t.hasEmptyTable = true → HasBraces t.text
  | .nil, _, h => by simp [Elems.hasEmptyTable] at h
  | .cons v sep cn r, hw, h => by
    simp only [Elems.hasEmptyTable, Bool.or_eq_true] at h
    rcases h with h | h
    · exact (((VT.hasBraces hw.1 h).right _).right _).right _
    · exact (Elems.hasBraces hw.2.2.2 h).left _
theorem Pairs.hasBraces : ∀ {t : Pairs}, t.wf → t.hasEmptyTable = true → HasBraces t.text
  | .nil, _, h => by simp [Pairs.hasEmptyTable] at h
  | .cons k ws v sep cn r, hw, h => by
    simp only [Pairs.hasEmptyTable, Bool.or_eq_true] at h
    rcases h with h | h
    · exact ((((VT.hasBraces hw.2.2.1 h).left _).right _).right _).right _
    · exact (Pairs.hasBraces hw.2.2.2.2.2 h).left _
end

theorem linesText_hasBraces : ∀ {ls : List (Str × ET)}, (∀ l ∈ ls, l.2.wf) → hasEmptyTable ls = true → HasBraces (linesText ls)
  | [], _, h => by simp [hasEmptyTable] at h
  | (nl, e) :: es, hw, h => by
    rw [hasEmptyTable_cons, Bool.or_eq_true] at h
    rcases h with h | h
    · cases e with
      | kv w1 k s v w2 c =>
        have hv := hw _ (List.mem_cons_self ..)
        exact (((((VT.hasBraces (hv.2.2.2.1) h).left _).right _).right _).left _).right _
      | _ => simp [ET.hasEmptyTable] at h
    · exact (linesText_hasBraces (fun l hl => hw l (by simp [hl])) h).left _

end Tomllib
