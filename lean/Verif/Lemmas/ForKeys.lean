import Verif.Lemmas.Path
/-!
# Lemmas for Props/Keys
-/

namespace Tomllib

theorem dotted_inj {b s t : Str} (h : dotted b s = dotted b t) : s = t := by
  unfold dotted at h
  split at h <;> simpa using h

theorem indexed_inj {b : Str} {i j : Nat} (h : indexed b i = indexed b j) : i = j := by
  simp only [indexed, List.append_assoc, List.append_cancel_left_eq, decimal_eq] at h
  exact natStr_inj (List.append_cancel_right h)

theorem nodup_map {α β : Type} {f : α → β} (hf : ∀ a b, f a = f b → a = b) {l : List α} (h : l.Nodup) : (l.map f).Nodup := by
  rw [List.Nodup, List.pairwise_map]
  exact h.imp fun hn e => hn (hf _ _ e)

end Tomllib
