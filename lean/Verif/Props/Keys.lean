import Verif.Lemmas.Path
import Verif.Lemmas.ForKeys
import Verif.Lemmas.Ctx
/-!
# Properties of keys: C26, C29
-/

namespace Tomllib

/-! ## C26 -/

/-- C26. The keys that `combine_keys`, `combine_keys_index` and `combine_child_keys` make are spelled as keys are: a name after the base and a dot (or alone,
if the base is empty), an index in brackets after the base.  The children are listed in order: `n` keys with the indices below `n`, or one key for each name.
Different children have different keys. -/
theorem C26_combine_keys (b : Str) :
    (∀ n, (Children.count n).combineChildKeys b = (List.range n).map (indexed b) ∧ ((Children.count n).combineChildKeys b).Nodup) ∧
    (∀ ks, (Children.keys ks).combineChildKeys b = ks.map (dotted b) ∧ (ks.Nodup → ((Children.keys ks).combineChildKeys b).Nodup)) ∧
    (∀ i, Children.combineKeysIndex b i = indexed b i) ∧
    (∀ s, Children.combineKeys b s = dotted b s) := by
  have h1 : ∀ n, (Children.count n).combineChildKeys b = (List.range n).map (indexed b) := by
    intro n; rw [indexed_eq]; rfl
  have h2 : ∀ ks, (Children.keys ks).combineChildKeys b = ks.map (dotted b) := fun ks => rfl
  refine ⟨fun n => ⟨h1 n, ?_⟩, fun ks => ⟨h2 ks, fun hn => ?_⟩, fun _ => by rw [indexed_eq], fun s => by rw [dotted_eq]⟩
  · rw [h1]; exact nodup_map (fun _ _ => indexed_inj) List.nodup_range
  · rw [h2]; exact nodup_map (fun _ _ => dotted_inj) hn

example : (Children.keys [lit% "x", lit% "y"]).combineChildKeys (lit% "a[0]") = [lit% "a[0].x", lit% "a[0].y"] := by decide

example : (Children.count 2).combineChildKeys (lit% "a") = [lit% "a[0]", lit% "a[1]"] := by decide

/-! ## C29 -/

/-- C29. Different paths of names and indices have different keys, whatever characters quoted names contain. -/
theorem C29_keys_unambiguous {p q : List Key} (hp : PathWf p) (hq : PathWf q) (h : keyOf [] p = keyOf [] q) : p = q := keyOf_inj hp hq h

/-- C29. In particular the keys of the children of two different keys are different, and a name is never mistaken for an index. -/
theorem C29_children_unambiguous {p q : List Key} (hp : PathWf p) (hq : PathWf q) (hp' : p ≠ []) (hq' : q ≠ []) {s : Str} (hs : KeyWf s) (i : Nat) :
    dotted (keyOf [] p) s ≠ indexed (keyOf [] q) i := by
  intro h
  have h1 : dotted (keyOf [] p) s = keyOf [] (p ++ [.str s]) := by rw [keyOf_append]; rfl
  have h2 : indexed (keyOf [] q) i = keyOf [] (q ++ [.idx i]) := by rw [keyOf_append]; rfl
  have wf1 : PathWf (p ++ [.str s]) := by
    cases p with
    | nil => simp at hp'
    | cons k p => cases k with
      | idx j => exact hp.elim
      | str k =>
        refine ⟨hp.1, fun t ht => ?_⟩
        simp at ht
        rcases ht with ht | rfl
        · exact hp.2 t ht
        · exact hs
  have wf2 : PathWf (q ++ [.idx i]) := by
    cases q with
    | nil => simp at hq'
    | cons k q => cases k with
      | idx j => exact hq.elim
      | str k =>
        refine ⟨hq.1, fun t ht => ?_⟩
        simp at ht
        exact hq.2 t ht
  have := keyOf_inj wf1 wf2 (by rw [← h1, ← h2, h])
  simp at this

/-- Without the restriction to bare and quoted names the claim fails: a name with a dot in it. -/
theorem C29_names_must_be_keys : keyOf [] [.str (lit% "a.b")] = keyOf [] [.str (lit% "a"), .str (lit% "b")] := by decide

/-- C29. The code builds such keys: two chains of names and indices that are open while a value is read get the same full key only if they are equal. -/
theorem C29_chains {p q : List Key} (hp : PathWf p) (hq : PathWf q) (h : (getKeychainKey p).1 = (getKeychainKey q).1) : p = q := by
  rw [getKeychainKey_eq, getKeychainKey_eq] at h
  exact keyOf_inj hp hq h

example : PathWf [.str (lit% "a"), .idx 3, .str (lit% "\"x.y[0]\"")] :=
  ⟨.inl ⟨by decide, by decide⟩, fun s hs => by
    simp at hs; subst hs
    exact KeyWf.quoted (s := lit% "x.y[0]") (by decide) (by decide)⟩

end Tomllib
