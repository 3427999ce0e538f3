import Verif.Lemmas.Children
import Verif.Lemmas.Witness
/-!
# C73: programs that change the children they are given

`get_children` gives a reference to a `Cell` or a `RefCell`, so a program can change what the parser knows about the children of a key without having it mutable.
-/

namespace Tomllib

/-- C73. A change shows at the key for which the children were got, and nowhere else: all other children, all values, the text that is printed and what was left over
are the same. This holds for any parser and any change. -/
theorem C73_shows_there_only (p : Parser) (key : Str) (c : Children) :
    (p.putChildren key c).display = p.display ∧ (p.putChildren key c).leftover = p.leftover ∧ (∀ k, (p.putChildren key c).getValue k = p.getValue k) ∧
      (∀ k, k ≠ key → (key = [] → k ≠ root) → (key = root → k ≠ []) → (p.putChildren key c).getChildren k = p.getChildren k) ∧
      ((∀ n, p.getChildren key = some (.count n) → ∀ m, (p.putChildren key (.count m)).getChildren key = some (.count m)) ∧
       ∀ ns, p.getChildren key = some (.keys ns) → ∀ ms, (p.putChildren key (.keys ms)).getChildren key = some (.keys ms)) := by
  have h := ButKids.put p key c
  refine ⟨h.display.symm, h.left.symm, fun k => (h.getValue k).symm, fun k h1 h2 h3 => ?_, fun n hn m => ?_, fun n hn m => ?_⟩
  · have hne : (if key = [] then root else key) ≠ (if k = [] then root else k) := by
      by_cases a : key = [] <;> by_cases b : k = [] <;> simp [a, b] at h1 h2 h3 ⊢
      · exact fun e => h2 e.symm
      · exact h3
      · exact fun e => h1 e.symm
    unfold Parser.putChildren
    dsimp only
    split
    next hv hg =>
      split <;> first | rfl | (simp only [Parser.getChildren]; rw [SMap.get?_insert, if_neg hne])
    · rfl
  · unfold Parser.getChildren at hn
    unfold Parser.putChildren
    dsimp only at hn ⊢
    split at hn
    next hv hg =>
      simp at hn
      simp only [hn, Parser.getChildren, SMap.get?_insert, if_true]
    · simp at hn
  · unfold Parser.getChildren at hn
    unfold Parser.putChildren
    dsimp only at hn ⊢
    split at hn
    next hv hg =>
      simp at hn
      simp only [hn, Parser.getChildren, SMap.get?_insert, if_true]
    · simp at hn

/-- C73. As long as the values that are assigned have the structure of those they replace, it makes no difference to the text and to the values of all keys whether and how
children are changed in between, by any changes. -/
theorem C73_same_structure {p : Parser} (hp : Reachable p) (l : List Step) (hf : Fitting p (assignsOf l)) :
    (runSteps p l).bind Parser.display = (runSets p (assignsOf l)).bind Parser.display ∧
      ∀ k, (runSteps p l).bind (·.getValue k) = (runSets p (assignsOf l)).bind (·.getValue k) := by
  rcases runSteps_alike l hp (.refl p) hf with ⟨p', q', h1, h2, h3⟩ | ⟨x, h1, h2⟩
  · rw [h1, h2]
    exact ⟨h3.display.symm, fun k => (h3.getValue k).symm⟩
  · rw [h1, h2]
    exact ⟨rfl, fun _ => rfl⟩

/-- C73. Whatever is assigned, also with another structure: if neither assignment panics, the same is accepted and printed with the children changed and without. -/
theorem C73_printed_alike (p : Parser) (l : List (Str × Children)) {k : Str} {v : Value} {p1 p2 : Parser} {b1 b2 : Bool} (h1 : p.setValue k v = .ok (p1, b1))
    (h2 : (l.foldl (fun q x => q.putChildren x.1 x.2) p).setValue k v = .ok (p2, b2)) : b2 = b1 ∧ p2.display = p1.display := by
  have : ∀ (l : List (Str × Children)) (q : Parser), ButKids p q → ButKids p (l.foldl (fun q x => q.putChildren x.1 x.2) q) := by
    intro l
    induction l with
    | nil => exact fun _ h => h
    | cons x l ih => exact fun q h => ih _ (h.trans (.put q x.1 x.2))
  obtain ⟨e1, e2, _, e4⟩ := setValue_alike (this l p (.refl p)) h1 h2
  exact ⟨e1.symm, by unfold Parser.display; rw [e2, e4]⟩

/-- C73. Otherwise it makes a difference. An element that the program has hidden stays when the array is replaced by a shorter one; a nested array can be replaced that
cannot be replaced otherwise; a further text is read into other tables, or makes a panic. -/
theorem C73_otherwise :
    (∃ p, Parser.new.parse (lit% "a = [1, 2]") = .ok (p, .full) ∧ ∃ p', (p.putChildren (lit% "a") (.count 0)).setValue (lit% "a") (.arr [.int (lit% "5")]) = .ok (p', true) ∧
      p'.display = .ok (lit% "a = [5]") ∧ p'.getValue (lit% "a") = .ok (some (.arr [.int (lit% "5")])) ∧ p'.getValue (lit% "a[0]") = .ok (some (.int (lit% "1"))) ∧
      p'.getValue (lit% "a[1]") = .ok (some (.int (lit% "2")))) ∧
    (∃ p, Parser.new.parse (lit% "a = [[1]]") = .ok (p, .full) ∧
      p.setValue (lit% "a") (.arr [.arr [.int (lit% "5"), .int (lit% "6")]]) = .panic .rebuildVacant ∧
      ∃ p', (p.putChildren (lit% "a") (.count 0)).setValue (lit% "a") (.arr [.arr [.int (lit% "5"), .int (lit% "6")]]) = .ok (p', true) ∧
        p'.display = .ok (lit% "a = [[5, 6]]")) ∧
    (∃ p, Parser.new.parse (lit% "[[a]]\nx = 1") = .ok (p, .full) ∧ (p.putChildren (lit% "a") (.count 0)).parse (lit% "y = 1") = .panic .underflow ∧
      ∃ p', (p.putChildren (lit% "a") (.count 7)).parse (lit% "[[a]]\nx = 2") = .ok (p', .full) ∧ p'.getValue (lit% "a[7].x") = .ok (some (.int (lit% "2"))) ∧
        p'.getValue (lit% "a[1].x") = .ok none) := by
  refine ⟨by decide +kernel, by decide +kernel, by decide +kernel⟩

/-! ### The hypotheses are met -/

/-- What the program of the example does: it changes the children of an array and of the root before and after an assignment. -/
private def exSteps : List Step := [.change (lit% "a") (.count 9), .assign (lit% "a") (.arr [.bool true]), .change [] (.keys [lit% "b", lit% "b"])]

example : ∃ p, Parser.new.parse (lit% "a = [false] # no\nb = 2") = .ok (p, .full) ∧ Reachable p ∧ Fitting p (assignsOf exSteps) ∧
    (runSteps p exSteps).bind Parser.display = .ok (lit% "a = [true] # no\nb = 2") ∧
    (runSteps p exSteps).bind (fun q => .ok (q.getChildren (lit% "a"), q.getChildren [])) = .ok (some (.count 9), some (.keys [lit% "b", lit% "b"])) := by
  have : ∃ p, Parser.new.parse (lit% "a = [false] # no\nb = 2") = .ok (p, .full) ∧ p.getValue (lit% "a") = .ok (some (.arr [.bool false])) ∧
      (runSteps p exSteps).bind Parser.display = .ok (lit% "a = [true] # no\nb = 2") ∧
      (runSteps p exSteps).bind (fun q => .ok (q.getChildren (lit% "a"), q.getChildren [])) = .ok (some (.count 9), some (.keys [lit% "b", lit% "b"])) := by
    decide +kernel
  obtain ⟨p, h1, h2, h3, h4⟩ := this
  refine ⟨p, h1, .parse .new h1, ⟨⟨_, h2, by decide, ?_⟩, fun _ _ _ => trivial⟩, h3, h4⟩
  simp [Value.deepValid, deepValids, Value.valid_iff, Value.valid]
  rfl

end Tomllib
