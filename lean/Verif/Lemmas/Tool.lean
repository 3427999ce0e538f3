import Verif.Lemmas.Spell
import Verif.Spec.Tool
import Verif.Lemmas.Map
/-!
# The loops of the command-line tool
-/

namespace Tomllib.Cli

theorem intercalate_cons (sep a : Str) (l : List Str) : sep.intercalate (a :: l) = a ++ (if l = [] then [] else sep) ++ sep.intercalate l := by
  cases l with
  | nil => simp [List.intercalate]
  | cons b l => simp [List.intercalate]

theorem joinSep_eq (sep : Str) : ∀ l : List Str, joinSep sep l = sep.intercalate l
  | [] => rfl
  | [k] => by simp [joinSep, List.intercalate]
  | k :: k' :: l => by rw [joinSep, joinSep_eq sep (k' :: l), intercalate_cons sep k]; simp; simp

theorem isQuote_iff (c : Char) : isQuote c = true ↔ c = '\'' ∨ c = '"' := by simp [isQuote]

theorem dropWhile_quote (s : Str) : ∃ a, (∀ c ∈ a, c = '\'' ∨ c = '"') ∧ s = a ++ s.dropWhile isQuote ∧
    ∀ c x, s.dropWhile isQuote = c :: x → c ≠ '\'' ∧ c ≠ '"' := by
  refine ⟨s.takeWhile isQuote, ?_, List.takeWhile_append_dropWhile.symm, ?_⟩
  · intro c hc
    induction s with
    | nil => simp at hc
    | cons d s ih =>
      rw [List.takeWhile_cons] at hc
      split at hc
      next h =>
        rw [List.mem_cons] at hc
        rcases hc with rfl | hc
        · exact (isQuote_iff _).mp h
        · exact ih hc
      · simp at hc
  · intro c x h
    induction s with
    | nil => simp at h
    | cons d s ih =>
      rw [List.dropWhile_cons] at h
      split at h
      · exact ih h
      next hd =>
        cases h
        rw [isQuote_iff] at hd
        exact ⟨fun e => hd (.inl e), fun e => hd (.inr e)⟩

/-- `trimQuotes` removes the quotes at both ends. -/
theorem trimQuotes_unquoted (s : Str) : Unquoted s (trimQuotes s) := by
  obtain ⟨a, ha, e1, n1⟩ := dropWhile_quote s
  obtain ⟨b, hb, e2, n2⟩ := dropWhile_quote (s.dropWhile isQuote).reverse
  have e3 : s.dropWhile isQuote = trimQuotes s ++ b.reverse := by
    have := congrArg List.reverse e2
    simpa [trimQuotes] using this
  refine ⟨⟨a, b.reverse, ?_, ?_⟩, ?_⟩
  · intro c hc
    simp at hc
    rcases hc with hc | hc
    · exact ha c hc
    · exact hb c hc
  · rw [List.append_assoc, ← e3]; exact e1
  · rintro c x (h | h)
    · rw [h] at e3
      exact n1 c _ e3
    · refine n2 c x.reverse ?_
      have := congrArg List.reverse h
      simpa [trimQuotes] using this

theorem unquoted_unique {s t t' : Str} (h : Unquoted s t) (h' : Unquoted s t') : t = t' := by
  obtain ⟨⟨a, b, hab, e⟩, n⟩ := h
  obtain ⟨⟨a', b', hab', e'⟩, n'⟩ := h'
  have key : ∀ {a b t a' b' t' : Str}, (∀ c ∈ a ++ b, c = '\'' ∨ c = '"') → (∀ c x, t = c :: x ∨ t = x ++ [c] → c ≠ '\'' ∧ c ≠ '"') →
      (∀ c ∈ a' ++ b', c = '\'' ∨ c = '"') → (∀ c x, t' = c :: x ∨ t' = x ++ [c] → c ≠ '\'' ∧ c ≠ '"') → a ++ t ++ b = a' ++ t' ++ b' → t ≠ [] → t' ≠ [] → t = t' := by
    intro a b t a' b' t' h1 h2 h3 h4 e k1 k2
    have front : ∀ {a r a' r' : Str}, (∀ c ∈ a, c = '\'' ∨ c = '"') → (∀ c ∈ a', c = '\'' ∨ c = '"') → (∀ c x, r = c :: x → c ≠ '\'' ∧ c ≠ '"') →
        (∀ c x, r' = c :: x → c ≠ '\'' ∧ c ≠ '"') → r ≠ [] → r' ≠ [] → a ++ r = a' ++ r' → r = r' := by
      intro a
      induction a with
      | nil =>
        intro r a' r' _ ha' hr hr' n1 n2 e
        cases a' with
        | nil => simpa using e
        | cons c a' =>
          have := hr c _ e
          rcases ha' c (by simp) with h | h
          · exact absurd h this.1
          · exact absurd h this.2
      | cons c a ih =>
        intro r a' r' ha ha' hr hr' n1 n2 e
        cases a' with
        | nil =>
          have := hr' c _ e.symm
          rcases ha c (by simp) with h | h
          · exact absurd h this.1
          · exact absurd h this.2
        | cons d a' =>
          simp at e
          exact ih (fun c hc => ha c (by simp [hc])) (fun c hc => ha' c (by simp [hc])) hr hr' n1 n2 e.2
    have hd : ∀ {t b : Str}, t ≠ [] → (∀ c x, t = c :: x ∨ t = x ++ [c] → c ≠ '\'' ∧ c ≠ '"') → ∀ c x, t ++ b = c :: x → c ≠ '\'' ∧ c ≠ '"' := by
      intro t b hn ht c x h
      cases t with
      | nil => exact absurd rfl hn
      | cons d t => simp at h; rw [← h.1]; exact ht d t (.inl rfl)
    have e1 : t ++ b = t' ++ b' :=
      front (a := a) (a' := a') (fun c hc => h1 c (by simp [hc])) (fun c hc => h3 c (by simp [hc])) (hd k1 h2) (hd k2 h4) (by simp [k1]) (by simp [k2]) (by simpa [List.append_assoc] using e)
    have e2 := congrArg List.reverse e1
    simp only [List.reverse_append] at e2
    have := front (a := b.reverse) (a' := b'.reverse) (fun c hc => h1 c (by simp at hc; simp [hc])) (fun c hc => h3 c (by simp at hc; simp [hc]))
      (fun c x h => h2 c x.reverse (.inr (by have := congrArg List.reverse h; simpa using this)))
      (fun c x h => h4 c x.reverse (.inr (by have := congrArg List.reverse h; simpa using this))) (by simpa using k1) (by simpa using k2) e2
    exact List.reverse_inj.mp this
  have empty : ∀ {a b a' b' t' : Str}, (∀ c ∈ a ++ b, c = '\'' ∨ c = '"') → (∀ c x, t' = c :: x ∨ t' = x ++ [c] → c ≠ '\'' ∧ c ≠ '"') → a ++ b = a' ++ t' ++ b' → t' = [] := by
    intro a b a' b' t' h1 h2 e
    cases t' with
    | nil => rfl
    | cons c x =>
      have h := h1 c (by rw [e]; simp)
      have h' := h2 c x (.inl rfl)
      rcases h with h | h
      · exact absurd h h'.1
      · exact absurd h h'.2
  by_cases k1 : t = []
  · subst k1
    exact (empty hab n' (by rw [← e', e]; simp)).symm
  · by_cases k2 : t' = []
    · subst k2
      exact empty hab' n (by rw [← e, e']; simp)
    · exact key hab n hab' n' (by rw [← e, e']) k1 k2

/-! ## Loops -/

theorem getLoop_ok {o : Options} {doc : Parser} {f : Str → Str} : ∀ (ks : List Str) (acc : Str), (∀ k ∈ ks, SaysValue o doc k (f k)) →
    getLoop o doc ks acc = .ok (.ok (acc ++ o.separator.intercalate (ks.map f)))
  | [], acc, _ => by simp [getLoop, List.intercalate]
  | k :: ks, acc, h => by
    obtain ⟨v, t, h1, h2, h3⟩ := h k (by simp)
    rw [getLoop, h1]
    simp only [Out.bind_eq, Out.bind, h2]
    have : (if o.stripQuotes = true then trimQuotes t else t) = f k := by
      split at h3
      next hs => rw [if_pos hs]; exact unquoted_unique (trimQuotes_unquoted t) h3
      next hs => rw [if_neg hs, h3]
    rw [this, getLoop_ok ks _ (fun k' h' => h k' (by simp [h'])), List.map_cons, intercalate_cons]
    simp

theorem getLoop_none {o : Options} {doc : Parser} {f : Str → Str} {k : Str} {b : List Str} (hk : doc.getValue k = .ok none) :
    ∀ (a : List Str) (acc : Str), (∀ k ∈ a, SaysValue o doc k (f k)) → getLoop o doc (a ++ k :: b) acc = .ok (.error (.notFound k))
  | [], acc, _ => by simp [getLoop, hk, Out.bind_eq, Out.bind]
  | k' :: a, acc, h => by
    obtain ⟨v, t, h1, h2, h3⟩ := h k' (by simp)
    rw [List.cons_append, getLoop, h1]
    simp only [Out.bind_eq, Out.bind, h2]
    exact getLoop_none hk a _ (fun k' h' => h k' (by simp [h']))

theorem pick_ok {vals : List Str} {i n : Nat} (h : Enough vals n) (hi : i < n) : pick vals i = .ok (answer vals i) := by
  unfold pick answer
  rcases h with h | ⟨h1, h2⟩
  · rw [h]
    match vals, h with
    | [v], _ => rfl
  · rw [if_pos (by omega), if_neg (by omega), List.getD_eq_getElem?_getD, List.getElem?_eq_getElem (by omega)]
    rfl

open Classical in
theorem hasValueLoop_ok {o : Options} {doc : Parser} {tvs fvs : List Str} {n : Nat} (ht : o.trueVals = some tvs) (hf : o.falseVals = some fvs) (h1 : Enough tvs n) (h2 : Enough fvs n) :
    ∀ (ks : List Str) (i : Nat) (acc : Str), i + ks.length ≤ n → (∀ k ∈ ks, ∃ v, doc.getValue k = .ok v) →
    hasValueLoop o doc i ks acc = .ok (.ok (acc ++ o.separator.intercalate ((ks.zipIdx i).map fun (k, j) => answer (if doc.getValue k = .ok none then fvs else tvs) j)))
  | [], i, acc, _, _ => by simp [hasValueLoop, List.intercalate]
  | k :: ks, i, acc, hn, h => by
    obtain ⟨v, hv⟩ := h k (by simp)
    simp only [List.length_cons] at hn
    simp only [hasValueLoop, ht, hf, pick_ok h1 (show i < n by omega), pick_ok h2 (show i < n by omega), hv, Out.bind_eq, Out.bind]
    rw [hasValueLoop_ok ht hf h1 h2 ks (i + 1) _ (by omega) (fun k' h' => h k' (by simp [h'])), List.zipIdx_cons, List.map_cons, intercalate_cons]
    cases v <;> simp [hv]

open Classical in
theorem hasChildrenLoop_ok {o : Options} {doc : Parser} {tvs fvs : List Str} {n : Nat} (ht : o.trueVals = some tvs) (hf : o.falseVals = some fvs) (h1 : Enough tvs n) (h2 : Enough fvs n) :
    ∀ (ks : List Str) (i : Nat) (acc : Str), i + ks.length ≤ n →
    hasChildrenLoop o doc i ks acc = .ok (.ok (acc ++ o.separator.intercalate ((ks.zipIdx i).map fun (k, j) => answer (if HasChildren doc k then tvs else fvs) j)))
  | [], i, acc, _ => by simp [hasChildrenLoop, List.intercalate]
  | k :: ks, i, acc, hn => by
    simp only [List.length_cons] at hn
    simp only [hasChildrenLoop, ht, hf, pick_ok h1 (show i < n by omega), pick_ok h2 (show i < n by omega), Out.bind_eq, Out.bind]
    rw [hasChildrenLoop_ok ht hf h1 h2 ks (i + 1) _ (by omega), List.zipIdx_cons, List.map_cons, intercalate_cons]
    cases hc : doc.getChildren k with
    | none =>
      have : ¬ HasChildren doc k := by rintro ⟨c, h, _⟩; rw [hc] at h; cases h
      simp [this]
    | some c =>
      cases c with
      | count n =>
        have : HasChildren doc k ↔ 0 < n := by simp [HasChildren, hc]; omega
        by_cases h0 : 0 < n <;> simp [this, h0]
      | keys l =>
        have : HasChildren doc k ↔ 0 < l.length := by simp [HasChildren, hc, List.length_pos_iff]
        by_cases h0 : 0 < l.length <;> simp [this, h0]

theorem getChildrenLoop_ok {o : Options} {doc : Parser} {f : Str → Str} : ∀ (ks : List Str) (acc : Str), (∀ k ∈ ks, SaysChildren o doc k (f k)) →
    getChildrenLoop o doc ks acc = .ok (acc ++ o.separator.intercalate (ks.map f))
  | [], acc, _ => by simp [getChildrenLoop, List.intercalate]
  | k :: ks, acc, h => by
    have ih := fun acc => getChildrenLoop_ok ks acc (fun k' h' => h k' (by simp [h']))
    rw [List.map_cons, intercalate_cons]
    rcases h k (by simp) with ⟨l, h1, h2⟩ | ⟨n, h1, h2, h3⟩
    · simp only [getChildrenLoop, h1, ih, joinSep_eq]
      rw [h2]
      cases o.arrLen <;> simp
    · simp only [getChildrenLoop, h1, ih, if_neg (show ¬ n = 0 by omega)]
      simp [h3]

theorem getChildrenLoop_err {o : Options} {doc : Parser} {f : Str → Str} {k : Str} {b : List Str} :
    ∀ (a : List Str) (acc : Str), (∀ k ∈ a, SaysChildren o doc k (f k)) →
      (doc.getChildren k = none → getChildrenLoop o doc (a ++ k :: b) acc = .error (.notFound k)) ∧
      (doc.getChildren k = some (.count 0) → getChildrenLoop o doc (a ++ k :: b) acc = .error (.noChildren k))
  | [], acc, _ => by
    constructor <;> intro hk <;> simp [getChildrenLoop, hk]
  | k' :: a, acc, h => by
    have ih := fun acc => getChildrenLoop_err (k := k) (b := b) a acc (fun k' h' => h k' (by simp [h']))
    constructor
    · intro hk
      rcases h k' (by simp) with ⟨l, h1, h2⟩ | ⟨n, h1, h2, h3⟩
      · simp only [List.cons_append, getChildrenLoop, h1, (ih _).1 hk]
      · simp only [List.cons_append, getChildrenLoop, h1, (ih _).1 hk, if_neg (show ¬ n = 0 by omega)]
    · intro hk
      rcases h k' (by simp) with ⟨l, h1, h2⟩ | ⟨n, h1, h2, h3⟩
      · simp only [List.cons_append, getChildrenLoop, h1, (ih _).2 hk]
      · simp only [List.cons_append, getChildrenLoop, h1, (ih _).2 hk, if_neg (show ¬ n = 0 by omega)]

end Tomllib.Cli
