import Verif.Equal
import Verif.Spec.Equal
import Verif.Lemmas.Shared
/-!
# Comparing
-/

namespace Tomllib

theorem StrType.eq_iff (a b : StrType) : a.eq b = true ↔ a = b := by cases a <;> cases b <;> simp [StrType.eq]

theorem PosNeg.eq_iff (a b : PosNeg) : a.eq b = true ↔ a = b := by cases a <;> cases b <;> simp [PosNeg.eq]

theorem OffsetAmount.eq_iff (a b : OffsetAmount) : a.eq b = true ↔ a = b := by
  cases a; cases b; simp [OffsetAmount.eq, PosNeg.eq_iff, and_assoc]

theorem TimeOffset.eq_iff (a b : TimeOffset) : a.eq b = true ↔ a = b := by
  cases a <;> cases b <;> simp [TimeOffset.eq, OffsetAmount.eq_iff]

theorem Date.eq_iff (a b : Date) : a.eq b = true ↔ a = b := by
  cases a; cases b; simp [Date.eq, and_assoc]

theorem optEq_iff {α : Type} {f : α → α → Bool} (h : ∀ a b, f a b = true ↔ a = b) (a b : Option α) : optEq f a b = true ↔ a = b := by
  cases a <;> cases b <;> simp [optEq, h]

theorem Time.eq_iff (a b : Time) : a.eq b = true ↔ a = b := by
  cases a; cases b
  simp [Time.eq, optEq_iff TimeOffset.eq_iff, optEq_iff (f := ((· == ·) : Str → Str → Bool)) (by simp), and_assoc]

theorem DateTime.eq_iff (a b : DateTime) : a.eq b = true ↔ a = b := by
  cases a; cases b; simp [DateTime.eq, optEq_iff Time.eq_iff, Date.eq_iff]

mutual
theorem Value.eq_iff : ∀ a b : Value, a.eq b = true ↔ a = b
  | .int a, b => by cases b <;> simp [Value.eq]
  | .float a, b => by cases b <;> simp [Value.eq]
  | .bool a, b => by cases b <;> simp [Value.eq]
  | .dt a, b => by cases b <;> simp [Value.eq, DateTime.eq_iff]
  | .str a t, b => by cases b <;> simp [Value.eq, StrType.eq_iff]
  | .arr a, b => by cases b <;> simp [Value.eq, Value.eqs_iff a]
  | .itab a, b => by cases b <;> simp [Value.eq, Value.eqKvs_iff a]
theorem Value.eqs_iff : ∀ a b : List Value, Value.eqs a b = true ↔ a = b
  | [], b => by cases b <;> simp [Value.eqs]
  | a :: as, b => by
    cases b with
    | nil => simp [Value.eqs]
    | cons b bs => simp [Value.eqs, Value.eq_iff a b, Value.eqs_iff as bs]
theorem Value.eqKvs_iff : ∀ a b : List (Str × Value), Value.eqKvs a b = true ↔ a = b
  | [], b => by cases b <;> simp [Value.eqKvs]
  | (k, a) :: as, b => by
    cases b with
    | nil => simp [Value.eqKvs]
    | cons b bs =>
      obtain ⟨l, b⟩ := b
      simp [Value.eqKvs, Value.eq_iff a b, Value.eqKvs_iff as bs]
end

theorem Children.eq_iff (a b : Children) : a.eq b = true ↔ a = b := by cases a <;> cases b <;> simp [Children.eq]

/-! ## Maps -/

theorem SMap.mem_get? {V : Type} : ∀ {m : SMap V} {k : Str} {v : V}, (m.map (·.1)).Nodup → (k, v) ∈ m → m.get? k = some v
  | [], k, v, _, h => by simp at h
  | (k', v') :: m, k, v, hn, h => by
    simp only [List.map_cons, List.nodup_cons] at hn
    simp only [SMap.get?]
    rcases List.mem_cons.mp h with h | h
    · cases h; simp
    · have : k' ≠ k := by
        rintro rfl
        exact hn.1 (List.mem_map.mpr ⟨_, h, rfl⟩)
      rw [if_neg this]
      exact SMap.mem_get? hn.2 h

theorem mem_of_nodup_subset_length {α : Type} [DecidableEq α] : ∀ {a b : List α}, a.Nodup → (∀ x ∈ a, x ∈ b) → b.length ≤ a.length → ∀ x ∈ b, x ∈ a
  | [], b, _, _, hl, x, hx => by
    have : b = [] := List.eq_nil_of_length_eq_zero (by simpa using hl)
    subst this; simp at hx
  | y :: a, b, hn, hs, hl, x, hx => by
    by_cases e : x = y
    · simp [e]
    · rw [List.nodup_cons] at hn
      have hy : y ∈ b := hs y (by simp)
      have h1 : (b.erase y).length ≤ a.length := by
        rw [List.length_erase_of_mem hy]; simp at hl; omega
      have h2 : ∀ z ∈ a, z ∈ b.erase y := fun z hz => (List.mem_erase_of_ne (by rintro rfl; exact hn.1 hz)).mpr (hs z (by simp [hz]))
      exact List.mem_cons_of_mem _ (mem_of_nodup_subset_length hn.2 h2 h1 x ((List.mem_erase_of_ne e).mpr hx))

theorem mapEq_iff {a b : SMap Value} (ha : (a.map (·.1)).Nodup) (hb : (b.map (·.1)).Nodup) : mapEq a b = true ↔ ∀ k, a.get? k = b.get? k := by
  have hall : (a.all fun x => pairIn b x.1 x.2) = true ↔ ∀ x ∈ a, b.get? x.1 = some x.2 := by
    rw [List.all_eq_true]
    refine forall_congr' fun x => forall_congr' fun _ => ?_
    unfold pairIn
    cases b.get? x.1 with
    | none => simp
    | some w => rw [Value.eq_iff, Option.some.injEq]; exact eq_comm
  have key : ∀ {c : SMap Value} {k : Str}, (c.get? k = none ↔ k ∉ c.map (·.1)) := by
    intro c
    induction c with
    | nil => simp [SMap.get?]
    | cons y c ih =>
      intro k
      obtain ⟨k', v⟩ := y
      simp only [SMap.get?, List.map_cons, List.mem_cons, not_or]
      split
      · next e => subst e; simp
      · next e => rw [ih]; exact ⟨fun h => ⟨fun h' => e h'.symm, h⟩, fun h => h.2⟩
  simp only [mapEq, Bool.and_eq_true, hall, beq_iff_eq]
  constructor
  · rintro ⟨hl, h⟩ k
    cases hk : a.get? k with
    | some v => exact (h _ (SMap.get?_mem hk)).symm
    | none =>
      have h1 : ∀ x ∈ b.map (·.1), x ∈ a.map (·.1) := by
        refine mem_of_nodup_subset_length ha ?_ (by simp [hl])
        intro x hx
        obtain ⟨y, hy, rfl⟩ := List.mem_map.mp hx
        exact List.mem_map.mpr ⟨_, SMap.get?_mem (h y hy), rfl⟩
      exact (key.mpr fun hx => (key.mp hk) (h1 _ hx)).symm
  · intro h
    refine ⟨?_, fun x hx => (h x.1).symm.trans (SMap.mem_get? ha hx)⟩
    have h1 : ∀ x, x ∈ a.map (·.1) ↔ x ∈ b.map (·.1) := by
      intro x
      have ea := (key (c := a) (k := x)); have eb := (key (c := b) (k := x))
      rw [h x] at ea
      exact Decidable.not_iff_not.mp (ea.symm.trans eb)
    have := ((List.perm_ext_iff_of_nodup ha hb).mpr h1).length_eq
    simpa using this

/-! ## Errors and results -/

theorem ParseError.eq_iff {a b : ParseError} (ha : a.tidy) (hb : b.tidy) : a.eq b = true ↔ a.Agree b := by
  cases a with
  | invalidTable k l c m =>
    cases b with
    | invalidTable k' l' c' m' =>
      have hm : mapEq m m' = true ↔ ∀ k, m.get? k = m'.get? k := mapEq_iff ha.2 hb.2
      simp only [ParseError.eq, Bool.and_eq_true, beq_iff_eq, hm]
      constructor
      · rintro ⟨⟨⟨rfl, rfl⟩, rfl⟩, h⟩; exact .tables _ _ _ h
      · rintro (_ | ⟨_, _, _, h⟩)
        · simp
        · exact ⟨⟨⟨rfl, rfl⟩, rfl⟩, h⟩
    | _ => simp only [ParseError.eq, Bool.false_eq_true, false_iff]; rintro ⟨⟩
  | duplicateKey k l c v =>
    cases b with
    | duplicateKey k' l' c' v' =>
      constructor
      · intro h
        simp only [ParseError.eq, Bool.and_eq_true, beq_iff_eq, Value.eq_iff] at h
        obtain ⟨⟨⟨rfl, rfl⟩, rfl⟩, rfl⟩ := h; exact .same _
      · rintro ⟨⟩; simp [ParseError.eq, Value.eq_iff]
    | _ => simp only [ParseError.eq, Bool.false_eq_true, false_iff]; rintro ⟨⟩
  | mixedArray k l c =>
    cases b with
    | mixedArray k' l' c' =>
      constructor
      · intro h
        simp only [ParseError.eq, Bool.and_eq_true, beq_iff_eq] at h
        obtain ⟨⟨rfl, rfl⟩, rfl⟩ := h; exact .same _
      · rintro ⟨⟩; simp [ParseError.eq]
    | _ => simp only [ParseError.eq, Bool.false_eq_true, false_iff]; rintro ⟨⟩
  | invalidDateTime k l c t =>
    cases b with
    | invalidDateTime k' l' c' t' =>
      constructor
      · intro h
        simp only [ParseError.eq, Bool.and_eq_true, beq_iff_eq] at h
        obtain ⟨⟨⟨rfl, rfl⟩, rfl⟩, rfl⟩ := h; exact .same _
      · rintro ⟨⟩; simp [ParseError.eq]
    | _ => simp only [ParseError.eq, Bool.false_eq_true, false_iff]; rintro ⟨⟩

theorem errorsEq_iff : ∀ {a b : List ParseError}, (∀ e ∈ a, e.tidy) → (∀ e ∈ b, e.tidy) → (errorsEq a b = true ↔ ErrorsAgree a b)
  | [], [], _, _ => by simp [errorsEq, ErrorsAgree]
  | [], _ :: _, _, _ => by simp [errorsEq, ErrorsAgree]
  | _ :: _, [], _, _ => by simp [errorsEq, ErrorsAgree]
  | a :: as, b :: bs, ha, hb => by
    rw [errorsEq, Bool.and_eq_true, ParseError.eq_iff (ha a (by simp)) (hb b (by simp)),
      errorsEq_iff (fun e he => ha e (by simp [he])) (fun e he => hb e (by simp [he]))]
    unfold ErrorsAgree
    constructor
    · rintro ⟨h1, h2, h3⟩
      refine ⟨by simp [h2], ?_⟩
      rintro (_ | i) e e' he he'
      · simp at he he'; subst he he'; exact h1
      · simp at he he'; exact h3 i e e' he he'
    · rintro ⟨h1, h2⟩
      exact ⟨h2 0 a b (by simp) (by simp), by simpa using h1, fun i e e' he he' => h2 (i + 1) e e' (by simpa using he) (by simpa using he')⟩

theorem ErrorsAgree.refl (es : List ParseError) : ErrorsAgree es es :=
  ⟨rfl, fun _ e e' h h' => by rw [h] at h'; cases h'; exact .same e⟩

theorem ParseResult.eq_iff {r r' : ParseResult} (h : ∀ e ∈ r.errs, e.tidy) (h' : ∀ e ∈ r'.errs, e.tidy) : r.eq r' = true ↔ r.Agree r' := by
  unfold ParseResult.Agree
  cases r with
  | full => cases r' <;> simp [ParseResult.eq]
  | fullError es =>
    cases r' with
    | fullError es' =>
      have hm : errorsEq es es' = true ↔ ErrorsAgree es es' := errorsEq_iff h h'
      simp only [ParseResult.eq, hm]
      constructor
      · exact fun x => .inl ⟨_, _, rfl, rfl, x⟩
      · rintro (⟨_, _, e1, e2, x⟩ | ⟨_, _, _, _, _, e1, _⟩ | e1)
        · cases e1; cases e2; exact x
        · cases e1
        · cases e1; exact .refl _
    | _ => simp [ParseResult.eq]
  | partialRes s l c => cases r' <;> simp [ParseResult.eq, and_assoc]
  | partialError s l c es =>
    cases r' with
    | partialError s' l' c' es' =>
      have hm : errorsEq es es' = true ↔ ErrorsAgree es es' := errorsEq_iff h h'
      simp only [ParseResult.eq, Bool.and_eq_true, beq_iff_eq, hm]
      constructor
      · rintro ⟨⟨⟨rfl, rfl⟩, rfl⟩, x⟩; exact .inr (.inl ⟨_, _, _, _, _, rfl, rfl, x⟩)
      · rintro (⟨_, _, e1, _⟩ | ⟨_, _, _, _, _, e1, e2, x⟩ | e1)
        · cases e1
        · cases e1; cases e2; exact ⟨⟨⟨rfl, rfl⟩, rfl⟩, x⟩
        · cases e1; exact ⟨⟨⟨rfl, rfl⟩, rfl⟩, .refl _⟩
    | _ => simp [ParseResult.eq]
  | failure l c => cases r' <;> simp [ParseResult.eq]

theorem parse_tidy {p p' : Parser} {i : Str} {r : ParseResult} (hr : Reachable p) (h : p.parse i = .ok (p', r)) : ∀ e ∈ r.errs, e.tidy := by
  have h1 := (Reachable.parse hr h).inv.inv.cols
  have h2 := (parse_adds h).2
  intro e he
  rw [← h2] at he
  cases hh : r.held <;> rw [hh] at he <;> simp [Held.look, ParseResult.errs] at he
  · exact h1 e he
  · exact h1 e he

end Tomllib
