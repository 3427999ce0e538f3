import Verif.Lemmas.Fwd
import Verif.Lemmas.Dates
import Verif.Spec.Valid
/-!
# The checks of the program are those of the specification
-/

namespace Tomllib

theorem numeral_iff (s : Str) (n : Nat) : numeral s = some n ↔ Numeral s n := by
  unfold numeral
  dsimp only
  constructor
  · intro h
    split at h
    next hp =>
      obtain ⟨t, rfl⟩ : ∃ t, s = '+' :: t := by
        cases s with
        | nil => simp at hp
        | cons c t => simp at hp; exact ⟨t, by rw [hp]⟩
      split at h
      next g => exact ⟨t, g.1, g.2, .inr rfl, by simpa using h.symm⟩
      next => simp at h
    next hp =>
      split at h
      next g => exact ⟨s, g.1, g.2, .inl rfl, by simpa using h.symm⟩
      next => simp at h
  · rintro ⟨ds, h1, h2, rfl | rfl, rfl⟩
    · have : ¬ (s.head? = some '+') := by
        intro h
        cases s with
        | nil => simp at h
        | cons c t =>
          simp at h
          have := h2 c (by simp)
          subst h
          exact plus_not_digit this
      rw [if_neg this, if_pos ⟨h1, h2⟩]
    · simp only [List.head?_cons, reduceIte, List.tail_cons]
      rw [if_pos ⟨h1, h2⟩]

theorem bool_eq_of_iff {a b : Bool} (h : a = true ↔ b = true) : a = b := by
  cases a <;> cases b <;> simp_all

theorem Date.real_eq (d : Date) : d.real = d.validate := by
  refine bool_eq_of_iff ((Iff.trans ?_ (date_iff d.year d.month d.day).symm))
  unfold Date.real
  constructor
  · intro h
    split at h
    next y m k h1 h2 h3 =>
      simp at h
      exact ⟨h.1, h.2.1, h.2.2.1, y, m, k, (numeral_iff _ _).mp h1, (numeral_iff _ _).mp h2, (numeral_iff _ _).mp h3, h.2.2.2⟩
    next => simp at h
  · rintro ⟨h1, h2, h3, y, m, k, g1, g2, g3, h⟩
    rw [(numeral_iff _ _).mpr g1, (numeral_iff _ _).mpr g2, (numeral_iff _ _).mpr g3]
    simp [h1, h2, h3, h]

theorem TimeOffset.real_eq (o : TimeOffset) : o.real = o.validate := by
  cases o with
  | zulu => rfl
  | time o =>
    refine bool_eq_of_iff ((Iff.trans ?_ (offset_iff o.posNeg o.hour o.minute).symm))
    unfold TimeOffset.real
    dsimp only
    constructor
    · intro h
      split at h
      next y m h1 h2 =>
        simp at h
        exact ⟨h.1, h.2.1, y, m, (numeral_iff _ _).mp h1, (numeral_iff _ _).mp h2, h.2.2⟩
      next => simp at h
    · rintro ⟨h1, h2, y, m, g1, g2, h⟩
      rw [(numeral_iff _ _).mpr g1, (numeral_iff _ _).mpr g2]
      simp [h1, h2, h]

theorem fractionReal_iff (f : Str) : fractionReal f = true ↔ ∃ F, Numeral f F ∧ F < 2 ^ 64 := by
  unfold fractionReal
  constructor
  · intro h
    split at h
    next n hn => exact ⟨n, (numeral_iff _ _).mp hn, by simpa using h⟩
    next => simp at h
  · rintro ⟨n, h1, h2⟩
    rw [(numeral_iff _ _).mpr h1]
    simpa using h2

theorem Time.real_eq (t : Time) : t.real = t.validate := by
  refine bool_eq_of_iff ((Iff.trans ?_ (time_iff t.hour t.minute t.second t.fraction t.offset).symm))
  have hf : t.fraction.all fractionReal = true ↔ ∀ x, t.fraction = some x → ∃ F, Numeral x F ∧ F < 2 ^ 64 := by
    cases t.fraction with
    | none => simp
    | some f => simp only [Option.all_some, Option.some.injEq, forall_eq', fractionReal_iff]
  have ho : t.offset.all TimeOffset.real = true ↔ ∀ x, t.offset = some x → x.validate = true := by
    cases t.offset with
    | none => simp
    | some f => simp only [Option.all_some, Option.some.injEq, forall_eq', TimeOffset.real_eq]
  unfold Time.real
  rw [Bool.and_eq_true, Bool.and_eq_true, hf, ho]
  constructor
  · rintro ⟨⟨h, h4⟩, h5⟩
    split at h
    next y m k h1 h2 h3 =>
      simp at h
      exact ⟨h.1, h.2.1, h.2.2.1, ⟨y, m, k, (numeral_iff _ _).mp h1, (numeral_iff _ _).mp h2, (numeral_iff _ _).mp h3, h.2.2.2⟩, h4, h5⟩
    next => simp at h
  · rintro ⟨h1, h2, h3, ⟨y, m, k, g1, g2, g3, h⟩, h4, h5⟩
    rw [(numeral_iff _ _).mpr g1, (numeral_iff _ _).mpr g2, (numeral_iff _ _).mpr g3]
    refine ⟨⟨?_, h4⟩, h5⟩
    simp [h1, h2, h3, h]

@[simp] theorem DateTime.real_eq (d : DateTime) : d.real = d.validate := by
  unfold DateTime.real DateTime.validate
  rw [Date.real_eq]
  cases d.time with
  | none => cases d.date.validate <;> rfl
  | some t =>
    rw [Option.all_some, Time.real_eq]
    cases d.date.validate <;> rfl

open Classical in
@[simp] theorem Value.valid_eq (v : Value) : v.valid = v.validate := by
  refine bool_eq_of_iff ?_
  unfold Value.valid
  rw [decide_eq_true_iff]
  cases v with
  | int s =>
    have := finds_iff Rx.integer s
    simp only [lang_integer] at this
    exact this.symm
  | float s =>
    have := finds_iff Rx.float s
    simp only [lang_float_iff] at this
    exact this.symm
  | dt d => show d.real = true ↔ d.validate = true; rw [DateTime.real_eq]
  | str s t =>
    refine StrType.findsAll.symm.trans ?_
    cases t <;> exact Iff.rfl
  | bool b => exact ⟨fun _ => rfl, fun _ => trivial⟩
  | arr vs => exact ⟨fun _ => rfl, fun _ => trivial⟩
  | itab vs => exact ⟨fun _ => rfl, fun _ => trivial⟩

open Classical in
theorem Value.valid_iff (v : Value) : v.Valid ↔ v.validate = true := by
  rw [← Value.valid_eq, Value.valid, decide_eq_true_iff]

theorem Value.not_valid_iff (v : Value) : ¬ v.Valid ↔ v.validate = false := by
  rw [Value.valid_iff, Bool.not_eq_true]

end Tomllib
