import Verif.Spec.Tool
import Verif.Props.Values
/-!
# The values made of the arguments of the command-line tool
-/

namespace Tomllib.Cli

theorem copyDateTime_eq (d : DateTime) : copyDateTime d = lessZulu d := by
  obtain ⟨a, t⟩ := d
  cases t with
  | none => rfl
  | some t =>
    obtain ⟨h, m, s, f, o⟩ := t
    cases o with
    | none => rfl
    | some o => cases o <;> simp [copyDateTime, lessZulu]

theorem fieldValue_ok (v t : Str) : ∃ r, fieldValue v t = .ok r := by
  unfold fieldValue
  dsimp only
  repeat' split
  all_goals first
    | exact ⟨_, rfl⟩
    | (obtain ⟨o, ho⟩ := (C21_datetime_parse v).1
       rw [ho]
       simp only [Out.bind_eq, Out.bind]
       split <;> exact ⟨_, rfl⟩)

theorem of_iff (r : Option Value) (x : Value) :
    (Out.ok (match r with | some x => Except.ok x | none => Except.error FieldErr.badValue) : Out (Except FieldErr Value)) = .ok (.ok x) ↔ r = some x := by
  cases r <;> simp

theorem fieldValue_iff (v t : Str) (x : Value) : fieldValue v t = .ok (.ok x) ↔ Denotes v t x := by
  have hs := C24_string_contents v x
  have hn := C22_from_str v x
  have hb := C25_bool_from_str v x
  have hl : Value.literalString v = some x ↔ x = .str v .literal ∧ Pieces LiteralPiece v := checked_str v .literal x
  constructor
  · intro h
    unfold fieldValue at h
    dsimp only at h
    split at h
    next ht => replace h := hs.1.mp ((of_iff _ _).mp h); obtain ⟨rfl, h⟩ := h; exact .basic (by simpa using ht) h
    split at h
    next ht => replace h := hs.2.1.mp ((of_iff _ _).mp h); obtain ⟨rfl, h⟩ := h; exact .mlBasic (by simpa using ht) h
    split at h
    next ht => replace h := hl.mp ((of_iff _ _).mp h); obtain ⟨rfl, h⟩ := h; exact .literal (by simpa using ht) h
    split at h
    next ht => replace h := hs.2.2.2.mp ((of_iff _ _).mp h); obtain ⟨rfl, h⟩ := h; exact .mlLiteral (by simpa using ht) h
    split at h
    next ht => replace h := hn.1.mp ((of_iff _ _).mp h); obtain ⟨rfl, u, w, h1, h2⟩ := h; exact .int u w (by simpa using ht) h1 h2
    split at h
    next ht => replace h := hn.2.mp ((of_iff _ _).mp h); obtain ⟨rfl, u, w, h1, h2⟩ := h; exact .float u w (by simpa using ht) h1 h2
    split at h
    next ht =>
      replace h := hb.mp ((of_iff _ _).mp h)
      rcases h with ⟨h, rfl⟩ | ⟨h, rfl⟩
      · exact .true (by simpa using ht) h
      · exact .false (by simpa using ht) h
    split at h
    next ht =>
      rw [Out.bind_eq, Out.bind_ok] at h
      obtain ⟨o, ho, h⟩ := h
      cases o with
      | none => simp at h
      | some y =>
        obtain ⟨d, rfl, h1, h2, h3⟩ := ((C21_datetime_parse v).2 y).mp ho
        simp at h
        subst h
        rw [copyDateTime_eq]
        exact .dt d (by simpa using ht) h1 h2 h3
    · simp at h
  · intro h
    unfold fieldValue
    dsimp only
    cases h with
    | basic ht h => 
      simp at ht
      rcases ht with rfl | rfl <;> simp [hs.1.mpr ⟨rfl, h⟩]
    | mlBasic ht h =>
      simp at ht
      rcases ht with rfl | rfl <;> simp [hs.2.1.mpr ⟨rfl, h⟩]
    | literal ht h =>
      simp at ht
      rcases ht with rfl | rfl <;> simp [hl.mpr ⟨rfl, h⟩]
    | mlLiteral ht h =>
      simp at ht
      rcases ht with rfl | rfl <;> simp [hs.2.2.2.mpr ⟨rfl, h⟩]
    | int u w ht h1 h2 =>
      simp at ht
      rcases ht with rfl | rfl <;> simp [hn.1.mpr ⟨rfl, u, w, h1, h2⟩]
    | float u w ht h1 h2 =>
      simp at ht
      rcases ht with rfl | rfl <;> simp [hn.2.mpr ⟨rfl, u, w, h1, h2⟩]
    | true ht h =>
      simp at ht
      rcases ht with rfl | rfl <;> simp [hb.mpr (.inl ⟨h, rfl⟩)]
    | false ht h =>
      simp at ht
      rcases ht with rfl | rfl <;> simp [hb.mpr (.inr ⟨h, rfl⟩)]
    | dt d ht h1 h2 h3 =>
      have hp := ((C21_datetime_parse v).2 (.dt d)).mpr ⟨d, rfl, h1, h2, h3⟩
      simp at ht
      rcases ht with rfl | rfl <;> simp [hp, Out.bind_eq, Out.bind, copyDateTime_eq]

theorem Denotes.unique {v t : Str} {x y : Value} (h : Denotes v t x) (h' : Denotes v t y) : x = y := by
  rw [← fieldValue_iff] at h h'
  rw [h] at h'
  simpa using h'

/-- A text that denotes nothing is an error. -/
theorem fieldValue_error {v t : Str} (h : ∀ x, ¬ Denotes v t x) : ∃ e, fieldValue v t = .ok (.error e) := by
  obtain ⟨r, hr⟩ := fieldValue_ok v t
  cases r with
  | error e => exact ⟨e, hr⟩
  | ok x => exact absurd ((fieldValue_iff v t x).mp hr) (h x)

/-! ## The loop over the assignments -/

theorem Applied.length {fields : List Str} {doc doc' : Parser} (h : Applied fields doc doc') : ∃ n, fields.length = 3 * n := by
  induction h with
  | nil => exact ⟨0, rfl⟩
  | cons _ _ _ ih => obtain ⟨n, hn⟩ := ih; exact ⟨n + 1, by simp [hn]; omega⟩

/-- One message for each assignment, with separators between them and, if something follows, after them. -/
def messages (o : Options) (n : Nat) (more : Bool) : Str :=
  if o.quiet then [] else o.separator.intercalate (List.replicate n (lit% "Success")) ++ (if more && n ≠ 0 then o.separator else [])

theorem messages_succ (o : Options) (n : Nat) (more : Bool) :
    messages o (n + 1) more = (if o.quiet then [] else lit% "Success" ++ (if n = 0 ∧ more = false then [] else o.separator)) ++ messages o n more := by
  unfold messages
  by_cases hq : o.quiet = true
  · simp [hq]
  · simp only [hq, if_false, Bool.false_eq_true]
    cases n with
    | zero => cases more <;> simp [List.intercalate]
    | succ n => cases more <;> simp [List.replicate_succ, List.intercalate]

theorem setLoop_prefix (o : Options) {a : List Str} {doc doc' : Parser} (h : Applied a doc doc') : ∀ (b : List Str) (acc : Str),
    setLoop o (a ++ b) acc doc = setLoop o b (acc ++ messages o (a.length / 3) (b ≠ [])) doc' := by
  induction h with
  | nil doc =>
    intro b acc
    simp [messages, List.intercalate]
  | @cons k v t rest value d d1 d2 h1 h2 h3 ih =>
    intro b acc
    obtain ⟨n, hn⟩ := h3.length
    rw [List.cons_append, List.cons_append, List.cons_append, setLoop]
    simp only [(fieldValue_iff _ _ _).mpr h1, Out.bind_eq, Out.bind, h2, if_true]
    rw [ih]
    congr 1
    simp only [List.length_cons, hn]
    rw [show (3 * n + 1 + 1 + 1) / 3 = n + 1 by omega, show 3 * n / 3 = n by omega, messages_succ, List.append_assoc]
    congr 3
    have : n = 0 ↔ rest = [] := by rw [← List.length_eq_zero_iff, hn]; omega
    simp [this]

end Tomllib.Cli
