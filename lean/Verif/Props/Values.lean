import Verif.Spec.Values
import Verif.Lemmas.Valid
import Verif.Lemmas.Dates
import Verif.Lemmas.Fwd
import Verif.Lemmas.ForValues
/-!
# Properties of the constructors of values: C18 - C22, C24, C25
-/

namespace Tomllib

/-! ## C18 -/

/-- C18. `Date::from_str` accepts exactly the texts of four, two and two characters that are numbers and name a day of the calendar;
it keeps them as they are.  For all texts. -/
theorem C18_date_from_str (y m d : Str) (r : Date) : Date.fromStr y m d = some r ↔
    r = ⟨y, m, d⟩ ∧ y.length = 4 ∧ m.length = 2 ∧ d.length = 2 ∧ ∃ Y M D, Numeral y Y ∧ Numeral m M ∧ Numeral d D ∧ IsDate Y M D := by
  rw [← date_iff]
  simp only [Date.fromStr]
  split
  next h => simp [h, eq_comm]
  next h => simp [h]

/-- C18 for texts made of digits. -/
theorem C18_date_from_digits {y m d : Str} {j k l : Nat} (hy : Digits (j + 1) y) (hm : Digits (k + 1) m) (hd : Digits (l + 1) d) :
    Date.fromStr y m d = some ⟨y, m, d⟩ ↔
      y.length = 4 ∧ m.length = 2 ∧ d.length = 2 ∧ IsDate (decVal y) (decVal m) (decVal d) := by
  have key : ∀ {s : Str} {n : Nat}, Digits (n + 1) s → Numeral s (decVal s) := by
    intro s n h
    refine ⟨s, ?_, h.2, .inl rfl, rfl⟩
    rintro rfl
    have := h.1
    simp at this
  rw [C18_date_from_str]
  constructor
  · rintro ⟨_, h1, h2, h3, Y, M, D, g1, g2, g3, g4⟩
    rw [(key hy).unique g1, (key hm).unique g2, (key hd).unique g3]
    exact ⟨h1, h2, h3, g4⟩
  · rintro ⟨h1, h2, h3, g⟩
    exact ⟨rfl, h1, h2, h3, _, _, _, key hy, key hm, key hd, g⟩

/-- The wish that only digits are accepted fails: a plus sign may take the place of a digit. -/
theorem C18_plus_accepted : Date.fromStr (lit% "+999") (lit% "+1") (lit% "+9") = some ⟨lit% "+999", lit% "+1", lit% "+9"⟩ := by decide

example : Date.fromStr (lit% "2000") (lit% "02") (lit% "29") = some ⟨lit% "2000", lit% "02", lit% "29"⟩ := by decide

example : Date.fromStr (lit% "1900") (lit% "02") (lit% "29") = none := by decide

example : Digits 4 (lit% "1900") := ⟨rfl, by decide⟩

/-! ## C19 -/

/-- C19. `TimeOffsetAmount::from_str` accepts exactly a sign, and texts of two characters that are an hour and a minute. -/
theorem C19_offset_from_str (pn h m : Str) (r : OffsetAmount) : OffsetAmount.fromStr pn h m = some r ↔
    (pn = lit% "+" ∧ r = ⟨.pos, h, m⟩ ∨ pn = lit% "-" ∧ r = ⟨.neg, h, m⟩) ∧ h.length = 2 ∧ m.length = 2 ∧
    ∃ H M, Numeral h H ∧ Numeral m M ∧ H ≤ 23 ∧ M ≤ 59 := by
  unfold OffsetAmount.fromStr
  by_cases hp : pn = lit% "+"
  · subst hp
    rw [← offset_iff .pos]
    simp only [reduceIte]
    split
    next h => simp [h, eq_comm]
    next h => simp [h]
  · rw [if_neg hp]
    by_cases hm : pn = lit% "-"
    · subst hm
      rw [← offset_iff .neg]
      simp only [reduceIte]
      split
      next h => simp [h, eq_comm]
      next h => simp [h]
    · simp [hp, hm]

/-- C19. `Time::from_str` accepts exactly texts of two characters that are a time of day, a fraction that is a number below 2^64, if there is
one, and an offset that is valid, if there is one. -/
theorem C19_time_from_str (h m s : Str) (f : Option Str) (o : Option TimeOffset) (r : Time) : Time.fromStr h m s f o = some r ↔
    r = ⟨h, m, s, f, o⟩ ∧ h.length = 2 ∧ m.length = 2 ∧ s.length = 2 ∧
    (∃ H M S, Numeral h H ∧ Numeral m M ∧ Numeral s S ∧ IsTime H M S) ∧
    (∀ x, f = some x → ∃ F, Numeral x F ∧ F < 2 ^ 64) ∧
    (∀ a, o = some (.time a) → a.hour.length = 2 ∧ a.minute.length = 2 ∧
      ∃ H M, Numeral a.hour H ∧ Numeral a.minute M ∧ H ≤ 23 ∧ M ≤ 59) := by
  have ho : (∀ x, o = some x → x.validate = true) ↔ (∀ a, o = some (.time a) → a.hour.length = 2 ∧ a.minute.length = 2 ∧
      ∃ H M, Numeral a.hour H ∧ Numeral a.minute M ∧ H ≤ 23 ∧ M ≤ 59) := by
    constructor
    · intro hx a ha
      exact (offset_iff a.posNeg a.hour a.minute).mp (hx _ ha)
    · intro ha x hx
      cases x with
      | zulu => rfl
      | time a => exact (offset_iff a.posNeg a.hour a.minute).mpr (ha a hx)
  rw [← ho, ← time_iff]
  simp only [Time.fromStr]
  split
  next h => simp [h, eq_comm]
  next h => simp [h]

/-- The wish that any number of digits is a fraction fails. -/
theorem C19_long_fraction_rejected :
    Time.fromStr (lit% "00") (lit% "00") (lit% "00") (some (lit% "18446744073709551616")) none = none := by decide

example : Time.fromStr (lit% "23") (lit% "59") (lit% "59") (some (lit% "123")) (some (.time ⟨.neg, lit% "08", lit% "30"⟩)) =
    some ⟨lit% "23", lit% "59", lit% "59", some (lit% "123"), some (.time ⟨.neg, lit% "08", lit% "30"⟩)⟩ := by decide

example : Time.fromStr (lit% "24") (lit% "00") (lit% "00") none none = none := by decide

example : OffsetAmount.fromStr (lit% "+") (lit% "24") (lit% "00") = none := by decide

example : OffsetAmount.fromStr (lit% "x") (lit% "23") (lit% "00") = none := by decide

/-! ## C20 -/

/-- C20. `date_from_int` succeeds exactly on the days of the calendar, and prints them as `YYYY-MM-DD`. -/
theorem C20_date_from_int (y m d : Nat) :
    (IsDate y m d → ∃ v Y M D, Value.dateFromInt y m d = some v ∧ Padded 4 y Y ∧ Padded 2 m M ∧ Padded 2 d D ∧
      v.disp = .ok (Y ++ lit% "-" ++ M ++ lit% "-" ++ D)) ∧
    (¬ IsDate y m d → Value.dateFromInt y m d = none) := by
  have hp := date_pad y m d
  constructor
  · intro h
    obtain ⟨h1, h2, h3⟩ := h.padded
    refine ⟨.dt ⟨⟨pad0 4 y, pad0 2 m, pad0 2 d⟩, none⟩, _, _, _, ?_, h1, h2, h3, ?_⟩
    · simp [Value.dateFromInt, Value.dateFromStr, Date.fromStr, hp.mpr h]
    · simp [Value.disp, DateTime.text, Date.text]
  · intro h
    have : ¬ (⟨pad0 4 y, pad0 2 m, pad0 2 d⟩ : Date).validate = true := fun h' => h (hp.mp h')
    simp [Value.dateFromInt, Value.dateFromStr, Date.fromStr, this]

/-- C20. The constructors from integers without a numeric offset. The fraction is an `u64`. -/
theorem C20_datetime_from_int (y m d h mi s : Nat) :
    Prints (Value.datetimeFromInt y m d h mi s) (IsDate y m d ∧ IsTime h mi s) y m d h mi s (· = []) ∧
    Prints (Value.datetimeZuluFromInt y m d h mi s) (IsDate y m d ∧ IsTime h mi s) y m d h mi s (· = lit% "Z") ∧
    ∀ f, f < 2 ^ 64 →
      Prints (Value.datetimeFracFromInt y m d h mi s f) (IsDate y m d ∧ IsTime h mi s) y m d h mi s (fracShown (some f)) ∧
      Prints (Value.datetimeFullZuluFromInt y m d h mi s f) (IsDate y m d ∧ IsTime h mi s) y m d h mi s
        (fun R => ∃ F, fracShown (some f) F ∧ R = F ++ lit% "Z") := by
  have mono : ∀ {o ok} {p q : Str → Prop}, (∀ R, p R → q R) → Prints o ok y m d h mi s p → Prints o ok y m d h mi s q := by
    rintro o ok p q hpq ⟨h1, h2⟩
    refine ⟨fun hk => ?_, h2⟩
    obtain ⟨v, Y, M, D, H, I, S, R, g0, g1, g2, g3, g4, g5, g6, g7, g8⟩ := h1 hk
    exact ⟨v, Y, M, D, H, I, S, R, g0, g1, g2, g3, g4, g5, g6, hpq R g7, g8⟩
  refine ⟨?_, ?_, fun f hf => ⟨?_, ?_⟩⟩
  · refine mono ?_ (dateTimeOf_shows y m d h mi s none none (by simp) (by simp))
    rintro R ⟨F, hF, rfl⟩; simpa [fracShown] using hF
  · refine mono ?_ (dateTimeOf_shows y m d h mi s none (some .zulu) (by rintro x hx; simp at hx; subst hx; rfl) (by simp))
    rintro R ⟨F, hF, rfl⟩
    simp only [fracShown] at hF
    simp [hF, TimeOffset.text]
  · refine mono ?_ (dateTimeOf_shows y m d h mi s (some f) none (by simp) (by simpa using hf))
    rintro R ⟨F, hF, rfl⟩; simpa using hF
  · refine mono ?_ (dateTimeOf_shows y m d h mi s (some f) (some .zulu) (by rintro x hx; simp at hx; subst hx; rfl) (by simpa using hf))
    rintro R ⟨F, hF, rfl⟩
    exact ⟨F, hF, rfl⟩

/-- C20. The constructors from integers with a numeric offset. -/
theorem C20_datetime_offset_from_int (y m d h mi s : Nat) (pn : Char) (oh om : Nat) :
    let ok := IsDate y m d ∧ IsTime h mi s ∧ (pn = '+' ∨ pn = '-') ∧ oh ≤ 23 ∧ om ≤ 59
    let shown := fun R : Str => ∃ OH OM, Padded 2 oh OH ∧ Padded 2 om OM ∧ R = pn :: (OH ++ lit% ":" ++ OM)
    Prints (Value.datetimeOffsetFromInt y m d h mi s pn oh om) ok y m d h mi s shown ∧
    ∀ f, f < 2 ^ 64 → Prints (Value.datetimeFullFromInt y m d h mi s f pn oh om) ok y m d h mi s
      (fun R => ∃ F R', fracShown (some f) F ∧ shown R' ∧ R = F ++ R') := by
  intro ok shown
  have key : ∀ f : Option Nat, (∀ x, f = some x → x < 2 ^ 64) →
      Prints (Value.dateTimeOffOf (pad0 4 y) (pad0 2 m) (pad0 2 d) (pad0 2 h) (pad0 2 mi) (pad0 2 s) (f.map natStr) [pn] (pad0 2 oh) (pad0 2 om))
        ok y m d h mi s (fun R => ∃ F R', fracShown f F ∧ shown R' ∧ R = F ++ R') := by
    intro f hf
    have main : ∀ p : PosNeg, signOf pn p → oh ≤ 23 ∧ om ≤ 59 →
        Value.dateTimeOffOf (pad0 4 y) (pad0 2 m) (pad0 2 d) (pad0 2 h) (pad0 2 mi) (pad0 2 s) (f.map natStr) [pn] (pad0 2 oh) (pad0 2 om) =
        Value.dateTimeOf (pad0 4 y) (pad0 2 m) (pad0 2 d) (pad0 2 h) (pad0 2 mi) (pad0 2 s) (f.map natStr) (some (.time ⟨p, pad0 2 oh, pad0 2 om⟩)) := by
      intro p hp ho
      have ho := (offset_pad p oh om).mpr ho
      have : OffsetAmount.fromStr [pn] (pad0 2 oh) (pad0 2 om) = some ⟨p, pad0 2 oh, pad0 2 om⟩ := by
        rcases hp with ⟨rfl, rfl⟩ | ⟨rfl, rfl⟩ <;> simp [OffsetAmount.fromStr, ho]
      simp only [Value.dateTimeOffOf, Value.dateTimeOf, this]
    by_cases hs : pn = '+' ∨ pn = '-'
    · by_cases ho : oh ≤ 23 ∧ om ≤ 59
      · obtain ⟨p, hp⟩ : ∃ p, signOf pn p := by
          rcases hs with rfl | rfl
          · exact ⟨_, .inl ⟨rfl, rfl⟩⟩
          · exact ⟨_, .inr ⟨rfl, rfl⟩⟩
        rw [main p hp ho]
        obtain ⟨h1, h2⟩ := dateTimeOf_shows y m d h mi s f (some (.time ⟨p, pad0 2 oh, pad0 2 om⟩))
          (by rintro x hx; simp at hx; subst hx; exact (offset_pad p oh om).mpr ho) hf
        refine ⟨fun hk => ?_, fun hk => h2 fun h' => hk ⟨h'.1, h'.2, hs, ho⟩⟩
        obtain ⟨v, Y, M, D, H, I, S, R, g0, g1, g2, g3, g4, g5, g6, ⟨F, g7, rfl⟩, g8⟩ := h1 ⟨hk.1, hk.2.1⟩
        refine ⟨v, Y, M, D, H, I, S, _, g0, g1, g2, g3, g4, g5, g6, ⟨F, _, g7, ⟨pad0 2 oh, pad0 2 om, pad0_padded (by omega), pad0_padded (by omega), ?_⟩, rfl⟩, g8⟩
        rcases hp with ⟨rfl, rfl⟩ | ⟨rfl, rfl⟩ <;> simp [TimeOffset.text, OffsetAmount.text, OffsetAmount.text]
      · refine ⟨fun hk => absurd hk.2.2.2 ho, fun _ => ?_⟩
        have : OffsetAmount.fromStr [pn] (pad0 2 oh) (pad0 2 om) = none := by
          have hv : ∀ p, ¬ (⟨p, pad0 2 oh, pad0 2 om⟩ : OffsetAmount).validate = true := fun p h' => ho ((offset_pad p oh om).mp h')
          rcases hs with rfl | rfl <;> simp [OffsetAmount.fromStr, hv]
        simp only [Value.dateTimeOffOf, this]
        split <;> rfl
    · refine ⟨fun hk => absurd hk.2.2.1 hs, fun _ => ?_⟩
      have : OffsetAmount.fromStr [pn] (pad0 2 oh) (pad0 2 om) = none := by
        simp only [not_or] at hs
        simp [OffsetAmount.fromStr, hs]
      simp only [Value.dateTimeOffOf, this]
      split <;> rfl
  refine ⟨?_, fun f hf => key (some f) (by simpa using hf)⟩
  obtain ⟨h1, h2⟩ := key none (by simp)
  refine ⟨fun hk => ?_, h2⟩
  obtain ⟨v, Y, M, D, H, I, S, R, g0, g1, g2, g3, g4, g5, g6, ⟨F, R', hF, g7, rfl⟩, g8⟩ := h1 hk
  simp only [fracShown] at hF
  subst hF
  exact ⟨v, Y, M, D, H, I, S, _, g0, g1, g2, g3, g4, g5, g6, g7, g8⟩

example : IsDate 2000 2 29 ∧ IsTime 23 5 9 := by decide

example : ((Value.datetimeFullFromInt 987 2 28 3 5 9 70 '-' 8 0).map Value.disp) = some (.ok (lit% "0987-02-28T03:05:09.70-08:00")) := by
  decide +kernel

example : Value.datetimeFullFromInt 987 2 29 3 5 9 70 '-' 8 0 = none := by decide +kernel

/-! ## C21 -/

/-- C21. `datetime_parse` never panics; it returns a date-time exactly when that date-time is made of digits in the right numbers, is valid, and
prints as the text; there is at most one. -/
theorem C21_datetime_parse (s : Str) :
    (∃ o, Value.datetimeParse s = .ok o) ∧
    (∀ v, Value.datetimeParse s = .ok (some v) ↔ ∃ d : DateTime, v = .dt d ∧ d.shape ∧ d.real = true ∧ d.text = s) := by
  simp only [DateTime.real_eq]
  refine ⟨?_, fun v => ?_⟩
  · by_cases hd : ∃ d : DateTime, d.shape ∧ d.validate = true ∧ s = d.text
    · obtain ⟨d, h1, h2, h3⟩ := hd
      exact ⟨_, (datetimeParse_eq s _).mpr (.inl ⟨d, h1, h2, h3, rfl⟩)⟩
    · exact ⟨none, (datetimeParse_eq s _).mpr (.inr ⟨fun d h1 h2 h3 => hd ⟨d, h1, h2, h3⟩, rfl⟩)⟩
  · rw [datetimeParse_eq]
    constructor
    · rintro (⟨d, h1, h2, h3, h4⟩ | ⟨_, h⟩)
      · exact ⟨d, by simpa using h4, h1, h2, h3.symm⟩
      · simp at h
    · rintro ⟨d, rfl, h1, h2, h3⟩
      exact .inl ⟨d, h1, h2, h3.symm, rfl⟩

/-- C21. Hence different valid date-times never print alike. -/
theorem C21_print_injective {d e : DateTime} (hd : d.shape) (hd' : d.real = true) (he : e.shape) (he' : e.real = true)
    (h : d.text = e.text) : d = e := by
  have h1 := ((C21_datetime_parse d.text).2 (.dt d)).mpr ⟨d, rfl, hd, hd', rfl⟩
  have h2 := ((C21_datetime_parse d.text).2 (.dt e)).mpr ⟨e, rfl, he, he', h.symm⟩
  rw [h1] at h2
  simpa using h2

example : Value.datetimeParse (lit% "1979-05-27T00:32:00.999999-07:00") =
    .ok (some (.dt ⟨⟨lit% "1979", lit% "05", lit% "27"⟩, some ⟨lit% "00", lit% "32", lit% "00", some (lit% "999999"),
      some (.time ⟨.neg, lit% "07", lit% "00"⟩)⟩⟩)) := by decide +kernel

example : Value.datetimeParse (lit% "1979-05-27T") = .ok none := by decide +kernel

example : Value.datetimeParse (lit% "1979-02-29") = .ok none := by decide +kernel

/-! ## C22 -/

/-- C22. `Value::int(n)` prints as the decimal of `n`, which is the text of an integer, and is valid. -/
theorem C22_int (n : Int) : ∃ s, (Value.ofInt n).disp = .ok s ∧ DecimalOf n s ∧ IntegerText s ∧ (Value.ofInt n).Valid := by
  refine ⟨intStr n, rfl, ?_, intStr_integer n, ⟨intStr n, [], by simp, intStr_integer n⟩⟩
  cases n with
  | ofNat n =>
    obtain ⟨h1, h2⟩ := digitsVal_iff.mp (natStr_val n)
    refine .inl ⟨Int.natCast_nonneg n, h1, ?_, natStr_unsigned n⟩
    simp only [intStr, ← h2]; rfl
  | negSucc n =>
    obtain ⟨h1, h2⟩ := digitsVal_iff.mp (natStr_val (n + 1))
    refine .inr ⟨Int.negSucc_lt_zero n, _, rfl, h1, ?_, natStr_unsigned (n + 1)⟩
    rw [← h2]; rfl

/-- C22. Different integers give different values. -/
theorem C22_int_injective {m n : Int} (h : Value.ofInt m = Value.ofInt n) : m = n := by
  simp only [Value.ofInt, Value.int.injEq] at h
  have hd : ∀ k, ∀ c ∈ natStr k, c ≠ '-' := by
    rintro k c hc rfl
    have := natStr_digits k _ hc
    revert this; simp [IsDigit]
  cases m with
  | ofNat m => cases n with
    | ofNat n => rw [natStr_inj h]
    | negSucc n =>
      simp only [intStr] at h
      exact absurd rfl (hd m '-' (by rw [h]; simp))
  | negSucc m => cases n with
    | ofNat n =>
      simp only [intStr] at h
      exact absurd rfl (hd n '-' (by rw [← h]; simp))
    | negSucc n =>
      simp only [intStr, List.cons.injEq, true_and] at h
      have := natStr_inj h
      rw [Nat.succ_inj.mp this]

/-- C22. `int_from_str` accepts exactly the texts that begin with an integer; `float_from_str` those that begin with a float. -/
theorem C22_from_str (s : Str) (v : Value) :
    (Value.intFromStr s = some v ↔ v = .int s ∧ ∃ u w, s = u ++ w ∧ IntegerText u) ∧
    (Value.floatFromStr s = some v ↔ v = .float s ∧ ∃ u w, s = u ++ w ∧ FloatText u) := by
  constructor
  · have := finds_iff Rx.integer s
    simp only [lang_integer] at this
    rw [← this]
    simp only [Value.intFromStr, Value.checked, Value.validate]
    by_cases h : (Rx.integer.find s).isSome = true <;> simp [h, eq_comm]
  · have := finds_iff Rx.float s
    simp only [lang_float_iff] at this
    rw [← this]
    simp only [Value.floatFromStr, Value.checked, Value.validate]
    by_cases h : (Rx.float.find s).isSome = true <;> simp [h, eq_comm]

/-- C22. The wish that the whole text must be an integer (a float) fails. -/
theorem C22_wish_fails : ¬ (∀ s v, Value.intFromStr s = some v → IntegerText s) ∧ ¬ (∀ s v, Value.floatFromStr s = some v → FloatText s) := by
  constructor
  · intro h
    exact not_integerText (s := lit% "1abc") (c := 'a') (by decide) (by decide) (h _ (.int (lit% "1abc")) (by decide +kernel))
  · intro h
    exact not_floatText (s := lit% "1.5 x") (c := 'x') (by decide) (by decide) (h _ (.float (lit% "1.5 x")) (by decide +kernel))

/-- C22. Texts that are integers (floats) as a whole are accepted. -/
theorem C22_whole_accepted (s : Str) : (IntegerText s → Value.intFromStr s = some (.int s)) ∧ (FloatText s → Value.floatFromStr s = some (.float s)) :=
  ⟨fun h => (C22_from_str s _).1.mpr ⟨rfl, s, [], by simp, h⟩, fun h => (C22_from_str s _).2.mpr ⟨rfl, s, [], by simp, h⟩⟩

example : (Value.ofInt (-9223372036854775808)).disp = .ok (lit% "-9223372036854775808") := by decide +kernel

example : Value.intFromStr (lit% "abc") = none := by decide +kernel

example : IntegerText (lit% "1_000") := (lang_integer _).mp (by
  have := Re.find_some (r := Rx.integer) (s := lit% "1_000") (m := lit% "1_000") (t := []) (by decide +kernel)
  exact this.2)

/-! ## C24 -/

/-- C24. The four string constructors accept exactly the contents allowed for their kind, and keep them as they are. -/
theorem C24_string_contents (s : Str) (v : Value) :
    (Value.basicString s = some v ↔ v = .str s .basic ∧ Pieces BasicPiece s) ∧
    (Value.mlBasicString s = some v ↔ v = .str s .mlBasic ∧ Pieces MlBasicPiece s) ∧
    (Value.literalString s = some v ↔ v = .str s .literal ∧ ∀ c ∈ s, plain c ∧ c ≠ '\'') ∧
    (Value.mlLiteralString s = some v ↔ v = .str s .mlLiteral ∧ Pieces MlLiteralPiece s) := by
  have key : ∀ t : StrType, (Value.checked (.str s t) = some v ↔ v = .str s t ∧ Pieces t.Piece s) := fun t => checked_str s t v
  refine ⟨key .basic, key .mlBasic, ?_, key .mlLiteral⟩
  have hl : Pieces LiteralPiece s ↔ ∀ c ∈ s, plain c ∧ c ≠ '\'' := by
    clear key
    constructor
    · intro h
      induction h with
      | nil => simp
      | cons h1 _ ih =>
        cases h1 with
        | char c h2 h3 =>
          intro d hd
          simp at hd
          rcases hd with rfl | hd
          · exact ⟨h2, h3⟩
          · exact ih d hd
    · induction s with
      | nil => intro _; exact .nil
      | cons c s ih =>
        intro h
        exact Pieces.cons (u := [c]) (.char c (h c (by simp)).1 (h c (by simp)).2) (ih fun d hd => h d (by simp [hd]))
  rw [← hl]
  exact key .literal

/-- C24. Characters beyond the basic multilingual plane are never accepted, in any kind of string, although TOML allows them. -/
theorem C24_astral_rejected (s : Str) (c : Char) (hc : c ∈ s) (h : 0xFFFF < c.toNat) :
    Value.basicString s = none ∧ Value.mlBasicString s = none ∧ Value.literalString s = none ∧ Value.mlLiteralString s = none := by
  have small : ∀ t : StrType, ∀ u, t.Piece u → ∀ d ∈ u, d.toNat ≤ 0xFFFF := by
    have hu : ∀ u, UnicodeEsc u → ∀ d ∈ u, d.toNat ≤ 0xFFFF := by
      intro u hu d hd
      cases hu with
      | u4 x _ h2 =>
        simp at hd
        rcases hd with rfl | rfl | hd
        · simp
        · simp
        · have := h2 d hd; unfold hexLike at this; omega
      | u8 x _ h2 =>
        simp at hd
        rcases hd with rfl | rfl | hd
        · simp
        · simp
        · have := h2 d hd; unfold hexLike at this; omega
    intro t u h d hd
    cases t with
    | basic =>
      cases h with
      | char c h1 _ _ => simp at hd; subst hd; exact h1.2
      | esc c h1 =>
        simp at hd h1
        rcases hd with rfl | rfl
        · simp
        · rcases h1 with rfl | rfl | rfl | rfl | rfl | rfl | rfl | rfl <;> simp
      | uni h1 => exact hu _ h1 d hd
    | mlBasic =>
      cases h with
      | char c h1 _ =>
        simp at hd; subst hd
        rcases h1 with h1 | rfl
        · exact h1.2
        · simp
      | esc c h1 =>
        simp at hd h1
        rcases hd with rfl | rfl
        · simp
        · rcases h1 with rfl | rfl | rfl | rfl | rfl | rfl | rfl <;> simp
      | uni h1 => exact hu _ h1 d hd
      | lf => simp at hd; subst hd; simp
      | crlf => simp at hd; rcases hd with rfl | rfl <;> simp
      | bslf => simp at hd; rcases hd with rfl | rfl <;> simp
      | bscrlf => simp at hd; rcases hd with rfl | rfl | rfl <;> simp
    | literal => cases h with
      | char c h1 _ => simp at hd; subst hd; exact h1.2
    | mlLiteral => cases h with
      | char c h1 => simp at hd; subst hd; exact h1.2
      | lf => simp at hd; subst hd; simp
      | crlf => simp at hd; rcases hd with rfl | rfl <;> simp
  have key : ∀ t : StrType, Value.checked (.str s t) = none := by
    intro t
    have hv : (Value.str s t).validate = findsAll (.star true t.item) s := by cases t <;> rfl
    have hn : ¬ Pieces t.Piece s := by
      intro hp
      have : ∀ d ∈ s, d.toNat ≤ 0xFFFF := by
        clear hc h
        induction hp with
        | nil => simp
        | cons h1 _ ih =>
          intro d hd
          rcases List.mem_append.mp hd with hd | hd
          · exact small t _ h1 d hd
          · exact ih (by cases t <;> rfl) d hd
      have := this c hc
      omega
    rw [← StrType.findsAll] at hn
    simp [Value.checked, hv, hn]
  exact ⟨key .basic, key .mlBasic, key .literal, key .mlLiteral⟩

example : Value.basicString (lit% "tab\\t and \\u00E9") = some (.str (lit% "tab\\t and \\u00E9") .basic) := by decide +kernel

example : Value.basicString (lit% "say \"no\"") = none := by decide +kernel

example : Value.mlBasicString (lit% "tab\\t") = none := by decide +kernel

example : Value.mlLiteralString (lit% "a\r\nb'c") = some (.str (lit% "a\r\nb'c") .mlLiteral) := by decide +kernel

/-! ## C25 -/

/-- C25. `bool_from_str` accepts `true` and `false` in any mixture of capital and small letters, and nothing else. -/
theorem C25_bool_from_str (s : Str) (v : Value) : Value.boolFromStr s = some v ↔
    (SameLetters s (lit% "true") ∧ v = .bool true) ∨ (SameLetters s (lit% "false") ∧ v = .bool false) := by
  rw [← map_lower_iff (by decide), ← map_lower_iff (by decide)]
  simp only [Value.boolFromStr]
  split
  next h => simp [h, eq_comm]
  next h =>
    split
    next h' => simp [h, h', eq_comm]
    next h' => simp [h, h']

example : Value.boolFromStr (lit% "TrUe") = some (.bool true) := by decide +kernel

example : SameLetters (lit% "TrUe") (lit% "true") := (map_lower_iff (by decide)).mp (by decide +kernel)

example : Value.boolFromStr (lit% "yes") = none := by decide +kernel

end Tomllib
