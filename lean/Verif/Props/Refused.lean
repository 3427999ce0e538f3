import Verif.Lemmas.Refused
import Verif.Props.Values
/-!
# C64: the messages of the constructors
-/

namespace Tomllib
open Said

/-- C64. The constructors from one text accept what the constructors of `Values.lean` accept (C21, C22, C24 say what that is), and otherwise name the type and quote the text. -/
theorem C64_texts (s : Str) :
    Quotes (lit% "Error parsing int. Argument: ") s (Value.intFromStr s) (Said.intFromStr s) ∧
    Quotes (lit% "Error parsing float. Argument: ") s (Value.floatFromStr s) (Said.floatFromStr s) ∧
    Quotes (lit% "Error parsing bool. Argument: ") s (Value.boolFromStr s) (Said.boolFromStr s) ∧
    Quotes (lit% "Error parsing string as basic_string. Argument: ") s (Value.basicString s) (Said.basicString s) ∧
    Quotes (lit% "Error parsing string as ml_basic_string. Argument: ") s (Value.mlBasicString s) (Said.mlBasicString s) ∧
    Quotes (lit% "Error parsing string as literal_string. Argument: ") s (Value.literalString s) (Said.literalString s) ∧
    Quotes (lit% "Error parsing string as ml_literal_string. Argument: ") s (Value.mlLiteralString s) (Said.mlLiteralString s) ∧
    ∃ o r, Value.datetimeParse s = .ok o ∧ Said.datetimeParse s = .ok r ∧ Quotes (lit% "Error parsing string as datetime. Argument: ") s o r := by
  refine ⟨quotes_checked _ _ _, quotes_checked _ _ _, ?_, quotes_checked _ _ _, quotes_checked _ _ _, quotes_checked _ _ _, quotes_checked _ _ _, ?_⟩
  · unfold Quotes Value.boolFromStr Said.boolFromStr
    dsimp only
    split
    · simp
    · split <;> simp
  · obtain ⟨o, ho⟩ := (C21_datetime_parse s).1
    refine ⟨o, ?_⟩
    unfold Value.datetimeParse at ho
    unfold Value.datetimeParse Said.datetimeParse
    cases hd : dateTime PState.new s with
    | ok x =>
      obtain ⟨st, r⟩ := x
      rw [hd] at ho
      cases r with
      | done i d =>
        simp only [Out.ok.injEq] at ho ⊢
        refine ⟨_, ho, rfl, ?_⟩
        subst ho
        unfold Quotes
        split <;> simp
      | err =>
        simp only [Out.ok.injEq] at ho ⊢
        exact ⟨_, ho, rfl, by subst ho; simp [Quotes]⟩
      | inc =>
        simp only [Out.ok.injEq] at ho ⊢
        exact ⟨_, ho, rfl, by subst ho; simp [Quotes]⟩
    | panic p => rw [hd] at ho; simp at ho
    | fuel => rw [hd] at ho; simp at ho

/-- C64. The constructors of dates and times from texts look at the date, then at the sign and the hours and minutes of the offset, then at the time; the first part that is
wrong gives the message. -/
theorem C64_dates (y m d h mi s f pn oh om : Str) :
    Answers [(DateOk y m d, dateMsg)] (Value.dt ⟨⟨y, m, d⟩, none⟩) (Said.dateFromStr y m d) ∧
    Answers [(DateOk y m d, dateMsg), (TimeOk h mi s none, timeMsg)] (Value.dt ⟨⟨y, m, d⟩, some ⟨h, mi, s, none, none⟩⟩) (Said.datetimeFromStr y m d h mi s) ∧
    Answers [(DateOk y m d, dateMsg), (TimeOk h mi s (some f), timeMsg)] (Value.dt ⟨⟨y, m, d⟩, some ⟨h, mi, s, some f, none⟩⟩)
      (Said.datetimeFracFromStr y m d h mi s f) ∧
    Answers [(DateOk y m d, dateMsg), (TimeOk h mi s none, timeMsg)] (Value.dt ⟨⟨y, m, d⟩, some ⟨h, mi, s, none, some .zulu⟩⟩)
      (Said.datetimeZuluFromStr y m d h mi s) ∧
    Answers [(DateOk y m d, dateMsg), (TimeOk h mi s (some f), timeMsg)] (Value.dt ⟨⟨y, m, d⟩, some ⟨h, mi, s, some f, some .zulu⟩⟩)
      (Said.datetimeFullZuluFromStr y m d h mi s f) ∧
    Answers [(DateOk y m d, dateMsg), (pn = lit% "+" ∨ pn = lit% "-", signMsg), (OffsetOk oh om, offsetMsg), (TimeOk h mi s none, timeMsg)]
      (Value.dt ⟨⟨y, m, d⟩, some ⟨h, mi, s, none, some (.time ⟨sign pn, oh, om⟩)⟩⟩) (Said.datetimeOffsetFromStr y m d h mi s pn oh om) ∧
    Answers [(DateOk y m d, dateMsg), (pn = lit% "+" ∨ pn = lit% "-", signMsg), (OffsetOk oh om, offsetMsg), (TimeOk h mi s (some f), timeMsg)]
      (Value.dt ⟨⟨y, m, d⟩, some ⟨h, mi, s, some f, some (.time ⟨sign pn, oh, om⟩)⟩⟩) (Said.datetimeFullFromStr y m d h mi s f pn oh om) := by
  have hz : ∀ x, some TimeOffset.zulu = some x → x.validate = true := by rintro _ ⟨⟩; rfl
  refine ⟨answers_date (fun x hx hx' => ?_) fun e he => ?_, answers_dateTime _ _ _ _ _ _ _ _ (by simp), answers_dateTime _ _ _ _ _ _ _ _ (by simp),
    answers_dateTime _ _ _ _ _ _ _ _ hz, answers_dateTime _ _ _ _ _ _ _ _ hz, answers_dateTimeOff _ _ _ _ _ _ _ _ _ _, answers_dateTimeOff _ _ _ _ _ _ _ _ _ _⟩
  · show _ = _
    simp only [Said.dateFromStr, hx]; rw [hx']
  · simp only [Said.dateFromStr, he]

/-- C64. The same for the constructors from numbers. -/
theorem C64_numbers (y m d h mi s f : Nat) (hf : f < 2 ^ 64) (pn : Char) (oh om : Nat) :
    (∃ v, Answers [(IsDate y m d, dateMsg)] v (Said.dateFromInt y m d)) ∧
    (∃ v, Answers [(IsDate y m d, dateMsg), (IsTime h mi s, timeMsg)] v (Said.datetimeFromInt y m d h mi s)) ∧
    (∃ v, Answers [(IsDate y m d, dateMsg), (IsTime h mi s, timeMsg)] v (Said.datetimeFracFromInt y m d h mi s f)) ∧
    (∃ v, Answers [(IsDate y m d, dateMsg), (IsTime h mi s, timeMsg)] v (Said.datetimeZuluFromInt y m d h mi s)) ∧
    (∃ v, Answers [(IsDate y m d, dateMsg), (IsTime h mi s, timeMsg)] v (Said.datetimeFullZuluFromInt y m d h mi s f)) ∧
    (∃ v, Answers [(IsDate y m d, dateMsg), (pn = '+' ∨ pn = '-', signMsg), (oh ≤ 23 ∧ om ≤ 59, offsetMsg), (IsTime h mi s, timeMsg)] v
      (Said.datetimeOffsetFromInt y m d h mi s pn oh om)) ∧
    (∃ v, Answers [(IsDate y m d, dateMsg), (pn = '+' ∨ pn = '-', signMsg), (oh ≤ 23 ∧ om ≤ 59, offsetMsg), (IsTime h mi s, timeMsg)] v
      (Said.datetimeFullFromInt y m d h mi s f pn oh om)) := by
  obtain ⟨h1, h2, h3, h4, h5, h6, h7⟩ := C64_dates (pad0 4 y) (pad0 2 m) (pad0 2 d) (pad0 2 h) (pad0 2 mi) (pad0 2 s) (natStr f) [pn] (pad0 2 oh) (pad0 2 om)
  have hd := dateOk_pad y m d
  have ht := timeOk_pad h mi s none (by simp)
  have ht' := timeOk_pad h mi s (some f) (by simpa using hf)
  have ho := offsetOk_pad oh om
  have hs : ([pn] = lit% "+" ∨ [pn] = lit% "-") ↔ (pn = '+' ∨ pn = '-') := by simp
  exact ⟨⟨_, Answers.cons hd id h1⟩, ⟨_, Answers.cons hd (.cons ht id) h2⟩, ⟨_, Answers.cons hd (.cons ht' id) h3⟩, ⟨_, Answers.cons hd (.cons ht id) h4⟩,
    ⟨_, Answers.cons hd (.cons ht' id) h5⟩, ⟨_, Answers.cons hd (.cons hs (.cons ho (.cons ht id))) h6⟩, ⟨_, Answers.cons hd (.cons hs (.cons ho (.cons ht' id))) h7⟩⟩

/-- C64. Where there is no message, the value is that of the constructor of `Values.lean`, so that C20 says how it is printed. -/
theorem C64_same (y m d h mi s f pn oh om : Str) :
    (Said.dateFromStr y m d).toOption = Value.dateFromStr y m d ∧
    (Said.datetimeFromStr y m d h mi s).toOption = Value.datetimeFromStr y m d h mi s ∧
    (Said.datetimeFracFromStr y m d h mi s f).toOption = Value.datetimeFracFromStr y m d h mi s f ∧
    (Said.datetimeZuluFromStr y m d h mi s).toOption = Value.datetimeZuluFromStr y m d h mi s ∧
    (Said.datetimeFullZuluFromStr y m d h mi s f).toOption = Value.datetimeFullZuluFromStr y m d h mi s f ∧
    (Said.datetimeOffsetFromStr y m d h mi s pn oh om).toOption = Value.datetimeOffsetFromStr y m d h mi s pn oh om ∧
    (Said.datetimeFullFromStr y m d h mi s f pn oh om).toOption = Value.datetimeFullFromStr y m d h mi s f pn oh om ∧
    ∀ (y m d h mi s f : Nat) (pn : Char) (oh om : Nat),
      (Said.dateFromInt y m d).toOption = Value.dateFromInt y m d ∧
      (Said.datetimeFromInt y m d h mi s).toOption = Value.datetimeFromInt y m d h mi s ∧
      (Said.datetimeFracFromInt y m d h mi s f).toOption = Value.datetimeFracFromInt y m d h mi s f ∧
      (Said.datetimeZuluFromInt y m d h mi s).toOption = Value.datetimeZuluFromInt y m d h mi s ∧
      (Said.datetimeFullZuluFromInt y m d h mi s f).toOption = Value.datetimeFullZuluFromInt y m d h mi s f ∧
      (Said.datetimeOffsetFromInt y m d h mi s pn oh om).toOption = Value.datetimeOffsetFromInt y m d h mi s pn oh om ∧
      (Said.datetimeFullFromInt y m d h mi s f pn oh om).toOption = Value.datetimeFullFromInt y m d h mi s f pn oh om :=
  ⟨dateFromStr_same _ _ _, dateTimeOf_same _ _ _ _ _ _ _ _, dateTimeOf_same _ _ _ _ _ _ _ _, dateTimeOf_same _ _ _ _ _ _ _ _, dateTimeOf_same _ _ _ _ _ _ _ _,
    dateTimeOffOf_same _ _ _ _ _ _ _ _ _ _, dateTimeOffOf_same _ _ _ _ _ _ _ _ _ _,
    fun _ _ _ _ _ _ _ _ _ _ => ⟨dateFromStr_same _ _ _, dateTimeOf_same _ _ _ _ _ _ _ _, dateTimeOf_same _ _ _ _ _ _ _ _, dateTimeOf_same _ _ _ _ _ _ _ _,
      dateTimeOf_same _ _ _ _ _ _ _ _, dateTimeOffOf_same _ _ _ _ _ _ _ _ _ _, dateTimeOffOf_same _ _ _ _ _ _ _ _ _ _⟩⟩

/-- The message, if there is one. -/
def Said.message {α : Type} : Except Str α → Option Str
  | .error e => some e
  | .ok _ => none

/-- If several parts are wrong, the message is about the first of them. -/
example : Said.message (Said.datetimeOffsetFromInt 2001 2 29 25 0 0 '*' 30 0) = some dateMsg ∧
    Said.message (Said.datetimeOffsetFromInt 2001 2 28 25 0 0 '*' 30 0) = some signMsg ∧
    Said.message (Said.datetimeOffsetFromInt 2001 2 28 25 0 0 '-' 30 0) = some offsetMsg ∧
    Said.message (Said.datetimeOffsetFromInt 2001 2 28 25 0 0 '-' 3 0) = some timeMsg ∧
    Said.message (Said.datetimeOffsetFromInt 2001 2 28 23 0 0 '-' 3 0) = none := by
  decide +kernel

example : Said.message (Said.intFromStr (lit% "x1")) = some (lit% "Error parsing int. Argument: x1") ∧ Said.message (Said.intFromStr (lit% "1")) = none := by
  decide +kernel

end Tomllib
