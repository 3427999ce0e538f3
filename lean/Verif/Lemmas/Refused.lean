import Verif.Refused
import Verif.Spec.Refused
import Verif.Lemmas.Dates
/-!
# The messages of the constructors
-/

namespace Tomllib.Said

theorem answers_date {y m d : Str} {β : Type} {rest : List (Prop × Str)} {v : β} {r : Except Str β}
    (h1 : ∀ x, date y m d = .ok x → x = ⟨y, m, d⟩ → Answers rest v r) (h2 : ∀ e, date y m d = .error e → r = .error e) :
    Answers ((DateOk y m d, dateMsg) :: rest) v r := by
  unfold date at h1 h2
  refine ⟨fun h => ?_, fun h => ?_⟩
  · have := (date_iff y m d).mpr h
    simp [this] at h1
    exact h1
  · have : ¬ (⟨y, m, d⟩ : Date).validate = true := fun h' => h ((date_iff y m d).mp h')
    simp [this] at h2
    exact h2

theorem answers_time {h m s : Str} {f : Option Str} {o : Option TimeOffset} (ho : ∀ x, o = some x → x.validate = true) {β : Type} {v : β} {r : Except Str β}
    (h1 : ∀ x, time h m s f o = .ok x → x = ⟨h, m, s, f, o⟩ → r = .ok v) (h2 : ∀ e, time h m s f o = .error e → r = .error e) :
    Answers [(TimeOk h m s f, timeMsg)] v r := by
  unfold time at h1 h2
  refine ⟨fun ⟨a, b, c, d, e⟩ => ?_, fun hn => ?_⟩
  · have := (time_iff h m s f o).mpr ⟨a, b, c, d, e, ho⟩
    simp [this] at h1
    exact h1
  · have : ¬ (⟨h, m, s, f, o⟩ : Time).validate = true := fun h' => by
      obtain ⟨a, b, c, d, e, _⟩ := (time_iff h m s f o).mp h'
      exact hn ⟨a, b, c, d, e⟩
    simp [this] at h2
    exact h2

theorem answers_offset {pn h m : Str} {β : Type} {rest : List (Prop × Str)} {v : β} {r : Except Str β}
    (h1 : (⟨sign pn, h, m⟩ : OffsetAmount).validate = true → offset pn h m = .ok ⟨sign pn, h, m⟩ → Answers rest v r)
    (h2 : ∀ e, offset pn h m = .error e → r = .error e) :
    Answers ((pn = lit% "+" ∨ pn = lit% "-", signMsg) :: (OffsetOk h m, offsetMsg) :: rest) v r := by
  refine ⟨fun hp => ⟨fun ho => ?_, fun ho => ?_⟩, fun hp => ?_⟩
  · have hv := (offset_iff (sign pn) h m).mpr ho
    refine h1 hv ?_
    rcases hp with rfl | rfl <;> simp [sign] at hv <;> simp [offset, sign, hv]
  · have hv : ∀ q, ¬ (⟨q, h, m⟩ : OffsetAmount).validate = true := fun q h' => ho ((offset_iff q h m).mp h')
    apply h2
    rcases hp with rfl | rfl <;> simp [offset, hv]
  · apply h2
    simp only [not_or] at hp
    simp [offset, hp]

theorem answers_dateTime (y m d h mi s : Str) (f : Option Str) (o : Option TimeOffset) (ho : ∀ x, o = some x → x.validate = true) :
    Answers [(DateOk y m d, dateMsg), (TimeOk h mi s f, timeMsg)] (Value.dt ⟨⟨y, m, d⟩, some ⟨h, mi, s, f, o⟩⟩) (dateTimeOf y m d h mi s f o) := by
  refine answers_date (fun x hx hx' => answers_time ho (fun t ht ht' => ?_) fun e he => ?_) fun e he => ?_
  · simp only [dateTimeOf, hx, ht]; rw [hx', ht']
  · simp only [dateTimeOf, hx, he]
  · simp only [dateTimeOf, he]

theorem answers_dateTimeOff (y m d h mi s : Str) (f : Option Str) (pn oh om : Str) :
    Answers [(DateOk y m d, dateMsg), (pn = lit% "+" ∨ pn = lit% "-", signMsg), (OffsetOk oh om, offsetMsg), (TimeOk h mi s f, timeMsg)]
      (Value.dt ⟨⟨y, m, d⟩, some ⟨h, mi, s, f, some (.time ⟨sign pn, oh, om⟩)⟩⟩) (dateTimeOffOf y m d h mi s f pn oh om) := by
  refine answers_date (fun x hx hx' => answers_offset (fun hv h1 => answers_time (o := some (.time ⟨sign pn, oh, om⟩)) ?_ (fun t ht ht' => ?_) fun e he => ?_)
    fun e he => ?_) fun e he => ?_
  · rintro _ ⟨⟩; exact hv
  · simp only [dateTimeOffOf, hx, h1, ht]; rw [hx', ht']
  · simp only [dateTimeOffOf, hx, h1, he]
  · simp only [dateTimeOffOf, hx, he]
  · simp only [dateTimeOffOf, he]

theorem date_same (y m d : Str) : (date y m d).toOption = Date.fromStr y m d := by
  unfold date Date.fromStr
  dsimp only
  split <;> simp_all [Except.toOption]

theorem time_same (h m s : Str) (f : Option Str) (o : Option TimeOffset) : (time h m s f o).toOption = Time.fromStr h m s f o := by
  unfold time Time.fromStr
  dsimp only
  split <;> simp_all [Except.toOption]

theorem offset_same (pn h m : Str) : (offset pn h m).toOption = OffsetAmount.fromStr pn h m := by
  unfold offset OffsetAmount.fromStr
  dsimp only
  split
  · split <;> simp_all [Except.toOption]
  · split
    · split <;> simp_all [Except.toOption]
    · simp_all [Except.toOption]

theorem dateFromStr_same (y m d : Str) : (dateFromStr y m d).toOption = Value.dateFromStr y m d := by
  have h1 := date_same y m d
  unfold dateFromStr Value.dateFromStr
  rw [← h1]
  cases date y m d <;> rfl

theorem dateTimeOf_same (y m d h mi s : Str) (f : Option Str) (o : Option TimeOffset) :
    (dateTimeOf y m d h mi s f o).toOption = Value.dateTimeOf y m d h mi s f o := by
  have h1 := date_same y m d
  have h2 := time_same h mi s f o
  unfold dateTimeOf Value.dateTimeOf
  rw [← h1, ← h2]
  cases date y m d <;> cases time h mi s f o <;> rfl

theorem dateTimeOffOf_same (y m d h mi s : Str) (f : Option Str) (pn oh om : Str) :
    (dateTimeOffOf y m d h mi s f pn oh om).toOption = Value.dateTimeOffOf y m d h mi s f pn oh om := by
  have h1 := date_same y m d
  have h2 := offset_same pn oh om
  unfold dateTimeOffOf Value.dateTimeOffOf
  rw [← h1, ← h2]
  cases date y m d with
  | error e => rfl
  | ok x =>
    cases offset pn oh om with
    | error e => rfl
    | ok a =>
      have h3 := time_same h mi s f (some (.time a))
      simp only [Except.toOption]
      rw [← h3]
      cases time h mi s f (some (.time a)) <;> rfl

theorem quotes_checked (v : Value) (msg s : Str) : Quotes msg s (Value.checked v) (checked v msg s) := by
  unfold Quotes Value.checked checked
  cases v.validate <;> simp

theorem Answers.cons {α : Type} {r : Except Str α} {v : α} {l l' : List (Prop × Str)} {p q : Prop} {m : Str} (h : p ↔ q) (hl : Answers l v r → Answers l' v r) :
    Answers ((p, m) :: l) v r → Answers ((q, m) :: l') v r :=
  fun ⟨h1, h2⟩ => ⟨fun hq => hl (h1 (h.mpr hq)), fun hq => h2 fun hp => hq (h.mp hp)⟩

theorem dateOk_pad (y m d : Nat) : DateOk (pad0 4 y) (pad0 2 m) (pad0 2 d) ↔ IsDate y m d := (date_iff _ _ _).symm.trans (date_pad y m d)

theorem offsetOk_pad (h m : Nat) : OffsetOk (pad0 2 h) (pad0 2 m) ↔ h ≤ 23 ∧ m ≤ 59 := (offset_iff .pos _ _).symm.trans (offset_pad .pos h m)

theorem timeOk_pad (h m s : Nat) (f : Option Nat) (hf : ∀ n, f = some n → n < 2 ^ 64) : TimeOk (pad0 2 h) (pad0 2 m) (pad0 2 s) (f.map natStr) ↔ IsTime h m s := by
  have h1 := time_iff (pad0 2 h) (pad0 2 m) (pad0 2 s) (f.map natStr) none
  have h2 := time_pad h m s (f.map natStr) none
  have h3 : TimeOk (pad0 2 h) (pad0 2 m) (pad0 2 s) (f.map natStr) ↔ (⟨pad0 2 h, pad0 2 m, pad0 2 s, f.map natStr, none⟩ : Time).validate = true := by
    rw [h1]; unfold TimeOk; simp
  rw [h3, h2]
  refine ⟨fun h => h.1, fun h => ⟨h, ?_, by simp⟩⟩
  intro x hx
  cases f with
  | none => simp at hx
  | some n =>
    simp at hx
    subst hx
    exact ⟨n, natStr_numeral n, hf n rfl⟩

end Tomllib.Said

