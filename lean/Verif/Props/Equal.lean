import Verif.Lemmas.Equal
import Verif.Lemmas.Witness
import Verif.Props.Print
/-!
# C65: comparing
-/

namespace Tomllib

/-- C65. Dates, times, offsets and date-times are equal when all their parts are the same texts. -/
theorem C65_datetimes :
    (∀ a b : DateTime, a.eq b = true ↔ a.date = b.date ∧ a.time = b.time) ∧
    (∀ a b : Date, a.eq b = true ↔ a.year = b.year ∧ a.month = b.month ∧ a.day = b.day) ∧
    (∀ a b : Time, a.eq b = true ↔ a.hour = b.hour ∧ a.minute = b.minute ∧ a.second = b.second ∧ a.fraction = b.fraction ∧ a.offset = b.offset) ∧
    (∀ a b : TimeOffset, a.eq b = true ↔ a = b) ∧
    (∀ a b : OffsetAmount, a.eq b = true ↔ a.posNeg = b.posNeg ∧ a.hour = b.hour ∧ a.minute = b.minute) := by
  refine ⟨fun a b => ?_, fun a b => ?_, fun a b => ?_, TimeOffset.eq_iff, fun a b => ?_⟩
  · rw [DateTime.eq_iff]; cases a; cases b; simp
  · rw [Date.eq_iff]; cases a; cases b; simp
  · rw [Time.eq_iff]; cases a; cases b; simp
  · rw [OffsetAmount.eq_iff]; cases a; cases b; simp

/-- C65. Values are equal when they are the same, and likewise children. -/
theorem C65_values : (∀ a b : Value, a.eq b = true ↔ a = b) ∧ ∀ a b : Children, a.eq b = true ↔ a = b :=
  ⟨Value.eq_iff, Children.eq_iff⟩

/-- C65. Proper values are equal when they are printed alike. -/
theorem C65_printed_alike {v w : Value} (hv : v.proper) (hw : w.proper) {s t : Str} (h1 : v.disp = .ok s) (h2 : w.disp = .ok t) : v.eq w = true ↔ s = t := by
  rw [Value.eq_iff]
  constructor
  · rintro rfl; rw [h1] at h2; cases h2; rfl
  · rintro rfl; exact C44_printing_is_injective hv hw h1 h2

/-- C65. Two results of `parse`, of the same parser or of two, are equal when they say the same: the same kind, leftover, line and column, and the same errors one
by one, the pairs of an `InvalidTable` error in any order. -/
theorem C65_results {p p' q q' : Parser} {i j : Str} {r r' : ParseResult} (hp : Reachable p) (hq : Reachable q)
    (h : p.parse i = .ok (p', r)) (h' : q.parse j = .ok (q', r')) : r.eq r' = true ↔ r.Agree r' :=
  ParseResult.eq_iff (parse_tidy hp h) (parse_tidy hq h')

/-- Numbers are compared as they are written, and an integer is no float. -/
example : (Value.int (lit% "1_000")).eq (.int (lit% "1000")) = false ∧ (Value.int (lit% "1")).eq (.float (lit% "1")) = false ∧
    (Value.arr [.str (lit% "a") .basic]).eq (.arr [.str (lit% "a") .literal]) = false ∧
    (Value.dt ⟨⟨lit% "2001", lit% "02", lit% "28"⟩, none⟩).eq (.dt ⟨⟨lit% "2001", lit% "02", lit% "28"⟩, none⟩) = true := by decide +kernel

/-- The result of reading a text with a new parser. -/
def readAs (i : Str) : Option ParseResult :=
  match Parser.new.parse i with
  | .ok (_, r) => some r
  | _ => none

/-- Are the two texts read with equal results? With the same results? -/
def readsEq (i j : Str) : Option (Bool × Bool) :=
  match readAs i, readAs j with
  | some r, some r' => some (r.eq r', decide (r = r'))
  | _, _ => none

/-- The pairs of a header that is not in order, in another order: equal. -/
example : readsEq (lit% "a = 1\n[a]\nb = 1\nc = 2") (lit% "a = 1\n[a]\nc = 2\nb = 1") = some (true, false) := by decide +kernel
/-- With another value, and on another line: not equal. -/
example : readsEq (lit% "a = 1\n[a]\nb = 1\nc = 2") (lit% "a = 1\n[a]\nb = 1\nc = 3") = some (false, false) ∧
    readsEq (lit% "a = 1\n[a]\nb = 1") (lit% "a = 1\n\n[a]\nb = 1") = some (false, false) ∧
    readsEq (lit% "a = 1\na = 2") (lit% "a = 5\na = 2") = some (true, true) := by decide +kernel

end Tomllib
