import Verif.Lemmas.Float
import Verif.Lemmas.Witness
import Verif.Props.Print
import Verif.Props.Edit
/-!
# C67: floating point numbers as values
-/

namespace Tomllib

/-- C67. What `Value::float` makes of a number is a valid float exactly when the number is finite and not whole. -/
theorem C67_valid_iff {x : F64} (hx : x.Wf) : (Value.ofFloat x).validate = true ↔ x.Fractional := by
  rw [← Value.valid_iff]
  cases x with
  | nan => exact ⟨fun h => absurd h ((Value.not_valid_iff _).mpr (by decide +kernel)), False.elim⟩
  | inf n =>
    refine ⟨fun h => absurd h ((Value.not_valid_iff _).mpr ?_), False.elim⟩
    cases n <;> decide +kernel
  | fin n m a =>
    constructor
    · intro h hw
      exact F64.whole_not_valid n hw h
    · intro h
      obtain ⟨i, f, -, h2⟩ := F64.decimal_of n hx h
      exact ⟨_, [], (List.append_nil _).symm, h2⟩

/-- C67. A number that is not whole is printed as a decimal with a point that is rounded to the number. No decimal with fewer places is, and none with as many is closer. -/
theorem C67_text {neg : Bool} {m a : Nat} (hx : F64.Bits m a) (h : ¬ F64.Whole m a) :
    ∃ i f s, (Value.ofFloat (.fin neg m a)).disp = .ok s ∧ F64.Decimal neg m a i f s := by
  obtain ⟨i, f, h1, -⟩ := F64.decimal_of neg hx h
  exact ⟨i, f, _, rfl, h1⟩

/-- C67. Written after a key, it is read back as that value. -/
theorem C67_read_back {x : F64} (hx : x.Wf) (h : x.Fractional) {k s : Str} (hk : KeyWf k) (hs : (Value.ofFloat x).disp = .ok s) :
    ∃ p, Parser.new.parse (k ++ lit% " = " ++ s) = .ok (p, .full) ∧ p.leftover = [] ∧ p.getValue k = .ok (some (Value.ofFloat x)) := by
  cases x with
  | nan => exact h.elim
  | inf n => exact h.elim
  | fin n m a =>
    obtain ⟨i, f, -, h2⟩ := F64.decimal_of n hx h
    exact C44_printed_value_is_read hk (show (Value.ofFloat (.fin n m a)).proper from h2) hs

/-- C67. A whole number is printed as an integer: written after a key, it is read as an integer. -/
theorem C67_whole_becomes_integer {neg : Bool} {m a : Nat} (h : F64.Whole m a) {k s : Str} (hk : KeyWf k) (hs : (Value.ofFloat (.fin neg m a)).disp = .ok s) :
    ∃ p, Parser.new.parse (k ++ lit% " = " ++ s) = .ok (p, .full) ∧ p.leftover = [] ∧ p.getValue k = .ok (some (.int s)) := by
  cases hs
  exact C44_printed_value_is_read (v := .int _) hk (F64.whole_text neg h).1 rfl

/-- C67. Different numbers give different values, but for the two zeros. -/
theorem C67_injective {x y : F64} (hx : x.Wf) (hy : y.Wf) (h : Value.ofFloat x = Value.ofFloat y) : x = y ∨ ∃ n n' a a', x = .fin n 0 a ∧ y = .fin n' 0 a' :=
  F64.shown_inj hx hy (by simpa [Value.ofFloat] using h)

/-- C67. At any moment, a scalar without children is replaced by the number if it is finite and not whole; otherwise the assignment is refused and nothing changes. -/
theorem C67_assigned {p : Parser} (hp : Reachable p) {key : Str} {w : Value} (hw : p.getValue key = .ok (some w)) (hws : w.scalar?.isSome = true)
    (hc : p.getChildren key = some (.count 0)) (hk : key ≠ []) {x : F64} (hx : x.Wf) :
    (x.Fractional → ∃ p', p.setValue key (Value.ofFloat x) = .ok (p', true) ∧ p'.getValue key = .ok (some (Value.ofFloat x))) ∧
    (¬ x.Fractional → p.setValue key (Value.ofFloat x) = .ok (p, false)) := by
  constructor
  · intro h
    exact C11_set_scalar hp hw hws rfl ((Value.valid_iff _).mpr ((C67_valid_iff hx).mpr h))
  · intro h
    refine C10_no_children hp hw hws rfl ?_ hc hk
    rw [Value.valid_iff, C67_valid_iff hx]
    exact h

/-- C67, the wish that every number can be assigned ("cannot fail since `f64` maps directly onto TOML floats"), does not hold: `1.0` and the infinity are refused, and in an
inline table such a number makes `set_value` panic. -/
theorem C67_wish_fails : (Value.ofFloat (.fin false (2 ^ 52) 1022)).disp = .ok (lit% "1") ∧ (Value.ofFloat (.inf true)).disp = .ok (lit% "-inf") ∧
    (∃ p, Parser.new.parse (lit% "a = 1.5") = .ok (p, .full) ∧
      ∃ p', p.setValue (lit% "a") (Value.ofFloat (.fin false (2 ^ 52) 1022)) = .ok (p', false) ∧ p'.getValue (lit% "a") = .ok (some (.float (lit% "1.5")))) ∧
    ∃ p, Parser.new.parse (lit% "a = {x = 1.5}") = .ok (p, .full) ∧
      p.setValue (lit% "a") (.itab [(lit% "x", Value.ofFloat (.fin false (2 ^ 52) 1022))]) = .panic .unwrapNone := by
  decide +kernel

/-- The hypotheses are met by `300.3` and by `1.0`. -/
example : F64.Bits 5282933469138125 1030 ∧ ¬ F64.Whole 5282933469138125 1030 ∧ F64.Bits (2 ^ 52) 1022 ∧ F64.Whole (2 ^ 52) 1022 := by
  unfold F64.Bits F64.Whole
  decide +kernel

/-- A history in which a number is assigned. -/
example : ∃ p, Parser.new.parse (lit% "[t]\na = 'x' # c\nb = 2") = .ok (p, .full) ∧ p.getValue (lit% "t.a") = .ok (some (.str (lit% "x") .literal)) ∧
    p.getChildren (lit% "t.a") = some (.count 0) ∧ ∃ p', p.setValue (lit% "t.a") (Value.ofFloat (.fin false 5282933469138125 1030)) = .ok (p', true) ∧
    p'.display = .ok (lit% "[t]\na = 300.3 # c\nb = 2") := by
  decide +kernel

/-- The numbers of the documentation and of the comments: `300.3`, `0.1`, the least number above zero, a number whose digits are padded. -/
example : (Value.ofFloat (.fin false 5282933469138125 1030)).disp = .ok (lit% "300.3") ∧ (Value.ofFloat (.fin true 7205759403792794 1018)).disp = .ok (lit% "-0.1") ∧
    (F64.fin false 1 0).shown.length = 326 ∧ (F64.fin false 4768371582031250 1095).shown = lit% "10000000000000000000000" := by
  decide +kernel

end Tomllib
