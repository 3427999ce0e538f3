import Verif.Grammar
/-!
# Constructors of `Value`: src/types.rs:314-935

`none` stands for `Err(TOMLError)`; the messages are in `Refused.lean`.  `Value::float(f64)` (358-360) is in `Float.lean`.
-/

namespace Tomllib

/-- `format!("{:0>w$}", n)`: pad with zeros on the left to width `w`. -/
def pad0 (w n : Nat) : Str :=
  let s := natStr n
  List.replicate (w - s.length) '0' ++ s

/-- `format!("{}", n)` for a signed integer. -/
def intStr : Int → Str
  | .ofNat n => natStr n
  | .negSucc n => '-' :: natStr (n + 1)

/-- `str::to_lowercase` restricted to ASCII letters.  The only other characters whose lower case is ASCII is the Kelvin sign (to `k`),
which occurs in neither word that the result is compared with. -/
def lowerCh (c : Char) : Char :=
  if Nat.ble 65 c.toNat && Nat.ble c.toNat 90 then Char.ofNat (c.toNat + 32) else c

namespace Value

/-- Keep a value if it validates: the common shape of the fallible constructors. -/
def checked (v : Value) : Option Value := if v.validate then some v else none

/-- src/types.rs:325-327; the argument is an `i64`. -/
def ofInt (n : Int) : Value := .int (intStr n)
/-- src/types.rs:339-346 -/
def intFromStr (s : Str) : Option Value := checked (.int s)
/-- src/types.rs:373-380 -/
def floatFromStr (s : Str) : Option Value := checked (.float s)
/-- src/types.rs:395-406 -/
def boolFromStr (s : Str) : Option Value :=
  let l := s.map lowerCh
  if l = lit% "true" then some (.bool true)
  else if l = lit% "false" then some (.bool false)
  else none
/-- src/types.rs:869-876 -/
def basicString (s : Str) : Option Value := checked (.str s .basic)
/-- src/types.rs:888-895 -/
def mlBasicString (s : Str) : Option Value := checked (.str s .mlBasic)
/-- src/types.rs:907-914 -/
def literalString (s : Str) : Option Value := checked (.str s .literal)
/-- src/types.rs:927-934 -/
def mlLiteralString (s : Str) : Option Value := checked (.str s .mlLiteral)

/-- src/types.rs:442-449 -/
def dateFromStr (y m d : Str) : Option Value :=
  match Date.fromStr y m d with
  | some date => some (.dt ⟨date, none⟩)
  | none => none
/-- src/types.rs:419-429 -/
def dateFromInt (y m d : Nat) : Option Value := dateFromStr (pad0 4 y) (pad0 2 m) (pad0 2 d)

/-- The common shape of the `datetime_*_from_str` constructors without a numeric offset. -/
def dateTimeOf (y m d h mi s : Str) (frac : Option Str) (off : Option TimeOffset) : Option Value :=
  match Date.fromStr y m d with
  | some date => match Time.fromStr h mi s frac off with
    | some time => some (.dt ⟨date, some time⟩)
    | none => none
  | none => none
/-- The common shape of the constructors with a numeric offset: date, then offset, then time are checked. -/
def dateTimeOffOf (y m d h mi s : Str) (frac : Option Str) (pn oh om : Str) : Option Value :=
  match Date.fromStr y m d with
  | some date => match OffsetAmount.fromStr pn oh om with
    | some o => match Time.fromStr h mi s frac (some (.time o)) with
      | some time => some (.dt ⟨date, some time⟩)
      | none => none
    | none => none
  | none => none

/-- src/types.rs:493-503 -/
def datetimeFromStr (y m d h mi s : Str) := dateTimeOf y m d h mi s none none
/-- src/types.rs:463-479 -/
def datetimeFromInt (y m d h mi s : Nat) := datetimeFromStr (pad0 4 y) (pad0 2 m) (pad0 2 d) (pad0 2 h) (pad0 2 mi) (pad0 2 s)
/-- src/types.rs:550-560 -/
def datetimeFracFromStr (y m d h mi s f : Str) := dateTimeOf y m d h mi s (some f) none
/-- src/types.rs:519-536 -/
def datetimeFracFromInt (y m d h mi s f : Nat) :=
  datetimeFracFromStr (pad0 4 y) (pad0 2 m) (pad0 2 d) (pad0 2 h) (pad0 2 mi) (pad0 2 s) (natStr f)
/-- src/types.rs:618-635 -/
def datetimeOffsetFromStr (y m d h mi s pn oh om : Str) := dateTimeOffOf y m d h mi s none pn oh om
/-- src/types.rs:577-602 -/
def datetimeOffsetFromInt (y m d h mi s : Nat) (pn : Char) (oh om : Nat) :=
  datetimeOffsetFromStr (pad0 4 y) (pad0 2 m) (pad0 2 d) (pad0 2 h) (pad0 2 mi) (pad0 2 s) [pn] (pad0 2 oh) (pad0 2 om)
/-- src/types.rs:679-691 -/
def datetimeZuluFromStr (y m d h mi s : Str) := dateTimeOf y m d h mi s none (some .zulu)
/-- src/types.rs:649-665 -/
def datetimeZuluFromInt (y m d h mi s : Nat) := datetimeZuluFromStr (pad0 4 y) (pad0 2 m) (pad0 2 d) (pad0 2 h) (pad0 2 mi) (pad0 2 s)
/-- src/types.rs:738-750 -/
def datetimeFullZuluFromStr (y m d h mi s f : Str) := dateTimeOf y m d h mi s (some f) (some .zulu)
/-- src/types.rs:707-724 -/
def datetimeFullZuluFromInt (y m d h mi s f : Nat) :=
  datetimeFullZuluFromStr (pad0 4 y) (pad0 2 m) (pad0 2 d) (pad0 2 h) (pad0 2 mi) (pad0 2 s) (natStr f)
/-- src/types.rs:811-828 -/
def datetimeFullFromStr (y m d h mi s f pn oh om : Str) := dateTimeOffOf y m d h mi s (some f) pn oh om
/-- src/types.rs:769-795 -/
def datetimeFullFromInt (y m d h mi s f : Nat) (pn : Char) (oh om : Nat) :=
  datetimeFullFromStr (pad0 4 y) (pad0 2 m) (pad0 2 d) (pad0 2 h) (pad0 2 mi) (pad0 2 s) (natStr f) [pn] (pad0 2 oh) (pad0 2 om)

/-- src/types.rs:843-857: `date_time` on a fresh parser, all of the text, and valid. -/
def datetimeParse (s : Str) : Out (Option Value) :=
  match dateTime PState.new s with
  | .ok (_, .done i o) => .ok (if i ≠ [] ∨ ¬ (Value.dt o).validate then none else some (.dt o))
  | .ok (_, _) => .ok none
  | .panic x => .panic x
  | .fuel => .fuel

end Value
end Tomllib
