import Verif.Values
/-!
# The constructors of `Value` with their error messages: src/types.rs:314-1362

`Values.lean` gives the same functions with `none` for an error. Here an error is the message of the `TOMLError` (src/types.rs:997-1039: `description()` and
`Display` both give it back; the warning that is logged is left out).
-/

namespace Tomllib.Said

/-- `Result<T, TOMLError>`, the error being its message. -/
abbrev Res := Except Str

/-- src/types.rs:1222-1229 -/
def date (y m d : Str) : Res Date :=
  let x : Date := ⟨y, m, d⟩
  if x.validate then .ok x else .error (lit% "Error validating Date.")

/-- src/types.rs:1133-1145 -/
def offset (pn h m : Str) : Res OffsetAmount :=
  if pn = lit% "+" then
    let x : OffsetAmount := ⟨.pos, h, m⟩
    if x.validate then .ok x else .error (lit% "Error validating TimeOffsetAmount.")
  else if pn = lit% "-" then
    let x : OffsetAmount := ⟨.neg, h, m⟩
    if x.validate then .ok x else .error (lit% "Error validating TimeOffsetAmount.")
  else .error (lit% "pos_neg value is neither a '+' or a '-'.")

/-- src/types.rs:1343-1362 -/
def time (h m s : Str) (fraction : Option Str) (off : Option TimeOffset) : Res Time :=
  let x : Time := ⟨h, m, s, fraction, off⟩
  if x.validate then .ok x else .error (lit% "Error validating Time.")

/-- A validated value or a message that quotes the argument. -/
def checked (v : Value) (msg s : Str) : Res Value := if v.validate then .ok v else .error (msg ++ s)

/-- src/types.rs:339-346 -/
def intFromStr (s : Str) : Res Value := checked (.int s) (lit% "Error parsing int. Argument: ") s
/-- src/types.rs:373-380 -/
def floatFromStr (s : Str) : Res Value := checked (.float s) (lit% "Error parsing float. Argument: ") s
/-- src/types.rs:395-406 -/
def boolFromStr (s : Str) : Res Value :=
  let l := s.map lowerCh
  if l = lit% "true" then .ok (.bool true)
  else if l = lit% "false" then .ok (.bool false)
  else .error (lit% "Error parsing bool. Argument: " ++ s)
/-- src/types.rs:869-876 -/
def basicString (s : Str) : Res Value := checked (.str s .basic) (lit% "Error parsing string as basic_string. Argument: ") s
/-- src/types.rs:888-895 -/
def mlBasicString (s : Str) : Res Value := checked (.str s .mlBasic) (lit% "Error parsing string as ml_basic_string. Argument: ") s
/-- src/types.rs:907-914 -/
def literalString (s : Str) : Res Value := checked (.str s .literal) (lit% "Error parsing string as literal_string. Argument: ") s
/-- src/types.rs:927-934 -/
def mlLiteralString (s : Str) : Res Value := checked (.str s .mlLiteral) (lit% "Error parsing string as ml_literal_string. Argument: ") s
/-- src/types.rs:843-857 -/
def datetimeParse (s : Str) : Out (Res Value) :=
  match dateTime PState.new s with
  | .ok (_, .done i o) =>
    .ok (if i ≠ [] ∨ ¬ (Value.dt o).validate then .error (lit% "Error parsing string as datetime. Argument: " ++ s) else .ok (.dt o))
  | .ok (_, _) => .ok (.error (lit% "Error parsing string as datetime. Argument: " ++ s))
  | .panic x => .panic x
  | .fuel => .fuel

/-- src/types.rs:442-449 -/
def dateFromStr (y m d : Str) : Res Value :=
  match date y m d with
  | .ok a => .ok (.dt ⟨a, none⟩)
  | .error e => .error e
/-- src/types.rs:419-429 -/
def dateFromInt (y m d : Nat) : Res Value := dateFromStr (pad0 4 y) (pad0 2 m) (pad0 2 d)

/-- The common shape of the `datetime_*_from_str` constructors without a numeric offset: src/types.rs:493-503, 550-560, 679-691, 738-750. -/
def dateTimeOf (y m d h mi s : Str) (frac : Option Str) (off : Option TimeOffset) : Res Value :=
  match date y m d with
  | .ok a => match time h mi s frac off with
    | .ok t => .ok (.dt ⟨a, some t⟩)
    | .error e => .error e
  | .error e => .error e
/-- The common shape of the constructors with a numeric offset: src/types.rs:618-635, 811-828. -/
def dateTimeOffOf (y m d h mi s : Str) (frac : Option Str) (pn oh om : Str) : Res Value :=
  match date y m d with
  | .ok a => match offset pn oh om with
    | .ok o => match time h mi s frac (some (.time o)) with
      | .ok t => .ok (.dt ⟨a, some t⟩)
      | .error e => .error e
    | .error e => .error e
  | .error e => .error e

/-- src/types.rs:493-503 -/
def datetimeFromStr (y m d h mi s : Str) := dateTimeOf y m d h mi s none none
/-- src/types.rs:463-479 -/
def datetimeFromInt (y m d h mi s : Nat) := datetimeFromStr (pad0 4 y) (pad0 2 m) (pad0 2 d) (pad0 2 h) (pad0 2 mi) (pad0 2 s)
/-- src/types.rs:550-560 -/
def datetimeFracFromStr (y m d h mi s f : Str) := dateTimeOf y m d h mi s (some f) none
/-- src/types.rs:519-536 -/
def datetimeFracFromInt (y m d h mi s f : Nat) :=
  datetimeFracFromStr (pad0 4 y) (pad0 2 m) (pad0 2 d) (pad0 2 h) (pad0 2 mi) (pad0 2 s) (natStr f)
/-- src/types.rs:618-635 -/
def datetimeOffsetFromStr (y m d h mi s pn oh om : Str) := dateTimeOffOf y m d h mi s none pn oh om
/-- src/types.rs:577-602 -/
def datetimeOffsetFromInt (y m d h mi s : Nat) (pn : Char) (oh om : Nat) :=
  datetimeOffsetFromStr (pad0 4 y) (pad0 2 m) (pad0 2 d) (pad0 2 h) (pad0 2 mi) (pad0 2 s) [pn] (pad0 2 oh) (pad0 2 om)
/-- src/types.rs:679-691 -/
def datetimeZuluFromStr (y m d h mi s : Str) := dateTimeOf y m d h mi s none (some .zulu)
/-- src/types.rs:649-665 -/
def datetimeZuluFromInt (y m d h mi s : Nat) := datetimeZuluFromStr (pad0 4 y) (pad0 2 m) (pad0 2 d) (pad0 2 h) (pad0 2 mi) (pad0 2 s)
/-- src/types.rs:738-750 -/
def datetimeFullZuluFromStr (y m d h mi s f : Str) := dateTimeOf y m d h mi s (some f) (some .zulu)
/-- src/types.rs:707-724 -/
def datetimeFullZuluFromInt (y m d h mi s f : Nat) :=
  datetimeFullZuluFromStr (pad0 4 y) (pad0 2 m) (pad0 2 d) (pad0 2 h) (pad0 2 mi) (pad0 2 s) (natStr f)
/-- src/types.rs:811-828 -/
def datetimeFullFromStr (y m d h mi s f pn oh om : Str) := dateTimeOffOf y m d h mi s (some f) pn oh om
/-- src/types.rs:769-795 -/
def datetimeFullFromInt (y m d h mi s f : Nat) (pn : Char) (oh om : Nat) :=
  datetimeFullFromStr (pad0 4 y) (pad0 2 m) (pad0 2 d) (pad0 2 h) (pad0 2 mi) (pad0 2 s) (natStr f) [pn] (pad0 2 oh) (pad0 2 om)

end Tomllib.Said
