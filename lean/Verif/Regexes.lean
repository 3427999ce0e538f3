import Verif.Re
/-!
# The regular expressions of the crate, transcribed
-/

namespace Tomllib.Rx
open Re

/-- `\d`: the decimal digits of Unicode (general category Nd), which is what `\d` means in the `regex` crate
when Unicode mode is on, as it is by default. Table of Unicode 8. -/
def digitRanges : List (Nat × Nat) :=
  ([0x30, 0x660, 0x6F0, 0x7C0, 0x966, 0x9E6, 0xA66, 0xAE6, 0xB66, 0xBE6, 0xC66, 0xCE6, 0xD66, 0xDE6, 0xE50, 0xED0,
    0xF20, 0x1040, 0x1090, 0x17E0, 0x1810, 0x1946, 0x19D0, 0x1A80, 0x1A90, 0x1B50, 0x1BB0, 0x1C40, 0x1C50, 0xA620,
    0xA8D0, 0xA900, 0xA9D0, 0xA9F0, 0xAA50, 0xABF0, 0xFF10, 0x104A0, 0x11066, 0x110F0, 0x11136, 0x111D0, 0x112F0,
    0x114D0, 0x11650, 0x116C0, 0x11730, 0x118E0, 0x16A60, 0x16B50].map fun n => (n, n + 9)) ++ [(0x1D7CE, 0x1D7FF)]

/-- `\d` -/
def d : Re := cls digitRanges
/-- `[0-9]` -/
def d09 : Re := cls [(0x30, 0x39)]
/-- `[1-9]` -/
def d19 : Re := cls [(0x31, 0x39)]
/-- `(\d|(_\d))` -/
def dOrUd : Re := alt d (seq (ch '_') d)
/-- `(\+|-)` -/
def sign : Re := alt (ch '+') (ch '-')

/-- src/internals/util.rs:18 `^( |\t)*` -/
def ws : Re := star true (alt (ch ' ') (ch '\t'))

/-- src/internals/objects.rs:461 `^( |\t|\n|(\r\n))*` -/
def wsNewline : Re := star true (alts [ch ' ', ch '\t', ch '\n', lit ['\r', '\n']])

/-- src/internals/primitives.rs:34 `^(.*?)(\n|(\r\n))`; `.` is any character but `\n`. -/
def fullLine : Re :=
  seq (star false (cls [(0, 9), (11, 0x10FFFF)])) (alt (ch '\n') (lit ['\r', '\n']))

/-- src/internals/primitives.rs:425 `^((\+|-)?(([1-9](\d|(_\d))+)|\d))` -/
def integer : Re := seq (opt sign) (alt (seq d19 (plus dOrUd)) d)

/-- `([1-9](\d|(_\d))+|\d)` of the float pattern. -/
def intPart : Re := alt (seq d19 (plus dOrUd)) d
/-- `(\.\d(\d|(_\d))*)` -/
def fracPart : Re := seqs [ch '.', d, star true dOrUd]
/-- `((e|E)(\+|-)?([1-9](\d|(_\d))+|\d))` -/
def expPart : Re := seqs [alt (ch 'e') (ch 'E'), opt sign, intPart]

/-- src/internals/primitives.rs:429
`^(\+|-)?([1-9](\d|(_\d))+|\d)((\.\d(\d|(_\d))*)((e|E)(\+|-)?([1-9](\d|(_\d))+|\d))|(\.\d(\d|(_\d))*)|((e|E)(\+|-)?([1-9](\d|(_\d))+|\d)))` -/
def float : Re := seqs [opt sign, intPart, alts [seq fracPart expPart, fracPart, expPart]]

/-- `[0-9A-Z]` -/
def hexish : Re := cls [(0x30, 0x39), (0x41, 0x5A)]
/-- The escapes common to the patterns: `(\\")|(\\\\)|(\\/)|(\\b)|(\\f)|(\\n)|(\\r)`. -/
def escs : List Re := [lit ['\\', '"'], lit ['\\', '\\'], lit ['\\', '/'], lit ['\\', 'b'], lit ['\\', 'f'],
  lit ['\\', 'n'], lit ['\\', 'r']]
/-- `(\\u[0-9A-Z]{4})|(\\U[0-9A-Z]{8})` -/
def uEscs : List Re := [seq (lit ['\\', 'u']) (rep hexish 4), seq (lit ['\\', 'U']) (rep hexish 8)]

/-- One item of a basic string: `( |!|[#-\[]|[\]-￿]|(\\")|...|(\\t)|(\\u[0-9A-Z]{4})|(\\U[0-9A-Z]{8}))`,
src/internals/primitives.rs:433, 446, 617. -/
def basicItem : Re :=
  alts ([ch ' ', ch '!', cls [(0x23, 0x5B)], cls [(0x5D, 0xFFFF)]] ++ escs ++ [lit ['\\', 't']] ++ uEscs)

/-- One item of a multi-line basic string: `([ -\[]|[\]-￿]|(\\")|...|(\t)|(\\u...)|(\\U...)|\n|(\r\n)|(\\(\n|(\r\n))))`,
src/internals/primitives.rs:437, 451.  In the raw string `r#"..."#` the text `(\t)` is the regex escape of a tab. -/
def mlBasicItem : Re :=
  alts ([cls [(0x20, 0x5B)], cls [(0x5D, 0xFFFF)]] ++ escs ++ [ch '\t'] ++ uEscs ++
    [ch '\n', lit ['\r', '\n'], seq (ch '\\') (alt (ch '\n') (lit ['\r', '\n']))])

/-- One item of a literal string: `( |[ -&]|[\(-￿])`, src/internals/primitives.rs:439, 456. -/
def literalItem : Re := alts [ch ' ', cls [(0x20, 0x26)], cls [(0x28, 0xFFFF)]]

/-- One item of a multi-line literal string: `(  |[ -￿]|\n|(\r\n))` (two spaces), src/internals/primitives.rs:442, 461. -/
def mlLiteralItem : Re := alts [lit [' ', ' '], cls [(0x20, 0xFFFF)], ch '\n', lit ['\r', '\n']]

/-- src/internals/primitives.rs:432-433 -/
def quotelessBasic : Re := star true basicItem
/-- src/internals/primitives.rs:436-437 -/
def quotelessMlBasic : Re := star true mlBasicItem
/-- src/internals/primitives.rs:439 -/
def quotelessLiteral : Re := star true literalItem
/-- src/internals/primitives.rs:442 -/
def quotelessMlLiteral : Re := star true mlLiteralItem

/-- src/internals/primitives.rs:445-446 `^"(...)*?"` -/
def rawBasic : Re := seqs [ch '"', star false basicItem, ch '"']
/-- src/internals/primitives.rs:449-454 `^"""(...)*?"""` -/
def rawMlBasic : Re := seqs [lit ['"', '"', '"'], star false mlBasicItem, lit ['"', '"', '"']]
/-- src/internals/primitives.rs:456 `^'(...)*?'` -/
def rawLiteral : Re := seqs [ch '\'', star false literalItem, ch '\'']
/-- src/internals/primitives.rs:459-464 `^'''(...)*?'''` -/
def rawMlLiteral : Re := seqs [lit ['\'', '\'', '\''], star false mlLiteralItem, lit ['\'', '\'', '\'']]

/-- src/internals/primitives.rs:616-617 `^"(...)+"` -/
def quotedKey : Re := seqs [ch '"', plus basicItem, ch '"']

/-- src/internals/primitives.rs:528 `^\.([0-9]+)` -/
def fractional : Re := seq (ch '.') (plus d09)
/-- `^[0-9]{2}` -/
def dd : Re := rep d09 2
/-- `^([0-9]{4})` -/
def dddd : Re := rep d09 4

end Tomllib.Rx
