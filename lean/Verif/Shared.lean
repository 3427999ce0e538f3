import Verif.Api
/-!
# What a program holds: src/types.rs:13-31, src/internals/parser.rs:17, 61-62 and 69-70

A result with errors does not contain a list but a reference to the list of the parser (`self.errors.clone()` copies an `Rc<RefCell<Vec<ParseError>>>`).
`Api.lean` gives the result as it is when `parse` returns; here it is what the program that holds it sees at any later moment.
-/

namespace Tomllib

/-- A result as it is held: where it has a list of errors, that is the list of the parser. src/types.rs:15-31 -/
inductive Held where
  | full
  | fullError
  | partialRes (leftover : Str) (line col : Nat)
  | partialError (leftover : Str) (line col : Nat)
  | failure (line col : Nat)
  deriving DecidableEq, Repr

/-- What is held of the result of a call of `parse`, src/internals/parser.rs:57-74. -/
def ParseResult.held : ParseResult → Held
  | .full => .full
  | .fullError _ => .fullError
  | .partialRes s l c => .partialRes s l c
  | .partialError s l c _ => .partialError s l c
  | .failure l c => .failure l c

/-- What is seen when the result is looked at: `borrow()` of the list gives what is in it now. -/
def Held.look (p : Parser) : Held → ParseResult
  | .full => .full
  | .fullError => .fullError p.st.errors
  | .partialRes s l c => .partialRes s l c
  | .partialError s l c => .partialError s l c p.st.errors
  | .failure l c => .failure l c

/-- Whether there is a list of errors. -/
def Held.hasList : Held → Bool
  | .fullError => true
  | .partialError _ _ _ => true
  | _ => false

/-- A program has a parser, and the results of all calls of `parse` so far. -/
structure Program where
  parser : Parser
  held : List Held

/-- `TOMLParser::new()`, src/lib.rs:104-106 -/
def Program.start : Program := ⟨Parser.new, []⟩

/-- What a program does: it calls `parse` or `set_value`, or it changes the list of errors of a result that it holds (`borrow_mut()`). -/
inductive Call where
  | parse (text : Str)
  | set (key : Str) (v : Value)
  | errors (f : List ParseError → List ParseError)

/-- One step. Without a result that has a list, the list cannot be changed. -/
def Program.step (g : Program) : Call → Out Program
  | .parse text => do
    let (p, r) ← g.parser.parse text
    .ok ⟨p, g.held ++ [r.held]⟩
  | .set k v => do
    let (p, _) ← g.parser.setValue k v
    .ok ⟨p, g.held⟩
  | .errors f =>
    if g.held.any Held.hasList then .ok ⟨{ g.parser with st := { g.parser.st with errors := f g.parser.st.errors } }, g.held⟩
    else .ok g

/-- Several steps. -/
def Program.run : Program → List Call → Out Program
  | g, [] => .ok g
  | g, c :: cs => do
    let g ← g.step c
    g.run cs

end Tomllib
