import Verif.Cli
/-!
# The main program of the command-line tool: src/bin/tomlkit.rs:32-206 and 321-345

Modelled: the options and commands that `main` takes from the command line, the loop over the names of files, what a run prints, the exit status.
Not modelled: the `pirate` option parser (its result is the input here: the names of the options given and their arguments; an option that needs an
argument has one, the branches "A required argument is missing" are left out) and the `csv` crate (the splitting of an argument into fields is an
arbitrary function `csv`).
-/

namespace Tomllib.Cli

/-- `pirate::Matches`: the options given, with their arguments (nothing of interest for an option without argument). -/
abbrev Matches := SMap Str

/-- `Options::new`, src/bin/tomlkit.rs:145-206; `true_vals` and `false_vals` are split here already. `quiet` stays `false`. -/
def Options.new (csv : Str → Option (List Str)) (m : Matches) : Options where
  trueVals := csv ((m.get? (lit% "set-true")).getD (lit% "true"))
  falseVals := csv ((m.get? (lit% "set-false")).getD (lit% "false"))
  separator := (m.get? (lit% "separator")).getD (lit% ", ")
  arrStart := (m.get? (lit% "array-begin")).getD (lit% "[")
  arrEnd := (m.get? (lit% "array-end")).getD (lit% "]")
  arrSep := (m.get? (lit% "array-separator")).getD (lit% ", ")
  quiet := false
  arrLen := m.contains (lit% "array-length")
  stripQuotes := m.contains (lit% "strip-quotes")
  printDoc := m.contains (lit% "print-doc")

/-- The commands that `process_document` asks for, src/bin/tomlkit.rs:249-251, 258-260, 268-270, 279-281, 289-291 and 293-295. -/
def Commands.new (csv : Str → Option (List Str)) (m : Matches) : Commands where
  getValue := (m.get? (lit% "get-value")).map csv
  hasValue := (m.get? (lit% "has-value")).map csv
  getChildren := (m.get? (lit% "get-children")).map csv
  hasChildren := (m.get? (lit% "has-children")).map csv
  setValue := (m.get? (lit% "set-value")).map csv
  outputFile := m.get? (lit% "output-file")

/-- A part of the output: a text; or something printed with `{:?}`, or by `usage`, or an error of the operating system, whose wording is not modelled. -/
inductive Piece where
  | text (s : Str)
  | debug (s : Str)
  | errors (e : List ParseError)
  | usage
  | os
  deriving DecidableEq, Repr

/-- The five commands in the order in which they run. -/
def commandNames : List Str := [lit% "get-value", lit% "has-value", lit% "get-children", lit% "has-children", lit% "set-value"]

/-- The message of a failed command, src/bin/tomlkit.rs:365, 382, 386, 395, 407, 416, 432, 439, 471, 478, 483, 491, 503, 512, 540, 549, 626, 634, 637 and 648. -/
def CmdErr.message (m : Matches) (command : Str) : CmdErr → List Piece
  | .noKeys =>
    if command = lit% "set-value" then
      [.text (lit% "No keys or wrong number of keys specified (must be a multiple of 3): \"" ++ (m.get? command).getD [] ++ lit% "\".")]
    else [.text (lit% "No keys specified: \"" ++ (m.get? command).getD [] ++ lit% "\".")]
  | .csv =>
    if command = lit% "get-value" then [.text (lit% "Could not parse keys: \""), .debug ((m.get? command).getD []), .text (lit% "\".")]
    else [.text (lit% "Could not parse keys: \"" ++ (m.get? command).getD [] ++ lit% "\".")]
  | .badTrueVals => [.text (lit% "Invalid set of true values specified: \"" ++ (m.get? (lit% "set-true")).getD (lit% "true") ++ lit% "\".")]
  | .badFalseVals => [.text (lit% "Invalid set of false values specified: \"" ++ (m.get? (lit% "set-false")).getD (lit% "false") ++ lit% "\".")]
  | .notFound k => [.text (lit% "Key \"" ++ k ++ lit% "\" not found.")]
  | .noChildren k => [.text (lit% "Key \"" ++ k ++ lit% "\" has no children.")]
  | .badType t k => [.text (lit% "Type \"" ++ t ++ lit% "\" not recognized for key: \"" ++ k ++ lit% "\"")]
  | .badValue v t k => [.text (lit% "Unable to parse value: \"" ++ v ++ lit% "\" as type: \"" ++ t ++ lit% "\" for key: \"" ++ k ++ lit% "\"")]
  | .notSet k v t =>
    [.text (lit% "Could not set value of key: \"" ++ k ++ lit% "\" to value: \"" ++ v ++ lit% "\", with type \"" ++ t ++ lit% "\"")]

/-- The beginning of the messages. -/
def errorIn (path : Str) : Str := lit% "Error \"" ++ path ++ lit% "\": "

/-- The loop that prints the results, src/bin/tomlkit.rs:322-340, with the names of the commands they belong to. -/
def printLoop (o : Options) (m : Matches) (path : Str) : List Str → List CmdRes → List Piece
  | _, [] => []
  | cs, r :: rs =>
    (match r with
      | .ok s => if o.quiet then [] else [.text s]
      | .error e => .text (errorIn path) :: e.message m (cs.headD [])) ++
    (if rs = [] then [.text (lit% "\n")] else [.text o.separator]) ++ printLoop o m path cs.tail rs

/-- What a run that ends normally prints, src/bin/tomlkit.rs:321-345 and 664-667. -/
def printed (o : Options) (m : Matches) (path : Str) (results : List CmdRes) (doc : Option Str) : List Piece :=
  printLoop o m path (commandNames.filter fun x => m.contains x) results ++ (match doc with
    | some s => [.text s, .text (lit% "\n")]
    | none => [])

/-- What is printed before the program exits, src/bin/tomlkit.rs:213-241 and 316-319. -/
def Reason.message (path : Str) : Reason → List Piece
  | .noFile => [.text (errorIn path ++ lit% "Unable to open file: "), .os, .text (lit% "\n")]
  | .notRead (.partialRes _ _ _) =>
    [.text (errorIn path ++ lit% "Document only partially parsed. Please correct any errors before trying again."), .text (lit% "\n")]
  | .notRead (.partialError _ _ _ _) =>
    [.text (errorIn path ++ lit% "Document only partially parsed with errors. Please correct any errors before trying again."), .text (lit% "\n")]
  | .notRead (.failure _ _) =>
    [.text (errorIn path ++ lit% "Completely failed to parse document. Please correct any error before trying again."), .text (lit% "\n")]
  | .notRead (.fullError e) =>
    [.text (errorIn path ++ lit% "Parsed entire document, but with errors: "), .errors e, .text (lit% ".\n")]
  | .notRead .full => []
  | .noCommand => [.text (errorIn path ++ lit% "No command was specified."), .text (lit% "\n"), .usage]

/-- Several files: the successive states of the file system, and for each file worked on, how that ended. -/
structure Batch where
  states : List FS
  ends : List (Str × End)

/-- The loop over the names read from the standard input, src/bin/tomlkit.rs:112-128. The names are already trimmed. A file is followed by the next one
unless working on it ended by `exit` or a panic. -/
def batch (o : Options) (c : Commands) : List Str → FS → Batch
  | [], fs => ⟨[fs], []⟩
  | p :: ps, fs =>
    let r := processDocument o c p fs
    match r.last with
    | .finished _ _ =>
      let b := batch o c ps (r.states.getLastD fs)
      ⟨r.states ++ b.states, (p, r.last) :: b.ends⟩
    | _ => ⟨r.states, [(p, r.last)]⟩

/-- `main`, src/bin/tomlkit.rs:99-130, after the options have been parsed. -/
def main (csv : Str → Option (List Str)) (m : Matches) (stdin : List Str) (fs : FS) : Batch :=
  if m.contains (lit% "help") then ⟨[fs], []⟩
  else batch (Options.new csv m) (Commands.new csv m) (match m.get? (lit% "input-file") with
    | some f => [f]
    | none => stdin) fs

/-- The exit status: 255 for `exit(-1)`, 101 for a panic. -/
def End.status : End → Nat
  | .finished _ _ => 0
  | .exited _ => 255
  | .panicked _ => 101
  | .outOfFuel => 101

/-- The exit status of the program: that of the last file worked on. -/
def Batch.status (b : Batch) : Nat :=
  match b.ends.getLast? with
  | some (_, e) => e.status
  | none => 0

/-- What the program prints. (What it prints before a panic, the message of the panic, is not modelled.) -/
def Batch.output (o : Options) (m : Matches) (b : Batch) : List Piece :=
  b.ends.flatMap fun x => match x.2 with
    | .finished rs d => printed o m x.1 rs d
    | .exited why => why.message x.1
    | _ => []

/-- `main` with what it prints; `--help` prints the usage, src/bin/tomlkit.rs:99-101. -/
def mainOutput (csv : Str → Option (List Str)) (m : Matches) (stdin : List Str) (fs : FS) : List Piece :=
  if m.contains (lit% "help") then [.usage] else (main csv m stdin fs).output (Options.new csv m) m

end Tomllib.Cli
