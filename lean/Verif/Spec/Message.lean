import Verif.Spec.Batch
import Verif.Spec.Line
/-!
# What the command-line tool says when something is wrong
-/

namespace Tomllib.Cli

/-- The texts that come from elsewhere: a string or a list of errors printed with `{:?}`, the help text, the reason given by the operating system. -/
structure Wording where
  debug : Str → Str
  errors : List ParseError → Str
  usage : Str
  os : Str

/-- The text printed, in a given wording. -/
def said (w : Wording) (ps : List Piece) : Str :=
  ps.flatMap fun
    | .text s => s
    | .debug s => w.debug s
    | .errors e => w.errors e
    | .usage => w.usage
    | .os => w.os

/-- The commands in their order. -/
def order : List Str := [lit% "get-value", lit% "has-value", lit% "get-children", lit% "has-children", lit% "set-value"]

/-- The command line without a command and those after it. -/
def before (m : Matches) (command : Str) : Matches := m.filter fun x => x.1 ∉ order.dropWhile (· ≠ command)

/-- The types that `--set-value` knows. -/
def typeNames : List Str :=
  [lit% "basic-string", lit% "bs", lit% "ml-basic-string", lit% "mbs", lit% "literal-string", lit% "ls", lit% "ml-literal-string", lit% "mls",
   lit% "integer", lit% "int", lit% "float", lit% "flt", lit% "boolean", lit% "bool", lit% "datetime", lit% "dt"]

/-- A command fails on a document: the command, its argument, the fields of the argument, the message, the document afterwards. -/
inductive FailsWith (w : Wording) (csv : Str → Option (List Str)) (m : Matches) (doc : Parser) : Str → Str → Option (List Str) → Str → Parser → Prop where
  | noKeys {command arg} : command ∈ [lit% "get-value", lit% "has-value", lit% "get-children", lit% "has-children"] →
      FailsWith w csv m doc command arg (some []) (lit% "No keys specified: \"" ++ arg ++ lit% "\".") doc
  | noFields {arg} : FailsWith w csv m doc (lit% "get-value") arg none (lit% "Could not parse keys: \"" ++ w.debug arg ++ lit% "\".") doc
  | noFields' {command arg} : command ∈ [lit% "has-value", lit% "get-children", lit% "has-children", lit% "set-value"] →
      FailsWith w csv m doc command arg none (lit% "Could not parse keys: \"" ++ arg ++ lit% "\".") doc
  | noValue {arg a k b} : (∀ x ∈ a, ∃ s, PrintsValue m doc x s) → doc.getValue k = .ok none →
      FailsWith w csv m doc (lit% "get-value") arg (some (a ++ k :: b)) (lit% "Key \"" ++ k ++ lit% "\" not found.") doc
  | noEntry {arg a k b} : (∀ x ∈ a, ∃ s, PrintsChildren m doc x s) → doc.getChildren k = none →
      FailsWith w csv m doc (lit% "get-children") arg (some (a ++ k :: b)) (lit% "Key \"" ++ k ++ lit% "\" not found.") doc
  | noChildren {arg a k b} : (∀ x ∈ a, ∃ s, PrintsChildren m doc x s) → doc.getChildren k = some (.count 0) →
      FailsWith w csv m doc (lit% "get-children") arg (some (a ++ k :: b)) (lit% "Key \"" ++ k ++ lit% "\" has no children.") doc
  | noTrue {command arg ks} : command ∈ [lit% "has-value", lit% "has-children"] → ks ≠ [] → csv (given m (lit% "set-true") (lit% "true")) = none →
      FailsWith w csv m doc command arg (some ks) (lit% "Invalid set of true values specified: \"" ++ given m (lit% "set-true") (lit% "true") ++ lit% "\".") doc
  | noFalse {command arg ks ts} : command ∈ [lit% "has-value", lit% "has-children"] → ks ≠ [] → csv (given m (lit% "set-true") (lit% "true")) = some ts →
      Enough ts ((if command = lit% "has-children" then asked csv m else 0) + 1) → csv (given m (lit% "set-false") (lit% "false")) = none →
      FailsWith w csv m doc command arg (some ks) (lit% "Invalid set of false values specified: \"" ++ given m (lit% "set-false") (lit% "false") ++ lit% "\".") doc
  | notThrees {arg fields} : (fields = [] ∨ ¬ 3 ∣ fields.length) →
      FailsWith w csv m doc (lit% "set-value") arg (some fields)
        (lit% "No keys or wrong number of keys specified (must be a multiple of 3): \"" ++ arg ++ lit% "\".") doc
  | noType {arg a k v t b doc1} : 3 ∣ b.length → Applied a doc doc1 → t ∉ typeNames →
      FailsWith w csv m doc (lit% "set-value") arg (some (a ++ k :: v :: t :: b)) (lit% "Type \"" ++ t ++ lit% "\" not recognized for key: \"" ++ k ++ lit% "\"") doc1
  | notOfType {arg a k v t b doc1} : 3 ∣ b.length → Applied a doc doc1 → t ∈ typeNames → (∀ x, ¬ Denotes v t x) →
      FailsWith w csv m doc (lit% "set-value") arg (some (a ++ k :: v :: t :: b))
        (lit% "Unable to parse value: \"" ++ v ++ lit% "\" as type: \"" ++ t ++ lit% "\" for key: \"" ++ k ++ lit% "\"") doc1
  | notSet {arg a k v t b doc1 doc2 x} : 3 ∣ b.length → Applied a doc doc1 → Denotes v t x → doc1.setValue k x = .ok (doc2, false) →
      FailsWith w csv m doc (lit% "set-value") arg (some (a ++ k :: v :: t :: b))
        (lit% "Could not set value of key: \"" ++ k ++ lit% "\" to value: \"" ++ v ++ lit% "\", with type \"" ++ t ++ lit% "\"") doc2

/-- Work on a file cannot begin: what is said. -/
inductive StopsWith (w : Wording) (m : Matches) (fs : FS) (path : Str) : Str → Prop where
  | noFile : fs.get? path = none → StopsWith w m fs path (lit% "Unable to open file: " ++ w.os ++ lit% "\n")
  | partly {text doc a b c} : fs.get? path = some text → Parser.new.parse text = .ok (doc, .partialRes a b c) →
      StopsWith w m fs path (lit% "Document only partially parsed. Please correct any errors before trying again.\n")
  | partlyErrors {text doc a b c d} : fs.get? path = some text → Parser.new.parse text = .ok (doc, .partialError a b c d) →
      StopsWith w m fs path (lit% "Document only partially parsed with errors. Please correct any errors before trying again.\n")
  | failed {text doc a b} : fs.get? path = some text → Parser.new.parse text = .ok (doc, .failure a b) →
      StopsWith w m fs path (lit% "Completely failed to parse document. Please correct any error before trying again.\n")
  | errors {text doc e} : fs.get? path = some text → Parser.new.parse text = .ok (doc, .fullError e) →
      StopsWith w m fs path (lit% "Parsed entire document, but with errors: " ++ w.errors e ++ lit% ".\n")
  | noCommand {text doc} : fs.get? path = some text → Parser.new.parse text = .ok (doc, .full) → (∀ command ∈ order, ¬ isGiven m command) →
      StopsWith w m fs path (lit% "No command was specified.\n" ++ w.usage)

end Tomllib.Cli
