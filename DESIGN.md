# A formal model of tomllib in Lean 4

Subject: the Rust crate in /repo (joelself/tomllib, pinned commit), read as text.  Everything here is about a model
written by hand from that text; the model is in `lean/Verif/`.

## 1. Trusted base

1. **Lean 4.33.0's kernel.**  No theorem uses `sorry`, an axiom of ours, `native_decide` or `bv_decide`.
   Axioms used: at most `propext`, `Classical.choice`, `Quot.sound` (Lean's three standard ones).
   Concrete examples are checked with `decide`/`decide +kernel` (the kernel evaluates the model).
2. **The transcription.**  Each definition of the model cites the file and lines it models.
   The claim that it computes what the Rust does is by reading, helped by the conformance checks (section 5).
3. **The semantics given to the dependencies**, none of which is available here:
   * nom 1.2 macros (`chain!`, `alt!`, `complete!`, `many0!`, `many1!`, `tag_s!`, `take_while_s!`, `take_while1_s!`,
     `method!`/`call_m!`): `Verif/Nom.lean`.  `many0!` on empty input is `Done`; an element parser that consumes nothing makes
     `many0!` fail and ends `many1!`; state changes made by a parser that then fails are kept (the parser value is threaded through).
   * `regex` 0.1: anchored leftmost-first (Perl priority) search, `\d` = Unicode Nd, `.` = all but `\n`: `Verif/Re.lean`.
   * std: UTF-8 (Lean's own library), `str::trim`, `Display` of `f64` (shortest decimal, `Verif/Float.lean`), `usize::from_str`/`u64::from_str` (accept one leading `+`, 64 bits), `str::len` in bytes, `HashMap` as a finite map,
     `format!` of unsigned integers and zero padding, `to_lowercase` compared with an ASCII word.
4. **Build profile**: arithmetic is checked (debug profile): `0 - 1` on `usize` panics.  In a release build those sites would wrap;
   each such site is the constructor `Panic.underflow`, so theorems about it are visibly about checked arithmetic.

## 2. What is modelled

| /repo | model |
|---|---|
| src/types.rs (values, strings, dates, validation, constructors, Children, Display) | `Verif/Types.lean`, `Verif/Values.lean`, `Verif/Refused.lean` (messages), `Verif/Equal.lean` (`==`), `Verif/Float.lean` (`f64`) |
| src/internals/ast/structs.rs, macros.rs (tree, Display, conversion to Value) | `Verif/Ast.lean` |
| src/internals/util.rs, primitives.rs, objects.rs, toml.rs (grammar, key table) | `Verif/Nom.lean`, `Verif/Keys.lean`, `Verif/Grammar.lean` |
| src/internals/parser.rs, src/lib.rs (parse, get_value, get_children, set_value, Display) | `Verif/Api.lean` |
| src/types.rs, src/internals/parser.rs (results share the error list of the parser) | `Verif/Shared.lean` |
| src/bin/tomlkit.rs (the commands and when it writes) | `Verif/Cli.lean` |
| src/bin/tomlkit.rs (options, the loop over files, what is printed, exit status) | `Verif/Main.lean` |
| src/bin/tomlkit.rs (files of bytes that can fail, names on the standard input) | `Verif/Disk.lean` |

Shared mutable cells (`Rc<RefCell<TOMLValue>>`) are modelled by an explicit heap: a list of cells addressed by number; the syntax tree
and the key table hold addresses, so aliasing between them is as in the program.

Not modelled: logging; memory exhaustion and stack
overflow on very deep nesting; the `csv` crate behind tomlkit (the fields are given); other programs that change the files meanwhile;
a `RefMut` of a list of children or errors that the program keeps or leaks;
the option parser of tomlkit (`pirate`) with its messages and the help text, what `{:?}` prints in two of the messages of tomlkit, the reasons given by the
operating system, and the messages of panics.  `Verif/Cli.lean` and `Verif/Main.lean` have files of characters and no failures;
`Verif/Disk.lean` has bytes and failures, and C68 says that they agree if nothing fails.
Calling `parse` several times on the same parser is modelled (the parser state is a parameter); C52 says what then happens, the other
theorems are about a fresh parser.

A Rust function that can panic returns `Out α` with a `Panic` naming the place; the third case `Out.fuel` is the recursion budget of the
model, and a theorem says that it never occurs.

## 3. How each property is stated and proved

Specifications are in `Verif/Spec/`, written without reference to the parser's helpers.  Property theorems are in `Verif/Props/`, helper lemmas in
`Verif/Lemmas/`.  Next to each theorem is an `example` that evaluates a concrete case.

What the specifications share with the model: the public data types (values, children, results, errors), the record types of the syntax tree (without its
printing and conversion), finite maps with their lookup, the table of Unicode decimal digits (`Rx.digitRanges`), UTF-8 (`encode`), and the data types of the
command line.  Everything else is defined anew and bridged by lemmas: texts (`Spec/Layout`, `Spec/Syntax`), what a string or number may contain
(`Spec/Text`, `Spec/Valid`), the calendar (`Spec/Calendar`), the spelling of keys (`Spec/Spell`, `Spec/Path`), the meaning of documents
(`Spec/Entries`, `Spec/Tables`), line counting (`Spec/Lines`), the command line (`Spec/Tool`, `Spec/Line`, `Spec/Message`).

| id | model | plan |
|---|---|---|
| C01 | `parse` | fuel sufficiency: every parser either consumes or stops; induction on remaining length |
| C02 | `parse` | case analysis of `parse`; spec = (rest empty?, errors empty?) |
| C03, C04 | grammar + Display | for every grammar function: on success, consumed text = rendering of the result in the final heap; heap only grows |
| C05 | same | rendering fails iff an empty inline table is reachable from the tree |
| C06 | `parse` | negation by witness; theorem: leftover is always the previous one |
| C07 | grammar | line counter invariant: newlines counted = newlines of consumed text outside arrays; errors added between two states carry lines between the counters of the states (`Lemmas/Place`), applied to the last line of a document |
| C08 | grammar | invariant on the recorded errors |
| C09–C13 | `setValue` | frame lemmas on heap and map; invariant: distinct keys hold distinct cells, each cell occurs once in the tree; the sub-keys that a refused assignment removes are those a walk below the key meets (`Descends`, Spec/Under) |
| C14 | `setValue` | induction on the value |
| C15 | `setValue` | evaluation of convert/rebuild on flat arrays and flat inline tables |
| C16, C17 | `getValue`, `setValue` | exact condition and witness |
| C18–C20 | dates | independent calendar spec; arithmetic |
| C21 | `date_time` | regex lemmas on digit strings |
| C22–C25 | validators | regex lemmas; negations by witness |
| C26 | Children | lists |
| C27, C28 | key table | invariants / direct; `C28_section` by induction over the lines of a section, as `C32_section` |
| C29 | key strings | injectivity of the rendering of paths |
| C30 | grammar | invariant excluding each panic when no array table was read and no array was read below a bad header; for the exact theorem an invariant of all states reached without arrays of tables (`Flow`), under which only the header action can panic, and the condition for that read off from get_value and get_children (`Parser.barred`, Spec/Wall.lean) |
| C31 | `parse` | witnesses; exact condition: what a header `[[N]]` that is refused does in every state of the simulation of C58/C59 (`Lemmas/Settle`), and that no other line is a panic (`Lemmas/Calm`, `Lemmas/Crash`); the same for headers that the library cannot place (`Lemmas/Shut`, `Lemmas/Reopen`, `Lemmas/Astray`), and for headers `[[N]]` that go into an inline table (`Lemmas/Within`); pairs below a bad header act as if they were below a header of their own (`Lemmas/Muted`) |
| C32, C40 | grammar | refinement to a flattening specification; after faulty lines, what one section adds, by induction over its lines in all states reached without arrays of tables (`Flow`) |
| C33, C34 | array, date_time | invariants on the error list; how it grows while the places of a text are passed one by one (`Tells` in `Lemmas/Spots`) |
| C35 | parse | from C03 |
| C36 | tomlkit | decision logic |
| C37, C38 | API | induction on histories using C09–C13 |
| C39 | val | regex lemmas |
| C41 | tomlkit | the trace of file contents of a run; whether the changed document can be printed is decided by the text that was read, since only scalars are assigned and a scalar is taken only for a scalar or a header (`Lemmas/Lost`) |
| C42 | parse | from C28, C33, C34 and the invariant about headers |
| C43 | grammar | forward lemmas: each parser reads properly written text as that text |
| C44 | Display of Value | the printed text is a properly written value (C43), hence read back |
| C45 | std_table, keyval, inline tables | second invariant for the state below a bad header; induction over the values, then the lines; after any lines (`Flow`), the header action is refused exactly as get_value and get_children tell (`Parser.refuses`, Spec/Wall.lean); the values entered below it by induction over the values (`VT.leaks`, Spec/Leak.lean) |
| C46, C47 | key table with arrays of tables | simulation of the lines on an independent tree of sections (`Spec/Tables.lean`) |
| C48 | `setValue` | the outcome as a function of the two values; frame lemmas; for histories, the names in a document survive assignments (`Lemmas/HistWalk`) |
| C49 | tomlkit | induction over the lists of keys |
| C50 | tomlkit | the conversion of arguments characterised by C21, C22, C24, C25; induction over the triples |
| C51 | `setValue`, `display`, `parse` | the edited tree is the reading of a properly written document; simulation of the two readings (`Lemmas/Twin`, `Lemmas/Reread`) |
| C52 | `parse` | the effect of lines on the state composes; C40 |
| C53 | tomlkit, several files | a run depends only on the contents of its file; induction over the names |
| C54 | tomlkit, options and output | C49 and C50 carried to the command line |
| C55 | `setValue`, `getValue`, `getChildren`, `display` | invariant: every path has the entry of the cell it leads to in the tree, and nothing else has an entry (`Lemmas/Links`, `Lemmas/Hist`); the parts of the key table below an exchanged value are followed exactly (`Lemmas/HistSet`) |
| C56 | `setValue`, `display`, `parse`, `getValue`, `getChildren` | trees that differ only in how blanks are attributed have the same text and the same parts (`Lemmas/Tidy`); lines in order stay in order when only values change (`Lemmas/TidyDoc`); induction over the history (`Lemmas/TidyHist`), then C47 and C55 |
| C57 | `setValue`, `display`, `getValue`, `getChildren` | exchanging parts of trees and of lines commutes, is idempotent and is undone (`Lemmas/Commute`); C55 for both orders, and two parsers of the same document look the same; for any state, the entries that `setValue` writes and erases are those that begin with the key (`Lemmas/Frame`) |
| C58 | parse | a value, header or array header read with no error leaves entries that only a line in order can leave (`Lemmas/Clean`, `Lemmas/Refuse`), line by line along the simulation of C47 (`Lemmas/Accept`); which lines are left out is `Spec/Accept.lean` |
| C59 | parse, keyval, std_table, array_value, date_time | the simulation of C47 with a list of errors; below a bad header the state differs from one of the simulation only in what the keys belong to (`Lemmas/Report`); the list is computed from the lines in `Spec/Report.lean` |
| C60 | tomlkit: options, all commands together, output | C49, C50 and C54 put together; the options are read by name from the command line in `Spec/Line.lean` |
| C61 | tomlkit: messages, exit status | the mistakes with their messages are listed in `Spec/Message.lean`; the model's printing loop and commands are shown to give them |
| C62 | the parser with a rest it cannot read | backward lemmas (C70) give the lines that were taken, with less after them they are still taken; lines that are taken in view of what follows are read at least (`toml_least`); what a failed line leaves behind (`PX`) is shown to be names on the key chain, or a monotone change of the key table |
| C63 | results held by a program, sharing the error list of the parser | `Verif/Shared.lean`: a held result has no list of its own; every step only adds errors (`Adds`, by induction over the effects of the grammar) |
| C64 | the constructors with their messages | `Verif/Refused.lean` repeats the constructors with messages; the order of the checks is read off `Answers` in `Spec/Refused.lean`, and agreement with `Verif/Values.lean` is proved |
| C65 | `==` of the public types, derived or written by hand (`Verif/Equal.lean`) | induction over values; that the tables of pairs have distinct keys is part of the invariant of reachable parsers, so that the comparison of maps decides agreement at every key |
| C66 | the key table and the stack of headers, at any moment | invariant of reachable states: below the top of the stack there are arrays of tables only; so the key of a header is looked up name by name, and where it is accepted no name on the way has a value; induction over lines. In order: from C59 |
| C67 | `Value::float` with the text std gives an `f64` (`Verif/Float.lean`) | the search for the shortest decimal finds the first power of ten with a multiple in the interval of what is rounded to the number; an interval around a number that is not whole has no integer in it; then the regular expression of floats, C44, C10 and C11 |
| C68 | tomlkit with files of bytes and an operating system that can refuse anything (`Verif/Disk.lean`) | what is decided before a file is touched is the same for both models (`Plan`, `Both` in `Lemmas/Disk`); the states are then read off |
| C69 | the loop over the lines of the standard input | induction over the lines; the byte 10 occurs only in the encoding of a newline |
| C70 | grammar | which scalar is taken (`Lemmas/Longest`), forward lemmas for trees that are taken (`Lemmas/TakenVal`, `TakenDoc`), backward lemmas by inversion of the combinators (`Lemmas/TakenBack`), and uniqueness (`Lemmas/TakenOne`) |
| C71 | reading lines | the places of a text in order (`Spec/Spots`); each step of the effect of a line adds errors whose places are a sublist of those passed (`Blames`, `Lemmas/Spots`); what comes after the lines by `Lemmas/TakenStop` |
| C72 | the key table and the cells of values | each step leaves the addresses in the key table, or enters that of a value just read at a key that ends with the key chain (`Gains`, `Lemmas/Source`); induction over values and lines, from any state |
| C73 | changes of the children that were handed out (`Parser.putChildren`) | parsers that differ in the children only (`ButKids`, `Lemmas/Children`); an assignment that keeps the structure does not look at children, any other writes the same cells; `Reachable` includes these changes, so the theorems about reachable parsers hold after them |
| C74 | two documents with the same lines in another order (`Shuffled`, `filed`, `about`, Spec/Order) | on top of C47: what a document in order means (`Sections`) depends only on which pairs, headers and names there are, since no path of a value begins another; swapping two neighbours that are not headers keeps a document in order; what is read about a name of the top level is what its own lines say by themselves (`Grouped`, Lemmas/Groups) |
| C75 | interleavings of reading and assigning (`Sitting`, Spec/Sitting) | invariant: the parser with the trees of the earlier texts put in front has the invariant of C55 for the lines of all texts; reading on is the simulation of C47 from that state, and an assignment touches neither the trees nor the state of the sections ; C17, C38, C48 and C57 are carried over to sittings in `Props/Several` |

Where the code violates the wish, the theorem is the negation with a concrete document, and further theorems state what does hold.

## 4. Violations found (all proved with a witness)

Each is a theorem about the model; the theorem is named, notes are in MANIFEST.json.

* `Display` panics on values with an empty array or inline table (C44) and on documents with an empty inline table (C05); `tomlkit` has emptied the file by
  then: C41.
* `get_value` of a table with a header panics: C17. `set_value` of such a key answers true but the printed document stays as it is: C16.
* `parse` panics on some documents with `[[ ]]`: C31, `C47_siblings`; and on some after an array below a bad header: C30.
* `[[a]]` then `[[ab]]` is stored below `a[0]`: `C47_prefix`. An array of tables that is reopened starts at 0 again: `C47_reopened`. `[[a]]` then
  `[a.b]` lists `b` at the top level: `C46_stray`.
* `[a]`, `k = 1`, `[a.b]` is rejected although valid, and `[x.a.b]`, `[x]`, `a = 5` accepted although not: C42.
* `[[a]]`, `[a]` is accepted, and so is `a = {b = {x = 1}}`, `[[a.b.c]]`; `a = 1`, `[[a]]` panics: C58.
* Elements of repeated arrays leak: C28; so do those of arrays that are not closed: `C62_unfinished_leaks`. Below a bad header elements of arrays leak, pairs of inline tables are reported flat, and pairs after an invalid
  date are lost: C45.
* Mixed arrays are not always reported: C33. Integer and float validators ignore what follows a number: C22; assigning such a
  value can add keys to the printed document: C51. Characters outside the BMP are rejected: C24.
  Multi-line strings may contain their closing quotes: C23.
* After a second `parse` with the same parser, the pairs of the second text belong to the last table of the first, and assignments to keys of the first
  text are accepted but not printed: C52.
* Results with errors change when the parser reads on, and emptying their list can make the next `parse` panic: `C63_wish_fails`, `C63_emptied_panics`.
* `Value::float(1.0)` is not a valid float; `set_value` refuses it, and panics on an inline table with it: `C67_wish_fails`.
* A value can disappear without an error when an array of tables is opened again: `C66_wish_fails`.
* `has-value` of tomlkit panics on too few answers: C49. `set-value` drops the `Z` of a date-time: C50.
* After a failed write the old contents are lost, and what is left can be read without an error: `C68_truncated`. A blank line among the names of files ends the
  program: `C69_empty_line`.
* tomlkit exits with status 0 when a command failed, ignores `--quiet`, and overwrites the output file for each of several inputs: C53, C54. When an
  assignment fails, `print-doc` shows the assignments before it although they are not saved: `C61_command_fails`.

## 5. Validation of the model

* `Verif/Conformance.lean` replays cases of the repository's own tests on the model, checked by the kernel.
* Mutation testing: `seeded/LOG.jsonl`, one line per wrong program: what was edited, the claim that this makes false, whether a concrete witness of the falsity
  was evaluated on the edited model, the declarations whose proofs then failed (`proofs_that_failed`), the property theorems that rest on those
  (`theorems_failed`), and which theorems were tightened as a consequence.  Edits that turned out to change nothing observable are marked.
  The scripts are kept as text in `seeded/harness/`: `muts.py` (the edits), `run.py` (apply, rebuild, collect), `deps.lean` (which theorem rests on which
  declaration), `auto.py` (a sweep of mechanical edits), `tight.py` (tightened theorems), `W.lean` (helpers for the witnesses).
