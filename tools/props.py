#!/usr/bin/env python3
# Writes /verif/properties.jsonl
import json, os
P = []
def add(title, statement, quantifier, why, anchors):
    P.append(dict(id="C%02d" % (len(P)+1), title=title, statement=statement, quantifier=quantifier,
                  why_tests_cant=why, anchors=anchors))

add("Parsing always finishes with one of four results",
 "For every document text, TOMLParser::parse on a fresh parser terminates. If it does not panic it returns exactly one of Full, FullError, Partial or PartialError; it never returns Failure.",
 "every string", "A test runs finitely many documents; termination and the absence of the Failure result are claims about all of them.",
 ["src/internals/parser.rs: Parser::parse", "src/lib.rs: TOMLParser::parse", "src/internals/toml.rs: toml, expression"])
add("The result says what happened",
 "Full is returned iff the whole text was consumed and no error was recorded; FullError iff all consumed and at least one error recorded; Partial iff some text is left and no error recorded; PartialError iff some text is left and at least one error recorded. The list carried by FullError/PartialError is never empty.",
 "every string", "The four-way classification must hold for each combination of leftover text and recorded errors over all inputs.",
 ["src/internals/parser.rs: Parser::parse", "src/types.rs: ParseResult"])
add("A fully parsed document is printed back byte for byte",
 "If parse returns Full or FullError and printing the parser does not panic, the printed text equals the input text exactly (whitespace, comments, line endings, number and string spelling included).",
 "every string", "Losslessness is a round trip over an infinite grammar; tests sample it.",
 ["src/internals/parser.rs: impl Display for Parser", "src/internals/ast/structs.rs: impl Display", "src/internals/toml.rs"])
add("A partially parsed document is printed up to where parsing stopped",
 "If parse returns Partial or PartialError and printing does not panic, the printed text is a proper prefix of the input: input = printed ++ rest with rest non-empty.",
 "every string", "Needs the round trip for every prefix at which the grammar can stop.",
 ["src/internals/parser.rs: Parser::parse, Display", "src/internals/toml.rs: toml"])
add("Printing a parsed document panics exactly when an empty inline table was read",
 "After parse, printing panics if and only if the parsed part of the document contains an empty inline table `{}`; `{}` is valid TOML, so the wish 'printing a parsed document never panics' is false.",
 "every string", "An if-and-only-if over all documents.",
 ["src/internals/ast/structs.rs:749-767 InlineTable Display", "src/internals/objects.rs: inline_table"])
add("Partial results carry the unparsed text",
 "Documented: Partial and PartialError contain the leftover, unparsed input. (The code hands out the leftover of the previous parse, which is empty on a fresh parser.)",
 "every string on which a fresh parser stops early", "The claim concerns all inputs; existing tests never look at the leftover.",
 ["src/internals/parser.rs:45-75", "src/types.rs: ParseResult::Partial"])
add("Line numbers count the line breaks seen",
 "Every line number reported by parse (in a Partial/PartialError result and in each recorded error) is between 1 and 1 + the number of newline characters of the text; the number in a Partial/PartialError result is that of the line after the complete lines read, counting line breaks between lines and inside multi-line strings (it can only be larger when the unread rest has a multi-line string); and when a line is added to a document that is read to the end, the errors reported are those of the document followed by errors of that line, each with a line number among those the added line occupies.",
 "every string", "Counting must be right for every interleaving of newlines, comments and multi-line strings, and across backtracking.",
 ["src/internals/util.rs: newline", "src/internals/primitives.rs: count_lines, raw_ml_basic_string, raw_ml_literal_string", "src/internals/parser.rs: parse"])
add("Columns are always reported as 0",
 "Every column in a parse result and in each recorded error is 0 as documented.",
 "every string", "All error-producing paths must be covered.",
 ["src/types.rs: ParseResult, ParseError", "src/internals/objects.rs", "src/internals/primitives.rs"])
add("Unknown keys are rejected without effect",
 "If a key has no value in the document (get_value returns None), set_value returns false for every new value, and afterwards the printed document and get_value/get_children of every key are unchanged.",
 "every parser state, key and value", "Quantifies over all keys, values and states.",
 ["src/internals/parser.rs: set_value, get_value"])
add("An invalid scalar is rejected without effect",
 "Wish: if a key holds a scalar and the new value is a scalar that fails validation, set_value returns false and nothing observable changes. False: keys below the key can disappear. Actual: set_value returns false; the printed document and the value of the key stay; the keys met by a walk over get_children below the key are gone (no value, no children), and every other key has the value and the children that it had. So nothing changes exactly when no key exists below.",
 "every parser state, scalar key, invalid scalar", "Must hold for every invalid value and each state.",
 ["src/internals/parser.rs: set_value, convert_vector", "src/types.rs: Value::validate"])
add("Setting a scalar is read back",
 "If a key holds a scalar and the new value is a valid scalar, set_value returns true and get_value of that key then returns the new value.",
 "every reachable parser state, scalar key, valid scalar", "A read-after-write law over all states.",
 ["src/internals/parser.rs: set_value, get_value"])
add("Setting a scalar changes no other scalar",
 "Under the conditions of the previous property, get_value of every other key that holds a scalar, and get_children of every key, are unchanged.",
 "every reachable parser state, pair of distinct keys, valid scalar", "A frame condition over all other keys; depends on cells never being shared between keys.",
 ["src/internals/parser.rs: set_value", "src/internals/primitives.rs: insert_keyval_into_map", "src/internals/objects.rs: array_value"])
add("Setting a scalar edits the text only at that value",
 "Under the same conditions the printed document before is pre ++ old ++ post and after is pre ++ new ++ post, where old and new are the printed old and new values: all formatting and comments survive.",
 "every document and every key of it that holds a scalar", "The locality of the edit must hold for each position in every document.",
 ["src/internals/parser.rs: set_value, Display", "src/internals/ast/structs.rs"])
add("Replacing an array or inline table by one of the same structure keeps its formatting",
 "If the new array or inline table has the same shape (same lengths, nesting and keys) as the value at the key, set_value returns true, get_value returns the new value, and the printed document keeps every separator, comment and blank of the old one, only the scalar texts changing.",
 "every reachable parser state, key with an array/inline table value, same-shaped valid value", "Infinite family of shapes and layouts.",
 ["src/internals/parser.rs: same_structure, replace_values, set_value"])
add("Replacing a value by a flat array or inline table of another structure",
 "If a key holds an array or inline table (or a scalar) and the new value is a non-empty flat array of valid scalars with a different structure, set_value returns true, get_value returns the new value, element i is readable at key[i] (if that key was free before, or one of the children of the key; otherwise it can read as before) and get_children reports its length; the printed value is the default layout. The same holds of a flat inline table with different names, except that its names are added to the names the key had as children, and a key that had a number of children keeps the number.",
 "every reachable parser state, key, list of scalars", "All sizes and states.",
 ["src/internals/parser.rs: set_value, convert_vector, rebuild_vector, get_all_subkeys"])
add("Assigning to a table header",
 "Wish: set_value on the key of an explicit table either fails or changes the document. (The code returns true and changes nothing in the printed document.)",
 "documents with a [table] header", "A universal claim, refuted by a witness and characterised for all table keys.",
 ["src/internals/parser.rs: set_value", "src/internals/objects.rs: std_table"])
add("Reading the key of a table header does not crash",
 "Wish: get_value never panics. Actual: get_value panics exactly when the key is the key of an explicitly written [table] (documents without `[[`, table headers in order). The same condition holds for documents in order with arrays of tables, at any moment of a history of assignments (C55), also when several texts are read (C75).",
 "every parser state and key", "Exact panic condition over all keys and states.",
 ["src/internals/parser.rs:99-112 get_value", "src/internals/macros.rs: to_val!"])
add("Dates accepted are exactly calendar dates",
 "Date::from_str accepts (year, month, day) made of digits iff they have 4, 2 and 2 digits and name a day of the Gregorian calendar in years 1..9999.",
 "all triples of strings", "All dates incl. leap-year boundaries.",
 ["src/types.rs: Date::from_str, Date::validate"])
add("Times and offsets accepted are exactly clock times",
 "Time::from_str/TimeOffsetAmount::from_str accept digit strings iff hour has two digits and is at most 23, minute and second two digits and at most 59 and, if there is a fraction, it is below 2^64.",
 "all tuples of strings", "All combinations.",
 ["src/types.rs: Time, TimeOffset, TimeOffsetAmount"])
add("Integer constructors of dates and times",
 "The *_from_int constructors succeed exactly when the numbers name a calendar date (year 1..9999) and clock time, and the result prints as zero-padded ISO text.",
 "all tuples of unsigned integers", "All values of usize.",
 ["src/types.rs: date_from_int .. datetime_full_from_int"])
add("Printed date-times parse back",
 "datetime_parse of the printed form of any valid all-digit DateTime returns that DateTime; conversely if datetime_parse accepts a text, the result prints as that text.",
 "all DateTimes / all strings", "Round trip in both directions over all values.",
 ["src/types.rs: datetime_parse, Display for DateTime", "src/internals/primitives.rs: date_time"])
add("Value::int is always valid, int_from_str accepts integers only",
 "Value::int(n) validates and prints as n for every n. Wish: int_from_str/float_from_str accept only text that is an integer/float as a whole. Actual: they accept exactly the texts that begin with one.",
 "all integers; all strings", "All 64-bit values and all strings.",
 ["src/types.rs: int, int_from_str, float_from_str, validate"])
add("Basic and literal strings that validate can be written in a document",
 "If basic_string(s) or literal_string(s) succeeds then the quoted text is read back by the parser as exactly that string of that type, with nothing left over. For multi-line strings this fails (contents may contain the closing quotes).",
 "all strings", "All contents, incl. escapes and quote characters.",
 ["src/types.rs: basic_string .. ml_literal_string, validate", "src/internals/primitives.rs: string patterns"])
add("Which characters strings may contain",
 "literal_string(s) succeeds iff s has only characters in U+0020..U+FFFF other than the single quote; ml_literal_string iff only characters U+0020..U+FFFF, newline, or CR directly followed by newline; basic_string iff s is a sequence of allowed characters and escapes.",
 "all strings", "All contents.",
 ["src/internals/primitives.rs:432-442", "src/types.rs: validate"])
add("bool_from_str",
 "bool_from_str succeeds iff the text is 'true' or 'false' up to letter case, and returns that Boolean.",
 "all strings", "All strings.", ["src/types.rs: bool_from_str"])
add("Key combination functions agree and are unambiguous",
 "combine_child_keys lists, in order, combine_keys/combine_keys_index of the base with each child; distinct children give distinct full keys; a Count of n gives n keys with indices 0..n-1.",
 "all bases and children", "All strings and counts.",
 ["src/types.rs: combine_keys, combine_keys_index, combine_child_keys"])
add("Children lists have no duplicates",
 "After any parse, the list of child keys returned by get_children for any key contains no name twice.",
 "every string and key", "Invariant of the key table over every parse history.",
 ["src/internals/objects.rs: insert, add_implicit_tables", "src/internals/primitives.rs: insert_keyval_into_map"])
add("The first of two equal keys wins and the second is reported",
 "When a key that already has a value is defined again by a key/value pair, its value is unchanged and a DuplicateKey error with the full key and the second value is recorded; one error per repetition, in the order of the text, and no others.",
 "every parser state", "Every state and key.",
 ["src/internals/primitives.rs: insert_keyval_into_map"])
add("Key paths are unambiguous",
 "Two different paths of keys (bare or quoted) and array indices never produce the same full key string.",
 "all paths", "Injectivity over all paths.",
 ["src/internals/primitives.rs: get_keychain_key"])
add("Documents without arrays of tables are parsed without panic",
 "Wish: parse does not panic on any document that contains no `[[` table header. (False: e.g. `[t]\\n[t]\\na = [1]\\n[a.b]`.) Actual, for every text no line of which begins with `[[`: parse panics exactly if the text begins with lines that are read, followed by a newline and a header [N] for which the following holds of the parser that has read only the lines before. No name on the way to N, nor N, has a value, and either get_children of the table above N is a count other than 0, as for an array; or N is not there, nothing directly in the table above N has a value, and the way down to N, name by name as get_children lists them, meets a key whose children are counted. Such keys come from arrays below a table header that is not in order (already reported as InvalidTable), so a panic only happens after one; never on a text no line of which begins with `[`, and never on a text in which every `[` is first on its line.",
 "every string without an array-of-tables header", "Panic freedom over all inputs.",
 ["src/internals/primitives.rs", "src/internals/objects.rs", "src/internals/parser.rs"])
add("Parsing never panics",
 "Wish: parse does not panic on any text. (False: e.g. `[[a]]\\n[c]\\n[a.b]`.) Actual, after lines with no other faults than those of C59: parse panics at a line exactly if it is a header [[N]] with a value on the way to N that is not an inline table, or with a value at N itself that is a simple value or an empty array while the last array of tables is N or above it; or a header that leads into an array of tables which is not open any more (a header [[N]] also if it leads into one that is open, but not through the innermost); or a header [[N]] that begins with the name of a table in an element of an array of tables, which is unknown at the top. Then it panics whatever follows. No key/value pair is a panic, below a bad header either. Left out are headers whose text begins with that of the name of an open array of tables, but not name by name.",
 "every string", "Universal; refuted by witnesses.",
 ["src/internals/primitives.rs:214-240, 80-194", "src/internals/objects.rs:78-157"])
add("Values are found under their keys",
 "For a document of key/value lines and [table] headers, get_value of each key (table name, dot, key; and of each element path inside arrays and inline tables) returns the value written there first, and get_value of any other key returns None. After any lines, faulty ones too, a section whose header is in order adds exactly its values under the name of its table, where there was no value, and leaves every value there is (what a section whose header is not in order adds is in C45).",
 "every document of key/value lines (and standard tables)", "Refinement to a small specification over all documents.",
 ["src/internals/primitives.rs: insert_keyval_into_map, get_full_key", "src/internals/parser.rs: get_value"])
add("Arrays of mixed types are reported",
 "Wish: each array whose elements differ in type gets a MixedArray error. Actual: a MixedArray error always names such an array, and a document with such an array is never reported as Full, but after an error of another kind the array gets no error of its own. Exactly: the MixedArray errors come before all other errors about the lines that are read; the first element of the text that is of another type than the one before it is reported, as the very first error, unless something before it in the text is reported; and if so, no array is reported as mixed, in this text or in any text the parser reads afterwards. (Which of several mixed arrays are reported while there is no other error is said in C59.)",
 "every array text", "All arrays.",
 ["src/internals/objects.rs: array_value, map_val_to_array_type"])
add("Invalid date-times are reported",
 "When a date-time of valid shape but impossible value is read, an InvalidDateTime error with its key and text is recorded, and reading continues; one error per such date-time, in the order of the text, and no others.",
 "every date-time text", "All texts.",
 ["src/internals/primitives.rs:582-602 date_time"])
add("Reading back what was printed",
 "If parse returned Full, parsing the printed text with a new parser returns Full again and every key has the same value and children.",
 "every string", "Idempotence over all documents.",
 ["src/internals/parser.rs: parse, Display"])
add("tomlkit never writes unless the edit succeeded",
 "The command-line tool writes the file only if the document parsed fully without errors and every requested assignment succeeded; the written text is the printed document after all assignments.",
 "every file content and command list", "All contents and command sequences.",
 ["src/bin/tomlkit.rs"])
add("Sequences of scalar edits",
 "After any sequence of valid scalar assignments to scalar keys, each key reads as the last value assigned to it, unassigned keys read as before, and the printed document is the original with exactly those value texts replaced; edits of different keys commute.",
 "every document and every finite history of assignments", "Histories are unbounded.",
 ["src/internals/parser.rs: set_value, get_value, Display"])
add("Whole values and their parts agree",
 "In a document without errors, an array or inline table read whole agrees with its parts read one by one: element i of the array at key K is the value of K[i], the pair k of the table at K is the value of K.k, and there are no other parts. For documents in order with arrays of tables the same holds at any moment of a history of assignments (C55), together with the number of elements and the names that get_children gives, also when several texts are read (C75); and simple values have no parts.",
 "every document without arrays of tables, and every key", "All nestings and sizes.",
 ["src/internals/parser.rs: get_value, get_children, Display"])
add("Keywords and spelling are preserved",
 "get_value returns integers, floats, strings and date-times with exactly the characters written in the document (no normalisation), strings without their quotes and with their quote style.",
 "every scalar text", "All spellings.",
 ["src/internals/primitives.rs: val, string, integer, float, date_time"])
add("Comments and blanks do not matter to the values",
 "Inserting or removing blanks around keys, equals signs and values, blank lines and comments does not change get_value of any key.",
 "every document of key/value lines and layout variation", "All layouts.",
 ["src/internals/toml.rs", "src/internals/util.rs"])

add("Saving never loses the file (tomlkit)",
 "Wish: when tomlkit is told to change a value, the file afterwards contains the old text or the new text. False: the file is emptied before the text is produced, and producing it can panic. Actual: a run leaves all files as they were, or makes all assignments and touches only the output file; that file then holds the text of the changed document, except when the text that was read contains an empty inline table. In that case, and only then, the run panics and the output file is left empty.",
 "every file content and command line", "Needs every document on which printing panics.",
 ["src/bin/tomlkit.rs: write_to_file"])
add("A document is accepted exactly when it is valid",
 "A document of key/value lines and [table] headers is reported as Full exactly when its table headers are in order, no key is given twice, all dates and times exist and no array mixes types. (Table headers: 'in order' is stricter than TOML in one place and laxer in another; both differences are shown.)",
 "every text without arrays of tables that is read to its end", "All documents.",
 ["src/internals/parser.rs: parse", "src/internals/objects.rs: std_table", "src/internals/primitives.rs: insert_keyval_into_map"])
add("Properly written documents are read to the end",
 "A document written as a sequence of lines (blank, comment, key = value, [table] or [[table]], with TOML's spelling of keys and values and array elements set apart by commas or blanks) is always consumed completely: unless it panics, parse returns Full or FullError, never Partial or PartialError. If it has no [[table]] and its table headers are in order it does not panic, every key stands for the first of its entries, and the reported repeated keys and impossible dates are exactly those of the document.",
 "every properly written document, of any length and nesting", "The grammar is built from patterns that match the longest or first alternative; that none of them stops early must hold for every document.",
 ["src/internals/toml.rs", "src/internals/primitives.rs", "src/internals/objects.rs", "src/internals/util.rs"])
add("Printed values are values",
 "What Display prints for a Value that is well formed and contains no empty array or table can be written after any key, and is read back as exactly that value with nothing reported. Values that are printed alike are equal. Printing panics exactly on values that contain an empty array or inline table.",
 "every value of any nesting, every key", "All values.",
 ["src/types.rs: Display for Value", "src/internals/primitives.rs: val"])
add("A table header that is not in order spoils its own section only",
 "Wish: after a [table] header that is not in order (defined twice, or below a value) the text is read on to its end. The pairs below it are not entered anywhere and are exactly the pairs of its InvalidTable error, the last value for each name; there is one such error for each such header, in order. The following sections in order are read as if the bad section were not there. (False in three ways: the elements of an array below such a header are entered, outside of all tables; the pairs of an inline table are reported as pairs of the table itself; the pairs after a date that does not exist are neither entered nor reported.) Actual: whatever was read before, a header that is not a panic (C30) is reported exactly if there is a value on the way to it or at its key, or a value directly in the table above it, or the table is there already. If then no array comes before the next header, every key keeps the value and the children it had, and the errors added are one InvalidTable with the pairs up to the first date that does not exist (those in inline tables included, the last value for each name) and one error for each such date. With arrays below the header, too, every key that has a value keeps it; a key without one gets a value exactly if an element of these arrays would have that key were its pair outside of all tables, and then that of the first such element. In documents without arrays below such headers, the following sections are read as if the bad sections were not there.",
 "every document without arrays of tables", "Any number of bad and good sections in any order.",
 ["src/internals/objects.rs: std_table", "src/internals/primitives.rs: keyval"])
add("Walking the children finds everything",
 "Wish: a walk from the top level over get_children, building keys with combine_child_keys, visits exactly the keys that exist, in particular every key that has a value. False: a name that does not exist can be listed at the top level. Actual: it visits every key that exists and every key that has a value, and besides only the stray names, which are the last names of headers such as [a.b] directly below an array of tables a; without such headers the wish holds.",
 "every document in order, arrays of tables included", "All documents and depths.",
 ["src/internals/parser.rs: get_children", "src/types.rs: Children"])
add("Arrays of tables mean what they say",
 "In a document in order, with [table], [[array of tables]] headers nested in any way, the value at every path with names and indices is the one written there, the number of elements and the names of every table are those of the document, and nothing else is found. (What 'in order' leaves out is shown with witnesses.)",
 "every text that is read to the end and in order, every key", "All nestings of arrays of tables.",
 ["src/internals/objects.rs: array_table, std_table", "src/internals/parser.rs: get_value, get_children"])
add("What becomes of an assignment",
 "Whether set_value on an existing key succeeds, is refused or panics is decided by the old and the new value alone.",
 "every parser history, every key with a value and every new value", "All pairs of values.",
 ["src/internals/parser.rs: set_value"])
add("tomlkit prints the answers it was asked for",
 "get-value, has-value, get-children and has-children of tomlkit print one answer for each key in the order of the keys, fail at the first key without one, and run in a fixed order without touching the file; printed values are those of get_value.",
 "every document, option set and list of keys", "All lists of keys.",
 ["src/bin/tomlkit.rs: process_document, get_value, has_value, get_children, has_children"])
add("tomlkit assigns the values it was given",
 "set-value of tomlkit takes triples of key, text and type name. It makes the assignments in order, each with the value its text stands for as a value of that type (strings and numbers are kept as written, booleans may use any case, a date-time must exist and loses a Z offset), and then saves the document and prints Success for each. A text that is no value of its type, an unknown type, a refused assignment or a number of fields that is not a positive multiple of three is an error, and no file changes.",
 "every document, option set and list of fields", "All texts and all lists of fields.",
 ["src/bin/tomlkit.rs: process_document, set_value", "src/types.rs: Value constructors"])

add("An edited document is read again as it was edited",
 "A properly written document is read, values are replaced with set_value by properly written values of the same structure, and the document is printed. Reading the printed text gives a document that cannot be told apart from the edited one: every key has the same value and children, and this stays so under further assignments. If scalars were replaced by scalars of their kind, nothing is reported; otherwise at most arrays that now mix types. (Shown to fail for integers that only begin like one, which set_value lets pass: they can add keys.)",
 "every properly written document, every sequence of such assignments", "All documents and histories.",
 ["src/internals/parser.rs: set_value, parse, Display", "src/types.rs: Value::validate"])

add("A second text continues the first",
 "A parser that has read some documents and is given another one reads on: afterwards every key has the value and the children, and there are the errors (but for their line numbers), that a new parser finds in one document that says all of it in this order. Earlier errors stay in front in the list, the line numbers of new ones are counted on, and only the last text is printed. (So an assignment to a key of an earlier text is accepted and never printed.)",
 "every sequence of texts that are read to the end", "All documents and all numbers of parse calls.",
 ["src/internals/parser.rs: parse, Display, set_value"])

add("tomlkit works on several files as on each alone",
 "Given several different file names and no output file, tomlkit works on them in order. Each file reached is left, at the end and at every moment before, as it would be if it were the only one, and work on it ends in the same way; the first file on which it stops (not found, not in order, or a panic) is the last, and the files after it and all others stay as they are. (It is not all or nothing; and with an output file all results go to that one file, so only the last is kept. Both are shown by witnesses.)",
 "every list of names, option set, command set, file system, and moment of the run", "All numbers of files and all points at which the program may be stopped.",
 ["src/bin/tomlkit.rs: main, process_document"])

add("tomlkit prints its results and says how it ended",
 "The results of the commands are printed with the separator between them and a line break at the end, then the document if asked for; a failed command is the last one and what came before is printed all the same. The exit status is 0 exactly if work on every file ended normally. From the command line: get-value prints exactly the values asked for and changes nothing; set-value leaves the edited document in the output file. (A failed command still exits with 0, and quiet makes no difference: witness and proof.)",
 "every set of options and arguments, document and list of keys", "All combinations of options, all documents.",
 ["src/bin/tomlkit.rs: main, Options::new, process_document"])

add("Every history of assignments is that of an edited document",
 "A document in order is read, and then values are assigned one after the other: values of the same structure of any nesting, arrays of scalars in place of anything, inline tables of scalars in place of inline tables whose keys come first; assignments that are refused may come in between. At every moment get_value and get_children answer for every key what the document says in the form the assignments have given it, and that document is what is printed. Each such assignment is taken; it changes the answers at and below its key only (and the values that contain it), and the text only where the old value stood.",
 "every text that is read to the end and is in order, every sequence of such assignments, every key", "All documents, all histories and all keys, also keys that did not exist before.",
 ["src/internals/parser.rs: set_value, rebuild_vector, get_all_subkeys, get_value, get_children, Display"])

add("The text printed after any history is read as the same document",
 "After any history of the assignments of the property before, of properly written values, that has left no array of mixed types, reading the printed text reports nothing, and the parser that read it gives the same answers for every key; it is itself at the beginning of such a history with the printed text as its document. So printing and reading may come at any moment between assignments. The names at the top level are listed in the same order too, unless there are names which the library misplaces there. (An assignment can make an array of mixed types; it is then reported: witness.)",
 "every properly written document in order, every sequence of such assignments, every key", "All documents, all histories and all keys.",
 ["src/internals/parser.rs: set_value, parse, Display"])

add("Independent assignments commute, undo, and leave the rest alone",
 "At any moment of such a history, also when several texts are read (C75): two assignments to keys of which neither leads into the other can be made in either order, with the same text printed and the same answers for every key. Assigning a value of the same structure and then the value that was read before restores everything, the layout of the text included; of two assignments to one key the last counts, provided the first kept the structure (otherwise the layout is lost). And in any state whatsoever, after any assignment, taken or refused, the children of every key that does not begin with the assigned key are what they were.",
 "every history as before and every pair of assignments; for the last sentence every parser, key and value", "All histories, all pairs of keys and values.",
 ["src/internals/parser.rs: set_value, rebuild_vector, get_all_subkeys, get_value, get_children, Display"])

add("Documents with arrays of tables are accepted exactly when they are in order",
 "A text that can be read to the end, with tables, arrays of tables and tables inside of these, is read without an error exactly when every line is in order: each key once in its table, values without fault, each table header once and not where a value is, an array of tables not where a table or value is, and continued only while it is open. At the first line that is not in order an error is reported that is about this line: of a kind such a line can cause, and with its line number; or parse panics. Left out are lines that the library accepts by mistake or cannot place: these are named one by one, with witnesses.",
 "every text that can be read to the end, every line and whatever follows it", "All documents, all numbers and nestings of tables and arrays of tables.",
 ["src/internals/parser.rs: parse", "src/internals/objects.rs: std_table, array_table, add_implicit_tables", "src/internals/primitives.rs: keyval"])

add("The errors of a document, one by one, and what it says all the same",
 "A text that can be read to the end, with tables and arrays of tables, may contain arrays of mixed types, dates and times that do not exist, second simple values for keys that have one (or that are tables with a header), and headers of tables that are not in order, with values below them that contain no arrays. It is read to its end, and the list of errors is exactly: each fault in the order of the text, with its full key (with the index of the element in an array of tables), its line, and the text of the date, the second value, or the pairs below the bad header (and, like these, the pairs of the inline tables among them). An array of mixed types is reported unless the error before is about one that contains it or is of another kind; pairs below a bad header are lost when another error comes after it. Everything else, and the first value of each key, is answered for as if the faulty lines were not there. A header of an array of tables that is not in order, after such lines, is one InvalidTable more, with the index its element would have, or a panic (C31). (Pairs below it are entered all the same: witness. A second value that is an array leaves its elements among those of the first: witness. Elements of an array below a bad header are entered: C45.)",
 "every text that can be read to the end with such faults in any number, order and place; every key", "All documents, all combinations of faults.",
 ["src/internals/parser.rs: parse", "src/internals/primitives.rs: keyval, insert_keyval_into_map, date_time", "src/internals/objects.rs: std_table, array_value"])

add("Every option of tomlkit does what the help text says",
 "From the command line to the output: get-value, has-value, get-children, has-children and set-value may be given in any combination. What is printed is, for each of the commands in this order, the answers for its keys with the separator between them; between the commands and between the answers stands the argument of separator (by default a comma and a blank), at the end a line break, then the document and a line break if print-doc is given. The words for yes and no are those of set-true and set-false (by default true and false): a single one for all, or one for each key of has-value and then of has-children. Lists of children stand between array-begin and array-end with array-separator between them, or after their number with array-length; strip-quotes takes the quotes from values. The answers are about the document before the assignments, the document printed and saved (to output-file, or else to the input file) is that after them; without assignments no file is touched.",
 "every set of options and arguments, every document, every list of keys", "All combinations of options, all documents.",
 ["src/bin/tomlkit.rs: main, Options::new, process_document, get_value, has_value, get_children, has_children, set_value"])

add("tomlkit says what went wrong, and where",
 "When a command fails, tomlkit prints the results of the commands before it, then a message that names the file and the mistake, and does not run the commands after it: the first key without a value or without an entry, the first key without children, the first assignment whose type is not known, whose text is not of its type, or which is refused (with key, text and type as given), fields that do not come in threes, an empty or unreadable list of keys, of words for yes, or of words for no. No file is touched and the exit status is 0; with print-doc the document follows, in which the assignments before the one that failed are already made. A file that cannot be opened, a document that is not read to its end or has errors, and a command line without a command are named as such; then the program stops with status 255 and no file is touched. With help only the help text is printed. For several files, what is printed is what is printed for each file that is reached.",
 "every command line, every document, every mistake of these kinds, at every place among the commands and keys", "All command lines, documents and places of the mistake.",
 ["src/bin/tomlkit.rs: main, process_document, get_value, has_value, get_children, has_children, set_value"])

add("Where reading stops, what stands before is answered for",
 "Unless it makes the parser panic, any text consists of lines that are read and printed, and of something after them that is not read (in a text that is read to the end this is empty). The lines alone are a text that is read to the end (C70), and reading goes as far as it can: no lines at the beginning of the text that are taken by the rules of C70, in view of what follows them, reach further. Every key that has a value by the lines has it, names of children are at most added after those the lines give, counts of children at most grow, and the errors of the lines are reported first. If what cannot be read does not begin with a key, an equals sign and an opening bracket or brace, the parser cannot be told apart from one that read the lines alone, whatever is assigned to it later; it reports the same errors, and the line number it reports is that of the line on which it stopped. (An array or inline table that is not closed leaves its first elements behind: witness.) All this holds at any time, also for a parser that has read other texts before and has been assigned to.",
 "every text, wherever reading stops; every earlier history; every key and every later assignment", "All documents, all ways of being unreadable, all keys.",
 ["src/internals/parser.rs: parse, get_value, get_children, Display", "src/internals/toml.rs: toml, expression", "src/internals/primitives.rs: keyval, val, insert_keyval_into_map", "src/internals/objects.rs: table, array, array_value, inline_table"])

add("A result that is kept changes with the parser",
 "A result with errors shows at any later moment the list of the parser as it is then. When parse returns, this is the list of the result. After further texts and assignments the result is of the same kind with the same leftover, line and column; its list has what it had (a bad table may have received pairs), followed by everything reported since, on no earlier line; and all results with a list show the same one. So a program that wants the errors of one text must copy them. (The wish that a result stays as it was returned is false: witness.) If the program empties the list instead, then the next text that is read without a panic leaves only its own errors; but it may panic: witness.",
 "every sequence of texts and assignments, with the results of all of them kept", "All histories and all moments at which an earlier result is looked at.",
 ["src/types.rs: ParseResult", "src/internals/parser.rs: parse, set_value", "src/internals/primitives.rs: keyval"])

add("A constructor that refuses says what is wrong",
 "The constructors of values that can fail give a message. Those from a single text (integer, float, boolean, the four kinds of strings, date-time) name the type and quote the text. Those of dates and times, from texts or from numbers, look at the date first, then at the sign of the offset, its hours and minutes, and then at the time: the message is about the first of these that is wrong, and there is none exactly if all are in order.",
 "every text and every combination of numbers (fractions below 2^64), all 22 constructors", "All texts and numbers, all combinations of wrong parts.",
 ["src/types.rs: TOMLError, Value::int_from_str, float_from_str, bool_from_str, basic_string, ml_basic_string, literal_string, ml_literal_string, datetime_parse, date_from_int, date_from_str, datetime_*", "src/types.rs: Date::from_str, Time::from_str, TimeOffsetAmount::from_str"])

add("Comparing values and results",
 "Two values compare as equal exactly when they are of the same kind and have the same contents: numbers and strings as they are written (1_000 is not 1000, \"a\" is not 'a'), date-times part by part, arrays and inline tables element by element in the same order. For proper values this is the case exactly when they are printed alike. Children compare as equal when they are the same. Two results of parse compare as equal exactly when they are of the same kind, with the same leftover, line and column, and the same errors one by one, where the pairs of a bad table may come in any order.",
 "every pair of values, children, dates and times; every pair of results of parse, of the same parser or of two, after any history", "All pairs of values and all pairs of texts and histories.",
 ["src/types.rs: PartialEq of ParseResult, ParseError, Value, StrType, Children, PosNeg, TimeOffset, TimeOffsetAmount, Date, Time, DateTime"])

add("Reading on changes nothing that is there",
 "After any history of reading and assigning, one more text is read in which no line begins with two opening brackets. However faulty the text is, and wherever reading stops, every key that had a value has the same value afterwards; and so it is when such lines are added at the end of a text that is read to the end. With arrays of tables this holds for documents with no other faults than those of C59, and there the names of children are only added after those there were and counts of children only grow. The names at the top level keep their places after any history, whatever is read. (When an array of tables is opened again a later header can make a value disappear, without an error: witness.)",
 "every history of texts and assignments, every further text without arrays of tables, every key; every text that is read to the end and every place to cut it", "All histories, all texts, all keys.",
 ["src/internals/parser.rs: parse, get_value, get_children", "src/internals/objects.rs: std_table, array_table, add_implicit_tables", "src/internals/primitives.rs: get_array_table_key, insert_keyval_into_map"])

add("Numbers with a fraction become floats, whole numbers do not",
 "Value::float of an f64 gives a valid float exactly when the number is finite and not whole. Then it prints as a decimal with a point that is rounded to the number, with as few places as possible and as close as possible; written after a key it is read back as the same value, and set_value accepts it in place of a scalar. Different numbers give different values, but for the two zeros. Whole numbers print as integers and are read as integers; they, the infinities and NaN are refused by set_value without effect. (Documented: cannot fail, since f64 maps directly onto TOML floats. Witness: 1.0; in an inline table it makes set_value panic.)",
 "all 64-bit floating point numbers, all keys, all moments of a history", "All 2^64 numbers.",
 ["src/types.rs: Value::float, Value::validate, Display for Value", "src/internals/parser.rs: set_value"])

add("tomlkit when files cannot be read or written",
 "Whatever goes wrong with the files (missing, unreadable, not UTF-8, cannot be created, disk full in the middle of writing, flushing fails) and at every moment at which the program may be stopped: the files are as they were, or the document was read without an error and all assignments succeeded, no file but the output file is different, and this holds a beginning of the bytes of the new text. A run that comes to its end has changed nothing because nothing was to be assigned or a command failed, or has all of the new text in the file. If the file cannot be written the program says so, names both files, and exits with status 255; if it could not even be created, the old contents are still there. A file that is not UTF-8 is reported and left alone. (Not promised, with witnesses: after a failed write the old contents are lost, and what is left may be read without an error although values are missing.)",
 "every command line, every contents of the files as bytes, every behaviour of the operating system on opening, creating, writing in portions and flushing, every moment of a run, one file or several", "All points of failure and all moments, all documents and assignments.",
 ["src/bin/tomlkit.rs: process_document, write_to_file, get_file, main"])

add("tomlkit takes the names of files from the lines of its input",
 "Without an input file tomlkit works on the files named by the lines of the standard input, in order, without the whitespace around each name (any Unicode whitespace, carriage returns too); the last line needs no newline. If all goes well the files, the output and the exit status are those of working on these names. A blank line counts as a name: there is no such file, so the program ends there with status 255, and files named after it are not worked on. A line that is not UTF-8 ends it too, with a message and status 255, after the files before it. Whatever the operating system does, the exit status is 0 exactly if all files named were worked on to the end, and 255 if one could not be read, was not in order or could not be written. With an input file only that file is worked on, and the standard input makes no difference.",
 "every list of names without newlines, with any whitespace around them; every bytes", "All inputs and all lists of names.",
 ["src/bin/tomlkit.rs: main"])

add("Which texts are read to the end, and what they then say",
 "Unless it makes the parser panic, a text is read to the end (Full or FullError) exactly when it is a sequence of lines taken one after the other, from left to right, by these rules: a line is blank, a comment, a pair or a header; of the scalars that could begin at a place the one is taken whose kind comes first (date or time, float, integer, truth value, then the four kinds of strings), the longest of its kind, but the string that ends at the first closing quotes; in arrays and inline tables elements follow each other with or without commas, blanks, line breaks and comments between. There is never more than one way to take a text. What the other properties say of documents that are read to the end (their values, errors, children, the effect of layout) holds for all of these texts, not only for properly written ones: [01] is an array of two integers.",
 "every string", "All texts, all ways of being badly written.",
 ["src/internals/toml.rs: toml, nl_expressions, expression", "src/internals/primitives.rs: val, keyval, key, string, integer, float", "src/internals/objects.rs: array, inline_table", "src/internals/parser.rs: parse"])

add("Every error is about a place of the text",
 "Each error that parse reports about the lines it has read names, with the right line number, something that stands there: a header (invalid table), a value that is assigned a second time (duplicate key, with that value), an element of an array that is of another type than the one before, a date or time that does not exist (with its text). The errors come in the order of the text, and no place is reported twice. Errors after these are about the line at which reading stops; a text that is read to its end has none. All dates and times that do not exist are reported, wherever they stand. This holds for every text, with arrays of tables and with headers that are not in order. When a parser reads further texts, whatever is assigned in between, the errors about their places come behind those there were, on lines that are counted on through all the texts.",
 "every text, wherever reading stops; every array, date, header and assignment in it", "All texts, all combinations of mistakes.",
 ["src/internals/parser.rs: parse", "src/internals/primitives.rs: keyval, insert_keyval_into_map", "src/internals/objects.rs: std_table, array_table, array_value, array, inline_table", "src/types.rs: ParseError"])

add("Nothing is made up",
 "After any history of reading and assigning, whatever text is read next, however faulty: if get_value finds a value for a key, it found the same value there before, or a line of the text gives it, that is: the line assigns a value, and inside this value, at the way that ends the asked key (after the name of the line, and a dot in front if anything is in front of it), stands what is answered. If the text is not read to its end it may also be a value that stands in what could not be read. So no value is changed, and none turns up at another name or index of its line. (Which table the key in front belongs to: C32, C47, C59.)",
 "every history of texts and assignments, every further text, every key", "All histories, all texts, all keys.",
 ["src/internals/parser.rs: parse, get_value", "src/internals/primitives.rs: keyval, val, insert_keyval_into_map, get_keychain_key, get_full_key", "src/internals/objects.rs: std_table, array_table, array_value, array, inline_table"])

add("Changing the children one is given changes neither text nor values",
    "get_children hands out a reference to a counter or list that the program can change without having the parser mutable. Such a change shows at that key and nowhere else: all other children, all values, the printed text and the leftover are the same. It makes no difference either to the text and to all values for any later assignments of values that have the structure of those they replace, with any number of such changes in between. After an assignment with another structure, if it panics neither with the children changed nor without, the same is accepted and printed. (Otherwise it makes a difference: an element that the program has hidden is still answered after the array has been replaced by a shorter one, a nested array can be replaced that cannot be replaced otherwise, and a further text is read into other tables or panics: witnesses.) What is said about a parser at any time in C01, C03 to C05, C08, C10 to C12, C15, C27, C31, C37, C48, C62, C65 to C67 and C72 also holds after such changes, as long as no name is put in a list twice.",
    "every parser a program can get hold of, every key, every change of its children, every sequence of assignments and changes",
    "All histories, all ways to change the lists and counters.",
    ["src/types.rs: Children", "src/internals/parser.rs: get_children, get_value, set_value, same_structure, replace_values, get_all_subkeys, rebuild_vector, Display"])

add("The order of the lines does not matter to the values",
    "If the lines of a document that is in order are put into another order, and none goes past a table header, then the document is still read in full without an "
    "error, get_value gives the same answer for every key, and get_children gives the same number or the same names for every key; only the order in which names "
    "are listed follows the lines. Two documents without arrays of tables, both in order, that put the same values under the same keys of the same tables, and have "
    "the same headers, give the same answers in that sense, in whatever order the sections and the pairs in them come, and whatever their layout. So do two "
    "documents in order, with arrays of tables, in which the lines about each name of the top level say the same in the same order: groups of sections may change places.",
    "All documents in order of any size, with tables, arrays of tables and inline values, all permutations of the lines between two headers; and all pairs of documents "
    "in order without arrays of tables which say the same, or with arrays of tables which say the same about each name of the top level; all keys.",
    "A test tries a few orders of a few lines; here it is every permutation of documents of any size, and every key.",
    ["src/internals/primitives.rs: insert_keyval_into_map", "src/internals/objects.rs: add_to_table_set, add_implicit_tables", "src/lib.rs: TOMLParser::parse, get_value, get_children"])

add("Texts read one after the other, with assignments in between, are one document",
    "With the same parser several texts are read one after the other, each with its lines in order after those of all the texts before, and values are assigned before, in "
    "between and after. At every moment get_value and get_children answer as one document does that has all the lines of all the texts, with the values that were "
    "assigned; display prints the lines of the last text as they are by now. A further text in order is read in full without an error and changes no value. An assignment "
    "to a value of an earlier text is taken like any other and does not change what is printed; one to a value of the last text exchanges exactly that value in what is "
    "printed. Assigning before or after reading the next text comes to the same. A walk over the children at any moment visits exactly the keys there are.",
    "All sequences of texts in order and of assignments (of values of the same structure, of arrays of scalars, of inline tables of scalars that extend an inline table) "
    "and refused assignments, of any length, in any interleaving; all keys.",
    "A test interleaves a few calls; the claim is about every interleaving of any length, with texts of any size.",
    ["src/lib.rs: TOMLParser::parse, set_value, get_value, get_children, Display", "src/internals/parser.rs: parse, set_value, get_value"])

out = os.path.join(os.path.dirname(__file__), "..", "properties.jsonl")
with open(out, "w") as f:
    for p in P:
        f.write(json.dumps(p, ensure_ascii=False) + "\n")
print(len(P))
