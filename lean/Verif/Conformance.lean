import Verif.Cli
/-!
# Conformance: the repository's own test assertions, evaluated on the model by the kernel

Generated by tools/conf.py from /repo/tests/get_set.rs, /repo/src/internals/parser.rs (428-818) and /repo/src/types.rs (1473-1907).
These are tests of the model, not proofs about all inputs.
-/

namespace Tomllib.Conformance

/-- An array value from constructor results. -/
def arrOf (vs : List (Option Value)) : Option Value := (vs.mapM id).map .arr
/-- An inline table value from constructor results. -/
def tabOf (kvs : List (Str × Option Value)) : Option Value :=
  (kvs.mapM fun (x : Str × Option Value) => x.2.map fun v => (x.1, v)).map .itab
/-- `datetime_parse`, a panic counts as an error here. -/
def dtp (s : Str) : Option Value := match Value.datetimeParse s with
  | .ok r => r
  | _ => none
/-- Parse with a new parser, then apply assignments. -/
def load (s : Str) (sets : List (Str × Option Value)) : Option Parser :=
  match Parser.new.parse s with
  | .ok (p, _) => sets.foldl (fun p (k, v) => match p, v with
      | some p, some v => match p.setValue k v with
        | .ok (p, _) => some p
        | _ => none
      | _, _ => none) (some p)
  | _ => none
/-- All values are as expected. -/
def gets (p : Option Parser) (es : List (Str × Option Value)) : Bool := match p with
  | some p => es.all fun (k, v) => p.getValue k == .ok v
  | none => false
/-- All children are as expected. -/
def kids (p : Option Parser) (es : List (Str × Children)) : Bool := match p with
  | some p => es.all fun (k, v) => p.getChildren k == some v
  | none => false
/-- The printed document. -/
def shown (p : Option Parser) (s : Str) : Bool := match p with
  | some p => p.display == .ok s
  | none => false
/-- All assignments succeed. -/
def setsOk (p : Option Parser) (es : List (Str × Option Value)) : Bool := match p with
  | some p => (es.foldl (fun (p : Option Parser) (k, v) => match p, v with
      | some p, some v => match p.setValue k v with
        | .ok (p, true) => some p
        | _ => none
      | _, _ => none) (some p)).isSome
  | none => false
/-- The result of parsing. -/
def res (s : Str) : Option ParseResult := match Parser.new.parse s with
  | .ok (_, r) => some r
  | _ => none

/-- tests/get_set.rs:16-36 -/
def docCars : Str := (lit% "animal = \"bear\"\n\n[[car.owners]]\nName = \"\"\"Bob Jones\"\"\"\nAge = 25\n[[car.owners]]\nName = 'Jane Doe'\nAge = 44\n\n[car.interior.seats]\ntype = '''fabric'''\ncount = 5\n\n[car]\nmodel = \"Civic\"\n\"ωλèèℓƨ\" = 4\n\"ƭôƥ ƨƥèèδ\" = 124.56\n\"Date of Manufacture\" = 2007-05-16T10:12:13.2324+04:00\ndrivers = [\"Bob\", \"Jane\", \"John\", \"Michael\", { disallowed = \"Chris\", banned=\"Sally\"}]\nproperties = { color = \"red\", \"plate number\" = \"ABC 345\",\n              accident_dates = [2008-09-29, 2011-01-16, 2014-11-30T03:13:54]}\n")

/-- tests/get_set.rs:92-116 -/
def docMixed : Str := (lit% "fish = \"halibut\"\n[[foo.\"bar\"]]\nbaz = 12345\nqux = 1981-04-15\n[[foo.\"bar\"]]\nbaz = 'something'\nqux = '''other'''\n[[foo.quality]]\nfurniture = \"chair\"\n[foo.quality.machine.parts.service]\n\"ƥèřïôδ\" = 24.7\n\"inline table\" = { drink = 5.5, meal = [ { start = 5 }, { start = 1980-05-14, end = 2002-10-19 } ], dessert = '''cake''' }\n[[foo.quality.labor]]\nName = 'Rïçλářδ'\n[[foo.quality.labor]]\nName = '§ƭèřℓïñϱ Âřçλèř'\n[[foo.quality]]\nmoney = 789.0123\n[[foo.\"bar\"]]\nbaz = 2016-03-10T12:31:02+07:30\nqux = \"\"\"ƒáβúℓôúƨ δïñôƨáúř\"\"\"\narray = [{one = 1}, {two = 2}, {you = [\"good\", \"\"\"bye\"\"\"], fire = \"truck\"}, {three = 3}]\n[foo]\n\"δïáϱñôƨïƨ\" = true\n\"ƥřôϱñôƨïƨ\" = \"not good\"\nhypnosis = 987654321\n")

/-- src/internals/parser.rs:438-459 -/
def docCars2 : Str := (lit% "animal = \"bear\"\n\n[[car.owners]]\nName = \"\"\"Bob Jones\"\"\"\nAge = 25\n[[car.owners]]\nName = 'Jane Doe'\nAge = 44\n\n[car.interior.seats]\ntype = '''fabric'''\ncount = 5\n\n[car]\nmodel = \"Civic\"\n\"ωλèèℓƨ\" = 4\n\"ƭôƥ ƨƥèèδ\" = 124.56\n\"Date of Manufacture\" = 2007-05-16T10:12:13.2324+04:00\ndrivers = [\"Bob\", \"Jane\", \"John\", \"Michael\", { disallowed = \"Chris\", banned=\"Sally\"}]\nproperties = { color = \"red\", \"plate number\" = \"ABC 345\",\n               accident_dates = [2008-09-29, 2011-01-16, 2014-11-30T03:13:54]}\n")

/-- tests/get_set.rs test_output_after_set -/
example : shown (load docCars [((lit% "car.interior.seats.type"), (Value.basicString (lit% "leather"))), ((lit% "car.interior.seats.type"), (Value.basicString (lit% "vinyl"))), ((lit% "car.owners[0].Age"), (Value.floatFromStr (lit% "19.5"))), ((lit% "car.owners[1].Name"), (Value.mlBasicString (lit% "Steve Parker"))), ((lit% "car.drivers[4].banned"), (Value.datetimeFromInt 2013 9 23 17 34 2)), ((lit% "car.properties.color"), (some (Value.ofInt 19))), ((lit% "car.properties.accident_dates[2]"), (some (.float (lit% "3443.34")))), ((lit% "car.drivers[1]"), (Value.mlLiteralString (lit% "Mark"))), ((lit% "car.properties"), (tabOf [((lit% "make"), (Value.literalString (lit% "Honda"))), ((lit% "transmission"), (some (.bool true)))])), ((lit% "car.drivers"), (arrOf [(Value.basicString (lit% "Phil")), (Value.basicString (lit% "Mary"))])), ((lit% "car.properties"), (tabOf [((lit% "prop1"), (Value.boolFromStr (lit% "TrUe"))), ((lit% "prop2"), (Value.boolFromStr (lit% "FALSE"))), ((lit% "prop3"), (Value.boolFromStr (lit% "truE"))), ((lit% "prop4"), (Value.boolFromStr (lit% "false")))])), ((lit% "car.drivers"), (arrOf [(some (Value.ofInt 1)), (some (Value.ofInt 2)), (some (Value.ofInt 3)), (some (Value.ofInt 4)), (some (Value.ofInt 5)), (some (Value.ofInt 6)), (some (Value.ofInt 7)), (some (Value.ofInt 8))])), ((lit% "car.model"), (Value.literalString (lit% "Accord"))), ((lit% "animal"), (Value.mlBasicString (lit% "shark")))]) (lit% "animal = \"\"\"shark\"\"\"\n\n[[car.owners]]\nName = \"\"\"Bob Jones\"\"\"\nAge = 19.5\n[[car.owners]]\nName = \"\"\"Steve Parker\"\"\"\nAge = 44\n\n[car.interior.seats]\ntype = \"vinyl\"\ncount = 5\n\n[car]\nmodel = 'Accord'\n\"ωλèèℓƨ\" = 4\n\"ƭôƥ ƨƥèèδ\" = 124.56\n\"Date of Manufacture\" = 2007-05-16T10:12:13.2324+04:00\ndrivers = [1, 2, 3, 4, 5, 6, 7, 8]\nproperties = { prop1 = true, prop2 = false, prop3 = true, prop4 = false }\n") = true := by decide +kernel

/-- tests/get_set.rs test_mixed_tables -/
example : (res docMixed == some .full) = true := by decide +kernel

/-- tests/get_set.rs test_basic_get_on_mixed_tables -/
example : gets (load docMixed []) [((lit% "fish"), (Value.basicString (lit% "halibut"))),
  ((lit% "foo.\"δïáϱñôƨïƨ\""), (some (.bool true))),
  ((lit% "foo.\"ƥřôϱñôƨïƨ\""), (Value.basicString (lit% "not good"))),
  ((lit% "foo.hypnosis"), (some (Value.ofInt 987654321))),
  ((lit% "foo.\"bar\"[0].baz"), (some (Value.ofInt 12345))),
  ((lit% "foo.\"bar\"[0].qux"), (Value.dateFromInt 1981 4 15)),
  ((lit% "foo.\"bar\"[1].baz"), (Value.literalString (lit% "something"))),
  ((lit% "foo.\"bar\"[1].qux"), (Value.mlLiteralString (lit% "other"))),
  ((lit% "foo.quality[0].furniture"), (Value.basicString (lit% "chair"))),
  ((lit% "foo.quality[0].machine.parts.service.\"ƥèřïôδ\""), (some (.float (lit% "24.7")))),
  ((lit% "foo.quality[0].machine.parts.service.\"inline table\".drink"), (some (.float (lit% "5.5")))),
  ((lit% "foo.quality[0].machine.parts.service.\"inline table\".meal[0].start"), (some (Value.ofInt 5))),
  ((lit% "foo.quality[0].machine.parts.service.\"inline table\".meal[1].end"), (Value.dateFromInt 2002 10 19)),
  ((lit% "foo.quality[0].labor[0].Name"), (Value.literalString (lit% "Rïçλářδ"))),
  ((lit% "foo.quality[0].labor[1].Name"), (Value.literalString (lit% "§ƭèřℓïñϱ Âřçλèř"))),
  ((lit% "foo.quality[1].money"), (some (.float (lit% "789.0123")))),
  ((lit% "foo.\"bar\"[2].baz"), (Value.datetimeOffsetFromInt 2016 3 10 12 31 2 '+' 7 30)),
  ((lit% "foo.\"bar\"[2].qux"), (Value.mlBasicString (lit% "ƒáβúℓôúƨ δïñôƨáúř"))),
  ((lit% "foo.\"bar\"[2].array[0].one"), (some (Value.ofInt 1))),
  ((lit% "foo.\"bar\"[2].array[2].you[0]"), (Value.basicString (lit% "good"))),
  ((lit% "foo.\"bar\"[2].array[2].you[1]"), (Value.mlBasicString (lit% "bye"))),
  ((lit% "foo.\"bar\"[2].array[2].fire"), (Value.basicString (lit% "truck"))),
  ((lit% "foo.\"bar\"[2].array[3].three"), (some (Value.ofInt 3)))] = true := by decide +kernel

/-- tests/get_set.rs test_get_children_on_mixed_tables -/
example : kids (load docMixed []) [((lit% "fish"), .count 0),
  ((lit% "foo.\"δïáϱñôƨïƨ\""), .count 0),
  ((lit% "foo.\"bar\""), .count 3),
  ((lit% "foo.\"bar\"[0]"), .keys [(lit% "baz"), (lit% "qux")]),
  ((lit% "foo.\"bar\"[1]"), .keys [(lit% "baz"), (lit% "qux")]),
  ((lit% "foo.quality"), .count 2),
  ((lit% "foo.quality[0]"), .keys [(lit% "furniture"), (lit% "machine"), (lit% "labor")]),
  ((lit% "foo.quality[0].machine.parts.service"), .keys [(lit% "\"ƥèřïôδ\""), (lit% "\"inline table\"")]),
  ((lit% "foo.quality[0].machine.parts.service.\"inline table\""), .keys [(lit% "drink"), (lit% "meal"), (lit% "dessert")]),
  ((lit% "foo.quality[0].machine.parts.service.\"inline table\".meal"), .count 2),
  ((lit% "foo.quality[0].machine.parts.service.\"inline table\".meal[1]"), .keys [(lit% "start"), (lit% "end")]),
  ((lit% "foo.quality[0].labor"), .count 2),
  ((lit% "foo.quality[0].labor[0]"), .keys [(lit% "Name")]),
  ((lit% "foo.quality[0].labor[1]"), .keys [(lit% "Name")]),
  ((lit% "foo.quality[1]"), .keys [(lit% "money")]),
  ((lit% "foo.\"bar\"[2]"), .keys [(lit% "baz"), (lit% "qux"), (lit% "array")]),
  ((lit% "foo.\"bar\"[2].array"), .count 4),
  ((lit% "foo.\"bar\"[2].array[0]"), .keys [(lit% "one")]),
  ((lit% "foo.\"bar\"[2].array[1]"), .keys [(lit% "two")]),
  ((lit% "foo.\"bar\"[2].array[2]"), .keys [(lit% "you"), (lit% "fire")]),
  ((lit% "foo.\"bar\"[2].array[2].you"), .count 2),
  ((lit% "foo.\"bar\"[2].array[3]"), .keys [(lit% "three")]),
  ((lit% "foo"), .keys [(lit% "\"bar\""), (lit% "quality"), (lit% "\"δïáϱñôƨïƨ\""), (lit% "\"ƥřôϱñôƨïƨ\""), (lit% "hypnosis")])] = true := by decide +kernel

/-- tests/get_set.rs test_basic_set_then_get_on_mixed_tables (every assignment succeeds) -/
example : setsOk (load docMixed []) [((lit% "fish"), (some (Value.ofInt 1))),
  ((lit% "foo.\"δïáϱñôƨïƨ\""), (some (Value.ofInt 2))),
  ((lit% "foo.\"ƥřôϱñôƨïƨ\""), (some (.float (lit% "1.2")))),
  ((lit% "foo.hypnosis"), (some (.float (lit% "2.3")))),
  ((lit% "foo.\"bar\"[0].baz"), (some (.float (lit% "3.4")))),
  ((lit% "foo.\"bar\"[0].qux"), (some (.bool true))),
  ((lit% "foo.\"bar\"[1].baz"), (some (.bool false))),
  ((lit% "foo.\"bar\"[1].qux"), (Value.basicString (lit% "ONE"))),
  ((lit% "foo.quality[0].furniture"), (Value.dateFromInt 2000 1 1)),
  ((lit% "foo.quality[0].machine.parts.service.\"ƥèřïôδ\""), (Value.datetimeFromInt 2001 2 2 1 1 1)),
  ((lit% "foo.quality[0].machine.parts.service.\"inline table\""), (tabOf [((lit% "KEYONE"), (Value.literalString (lit% "VALUEONE"))), ((lit% "KEYTWO"), (Value.literalString (lit% "VALUETWO")))])),
  ((lit% "foo.quality[0].labor[0].Name"), (Value.mlBasicString (lit% "TWO"))),
  ((lit% "foo.quality[0].labor[1].Name"), (Value.mlLiteralString (lit% "THREE"))),
  ((lit% "foo.quality[1].money"), (dtp (lit% "2002-03-03T02:02:02.01234-08:35"))),
  ((lit% "foo.\"bar\"[2].baz"), (dtp (lit% "2003-04-04"))),
  ((lit% "foo.\"bar\"[2].qux"), (dtp (lit% "2004-05-05T03:03:03"))),
  ((lit% "foo.\"bar\"[2].array"), (arrOf [(some (Value.ofInt 3)), (some (Value.ofInt 4)), (some (Value.ofInt 5)), (some (Value.ofInt 6)), (some (Value.ofInt 7))]))] = true := by decide +kernel

/-- tests/get_set.rs test_basic_set_then_get_on_mixed_tables (values read back) -/
example : gets (load docMixed [((lit% "fish"), (some (Value.ofInt 1))),
  ((lit% "foo.\"δïáϱñôƨïƨ\""), (some (Value.ofInt 2))),
  ((lit% "foo.\"ƥřôϱñôƨïƨ\""), (some (.float (lit% "1.2")))),
  ((lit% "foo.hypnosis"), (some (.float (lit% "2.3")))),
  ((lit% "foo.\"bar\"[0].baz"), (some (.float (lit% "3.4")))),
  ((lit% "foo.\"bar\"[0].qux"), (some (.bool true))),
  ((lit% "foo.\"bar\"[1].baz"), (some (.bool false))),
  ((lit% "foo.\"bar\"[1].qux"), (Value.basicString (lit% "ONE"))),
  ((lit% "foo.quality[0].furniture"), (Value.dateFromInt 2000 1 1)),
  ((lit% "foo.quality[0].machine.parts.service.\"ƥèřïôδ\""), (Value.datetimeFromInt 2001 2 2 1 1 1)),
  ((lit% "foo.quality[0].machine.parts.service.\"inline table\""), (tabOf [((lit% "KEYONE"), (Value.literalString (lit% "VALUEONE"))), ((lit% "KEYTWO"), (Value.literalString (lit% "VALUETWO")))])),
  ((lit% "foo.quality[0].labor[0].Name"), (Value.mlBasicString (lit% "TWO"))),
  ((lit% "foo.quality[0].labor[1].Name"), (Value.mlLiteralString (lit% "THREE"))),
  ((lit% "foo.quality[1].money"), (dtp (lit% "2002-03-03T02:02:02.01234-08:35"))),
  ((lit% "foo.\"bar\"[2].baz"), (dtp (lit% "2003-04-04"))),
  ((lit% "foo.\"bar\"[2].qux"), (dtp (lit% "2004-05-05T03:03:03"))),
  ((lit% "foo.\"bar\"[2].array"), (arrOf [(some (Value.ofInt 3)), (some (Value.ofInt 4)), (some (Value.ofInt 5)), (some (Value.ofInt 6)), (some (Value.ofInt 7))]))]) [((lit% "fish"), (some (Value.ofInt 1))),
  ((lit% "foo.\"δïáϱñôƨïƨ\""), (some (Value.ofInt 2))),
  ((lit% "foo.\"ƥřôϱñôƨïƨ\""), (some (.float (lit% "1.2")))),
  ((lit% "foo.hypnosis"), (some (.float (lit% "2.3")))),
  ((lit% "foo.\"bar\"[0].baz"), (some (.float (lit% "3.4")))),
  ((lit% "foo.\"bar\"[0].qux"), (some (.bool true))),
  ((lit% "foo.\"bar\"[1].baz"), (some (.bool false))),
  ((lit% "foo.\"bar\"[1].qux"), (Value.basicString (lit% "ONE"))),
  ((lit% "foo.quality[0].furniture"), (Value.dateFromInt 2000 1 1)),
  ((lit% "foo.quality[0].machine.parts.service.\"ƥèřïôδ\""), (Value.datetimeFromInt 2001 2 2 1 1 1)),
  ((lit% "foo.quality[0].machine.parts.service.\"inline table\".KEYONE"), (Value.literalString (lit% "VALUEONE"))),
  ((lit% "foo.quality[0].machine.parts.service.\"inline table\".KEYTWO"), (Value.literalString (lit% "VALUETWO"))),
  ((lit% "foo.quality[0].labor[0].Name"), (Value.mlBasicString (lit% "TWO"))),
  ((lit% "foo.quality[0].labor[1].Name"), (Value.mlLiteralString (lit% "THREE"))),
  ((lit% "foo.quality[1].money"), (dtp (lit% "2002-03-03T02:02:02.01234-08:35"))),
  ((lit% "foo.\"bar\"[2].baz"), (dtp (lit% "2003-04-04"))),
  ((lit% "foo.\"bar\"[2].qux"), (dtp (lit% "2004-05-05T03:03:03"))),
  ((lit% "foo.\"bar\"[2].array[0]"), (some (Value.ofInt 3))),
  ((lit% "foo.\"bar\"[2].array[1]"), (some (Value.ofInt 4))),
  ((lit% "foo.\"bar\"[2].array[2]"), (some (Value.ofInt 5))),
  ((lit% "foo.\"bar\"[2].array[3]"), (some (Value.ofInt 6))),
  ((lit% "foo.\"bar\"[2].array[4]"), (some (Value.ofInt 7)))] = true := by decide +kernel

/-- tests/get_set.rs test_mixed_mixed_array_fail -/
example : (match res (lit% "[[foo.\"bar\"]]\nbaz = 2016-03-10T12:31:02+07:30\nqux = \"\"\"ƒáβúℓôúƨ δïñôƨáúř\"\"\"\narray = [1, 2, {you = [\"good\", \"\"\"bye\"\"\"], fire = \"truck\"}, 3]\n[owner]\na_key = \"a value\"\n") with | some (.fullError (.mixedArray k 4 _ :: _)) => k == (lit% "foo.\"bar\"[0].array") | _ => false) = true := by decide +kernel

/-- tests/get_set.rs test_mixed_mixed_array_in_inline_table_fail -/
example : (match res (lit% "[foo.quality.machine.parts.service]\n\"ƥèřïôδ\" = 24.7\n\"inline table\" = { drink = 5.5, meal = [ 6, { start = 1980-05-14, end = 2002-10-19 } ], dessert = '''cake''' }\n[owner]\na_key = \"a value\"\n") with | some (.fullError (.mixedArray k 3 _ :: _)) => k == (lit% "foo.quality.machine.parts.service.\"inline table\".meal") | _ => false) = true := by decide +kernel

/-- tests/get_set.rs test_invalid_table_fail -/
example : (match res (lit% "[foo.quality]\n\"ƥèřïôδ\" = 24.7\n[owner]\na_key = \"a value\"\n[foo.quality]\nKEYONE = \"VALUEONE\"\nKEYTWO = \"VALUETWO\"\n") with | some (.fullError (.invalidTable k 5 _ m :: _)) => k == (lit% "foo.quality") && m.get? (lit% "KEYONE") == Value.basicString (lit% "VALUEONE") && m.get? (lit% "KEYTWO") == Value.basicString (lit% "VALUETWO") | _ => false) = true := by decide +kernel

/-- tests/get_set.rs test_duplicate_key_fail -/
example : (match res (lit% "[foo.quality]\n\"ƥèřïôδ\" = 24.7\n[owner]\na_key = \"a value\"\na_key = 'ANOTHER VALUE'\n[foo.quality]\nKEYONE = \"VALUEONE\"\n") with | some (.fullError (.duplicateKey k 5 _ v :: _)) => k == (lit% "owner.a_key") && some v == Value.literalString (lit% "ANOTHER VALUE") | _ => false) = true := by decide +kernel

/-- tests/get_set.rs test_invalid_datetime_fail -/
example : (match res (lit% "[foo.quality]\n\"ƥèřïôδ\" = 24.7\n[owner]\na_key = \"a value\"\nb_key = 2010-02-29T03:03:03.3333Z\n[foo.quality]\nKEYONE = \"VALUEONE\"\n") with | some (.fullError (.invalidDateTime k 5 _ t :: _)) => k == (lit% "owner.b_key") && t == (lit% "2010-02-29T03:03:03.3333Z") | _ => false) = true := by decide +kernel

/-- tests/get_set.rs test_nested_empty_table -/
example : (res (lit% "[foo]\n\n[foo.bar]\nkey = 1234\n") == some .full) = true := by decide +kernel

/-- tests/get_set.rs test_nested_table_with_keys -/
example : (match res (lit% "[foo]\nerror = true\n\n[foo.bar]\nkey = 1234\n") with | some .full => false | some _ => true | none => false) = true := by decide +kernel

/-- src/internals/parser.rs test_set_bare_key -/
example : gets (load docCars2 [((lit% "animal"), (Value.mlBasicString (lit% "shark")))]) [((lit% "animal"), (some (.str (lit% "shark") .mlBasic)))] = true := by decide +kernel

/-- src/internals/parser.rs test_set_table_key -/
example : gets (load docCars2 [((lit% "car.model"), (Value.literalString (lit% "Accord")))]) [((lit% "car.model"), (some (.str (lit% "Accord") .literal)))] = true := by decide +kernel

/-- src/internals/parser.rs test_set_array_element_key -/
example : gets (load docCars2 [((lit% "car.drivers[1]"), (Value.mlLiteralString (lit% "Mark")))]) [((lit% "car.drivers[1]"), (some (.str (lit% "Mark") .mlLiteral)))] = true := by decide +kernel

/-- src/internals/parser.rs test_set_nested_aray_element_key -/
example : gets (load docCars2 [((lit% "car.properties.accident_dates[2]"), (some (.float (lit% "3443.34"))))]) [((lit% "car.properties.accident_dates[2]"), (some (.float (lit% "3443.34"))))] = true := by decide +kernel

/-- src/internals/parser.rs test_set_inline_table_element_key -/
example : gets (load docCars2 [((lit% "car.properties.color"), (some (Value.ofInt 19)))]) [((lit% "car.properties.color"), (some (.int (lit% "19"))))] = true := by decide +kernel

/-- src/internals/parser.rs test_truncate_array -/
example : gets (load docCars2 [((lit% "car.drivers"), (arrOf [(Value.basicString (lit% "Phil")), (Value.basicString (lit% "Mary"))]))]) [((lit% "car.drivers"), (arrOf [(some (.str (lit% "Phil") .basic)), (some (.str (lit% "Mary") .basic))]))] = true := by decide +kernel

/-- src/internals/parser.rs test_truncate_inline_table -/
example : gets (load docCars2 [((lit% "car.properties"), (tabOf [((lit% "make"), (Value.literalString (lit% "Honda"))), ((lit% "transmission"), (some (.bool true)))]))]) [((lit% "car.properties"), (tabOf [((lit% "make"), (some (.str (lit% "Honda") .literal))), ((lit% "transmission"), (some (.bool true)))]))] = true := by decide +kernel

/-- src/internals/parser.rs test_extend_array -/
example : gets (load docCars2 [((lit% "car.drivers"), (arrOf [(some (Value.ofInt 1)), (some (Value.ofInt 2)), (some (Value.ofInt 3)), (some (Value.ofInt 4)), (some (Value.ofInt 5)), (some (Value.ofInt 6)), (some (Value.ofInt 7)), (some (Value.ofInt 8))]))]) [((lit% "car.drivers"), (arrOf [(some (.int (lit% "1"))), (some (.int (lit% "2"))), (some (.int (lit% "3"))), (some (.int (lit% "4"))), (some (.int (lit% "5"))), (some (.int (lit% "6"))), (some (.int (lit% "7"))), (some (.int (lit% "8")))]))] = true := by decide +kernel

/-- src/internals/parser.rs test_extend_inline_table -/
example : gets (load docCars2 [((lit% "car.properties"), (tabOf [((lit% "prop1"), (Value.boolFromStr (lit% "TrUe"))), ((lit% "prop2"), (Value.boolFromStr (lit% "FALSE"))), ((lit% "prop3"), (Value.boolFromStr (lit% "truE"))), ((lit% "prop4"), (Value.boolFromStr (lit% "false")))]))]) [((lit% "car.properties"), (tabOf [((lit% "prop1"), (some (.bool true))), ((lit% "prop2"), (some (.bool false))), ((lit% "prop3"), (some (.bool true))), ((lit% "prop4"), (some (.bool false)))]))] = true := by decide +kernel

/-- src/internals/parser.rs test_set_implicit_table_key -/
example : gets (load docCars2 [((lit% "car.interior.seats.type"), (Value.basicString (lit% "leather")))]) [((lit% "car.interior.seats.type"), (some (.str (lit% "leather") .basic)))] = true := by decide +kernel

/-- src/internals/parser.rs test_set_array_of_table0_key -/
example : gets (load docCars2 [((lit% "car.owners[0].Age"), (Value.floatFromStr (lit% "19.5")))]) [((lit% "car.owners[0].Age"), (some (.float (lit% "19.5"))))] = true := by decide +kernel

/-- src/internals/parser.rs test_set_array_of_table1_key -/
example : gets (load docCars2 [((lit% "car.owners[1].Name"), (Value.mlBasicString (lit% "Steve Parker")))]) [((lit% "car.owners[1].Name"), (some (.str (lit% "Steve Parker") .mlBasic)))] = true := by decide +kernel

/-- src/internals/parser.rs test_truncate_array_check_keys -/
example : gets (load docCars2 [((lit% "database.ports"), (Value.datetimeFromInt 2000 2 16 10 31 6))]) [((lit% "database.ports[0]"), none),
  ((lit% "database.ports[1]"), none),
  ((lit% "database.ports[2]"), none),
  ((lit% "database.ports[2][0]"), none),
  ((lit% "database.ports[2][1]"), none)] = true := by decide +kernel

/-- src/internals/parser.rs test_truncate_inline_table_check_keys -/
example : gets (load docCars2 [((lit% "database.servers"), (Value.datetimeFromStr (lit% "4000") (lit% "02") (lit% "27") (lit% "01") (lit% "59") (lit% "59")))]) [((lit% "database.servers.main"), none),
  ((lit% "database.servers.failover1"), none),
  ((lit% "database.servers.failover2"), none),
  ((lit% "database.servers.failover2.something"), none),
  ((lit% "database.servers.failover2.nothing"), none)] = true := by decide +kernel

/-- src/internals/parser.rs: the tests that only read values -/
example : gets (load docCars2 []) [((lit% "animal"), (Value.basicString (lit% "bear"))),
  ((lit% "car.model"), (Value.basicString (lit% "Civic"))),
  ((lit% "car.\"ωλèèℓƨ\""), (Value.intFromStr (lit% "4"))),
  ((lit% "car.\"ƭôƥ ƨƥèèδ\""), (Value.floatFromStr (lit% "124.56"))),
  ((lit% "car.drivers[0]"), (Value.basicString (lit% "Bob"))),
  ((lit% "car.drivers[1]"), (Value.basicString (lit% "Jane"))),
  ((lit% "car.drivers[2]"), (Value.basicString (lit% "John"))),
  ((lit% "car.drivers[3]"), (Value.basicString (lit% "Michael"))),
  ((lit% "car.drivers[4].disallowed"), (Value.basicString (lit% "Chris"))),
  ((lit% "car.drivers[4].banned"), (Value.basicString (lit% "Sally"))),
  ((lit% "car.properties.color"), (Value.basicString (lit% "red"))),
  ((lit% "car.properties.\"plate number\""), (Value.basicString (lit% "ABC 345"))),
  ((lit% "car.properties.accident_dates[0]"), (Value.dateFromStr (lit% "2008") (lit% "09") (lit% "29"))),
  ((lit% "car.properties.accident_dates[1]"), (Value.dateFromInt 2011 1 16)),
  ((lit% "car.properties.accident_dates[2]"), (Value.datetimeFromStr (lit% "2014") (lit% "11") (lit% "30") (lit% "03") (lit% "13") (lit% "54"))),
  ((lit% "car.interior.seats.type"), (Value.mlLiteralString (lit% "fabric"))),
  ((lit% "car.interior.seats.count"), (Value.intFromStr (lit% "5"))),
  ((lit% "car.owners[0].Name"), (Value.mlBasicString (lit% "Bob Jones"))),
  ((lit% "car.owners[0].Age"), (some (Value.ofInt 25))),
  ((lit% "car.owners[1].Name"), (Value.literalString (lit% "Jane Doe"))),
  ((lit% "car.owners[1].Age"), (some (Value.ofInt 44)))] = true := by decide +kernel

/-- src/internals/parser.rs: the tests that only read children -/
example : kids (load docCars2 []) [((lit% ""), .keys [(lit% "animal"), (lit% "car")]),
  ((lit% "car"), .keys [(lit% "owners"), (lit% "interior"), (lit% "model"), (lit% "\"ωλèèℓƨ\""), (lit% "\"ƭôƥ ƨƥèèδ\""), (lit% "\"Date of Manufacture\""), (lit% "drivers"), (lit% "properties")]),
  ((lit% "car.drivers"), .count 5),
  ((lit% "car.properties"), .keys [(lit% "color"), (lit% "\"plate number\""), (lit% "accident_dates")]),
  ((lit% "car.drivers[4]"), .keys [(lit% "disallowed"), (lit% "banned")]),
  ((lit% "car.properties.accident_dates"), .count 3),
  ((lit% "car.interior.seats"), .keys [(lit% "type"), (lit% "count")]),
  ((lit% "car.owners"), .count 2),
  ((lit% "car.owners[0]"), .keys [(lit% "Name"), (lit% "Age")]),
  ((lit% "car.owners[1]"), .keys [(lit% "Name"), (lit% "Age")])] = true := by decide +kernel

/-- src/types.rs: constructor calls that must succeed -/
example : ([(some (Value.ofInt 9223372036854775807)),
  (Value.intFromStr (lit% "-9223372036854775808")),
  (Value.floatFromStr (lit% "2.22507e-308")),
  (Value.boolFromStr (lit% "TrUe")),
  (Value.dateFromInt 2012 1 3),
  (Value.dateFromStr (lit% "2012") (lit% "01") (lit% "03")),
  (Value.datetimeFromInt 2012 1 3 3 30 30),
  (Value.datetimeFromStr (lit% "2012") (lit% "01") (lit% "03") (lit% "03") (lit% "30") (lit% "30")),
  (Value.datetimeFracFromInt 2012 1 3 3 30 30 3030),
  (Value.datetimeFracFromStr (lit% "2012") (lit% "01") (lit% "03") (lit% "03") (lit% "30") (lit% "30") (lit% "3030")),
  (Value.datetimeOffsetFromInt 2012 1 3 3 30 30 '+' 7 45),
  (Value.datetimeOffsetFromStr (lit% "2012") (lit% "01") (lit% "03") (lit% "03") (lit% "30") (lit% "30") (lit% "+") (lit% "07") (lit% "45")),
  (Value.datetimeZuluFromInt 2012 1 3 3 30 30),
  (Value.datetimeZuluFromStr (lit% "2012") (lit% "01") (lit% "03") (lit% "03") (lit% "30") (lit% "30")),
  (Value.datetimeFullZuluFromInt 2012 1 3 3 30 30 3030),
  (Value.datetimeFullZuluFromStr (lit% "2012") (lit% "01") (lit% "03") (lit% "03") (lit% "30") (lit% "30") (lit% "3030")),
  (Value.datetimeFullFromInt 2012 1 3 3 30 30 3030 '+' 7 45),
  (Value.datetimeFullFromStr (lit% "2012") (lit% "01") (lit% "03") (lit% "03") (lit% "30") (lit% "30") (lit% "3030") (lit% "+") (lit% "07") (lit% "45")),
  (dtp (lit% "2012-01-03T03:30:30.3030+07:45")),
  (dtp (lit% "2012-01-03T03:30:30.3030Z")),
  (dtp (lit% "2012-01-03T03:30:30Z")),
  (dtp (lit% "2012-01-03T03:30:30+07:45")),
  (dtp (lit% "2012-01-03T03:30:30")),
  (dtp (lit% "2012-01-03")),
  (Value.basicString (lit% "foobar")),
  (Value.mlBasicString (lit% "foobar")),
  (Value.literalString (lit% "foobar")),
  (Value.mlLiteralString (lit% "foobar"))] : List (Option Value)).all Option.isSome = true := by decide +kernel

/-- src/types.rs: constructor calls that must fail -/
example : ([(Value.intFromStr (lit% "q-9223$37(203)[]M807")),
  (Value.floatFromStr (lit% "q2.3e++10eipi")),
  (Value.boolFromStr (lit% "TFraulese")),
  (Value.dateFromInt 0 2 20),
  (Value.dateFromInt 2016 0 20),
  (Value.dateFromInt 2016 1 0),
  (Value.dateFromInt 2016 1 32),
  (Value.dateFromInt 2016 4 31),
  (Value.dateFromInt 2016 2 30),
  (Value.dateFromInt 2015 2 29),
  (Value.dateFromInt 1900 2 29),
  (Value.dateFromInt 2000 2 30),
  (Value.dateFromStr (lit% "12345") (lit% "01") (lit% "01")),
  (Value.dateFromStr (lit% "2016") (lit% "012") (lit% "01")),
  (Value.dateFromStr (lit% "2016") (lit% "01") (lit% "012")),
  (Value.dateFromStr (lit% "201q") (lit% "01") (lit% "01")),
  (Value.dateFromStr (lit% "2016") (lit% "0q") (lit% "01")),
  (Value.dateFromStr (lit% "2016") (lit% "01") (lit% "0q")),
  (Value.dateFromStr (lit% "201") (lit% "01") (lit% "01")),
  (Value.dateFromStr (lit% "2016") (lit% "1") (lit% "01")),
  (Value.dateFromStr (lit% "2016") (lit% "01") (lit% "1")),
  (Value.datetimeFromInt 2012 1 3 24 30 30),
  (Value.datetimeFromInt 2012 1 3 3 60 30),
  (Value.datetimeFromInt 2012 1 3 3 30 60),
  (Value.datetimeFromStr (lit% "2012") (lit% "01") (lit% "03") (lit% "3") (lit% "30") (lit% "30")),
  (Value.datetimeFromStr (lit% "2012") (lit% "01") (lit% "03") (lit% "03") (lit% "3") (lit% "30")),
  (Value.datetimeFromStr (lit% "2012") (lit% "01") (lit% "03") (lit% "03") (lit% "30") (lit% "3")),
  (Value.datetimeFromStr (lit% "2012") (lit% "01") (lit% "03") (lit% "033") (lit% "30") (lit% "30")),
  (Value.datetimeFromStr (lit% "2012") (lit% "01") (lit% "03") (lit% "03") (lit% "303") (lit% "303")),
  (Value.datetimeFromStr (lit% "2012") (lit% "01") (lit% "03") (lit% "0q") (lit% "30") (lit% "30")),
  (Value.datetimeFromStr (lit% "2012") (lit% "01") (lit% "03") (lit% "03") (lit% "3q") (lit% "30")),
  (Value.datetimeFromStr (lit% "2012") (lit% "01") (lit% "03") (lit% "03") (lit% "30") (lit% "3q")),
  (Value.datetimeFracFromInt 2012 1 0 3 30 30 3030),
  (Value.datetimeFracFromStr (lit% "2012") (lit% "01") (lit% "03") (lit% "03") (lit% "30") (lit% "30") (lit% "q3030")),
  (Value.datetimeOffsetFromInt 2012 1 3 3 30 30 'q' 7 45),
  (Value.datetimeOffsetFromInt 2012 1 3 3 30 30 '+' 24 45),
  (Value.datetimeOffsetFromInt 2012 1 3 3 30 30 '+' 7 60),
  (Value.datetimeOffsetFromStr (lit% "2012") (lit% "01") (lit% "03") (lit% "03") (lit% "30") (lit% "30") (lit% "+") (lit% "077") (lit% "45")),
  (Value.datetimeOffsetFromStr (lit% "2012") (lit% "01") (lit% "03") (lit% "03") (lit% "30") (lit% "30") (lit% "+") (lit% "07") (lit% "455")),
  (Value.datetimeOffsetFromStr (lit% "2012") (lit% "01") (lit% "03") (lit% "03") (lit% "30") (lit% "30") (lit% "+") (lit% "7") (lit% "45")),
  (Value.datetimeOffsetFromStr (lit% "2012") (lit% "01") (lit% "03") (lit% "03") (lit% "30") (lit% "30") (lit% "+") (lit% "07") (lit% "5")),
  (Value.datetimeOffsetFromStr (lit% "2012") (lit% "01") (lit% "03") (lit% "03") (lit% "30") (lit% "30") (lit% "q") (lit% "07") (lit% "45")),
  (Value.datetimeZuluFromInt 2012 1 0 3 30 30),
  (Value.datetimeZuluFromStr (lit% "q2012") (lit% "01") (lit% "03") (lit% "03") (lit% "30") (lit% "30")),
  (Value.datetimeFullZuluFromInt 2012 1 0 3 30 30 3030),
  (Value.datetimeFullZuluFromStr (lit% "q2012") (lit% "01") (lit% "03") (lit% "03") (lit% "30") (lit% "30") (lit% "3030")),
  (Value.datetimeFullFromInt 2012 1 0 3 30 30 3030 '+' 7 45),
  (Value.datetimeFullFromInt 2012 13 0 3 30 30 3030 '+' 7 45),
  (Value.datetimeFullFromInt 2012 1 0 3 61 30 3030 '+' 7 45),
  (Value.datetimeFullFromInt 2012 1 0 3 30 30 3030 '+' 25 45),
  (Value.datetimeFullFromInt 2012 1 0 3 30 30 3030 'q' 7 45),
  (Value.datetimeFullFromStr (lit% "2012") (lit% "01") (lit% "03") (lit% "03") (lit% "30") (lit% "30") (lit% "q3030") (lit% "+") (lit% "07") (lit% "45")),
  (Value.datetimeFullFromStr (lit% "2012") (lit% "01") (lit% "03") (lit% "03") (lit% "30") (lit% "30") (lit% "3030") (lit% "q") (lit% "07") (lit% "45")),
  (dtp (lit% "012-01-03T03:30:30.3030+07:45")),
  (dtp (lit% "2012-1-03T03:30:30.3030+07:45")),
  (dtp (lit% "2012-01-3T03:30:30.3030+07:45")),
  (dtp (lit% "2012-01-03T3:30:30.3030+07:45")),
  (dtp (lit% "2012-01-03T03:0:30.3030+07:45")),
  (dtp (lit% "2012-01-03T03:30:0.3030+07:45")),
  (dtp (lit% "2012-01-03T03:30:30.+07:45")),
  (dtp (lit% "2012-01-03T03:30:30.303007:45")),
  (dtp (lit% "2012-01-03T03:30:30.3030+7:45")),
  (dtp (lit% "2012-01-03T03:30:30.3030+07:5")),
  (dtp (lit% "20123-01-03T03:30:30.3030+07:45")),
  (dtp (lit% "2012-013-03T03:30:30.3030+07:45")),
  (dtp (lit% "2012-01-033T03:30:30.3030+07:45")),
  (dtp (lit% "2012-01-03T033:30:30.3030+07:45")),
  (dtp (lit% "2012-01-03T03:303:30.3030+07:45")),
  (dtp (lit% "2012-01-03T03:30:303.3030+07:45")),
  (dtp (lit% "2012-01-03T03:30:30.3030+073:45")),
  (dtp (lit% "2012-01-03T03:30:30.3030+07:453")),
  (dtp (lit% "2012q01-03T03:30:30.3030+07:45")),
  (dtp (lit% "2012-01q03T03:30:30.3030+07:45")),
  (dtp (lit% "2012-01-03q03:30:30.3030+07:45")),
  (dtp (lit% "2012-01-03T03q30:30.3030+07:45")),
  (dtp (lit% "2012-01-03T03:30q30.3030+07:45")),
  (dtp (lit% "2012-01-03T03:30:30q3030+07:45")),
  (dtp (lit% "2012-01-03T03:30:30.3030q07:45")),
  (dtp (lit% "2012-01-03T03:30:30.3030+07q45")),
  (Value.basicString (lit% "foo\nbar")),
  (Value.mlLiteralString (lit% "foobar"))] : List (Option Value)).all Option.isNone = true := by decide +kernel

end Tomllib.Conformance
