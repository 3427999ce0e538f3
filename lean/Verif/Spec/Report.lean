import Verif.Spec.Accept
import Verif.Spec.Bad
/-!
# What is reported about a document

The list of errors, in order, with keys and line numbers, of a document whose only faults are arrays of mixed types, dates and times that do not exist, keys that
are given a second, simple value, and headers of tables that are not in order, without arrays below these. Arrays of tables are in order. Lines are counted as in Spec/Lines.lean.
-/

namespace Tomllib

mutual
/-- The keys of inline tables are distinct. -/
def VT.distinct : VT → Bool
  | .leaf _ => true
  | .arr es _ _ => es.distinct
  | .itab kvs _ => kvs.distinct
def Elems.distinct : Elems → Bool
  | .nil => true
  | .cons v _ _ r => v.distinct && r.distinct
def Pairs.distinct : Pairs → Bool
  | .nil => true
  | .cons k _ v _ _ r => v.distinct && !r.keys.contains k && r.distinct
end

/-- An array at `P` turns out to be mixed at its element `i`, in line `n`. This is reported unless the error before is about something else, or about an array whose key
begins the key of the element. -/
def mixedAt (P : List Key) (i n : Nat) (es : List ParseError) : List ParseError :=
  match es.getLast? with
  | some (.mixedArray k _ _) => if k.isPrefixOf (keyOf [] (P ++ [.idx i])) then es else es ++ [.mixedArray (keyOf [] P) n 0]
  | some _ => es
  | none => es ++ [.mixedArray (keyOf [] P) n 0]

mutual
/-- The errors after reading the value of the path `P` in line `n`; there were `es` before. -/
def VT.report (P : List Key) (n : Nat) (es : List ParseError) : VT → List ParseError
  | .leaf (.dt d) => if d.real then es else es ++ [.invalidDateTime (keyOf [] P) n 0 d.text]
  | .leaf _ => es
  | .arr vs _ _ => vs.report P 0 .none n es
  | .itab kvs _ => kvs.report P n es
/-- The elements from `i` on; `prev` is the kind of the element before, `.none` at the beginning. -/
def Elems.report (P : List Key) (i : Nat) (prev : ArrayType) (n : Nat) (es : List ParseError) : Elems → List ParseError
  | .nil => es
  | .cons v _ _ r =>
    r.report P (i + 1) v.kind (n + v.counted)
      (if prev = .none ∨ prev = v.kind then v.report (P ++ [.idx i]) n es else mixedAt P i (n + v.counted) (v.report (P ++ [.idx i]) n es))
def Pairs.report (P : List Key) (n : Nat) (es : List ParseError) : Pairs → List ParseError
  | .nil => es
  | .cons k _ v _ _ r => r.report P (n + v.counted) (v.report (P ++ [.str k]) n es)
end

namespace Account

/-- A pair below a header that was not in order goes to the error about the header, if that is the last one; otherwise it is lost. -/
def keep (k : Str) (v : Value) (es : List ParseError) : List ParseError :=
  match es.getLast? with
  | some (.invalidTable key l c m) => es.dropLast ++ [.invalidTable key l c (m.insert k v)]
  | _ => es

end Account

mutual
/-- The errors after reading a value without arrays below a header that was not in order: the pairs of inline tables go where the pairs of the table go, the innermost first. -/
def VT.lose (P : List Key) (n : Nat) (es : List ParseError) : VT → List ParseError
  | .leaf s => (VT.leaf s).report P n es
  | .arr _ _ _ => es
  | .itab kvs _ => kvs.lose P n es
def Pairs.lose (P : List Key) (n : Nat) (es : List ParseError) : Pairs → List ParseError
  | .nil => es
  | .cons k _ v _ _ r => r.lose P (n + v.counted) (Account.keep k v.value (v.lose (P ++ [.str k]) n es))
end

/-- The value is neither an array nor an inline table. -/
def VT.simple : VT → Bool
  | .leaf _ => true
  | _ => false

namespace Sections

/-- A key that has a value already, or is a table with a header, is given a simple value. -/
def again (D : Sections) (k : Str) (v : VT) : Bool :=
  v.simple && ((D.valueAt (D.here ++ [.str k])).isSome || D.here ++ [.str k] ∈ D.heads)

/-- The key that is reported with a header which is not in order: that of the table, and if the name is that of an open array of tables, the last part of the name in the
last element of the array. -/
def badKey (D : Sections) (N : List Str) : List Key := if N ∈ D.opened then D.path [] N ++ [.str (N.getLastD [])] else D.target N

/-- After a header which is not in order: as after any header, arrays of tables are open only if the header is inside of them, and this is where the keys that follow are
looked for. -/
def spoil (D : Sections) (N : List Str) : Sections :=
  { D with
    opened := D.opened.filter fun P => P.isPrefixOf N
    here := D.path [] ((D.opened.filter fun P => P.isPrefixOf N).getLastD []) }

end Sections

/-- What has been read of a document with errors. -/
structure Account where
  /-- what it says -/
  doc : Sections := {}
  /-- the last header was not in order -/
  lost : Bool := false
  /-- the errors -/
  errors : List ParseError := []

namespace Account

/-- The faults that are described here.
* A value is new and the keys of its inline tables are distinct, or it is simple and the key has a value. Below a header that was not in order it contains no array.
* The header of a table may be anything that is refused; the header of an array of tables is in order. -/
def allows (R : Account) : ET → Prop
  | .kv _ k _ v _ _ => if R.lost then v.arrayless = true else ((R.doc.here, k) ∉ R.doc.names ∧ v.distinct = true) ∨ R.doc.again k v = true
  | .table w1 (.std t) w2 c => R.doc.fits (.table w1 (.std t) w2 c) ∨ R.doc.regular (.table w1 (.std t) w2 c)
  | e => R.doc.fits e

instance (R : Account) (e : ET) : Decidable (R.allows e) := by
  unfold allows
  split <;> infer_instance

/-- The next line, which begins in line `n`. A value for a key that has one is reported and has no other effect. -/
def next (R : Account) (n : Nat) (e : ET) : Account :=
  match e with
  | .kv _ k _ v _ _ =>
    let es := v.report (R.doc.here ++ [.str k]) n R.errors
    if R.lost then { R with errors := keep k v.value (v.lose (R.doc.here ++ [.str k]) n R.errors) }
    else if R.doc.again k v then { R with errors := es ++ [.duplicateKey (keyOf [] (R.doc.here ++ [.str k])) (n + v.counted) 0 v.value] }
    else { R with doc := R.doc.step e, errors := es }
  | .table _ (.std t) _ _ =>
    if R.doc.fits e then { R with doc := R.doc.step e, lost := false }
    else { doc := R.doc.spoil t.names, lost := true, errors := R.errors ++ [.invalidTable (keyOf [] (R.doc.badKey t.names)) n 0 []] }
  | .table _ (.arr _) _ _ => { R with doc := R.doc.step e, lost := false }
  | _ => R

/-- All lines have no faults but those described here; the line before was line `n`. -/
def Allows (R : Account) (n : Nat) : List (Str × ET) → Prop
  | [] => True
  | (nl, e) :: ls => R.allows e ∧ Allows (R.next (n + nlCount nl) e) (n + nlCount nl + e.counted) ls

instance Allows.dec : (R : Account) → (n : Nat) → (ls : List (Str × ET)) → Decidable (R.Allows n ls)
  | _, _, [] => isTrue trivial
  | R, n, (nl, e) :: ls => @instDecidableAnd _ _ _ (Allows.dec (R.next (n + nlCount nl) e) (n + nlCount nl + e.counted) ls)

/-- The lines; the line before was line `n`. -/
def all (R : Account) (n : Nat) : List (Str × ET) → Account
  | [] => R
  | (nl, e) :: ls => (R.next (n + nlCount nl) e).all (n + nlCount nl + e.counted) ls

end Account

/-- What is read of a document. -/
def Account.of (ls : List (Str × ET)) : Account := ({} : Account).all 1 ls

end Tomllib
