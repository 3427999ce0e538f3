import Verif.Spec.Issues
/-!
# Documents with table headers that are not in order
-/

namespace Tomllib

mutual
/-- There is no array in the value. -/
def VT.arrayless : VT → Bool
  | .leaf _ => true
  | .arr _ _ _ => false
  | .itab kvs _ => kvs.arrayless
def Pairs.arrayless : Pairs → Bool
  | .nil => true
  | .cons _ _ v _ _ r => v.arrayless && r.arrayless
end

mutual
/-- What is met while a value is read, in the order of the text: `some (k, v)` at the end of a pair inside of inline tables, `none` at a date that does not exist. -/
def VT.told : VT → List (Option (Str × Value))
  | .leaf (.dt d) => if d.real then [] else [none]
  | .leaf _ => []
  | .arr _ _ _ => []
  | .itab kvs _ => kvs.told
def Pairs.told : Pairs → List (Option (Str × Value))
  | .nil => []
  | .cons k _ v _ _ r => v.told ++ some (k, v.value) :: r.told
end

/-- What is met in the lines up to the next header. -/
def sectionTold : List (Str × ET) → List (Option (Str × Value))
  | [] => []
  | (_, .kv _ k _ v _ _) :: ls => v.told ++ some (k, v.value) :: sectionTold ls
  | (_, .table _ _ _ _) :: _ => []
  | _ :: ls => sectionTold ls

/-- The pairs before the first date that does not exist. -/
def pairsUpTo : List (Option (Str × Value)) → List (Str × Value)
  | some p :: l => p :: pairsUpTo l
  | _ => []

/-- The entries of a pair in the table with the key `T`. -/
def pairEntries (T k : Str) (v : VT) : List (Str × Entry) := (v.allEntries (dotted T k)).map fun e => (e.1, .val e.2)

/-- `Census T E ls F D B`: the lines `ls` follow the entries `E`, in the table with the key `T` or (`none`) below a header that was not in order. Then `F` are the
entries of the lines that are not below such a header, `D` the dates and times that do not exist, with their keys, and `B` lists the headers that are not in order,
each with the pairs below it up to the first date that does not exist. There are to be no arrays below such headers. -/
inductive Census : Option Str → List (Str × Entry) → List (Str × ET) → List (Str × Entry) → List (Str × Str) → List (Str × List (Str × Value)) → Prop
  | done {T E} : Census T E [] [] [] []
  | blank {T E nl w ls F D B} : Census T E ls F D B → Census T E ((nl, .blank w) :: ls) F D B
  | comment {T E nl w c ls F D B} : Census T E ls F D B → Census T E ((nl, .comment w c) :: ls) F D B
  | kv {T E nl w1 k s v w2 c ls F D B} : Census (some T) (E ++ pairEntries T k v) ls F D B →
      Census (some T) E ((nl, .kv w1 k s v w2 c) :: ls) (pairEntries T k v ++ F) ((pairEntries T k v).filterMap badDate ++ D) B
  | lost {E nl w1 k s v w2 c ls F D B} : v.arrayless = true → Census none E ls F D B →
      Census none E ((nl, .kv w1 k s v w2 c) :: ls) F ((pairEntries [] k v).filterMap badDate ++ D) B
  | table {T E nl w1 t w2 c ls F D B} : HeaderOk E t.names → Census (some t.key) (E ++ [(t.key, .header)]) ls F D B →
      Census T E ((nl, .table w1 (.std t) w2 c) :: ls) ((t.key, .header) :: F) D B
  | bad {T E nl w1 t w2 c ls F D B} : ¬ HeaderOk E t.names → Census none E ls F D B →
      Census T E ((nl, .table w1 (.std t) w2 c) :: ls) F D ((t.key, pairsUpTo (sectionTold ls)) :: B)

/-- Somewhere in the lines there is an array below a header that is not in order. `T` and `E` as above. -/
def ArrayLost : Option Str → List (Str × Entry) → List (Str × ET) → Prop
  | _, _, [] => False
  | some T, E, (_, .kv _ k _ v _ _) :: ls => ArrayLost (some T) (E ++ pairEntries T k v) ls
  | none, E, (_, .kv _ _ _ v _ _) :: ls => v.arrayless = false ∨ ArrayLost none E ls
  | _, E, (_, .table _ (.std t) _ _) :: ls => HeaderOk E t.names ∧ ArrayLost (some t.key) (E ++ [(t.key, .header)]) ls ∨ ¬ HeaderOk E t.names ∧ ArrayLost none E ls
  | T, E, _ :: ls => ArrayLost T E ls

/-- The value given last to a name. -/
def lastGiven (k : Str) : List (Str × Value) → Option Value
  | [] => none
  | (k', v) :: l => match lastGiven k l with
    | some w => some w
    | none => if k' = k then some v else none

/-- The key and the pairs of an `InvalidTable` error. -/
def ParseError.bad? : ParseError → Option (Str × SMap Value)
  | .invalidTable k _ _ m => some (k, m)
  | _ => none

/-- The errors are about these headers and hold the pairs below them. -/
def Reports : List (Str × SMap Value) → List (Str × List (Str × Value)) → Prop
  | [], [] => True
  | (k, m) :: es, (k', l) :: bs => k = k' ∧ (∀ x, m.get? x = lastGiven x l) ∧ Reports es bs
  | _, _ => False

end Tomllib
