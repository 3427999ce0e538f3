import Verif.Spec.Entries
/-!
# What the lines below a refused header leave behind

The pairs below such a header are not entered, nor are the pairs of their inline tables. The elements of their arrays are.
-/

namespace Tomllib

mutual
/-- The elements of arrays inside of a value, with their keys if that of the value is `K`; elements inside of others come first. -/
def VT.leaks (K : Str) : VT → List (Str × VT)
  | .leaf _ => []
  | .arr es _ _ => es.leaks K 0
  | .itab kvs _ => kvs.leaks K
def Elems.leaks (K : Str) (i : Nat) : Elems → List (Str × VT)
  | .nil => []
  | .cons v _ _ r => v.leaks (indexed K i) ++ (indexed K i, v) :: r.leaks K (i + 1)
def Pairs.leaks (K : Str) : Pairs → List (Str × VT)
  | .nil => []
  | .cons k _ v _ _ r => v.leaks (dotted K k) ++ r.leaks K
end

/-- A line without a header. -/
def ET.below : ET → Prop
  | .table _ _ _ _ => False
  | _ => True

/-- The elements of arrays in lines without headers, with the keys they would have outside of all tables. -/
def sectionLeaks : List (Str × ET) → List (Str × VT)
  | [] => []
  | (_, .kv _ k _ v _ _) :: ls => v.leaks k ++ sectionLeaks ls
  | _ :: ls => sectionLeaks ls

/-- The values in lines without headers, in the table with the key `T`: those of the pairs, and all inside of them, with their keys. -/
def sectionValues (T : Str) : List (Str × ET) → List (Str × VT)
  | [] => []
  | (_, .kv _ k _ v _ _) :: ls => v.allEntries (dotted T k) ++ sectionValues T ls
  | _ :: ls => sectionValues T ls

end Tomllib
