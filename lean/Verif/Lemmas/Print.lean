import Verif.Spec.Print
import Verif.Spec.Edit
import Verif.Lemmas.Witness
import Verif.Lemmas.Answers
/-!
# Values in the layout of `Display`
-/

namespace Tomllib

mutual
/-- A value laid out as `Display` prints it: `[a, b]`, `{k = a, l = b}`. -/
def Value.laid : Value → VT
  | .int s => .leaf (.int s)
  | .float s => .leaf (.float s)
  | .bool b => .leaf (.bool b)
  | .dt d => .leaf (.dt d)
  | .str s t => .leaf (.str s t)
  | .arr vs => .arr (laidElems vs) [.newlines []] [.newlines []]
  | .itab kvs => .itab (laidPairs kvs) ⟨[], []⟩
def laidElems : List Value → Elems
  | [] => .nil
  | v :: vs => .cons v.laid (freshSep vs.isEmpty) [.newlines []] (laidElems vs)
def laidPairs : List (Str × Value) → Pairs
  | [] => .nil
  | (k, v) :: vs => .cons k ⟨lit% " ", lit% " "⟩ v.laid (freshSep vs.isEmpty) [.newlines []] (laidPairs vs)
end

mutual
theorem Value.laid_value : ∀ v : Value, v.laid.value = v
  | .int s => rfl
  | .float s => rfl
  | .bool b => rfl
  | .dt d => rfl
  | .str s t => rfl
  | .arr vs => by rw [Value.laid, VT.value, laidElems_values vs]
  | .itab kvs => by rw [Value.laid, VT.value, laidPairs_values kvs]
theorem laidElems_values : ∀ vs : List Value, (laidElems vs).values = vs
  | [] => rfl
  | v :: vs => by rw [laidElems, Elems.values, v.laid_value, laidElems_values vs]
theorem laidPairs_values : ∀ vs : List (Str × Value), (laidPairs vs).values = vs
  | [] => rfl
  | (k, v) :: vs => by rw [laidPairs, Pairs.values, v.laid_value, laidPairs_values vs]
end

/-- The text of elements after the first. -/
def tailText (vs : List Value) : Str := match vs with
  | [] => []
  | _ => lit% ", " ++ (laidElems vs).text

def tailTextKVs (vs : List (Str × Value)) : Str := match vs with
  | [] => []
  | _ => lit% ", " ++ (laidPairs vs).text

mutual
/-- Printing gives the text of that layout, or panics on an empty array or inline table. -/
theorem Value.disp_laid : ∀ v : Value, v.disp = if v.noEmpty then .ok v.laid.text else .panic .underflow
  | .int s => by simp [Value.disp, Value.noEmpty, Value.laid, VT.text, Scalar.text]
  | .float s => by simp [Value.disp, Value.noEmpty, Value.laid, VT.text, Scalar.text]
  | .bool b => by simp [Value.disp, Value.noEmpty, Value.laid, VT.text, Scalar.text]
  | .dt d => by simp [Value.disp, Value.noEmpty, Value.laid, VT.text, Scalar.text]
  | .str s t => by simp [Value.disp, Value.noEmpty, Value.laid, VT.text, Scalar.text]
  | .arr [] => rfl
  | .itab [] => rfl
  | .arr (v :: vs) => by
    rw [Value.disp, v.disp_laid, dispRest_laid vs]
    cases h1 : v.noEmpty <;> cases h2 : noEmpties vs <;>
      simp [Out.bind_eq, Out.bind, Value.noEmpty, noEmpties, h1, h2, Value.laid, VT.text, laidElems, Elems.text, gapText, CNL.text]
    cases vs with
    | nil => simp [tailText, freshSep, commaText, laidElems, Elems.text]
    | cons _ _ => simp [tailText, freshSep, commaText]
  | .itab ((k, v) :: vs) => by
    rw [Value.disp, v.disp_laid, dispKvs_laid vs]
    cases h1 : v.noEmpty <;> cases h2 : noEmptyKVs vs <;>
      simp [Out.bind_eq, Out.bind, Value.noEmpty, noEmptyKVs, h1, h2, Value.laid, VT.text, laidPairs, Pairs.text, gapText, CNL.text]
    cases vs with
    | nil => simp [tailTextKVs, freshSep, commaText, laidPairs, Pairs.text]
    | cons _ _ => simp [tailTextKVs, freshSep, commaText]
theorem dispRest_laid : ∀ vs : List Value, Value.dispRest vs = if noEmpties vs then .ok (tailText vs) else .panic .underflow
  | [] => rfl
  | v :: vs => by
    rw [Value.dispRest, v.disp_laid, dispRest_laid vs]
    cases h1 : v.noEmpty <;> cases h2 : noEmpties vs <;>
      simp [Out.bind_eq, Out.bind, noEmpties, h1, h2, tailText, laidElems, Elems.text, gapText, CNL.text]
    cases vs with
    | nil => simp [freshSep, commaText, laidElems, Elems.text]
    | cons _ _ => simp [freshSep, commaText]
theorem dispKvs_laid : ∀ vs : List (Str × Value), Value.dispKvs vs = if noEmptyKVs vs then .ok (tailTextKVs vs) else .panic .underflow
  | [] => rfl
  | (k, v) :: vs => by
    rw [Value.dispKvs, v.disp_laid, dispKvs_laid vs]
    cases h1 : v.noEmpty <;> cases h2 : noEmptyKVs vs <;>
      simp [Out.bind_eq, Out.bind, noEmptyKVs, h1, h2, tailTextKVs, laidPairs, Pairs.text, gapText, CNL.text]
    cases vs with
    | nil => simp [freshSep, commaText, laidPairs, Pairs.text]
    | cons _ _ => simp [freshSep, commaText]
end

theorem apart_fresh (b : Bool) : Apart (freshSep b) [.newlines []] := by
  cases b <;> simp [Apart, freshSep, SepWf, Gap, Spaces, WSSep.wf, Blank, NoBlank, gapText, CNL.text, Pieces.nil]

theorem laidElems_nil {vs : List Value} (h : laidElems vs ≠ .nil) : vs ≠ [] := by rintro rfl; exact h rfl
theorem laidPairs_nil {vs : List (Str × Value)} (h : laidPairs vs ≠ .nil) : vs ≠ [] := by rintro rfl; exact h rfl

theorem freshSep_some {α : Type} {vs : List α} (h : vs ≠ []) : (freshSep vs.isEmpty).isSome = true := by
  cases vs with
  | nil => exact absurd rfl h
  | cons _ _ => rfl

mutual
theorem Value.laid_strict : ∀ v : Value, v.proper → v.laid.strict
  | .int s, h => h
  | .float s, h => h
  | .bool b, h => trivial
  | .dt d, h => h.1
  | .str s t, h => h
  | .arr vs, h => ⟨.nil, laidElems_strict vs h.1, rfl⟩
  | .itab kvs, h => ⟨by simp [Blank], laidPairs_strict kvs h.1, rfl⟩
theorem laidElems_strict : ∀ vs : List Value, properAll vs → (laidElems vs).strict
  | [], _ => trivial
  | v :: vs, h => ⟨v.laid_strict h.1, apart_fresh _, fun hn => .inl (freshSep_some (laidElems_nil hn)), laidElems_strict vs h.2⟩
theorem laidPairs_strict : ∀ vs : List (Str × Value), properKVs vs → (laidPairs vs).strict
  | [], _ => trivial
  | (k, v) :: vs, h => ⟨h.1, by simp [WSSep.wf, Blank], v.laid_strict h.2.1, apart_fresh _, fun hn => .inl (freshSep_some (laidPairs_nil hn)), laidPairs_strict vs h.2.2⟩
end

theorem Value.laid_kind (v : Value) : v.laid.kind = v.kind := by cases v <;> rfl

theorem laidElems_kinds : ∀ vs : List Value, (laidElems vs).kinds = vs.map Value.kind
  | [] => rfl
  | v :: vs => by rw [laidElems, Elems.kinds, v.laid_kind, laidElems_kinds vs]; rfl

theorem laidPairs_keys : ∀ vs : List (Str × Value), (laidPairs vs).keys = vs.map (·.1)
  | [] => rfl
  | (k, v) :: vs => by rw [laidPairs, Pairs.keys, laidPairs_keys vs]; rfl

mutual
theorem Value.laid_sound : ∀ v : Value, v.proper → v.laid.sound = true
  | .int s, h => rfl
  | .float s, h => rfl
  | .bool b, h => rfl
  | .dt d, h => h.2
  | .str s t, h => rfl
  | .arr vs, h => by
    rw [Value.laid, VT.sound, laidElems_sound vs h.1, laidElems_kinds]
    simpa using h.2
  | .itab kvs, h => laidPairs_sound kvs h.1 h.2
theorem laidElems_sound : ∀ vs : List Value, properAll vs → (laidElems vs).sound = true
  | [], _ => rfl
  | v :: vs, h => by rw [laidElems, Elems.sound, v.laid_sound h.1, laidElems_sound vs h.2]; rfl
theorem laidPairs_sound : ∀ vs : List (Str × Value), properKVs vs → (vs.map (·.1)).Nodup → (laidPairs vs).sound = true
  | [], _, _ => rfl
  | (k, v) :: vs, h, hn => by
    rw [List.map_cons, List.nodup_cons] at hn
    rw [laidPairs, Pairs.sound, v.laid_sound h.2.1, laidPairs_sound vs h.2.2 hn.2, laidPairs_keys]
    simpa using hn.1
end

end Tomllib
