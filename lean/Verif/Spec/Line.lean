import Verif.Main
import Verif.Spec.Tool
/-!
# What the options of the command-line tool stand for

The options are given by their long names, as in the help text of tomlkit.
-/

namespace Tomllib.Cli

/-- The argument of an option, or its default. -/
def given (m : Matches) (option default : Str) : Str :=
  match m.get? option with
  | some arg => arg
  | none => default

/-- The option is there. -/
def isGiven (m : Matches) (option : Str) : Prop := ∃ arg, m.get? option = some arg

instance (m : Matches) (option : Str) : Decidable (isGiven m option) :=
  match h : m.get? option with
  | some arg => isTrue ⟨arg, h⟩
  | none => isFalse fun ⟨_, h'⟩ => by rw [h] at h'; simp at h'

/-- The separator of results. -/
def sep (m : Matches) : Str := given m (lit% "separator") (lit% ", ")

/-- What is printed for a key after `--get-value`: its value, without quotes at the ends if these are to be stripped. -/
def PrintsValue (m : Matches) (doc : Parser) (k s : Str) : Prop :=
  ∃ v t, doc.getValue k = .ok (some v) ∧ v.disp = .ok t ∧ if isGiven m (lit% "strip-quotes") then Unquoted t s else s = t

/-- What is printed for a key after `--get-children`: the names between the begin and the end of arrays, or after their number; or the number of elements. -/
def PrintsChildren (m : Matches) (doc : Parser) (k s : Str) : Prop :=
  (∃ l, doc.getChildren k = some (.keys l) ∧ s =
    if isGiven m (lit% "array-length") then decimal l.length ++ given m (lit% "array-separator") (lit% ", ") ++ (given m (lit% "array-separator") (lit% ", ")).intercalate l
    else given m (lit% "array-begin") (lit% "[") ++ (given m (lit% "array-separator") (lit% ", ")).intercalate l ++ given m (lit% "array-end") (lit% "]")) ∨
  ∃ n, doc.getChildren k = some (.count n) ∧ 0 < n ∧ s = decimal n

/-- The result of a command: none if it is not given, otherwise that of the keys in its argument. -/
def Result (csv : Str → Option (List Str)) (m : Matches) (command : Str) (P : List Str → Str → Prop) (out : List Str) : Prop :=
  match m.get? command with
  | none => out = []
  | some arg => ∃ ks s, csv arg = some ks ∧ ks ≠ [] ∧ P ks s ∧ out = [s]

/-- How many answers `--has-value` needs. -/
def asked (csv : Str → Option (List Str)) (m : Matches) : Nat :=
  match m.get? (lit% "has-value") with
  | some arg => ((csv arg).getD []).length
  | none => 0

open Classical in
/-- The results of the commands that read, in order. The answers of `--has-children` come after those of `--has-value`. -/
def Results (csv : Str → Option (List Str)) (m : Matches) (doc : Parser) (out : List Str) : Prop :=
  ∃ o1 o2 o3 o4, out = o1 ++ o2 ++ o3 ++ o4 ∧
    Result csv m (lit% "get-value") (fun ks s => ∃ f, (∀ k ∈ ks, PrintsValue m doc k (f k)) ∧ s = (sep m).intercalate (ks.map f)) o1 ∧
    Result csv m (lit% "has-value") (fun ks s => ∃ ts fs, csv (given m (lit% "set-true") (lit% "true")) = some ts ∧ csv (given m (lit% "set-false") (lit% "false")) = some fs ∧
      Enough ts ks.length ∧ Enough fs ks.length ∧ (∀ k ∈ ks, ∃ v, doc.getValue k = .ok v) ∧
      s = (sep m).intercalate (ks.zipIdx.map fun (k, j) => answer (if doc.getValue k = .ok none then fs else ts) j)) o2 ∧
    Result csv m (lit% "get-children") (fun ks s => ∃ f, (∀ k ∈ ks, PrintsChildren m doc k (f k)) ∧ s = (sep m).intercalate (ks.map f)) o3 ∧
    Result csv m (lit% "has-children") (fun ks s => ∃ ts fs, csv (given m (lit% "set-true") (lit% "true")) = some ts ∧ csv (given m (lit% "set-false") (lit% "false")) = some fs ∧
      Enough ts (asked csv m + ks.length) ∧ Enough fs (asked csv m + ks.length) ∧
      s = (sep m).intercalate ((ks.zipIdx (asked csv m)).map fun (k, j) => answer (if HasChildren doc k then ts else fs) j)) o4

end Tomllib.Cli
