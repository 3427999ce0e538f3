import Verif.Lemmas.Tool
import Verif.Lemmas.Witness
import Verif.Lemmas.ForSays
/-!
# What the command-line tool says: C49
-/

namespace Tomllib

open Cli

/-- C49. `get-value` prints the values of the keys in the order of the keys, with the separator between them. -/
theorem C49_get_value {o : Options} {doc : Parser} {ks : List Str} (hne : ks ≠ []) {f : Str → Str} (h : ∀ k ∈ ks, SaysValue o doc k (f k)) :
    Cli.getValue o (some ks) doc = .ok (.ok (o.separator.intercalate (ks.map f))) := by
  cases ks with
  | nil => exact absurd rfl hne
  | cons k ks => simpa [Cli.getValue] using getLoop_ok (k :: ks) [] h

/-- C49. `get-value` fails at the first key that has no value. -/
theorem C49_get_value_fails {o : Options} {doc : Parser} {a b : List Str} {k : Str} {f : Str → Str} (h : ∀ k ∈ a, SaysValue o doc k (f k))
    (hk : doc.getValue k = .ok none) : Cli.getValue o (some (a ++ k :: b)) doc = .ok (.error (.notFound k)) := by
  have := getLoop_none (b := b) hk a [] h
  cases ha : a ++ k :: b with
  | nil => simp at ha
  | cons x l => rw [ha] at this; exact this

/-- C49. With quotes stripped, the text printed is the value without the quotes at both ends; there is exactly one such text. -/
theorem C49_unquoted (s : Str) : ∃ t, Unquoted s t ∧ ∀ t', Unquoted s t' → t' = t :=
  ⟨_, trimQuotes_unquoted s, fun _ h => unquoted_unique h (trimQuotes_unquoted s)⟩

open Classical in
/-- C49. `has-value` answers for each key whether it has a value, with the answers chosen by the user. Keys of tables with a header are excluded: they panic. -/
theorem C49_has_value {o : Options} {doc : Parser} {ks tvs fvs : List Str} (hne : ks ≠ []) (ht : o.trueVals = some tvs) (hf : o.falseVals = some fvs)
    (h1 : Enough tvs ks.length) (h2 : Enough fvs ks.length) (h : ∀ k ∈ ks, ∃ v, doc.getValue k = .ok v) :
    Cli.hasValue o (some ks) doc =
      .ok (.ok (o.separator.intercalate (ks.zipIdx.map fun (k, j) => answer (if doc.getValue k = .ok none then fvs else tvs) j)), ks.length) := by
  cases ks with
  | nil => exact absurd rfl hne
  | cons k ks =>
    rw [Cli.hasValue, hasValueLoop_ok ht hf h1 h2 (k :: ks) 0 [] (by simp) h]
    simp [Out.bind_eq, Out.bind]
    simp

open Classical in
/-- C49. `has-children` answers for each key whether it has children; it uses the answers from index `n` on, where `n` is the number of keys of `has-value` in the
same run. -/
theorem C49_has_children {o : Options} {doc : Parser} {ks tvs fvs : List Str} (hne : ks ≠ []) (n : Nat) (ht : o.trueVals = some tvs) (hf : o.falseVals = some fvs)
    (h1 : Enough tvs (n + ks.length)) (h2 : Enough fvs (n + ks.length)) :
    Cli.hasChildren o (some ks) n doc =
      .ok (.ok (o.separator.intercalate ((ks.zipIdx n).map fun (k, j) => answer (if HasChildren doc k then tvs else fvs) j))) := by
  cases ks with
  | nil => exact absurd rfl hne
  | cons k ks =>
    rw [Cli.hasChildren, hasChildrenLoop_ok ht hf h1 h2 (k :: ks) n [] (Nat.le_refl _)]
    simp
    simp

/-- C49. `get-children` prints the children of the keys in the order of the keys. -/
theorem C49_get_children {o : Options} {doc : Parser} {ks : List Str} (hne : ks ≠ []) {f : Str → Str} (h : ∀ k ∈ ks, SaysChildren o doc k (f k)) :
    Cli.getChildren o (some ks) doc = .ok (o.separator.intercalate (ks.map f)) := by
  cases ks with
  | nil => exact absurd rfl hne
  | cons k ks => simpa [Cli.getChildren] using getChildrenLoop_ok (k :: ks) [] h

/-- C49. `get-children` fails at the first key that does not exist or has no elements. -/
theorem C49_get_children_fails {o : Options} {doc : Parser} {a b : List Str} {k : Str} {f : Str → Str} (h : ∀ k ∈ a, SaysChildren o doc k (f k)) :
    (doc.getChildren k = none → Cli.getChildren o (some (a ++ k :: b)) doc = .error (.notFound k)) ∧
    (doc.getChildren k = some (.count 0) → Cli.getChildren o (some (a ++ k :: b)) doc = .error (.noChildren k)) := by
  have := getChildrenLoop_err (k := k) (b := b) a [] h
  cases ha : a ++ k :: b with
  | nil => simp at ha
  | cons x l => rw [ha] at this; exact this

/-- C49. A run without assignments runs the other commands in a fixed order; its results are the results of these commands up to and including the first error, and
the files stay as they are. With `print-doc` the document is printed at the end. -/
theorem C49_order {o : Options} {c : Commands} {path text : Str} {fs : FS} {doc : Parser} (hset : c.setValue = none) (ht : fs.get? path = some text)
    (hp : Parser.new.parse text = .ok (doc, .full)) (hany : reading o c doc ≠ []) :
    processDocument o c path fs = lastOf o doc fs (collect (reading o c doc)) := by
  refine processDocument_reading ht hp (fun _ => rfl) rfl fun rs => ?_
  have : finish o c rs doc [fs] = lastOf o doc fs (.ok rs) := by
    have hno : ¬ (c.getValue.isNone ∧ c.hasValue.isNone ∧ c.getChildren.isNone ∧ c.hasChildren.isNone ∧ c.setValue.isNone) := by
      rintro ⟨h1, h2, h3, h4, _⟩
      simp at h1 h2 h3 h4
      exact hany (by simp [reading, h1, h2, h3, h4])
    rw [finish, if_neg hno, lastOf]
  unfold setAndFinish
  rw [hset]
  split
  · exact this
  · exact this
  next h _ => simp at h

example : End.said (processDocument .default asked (lit% "f") [(lit% "f", lit% "a = 1\nc = [2, 3]\n[b]\nx = 'y'")]).last =
    some [some (lit% "'y', 1"), some (lit% "true, false"), some (lit% "[x], 2"), some (lit% "false, true")] := by decide +kernel

/-- C49. With too few answers for the keys asked about, the tool panics. -/
theorem C49_too_few_answers : End.panic? (processDocument ⟨some [lit% "y", lit% "Y"], some [lit% "n"], lit% ", ", lit% "[", lit% "]", lit% ", ", false, false, false, false⟩
    ⟨none, some (some [lit% "a", lit% "a", lit% "a"]), none, none, none, none⟩ (lit% "f") [(lit% "f", lit% "a = 1")]).last = some .index := by decide +kernel

end Tomllib
