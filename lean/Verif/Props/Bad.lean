import Verif.Lemmas.Bad
import Verif.Lemmas.Read
import Verif.Props.Doc
import Verif.Lemmas.ForBad
/-!
# Documents with table headers that are not in order: C45, C30

`Census (some []) [] ls F D B` (Spec/Bad.lean) sorts the lines of a document: `F` are the entries that are not below a header that is not in order, `D` the dates
that do not exist, `B` the headers that are not in order, each with the pairs below it. `HeaderOk` (Spec/Entries.lean) says when a header is in order.
-/

namespace Tomllib

/-- C45. Reading goes on after a table header that is not in order. The text is read to its end; the pairs below such a header are not entered, those below the
next header that is in order are; there is one `InvalidTable` error for each such header, in the order of the text, with its key and the pairs below it; the other
errors are about the other lines only, except that dates that do not exist are reported everywhere. (For documents without arrays of tables, and without
arrays below such headers, see `Census`, which also tells which pairs these are if there are inline tables and dates that do not exist; the theorems at the end
show that the wish is false for arrays, and what is said about inline tables and such dates.) -/
theorem C45_invalid_tables {ls : List (Str × ET)} {F : List (Str × Entry)} {D : List (Str × Str)} {B : List (Str × List (Str × Value))} (h : DocTaken ls)
    (hs : Census (some []) [] ls F D B) :
    ∃ p r, Parser.new.parse (linesText ls) = .ok (p, r) ∧ r.whole ∧ p.leftover = [] ∧
      (∀ k, p.getValue k = match lookup k F with
        | none => .ok none
        | some (.val t) => .ok (some t.value)
        | some .header => .panic .tableToVal) ∧
      Reports (r.errs.filterMap ParseError.bad?) B ∧
      r.errs.filterMap ParseError.dup? = repeats [] F ∧ r.errs.filterMap ParseError.date? = D ∧
      (∀ k ∈ r.errs.filterMap ParseError.mixed?, ∃ e, (k, e) ∈ F ∧ isMixed e = true) := by
  obtain ⟨a, _⟩ := hs.run h.wf.lines [] rfl PState.new
  obtain ⟨st, ns, F', L, r1, r2, r3, ⟨l, e1, e2, e3, e4, e5⟩, r5⟩ := a [] rfl DocInv.new
  obtain ⟨T, s, hd, hm, hh⟩ := r3.holds
  have hp := parse_fwd h
  rw [r1] at hp
  have herr : st.errors = l := by simpa [PState.new] using e1
  refine ⟨_, _, hp, ?_, rfl, ?_, ?_⟩
  · dsimp only
    split
    · exact .inr ⟨_, rfl⟩
    · exact .inl rfl
  · intro k
    have hg := DocInv.getValue (p := ⟨⟨ns⟩, s, []⟩) hd k
    have hsame : Parser.getValue ⟨⟨ns⟩, st, []⟩ k = Parser.getValue ⟨⟨ns⟩, s, []⟩ k := by
      simp only [Parser.getValue, hm, hh]
    rw [hsame, hg, List.nil_append, r2]
    cases lookup k F with
    | none => rfl
    | some e => cases e <;> rfl
  · have : (if st.errors ≠ [] then ParseResult.fullError st.errors else .full).errs = l := by
      rw [herr]
      by_cases hl : l = [] <;> simp [hl, ParseResult.errs]
    dsimp only
    rw [this, e5]
    exact ⟨r5, e2, e3, e4⟩

/-- C45, which documents this is about: those without arrays of tables in which no array is below a header that is not in order. -/
theorem C45_census {ls : List (Str × ET)} (hn : hasArrayTable ls = false) (ha : ¬ ArrayLost (some []) [] ls) : ∃ F D B, Census (some []) [] ls F D B :=
  census_exists hn ha

example : linesText twice = lit% "[t]\na = 1\n[t]\na = 2\nb = 3\nb = 4\n[u]\nb = 5" := by decide +kernel

/-- The hypotheses of `C45_invalid_tables` are met, with a header that is not in order. -/
example : Census (some []) [] twice [(lit% "t", .header), (lit% "t.a", .val (.leaf (.int (lit% "1")))), (lit% "u", .header), (lit% "u.b", .val (.leaf (.int (lit% "5"))))]
    [] [(lit% "t", [(lit% "a", .int (lit% "2")), (lit% "b", .int (lit% "3")), (lit% "b", .int (lit% "4"))])] := by
  refine .table (F := [(lit% "t.a", .val (.leaf (.int (lit% "1")))), (lit% "u", .header), (lit% "u.b", .val (.leaf (.int (lit% "5"))))]) (headerOk_one (k := lit% "t") rfl) ?_
  refine .kv (D := []) (F := [(lit% "u", .header), (lit% "u.b", .val (.leaf (.int (lit% "5"))))]) ?_
  refine .bad (B := []) (fun h => ?_) ?_
  · exact absurd h.2.1 (by intro e; exact absurd (show some Entry.header = none from e) (by simp))
  · refine .lost (D := []) rfl (.lost (D := []) rfl (.lost (D := []) rfl ?_))
    refine .table (F := [(lit% "u.b", .val (.leaf (.int (lit% "5"))))]) (headerOk_one (k := lit% "u") rfl) ?_
    exact .kv (D := []) (F := []) .done

example : ∃ p, Parser.new.parse (lit% "[t]\na = 1\n[t]\na = 2\nb = 3\nb = 4\n[u]\nb = 5") =
      .ok (p, .fullError [.invalidTable (lit% "t") 3 0 [(lit% "a", .int (lit% "2")), (lit% "b", .int (lit% "4"))]]) ∧
    p.getValue (lit% "t.a") = .ok (some (.int (lit% "1"))) ∧ p.getValue (lit% "t.b") = .ok none ∧ p.getValue (lit% "b") = .ok none ∧
    p.getValue (lit% "u.b") = .ok (some (.int (lit% "5"))) := Out.wit (by decide +kernel)

/-- C45, the wish fails for arrays: an element of an array below a header that is not in order is entered, outside of all tables. -/
theorem C45_elements_leak : ∃ p, Parser.new.parse (lit% "[t]\n[t]\na = [1]") =
      .ok (p, .fullError [.invalidTable (lit% "t") 2 0 [(lit% "a", .arr [.int (lit% "1")])]]) ∧
    p.getValue (lit% "a") = .ok none ∧ p.getValue (lit% "a[0]") = .ok (some (.int (lit% "1"))) := Out.wit (by decide +kernel)

/-- C45, the wish fails for inline tables: their pairs are reported as pairs of the table itself. -/
theorem C45_inner_pairs : ∃ p, Parser.new.parse (lit% "[t]\n[t]\na = {b = 1}") =
      .ok (p, .fullError [.invalidTable (lit% "t") 2 0 [(lit% "b", .int (lit% "1")), (lit% "a", .itab [(lit% "b", .int (lit% "1"))])]]) := Out.wit' (by decide +kernel)

/-- C45, the wish fails after a date that does not exist: pairs below it are neither entered nor reported. -/
theorem C45_pairs_lost : ∃ p, Parser.new.parse (lit% "[t]\n[t]\na = 2000-13-01\nb = 1") =
      .ok (p, .fullError [.invalidTable (lit% "t") 2 0 [], .invalidDateTime (lit% "a") 3 0 (lit% "2000-13-01")]) ∧
    p.getValue (lit% "b") = .ok none ∧ p.getValue (lit% "t.b") = .ok none := Out.wit (by decide +kernel)

/-- The hypotheses of `C45_invalid_tables` are met, with an inline table and a date that does not exist below a header that is not in order. -/
example : Census (some []) [] odd [(lit% "t", .header)] [(lit% "b.d", lit% "2000-13-01")]
    [(lit% "t", [(lit% "c", .int (lit% "1"))])] ∧
    linesText odd = lit% "[t]\n[t]\nb = {c = 1, d = 2000-13-01}\ne = 2" := by
  refine ⟨?_, by decide +kernel⟩
  refine .table (F := []) (headerOk_one (k := lit% "t") rfl) ?_
  refine .bad (B := []) (fun h => ?_) ?_
  · exact absurd h.2.1 (by intro e; exact absurd (show some Entry.header = none from e) (by simp))
  · exact .lost (D := []) rfl (.lost (D := []) rfl .done)

/-! ## C30 -/

/-- C30, what holds. On a text without `[[` `parse` panics only after an array below a table header that is not in order: the text begins with whole lines among
which there are such a header and such an array. -/
theorem C30_panic_after {i : Str} (hi : ∀ a b, i ≠ a ++ lit% "[[" ++ b) {x : Panic} (h : Parser.new.parse i = .panic x) :
    ∃ ls rest, DocWf ls ∧ i = linesText ls ++ rest ∧ ¬ HeadersOk [] [] ls ∧ ArrayLost (some []) [] ls := by
  obtain ⟨ls, rest, h1, h2, h3⟩ := parse_panic_lost hi h
  exact ⟨ls, rest, h1, h2, h3.headers, h3⟩

/-- C30, for texts without arrays: if every `[` is the first character of its line, then `parse` does not panic. -/
theorem C30_no_arrays {i : Str} (hi : BracketsFirst i) : ∃ p r, Parser.new.parse i = .ok (p, r) := by
  have ha := parse_all (p := Parser.new) Reachable.new.inv i
  cases h : Parser.new.parse i with
  | ok x => exact ⟨x.1, x.2, rfl⟩
  | fuel => rw [h] at ha; exact ha.elim
  | panic x =>
    exfalso
    have hn : ∀ a b, i ≠ a ++ lit% "[[" ++ b := by
      intro a b e
      obtain ⟨a', w, h1, h2, h3⟩ := hi (a ++ lit% "[") b (by rw [e]; simp)
      obtain ⟨v, h4, _⟩ := blank_end (w := []) (by simp [Blank]) h2 (c := '[') (by decide) (by rw [List.append_nil]; exact h1)
      rcases h3 with rfl | ⟨y, rfl⟩
      · simp at h4
      · have := h4
        cases hv : v.reverse with
        | nil =>
          simp at hv; subst hv
          have := List.append_inj_right' (this.trans (List.append_nil _)) rfl
          simp at this
        | cons z l =>
          have hv' : v = l.reverse ++ [z] := by rw [← List.reverse_reverse v, hv]; simp
          rw [hv', ← List.append_assoc] at this
          have := List.append_inj_right' this rfl
          simp at this; subst this
          rename_i hb
          have := hb '\n' (by rw [hv']; simp)
          simp at this
    obtain ⟨ls, rest, h1, h2, h3⟩ := parse_panic_lost hn h
    obtain ⟨a, w, b, e, hw⟩ := h3.text h1
    obtain ⟨a', w', h4, h5, h6⟩ := hi (a ++ lit% "=" ++ w) (b ++ rest) (by rw [h2, e]; simp)
    obtain ⟨v, h7, hb⟩ := blank_end hw h5 (c := '=') (by decide) h4
    rcases h6 with rfl | ⟨y, rfl⟩
    · simp at h7
    · cases hv : v.reverse with
      | nil =>
        simp at hv; subst hv
        have := List.append_inj_right' (h7.trans (List.append_nil _)) rfl
        simp at this
      | cons z l =>
        have hv' : v = l.reverse ++ [z] := by rw [← List.reverse_reverse v, hv]; simp
        rw [hv', ← List.append_assoc] at h7
        have := List.append_inj_right' h7 rfl
        simp at this; subst this
        have := hb '\n' (by rw [hv']; simp)
        simp at this

/-- The hypothesis of `C30_no_arrays` is met by a text with a header that is not in order. -/
example : BracketsFirst (lit% "[t]\n [t]\na = {b = 1}\n[a.b]") := by
  intro a b e
  have key : ∀ n < 40, (lit% "[t]\n [t]\na = {b = 1}\n[a.b]")[n]? = some '[' → (lit% "[t]\n [t]\na = {b = 1}\n[a.b]").take n = [] ∨
      (lit% "[t]\n [t]\na = {b = 1}\n[a.b]").take n = lit% "[t]\n " ∨ (lit% "[t]\n [t]\na = {b = 1}\n[a.b]").take n = lit% "[t]\n [t]\na = {b = 1}\n" := by
    decide +kernel
  have hl : a.length < 40 := by
    have := congrArg List.length e
    simp at this; omega
  have this := key a.length hl (by rw [e]; simp)
  rw [show (lit% "[t]\n [t]\na = {b = 1}\n[a.b]").take a.length = a by rw [e]; simp] at this
  rcases this with rfl | rfl | rfl
  · exact ⟨[], [], rfl, by simp [Blank], .inl rfl⟩
  · exact ⟨lit% "[t]\n", lit% " ", by simp, by simp [Blank], .inr ⟨lit% "[t]", by simp⟩⟩
  · exact ⟨lit% "[t]\n [t]\na = {b = 1}\n", [], by simp, by simp [Blank], .inr ⟨lit% "[t]\n [t]\na = {b = 1}", by simp⟩⟩

end Tomllib
