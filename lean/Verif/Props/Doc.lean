import Verif.Lemmas.Fresh
import Verif.Props.Parse
import Verif.Lemmas.ForDoc
/-!
# What a document means: C17, C28, C30, C32 - C34, C42

All theorems are about a new parser that reads a text to its end, for texts of any length. Headers of arrays of tables are excluded (`hasArrayTable`).
`ls` are the lines of the text as the grammar reads them, `docEntries [] ls` the keys and what they stand for (Spec/Entries.lean).
-/

namespace Tomllib

/-! ## C32 -/

/-- C32. The lines of the text determine what `get_value` finds: at each key the value of the first entry with that key, nothing at any other key (and a panic
at the key of a table header). For every text without headers of arrays of tables and whose table headers are in order. -/
theorem C32_values_are_found {i : Str} {p : Parser} {r : ParseResult} (h : Parser.new.parse i = .ok (p, r)) (hr : r.whole) :
    ∃ ls, DocWf ls ∧ i = linesText ls ∧ (hasArrayTable ls = false → (∀ e ∈ r.errs, e.table? = none) →
      ∀ k, p.getValue k = match lookup k (docEntries [] ls) with
        | none => .ok none
        | some (.val t) => .ok (some t.value)
        | some .header => .panic .tableToVal) := by
  obtain ⟨ls, px, st1, hP⟩ := parse_parsed h
  obtain ⟨hl, he⟩ := hP.whole hr
  refine ⟨ls, hP.wf, (hP.full hl).2.2, fun hn hb k => ?_⟩
  have hR := hP.reading hl hn
  rw [hR.getValue (hR.bad.mpr (by rw [← he]; exact hb)) k]
  cases lookup k (docEntries [] ls) with
  | none => rfl
  | some e => cases e <;> rfl

example : ∃ p, Parser.new.parse (lit% "a = [{b = 'y'}, {b = 'x'}]\n[t.u]\nc = 2\n") = .ok (p, .full) ∧
    p.getValue (lit% "a[1].b") = .ok (some (.str (lit% "x") .literal)) ∧ p.getValue (lit% "t.u.c") = .ok (some (.int (lit% "2"))) ∧
    p.getValue (lit% "c") = .ok none ∧ p.getValue (lit% "t") = .ok none ∧ p.getValue (lit% "t.u") = .panic .tableToVal :=
  Out.wit (by decide +kernel)

/-! ## C17 -/

/-- C17. `get_value` panics exactly at the keys of the table headers. -/
theorem C17_get_value_panics_iff {i : Str} {p : Parser} {r : ParseResult} (h : Parser.new.parse i = .ok (p, r)) (hr : r.whole) :
    ∃ ls, DocWf ls ∧ i = linesText ls ∧ (hasArrayTable ls = false → (∀ e ∈ r.errs, e.table? = none) →
      ∀ k, (∃ x, p.getValue k = .panic x) ↔ ∃ nl w1 t w2 c, (nl, ET.table w1 (.std t) w2 c) ∈ ls ∧ t.key = k) := by
  obtain ⟨ls, px, st1, hP⟩ := parse_parsed h
  obtain ⟨hl, he⟩ := hP.whole hr
  refine ⟨ls, hP.wf, (hP.full hl).2.2, fun hn hb k => ?_⟩
  have hR := hP.reading hl hn
  have hh := hR.bad.mpr (by rw [← he]; exact hb)
  rw [hR.getValue hh k]
  have hmem : ∀ (ls : List (Str × ET)) (T : Str), (k, Entry.header) ∈ docEntries T ls ↔ ∃ nl w1 t w2 c, (nl, ET.table w1 (.std t) w2 c) ∈ ls ∧ t.key = k := by
    intro ls
    induction ls with
    | nil => intro T; simp [docEntries]
    | cons l ls ih =>
      intro T
      obtain ⟨nl, e⟩ := l
      cases e with
      | blank w => simp [docEntries, ih]
      | comment w c => simp [docEntries, ih]
      | kv w1 k0 s v w2 c => simp [docEntries, ih]
      | table w1 t w2 c =>
        cases t with
        | arr t => simp [docEntries, ih]
        | std t =>
          simp only [docEntries, List.mem_cons, ih]
          constructor
          · rintro (h | ⟨nl', w1', t', w2', c', h, rfl⟩)
            · simp at h
              exact ⟨nl, w1, t, w2, c, .inl rfl, h.symm⟩
            · exact ⟨nl', w1', t', w2', c', .inr h, rfl⟩
          · rintro ⟨nl', w1', t', w2', c', h | h, rfl⟩
            · simp at h
              obtain ⟨_, _, rfl, _⟩ := h
              simp
            · exact .inr ⟨nl', w1', t', w2', c', h, rfl⟩
  rw [← hmem ls []]
  constructor
  · rintro ⟨x, hx⟩
    cases hlk : lookup k (docEntries [] ls) with
    | none => rw [hlk] at hx; simp [readEntry] at hx
    | some e =>
      cases e with
      | val t => rw [hlk] at hx; simp [readEntry] at hx
      | header => exact lookup_mem hlk
  · intro hk
    have := hh.header (k := k) (.inr hk)
    rw [List.nil_append] at this
    rw [this]
    exact ⟨_, rfl⟩

/-- C17, the wish fails: `get_value` of a table that is in the document panics. -/
theorem C17_wish_fails : ∃ p, Parser.new.parse (lit% "[t]\na = 1") = .ok (p, .full) ∧ p.getValue (lit% "t") = .panic .tableToVal :=
  Out.wit (by decide +kernel)

/-! ## C28 -/

/-- C28. A key that has a value or header already keeps it (see C32), and each later value for it is reported as a `DuplicateKey` with the key and
that value, in the order of the text; nothing else is reported as a `DuplicateKey`. -/
theorem C28_duplicate_keys {i : Str} {p : Parser} {r : ParseResult} (h : Parser.new.parse i = .ok (p, r)) (hr : r.whole) :
    ∃ ls, DocWf ls ∧ i = linesText ls ∧ (hasArrayTable ls = false → (∀ e ∈ r.errs, e.table? = none) →
      r.errs.filterMap ParseError.dup? = repeats [] (docEntries [] ls) ∧
      ∀ k, p.getValue k = readEntry (lookup k (docEntries [] ls))) := by
  obtain ⟨ls, px, st1, hP⟩ := parse_parsed h
  obtain ⟨hl, he⟩ := hP.whole hr
  refine ⟨ls, hP.wf, (hP.full hl).2.2, fun hn hb => ?_⟩
  have hR := hP.reading hl hn
  have hh := hR.bad.mpr (by rw [← he]; exact hb)
  obtain ⟨T, F, _, _, l, e1, e2, _⟩ := hR.ok hh
  refine ⟨?_, fun k => hR.getValue hh k⟩
  rw [he, e1]
  simpa using e2

example : ∃ p, Parser.new.parse (lit% "a = 1\nb = {c = 2}\na = 3\nb = 4") = .ok (p, .fullError [.duplicateKey (lit% "a") 3 0 (.int (lit% "3")),
      .duplicateKey (lit% "b") 4 0 (.int (lit% "4"))]) ∧
    p.getValue (lit% "a") = .ok (some (.int (lit% "1"))) :=
  Out.wit (by decide +kernel)

/-- C28, what goes wrong nevertheless: the parts of a repeated array that were not there before are taken over. -/
theorem C28_parts_leak : ∃ p, Parser.new.parse (lit% "a = [1]\na = [2, 3]") = .ok (p, .fullError [.duplicateKey (lit% "a[0]") 2 0 (.int (lit% "2")),
      .duplicateKey (lit% "a") 2 0 (.arr [.int (lit% "2"), .int (lit% "3")])]) ∧
    p.getValue (lit% "a") = .ok (some (.arr [.int (lit% "1")])) ∧ p.getValue (lit% "a[1]") = .ok (some (.int (lit% "3"))) ∧
    p.getChildren (lit% "a") = some (.count 2) :=
  Out.wit (by decide +kernel)

/-! ## C33, C34 -/

/-- C33, what holds. A `MixedArray` error names an array with elements of different kinds, and if there is such an array the document is reported as
erroneous. -/
theorem C33_mixed_arrays {i : Str} {p : Parser} {r : ParseResult} (h : Parser.new.parse i = .ok (p, r)) (hr : r.whole) :
    ∃ ls, DocWf ls ∧ i = linesText ls ∧ (hasArrayTable ls = false → (∀ e ∈ r.errs, e.table? = none) →
      (∀ k ∈ r.errs.filterMap ParseError.mixed?, ∃ e, (k, e) ∈ docEntries [] ls ∧ isMixed e = true) ∧
      ((∃ e ∈ docEntries [] ls, isMixed e.2 = true) → r ≠ .full)) := by
  obtain ⟨ls, px, st1, hP⟩ := parse_parsed h
  obtain ⟨hl, he⟩ := hP.whole hr
  refine ⟨ls, hP.wf, (hP.full hl).2.2, fun hn hb => ?_⟩
  have hR := hP.reading hl hn
  have hh := hR.bad.mpr (by rw [← he]; exact hb)
  obtain ⟨T, F, _, _, l, e1, _, _, e4, _, e6⟩ := hR.ok hh
  constructor
  · intro k hk
    rw [he, e1] at hk
    exact e4 k (by simpa using hk)
  · rintro ⟨e, h1, h2⟩ rfl
    exact e6 e h1 h2 (by rw [← he]; rfl)

example : (Parser.new.parse (lit% "a = [[1, 2], ['x']]\nb = [1, 'x']")).map' (·.2) = .ok (.fullError [.mixedArray (lit% "b") 2 0]) := by decide +kernel

/-- C33, the wish is false: a mixed array after an error of another kind gets no `MixedArray` error. -/
theorem C33_wish_fails : (Parser.new.parse (lit% "a = 1\na = 2\nb = [1, 'x']")).map' (·.2) =
    .ok (.fullError [.duplicateKey (lit% "a") 2 0 (.int (lit% "2"))]) := by decide +kernel

/-- C34. The dates and times that do not exist are reported as `InvalidDateTime` with their key and text, in the order of the text; nothing else is. -/
theorem C34_invalid_dates {i : Str} {p : Parser} {r : ParseResult} (h : Parser.new.parse i = .ok (p, r)) (hr : r.whole) :
    ∃ ls, DocWf ls ∧ i = linesText ls ∧ (hasArrayTable ls = false → (∀ e ∈ r.errs, e.table? = none) →
      r.errs.filterMap ParseError.date? = (docEntries [] ls).filterMap badDate) := by
  obtain ⟨ls, px, st1, hP⟩ := parse_parsed h
  obtain ⟨hl, he⟩ := hP.whole hr
  refine ⟨ls, hP.wf, (hP.full hl).2.2, fun hn hb => ?_⟩
  have hR := hP.reading hl hn
  have hh := hR.bad.mpr (by rw [← he]; exact hb)
  obtain ⟨T, F, _, _, l, e1, _, e3, _⟩ := hR.ok hh
  rw [he, e1]
  simpa using e3

example : (Parser.new.parse (lit% "[t]\nd = [2001-02-29, 2000-02-29]\ne = 2000-13-01")).map' (·.2) =
    .ok (.fullError [.invalidDateTime (lit% "t.d[0]") 2 0 (lit% "2001-02-29"), .invalidDateTime (lit% "t.e") 3 0 (lit% "2000-13-01")]) := by decide +kernel

/-! ## C42 -/

/-- C42. A document is accepted without complaint exactly when its table headers are in order, no key is given twice, its dates and times exist and no array has
elements of different kinds. -/
theorem C42_accepted_iff_valid {i : Str} {p : Parser} {r : ParseResult} (h : Parser.new.parse i = .ok (p, r)) (hr : r.whole) :
    ∃ ls, DocWf ls ∧ i = linesText ls ∧ (hasArrayTable ls = false →
      (r = .full ↔ HeadersOk [] [] ls ∧ repeats [] (docEntries [] ls) = [] ∧ (docEntries [] ls).filterMap badDate = [] ∧
        ∀ e ∈ docEntries [] ls, isMixed e.2 = false)) := by
  obtain ⟨ls, px, st1, hP⟩ := parse_parsed h
  obtain ⟨hl, he⟩ := hP.whole hr
  refine ⟨ls, hP.wf, (hP.full hl).2.2, fun hn => hP.full_iff hl hn⟩

example : (Parser.new.parse (lit% "[a]\nx = 1\n[b]\nx = [1, 2]\n[b.c.d]\n")).map' (·.2) = .ok .full := by decide +kernel

example : (Parser.new.parse (lit% "[a]\nx = 1\n[a.b]\n")).map' (·.2) = .ok (.fullError [.invalidTable (lit% "a.b") 3 0 []]) := by decide +kernel

/-- C42, where this differs from TOML: a table may have values and sub-tables, but the example of the specification is reported as an error. -/
theorem C42_toml_example_rejected :
    (Parser.new.parse (lit% "[dog]\nname = 'Rex'\n[dog.tater]\ntype = 'pug'\n")).map' (·.2) =
    .ok (.fullError [.invalidTable (lit% "dog.tater") 3 0 [(lit% "type", .str (lit% "pug") .literal)]]) := by decide +kernel

/-- C42, another difference: a table made by a header can be given a value as well, without complaint. -/
theorem C42_redefinition_accepted : (Parser.new.parse (lit% "[x.a.b]\n[x]\na = 5")).map' (·.2) = .ok .full := by decide +kernel

/-! ## C30 -/

/-- C30, what is missing: with an array below a header that is not in order there can be a panic. -/
theorem C30_wish_fails : Parser.new.parse (lit% "[t]\n[t]\na = [1]\n[a.b]") = .panic .stdTableIndexed := by decide +kernel

/-- C30, for texts without table headers: if no line begins with `[`, then `parse` does not panic. -/
theorem C30_no_headers {i : Str} (hi : ¬ HasHeaderLine i) : ∃ p r, Parser.new.parse i = .ok (p, r) := by
  have ha := parse_all (p := Parser.new) Reachable.new.inv i
  cases h : Parser.new.parse i with
  | ok x => exact ⟨x.1, x.2, rfl⟩
  | fuel => rw [h] at ha; exact ha.elim
  | panic x =>
    exfalso
    have hs := toml_spec PState.new i
    unfold Parser.parse at h
    rw [show Parser.new.st = PState.new from rfl] at h
    generalize toml PState.new i = o at hs h
    cases hs with
    | done ls px nodes r0 r' st1 st2 h1 h2 h3 h4 h5 h6 h7 =>
      dsimp only at h
      split at h <;> split at h <;> simp at h
    | abort ls nl w px nodes r st1 e h1 h2 h3 h4 h5 h6 h7 =>
      have hno : ∀ nl w1 t w2 c, (nl, ET.table w1 t w2 c) ∉ ls := by
        intro nl' w1 t w2 c hm
        rcases h1 with rfl | h1
        · simp at hm
        · apply hi
          have := header_line h1 (rest := nl ++ w ++ px.text ++ r) ⟨nl', w1, t, w2, c, hm⟩
          rw [h5]
          simpa using this
      have hn : hasArrayTable ls = false := by
        simp only [hasArrayTable, List.any_eq_false]
        rintro ⟨nl', e⟩ hm
        cases e with
        | table w1 t w2 c => exact absurd hm (hno _ _ _ _ _)
        | _ => simp
      have hw : ∀ l ∈ ls, l.2.wf := by
        rcases h1 with rfl | h1
        · simp
        · exact h1.lines
      have hpx : ∀ t, px ≠ .table t := by
        rintro t rfl
        apply hi
        have hd : ∃ b, t.text = lit% "[" ++ b := by
          cases t with
          | std t => exact ⟨t.text ++ lit% "]", by simp [TableType.text]⟩
          | arr t => exact ⟨lit% "[" ++ t.text ++ lit% "]]", by simp [TableType.text]⟩
        obtain ⟨b, hb⟩ := hd
        refine ⟨linesText ls ++ nl, w, b ++ r, by rw [h5]; simp [PX.text, hb], h3, ?_⟩
        rcases h2 with ⟨rfl, rfl⟩ | rfl | rfl
        · exact .inl rfl
        · exact .inr ⟨_, rfl⟩
        · exact .inr ⟨linesText ls ++ lit% "\r", by simp⟩
      rcases linesEff_doc hw hn h6 with ⟨_, T, F, hd, _⟩ | ⟨hb, _⟩
      · obtain ⟨st', g⟩ := PX.eff_total (hd.linesN (nlCount nl)) h4 (fun t => hpx _)
        rw [g] at h7
        cases e <;> simp [Abort.out] at h7
      · exact hb (headersOk_none hno)

/-- C17, for texts without table headers: `get_value` does not panic. -/
theorem C17_no_headers {i : Str} (hi : ¬ HasHeaderLine i) {p : Parser} {r : ParseResult} (h : Parser.new.parse i = .ok (p, r)) (hr : r.whole) (k : Str) :
    ∃ v, p.getValue k = .ok v := by
  obtain ⟨ls, px, st1, hP⟩ := parse_parsed h
  obtain ⟨hl, he⟩ := hP.whole hr
  have ht := (hP.full hl).2.2
  have hno : ∀ nl w1 t w2 c, (nl, ET.table w1 t w2 c) ∉ ls := by
    intro nl w1 t w2 c hm
    have := header_line hP.wf (rest := []) ⟨nl, w1, t, w2, c, hm⟩
    rw [List.append_nil, ← ht] at this
    exact hi this
  have hn : hasArrayTable ls = false := by
    simp only [hasArrayTable, List.any_eq_false]
    rintro ⟨nl', e⟩ hm
    cases e with
    | table w1 t w2 c => exact absurd hm (hno _ _ _ _ _)
    | _ => simp
  rw [(hP.reading hl hn).getValue (headersOk_none hno) k]
  have hmem : ∀ (ls : List (Str × ET)) (T : Str), (∀ nl w1 t w2 c, (nl, ET.table w1 t w2 c) ∉ ls) → (k, Entry.header) ∉ docEntries T ls := by
    intro ls
    induction ls with
    | nil => intro T _; simp [docEntries]
    | cons l ls ih =>
      intro T hno
      have ih' := fun T => ih T fun nl w1 t w2 c hm => hno nl w1 t w2 c (by simp [hm])
      obtain ⟨nl, e⟩ := l
      cases e with
      | blank w => exact ih' T
      | comment w c => exact ih' T
      | kv w1 k0 s v w2 c => simp [docEntries, ih' T]
      | table w1 t w2 c => exact absurd (by simp) (hno nl w1 t w2 c)
  cases hlk : lookup k (docEntries [] ls) with
  | none => exact ⟨_, rfl⟩
  | some e =>
    cases e with
    | val t => exact ⟨_, rfl⟩
    | header => exact absurd (lookup_mem hlk) (hmem ls [] hno)

example : ¬ HasHeaderLine (lit% "a = 1") := by
  rintro ⟨a, w, b, e, hw, h⟩
  have : '[' ∈ (lit% "a = 1") := by rw [e]; simp
  simp at this

end Tomllib
