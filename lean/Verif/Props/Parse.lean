import Verif.Lemmas.Count
import Verif.Lemmas.Place
import Verif.Lemmas.Read
import Verif.Lemmas.Witness
import Verif.Lemmas.ForParse
/-!
# Properties of `parse` and of printing: C01 - C08, C27, C31
-/

namespace Tomllib

/-! ## C01 -/

/-- C01. `parse` ends (it never runs out of the model's recursion budget), and unless it panics its result is one of the four; not `Failure`.
For every parser a program can have and every text. -/
theorem C01_parse_finishes {p : Parser} (hp : Reachable p) (i : Str) :
    (∃ x, p.parse i = .panic x) ∨
    ∃ p' r, p.parse i = .ok (p', r) ∧
      (r = .full ∨ (∃ e, r = .fullError e) ∨ (∃ s l c, r = .partialRes s l c) ∨ ∃ s l c e, r = .partialError s l c e) := by
  have ha := parse_all hp.inv i
  cases h : p.parse i with
  | panic x => exact .inl ⟨x, rfl⟩
  | fuel => rw [h] at ha; exact ha.elim
  | ok x =>
    obtain ⟨p', r⟩ := x
    right
    refine ⟨p', r, rfl, ?_⟩
    obtain ⟨ls, px, st1, hP⟩ := parse_parsed h
    rw [hP.res]
    unfold resultOf
    split <;> split
    · exact .inr (.inr (.inr ⟨_, _, _, _, rfl⟩))
    · exact .inr (.inr (.inl ⟨_, _, _, rfl⟩))
    · exact .inr (.inl ⟨_, rfl⟩)
    · exact .inl rfl

example : Reachable Parser.new := .new

example : (Parser.new.parse (lit% "a = 1")).map' (·.2) = .ok .full := by decide +kernel

example : (Parser.new.parse (lit% "a = [1, \"x\"]\na = 2")).map' (·.2) =
    .ok (.fullError [.mixedArray (lit% "a") 1 0, .duplicateKey (lit% "a") 2 0 (.int (lit% "2"))]) := by decide +kernel

example : (Parser.new.parse (lit% "a = 1\nb = ]")).map' (·.2) = .ok (.partialRes [] 2 0) := by decide +kernel

example : (Parser.new.parse (lit% "a = 1\na = 2\nb = ]")).map' (·.2) =
    .ok (.partialError [] 3 0 [.duplicateKey (lit% "a") 2 0 (.int (lit% "2"))]) := by decide +kernel

/-! ## C02 -/

/-- C02. The result says whether text is left over and whether there are errors: the text splits into a part that was read, which is the text of a
well-formed document, and the part left over; the four results correspond to the four combinations, and the error lists are not empty. -/
theorem C02_result_says_what_happened {p p' : Parser} {i : Str} {r : ParseResult} (h : p.parse i = .ok (p', r)) :
    ∃ ls rest, DocWf ls ∧ i = linesText ls ++ rest ∧ p'.leftover = rest ∧
      (r = .full ↔ rest = [] ∧ p'.st.errors = []) ∧
      ((∃ e, r = .fullError e) ↔ rest = [] ∧ p'.st.errors ≠ []) ∧
      ((∃ s l c, r = .partialRes s l c) ↔ rest ≠ [] ∧ p'.st.errors = []) ∧
      ((∃ s l c e, r = .partialError s l c e) ↔ rest ≠ [] ∧ p'.st.errors ≠ []) ∧
      r.errs = p'.st.errors := by
  obtain ⟨ls, px, st1, hP⟩ := parse_parsed h
  refine ⟨ls, p'.leftover, hP.wf, hP.text, rfl, ?_⟩
  rw [hP.res]
  unfold resultOf
  by_cases h1 : p'.leftover = [] <;> by_cases h2 : p'.st.errors = [] <;> simp [h1, h2, ParseResult.errs]

/-- C02, the errors are carried in the order in which they were found, and the error list of a `FullError` or `PartialError` is never empty. -/
theorem C02_error_list_nonempty {p p' : Parser} {i : Str} {r : ParseResult} (h : p.parse i = .ok (p', r)) :
    (∀ e, r = .fullError e → e ≠ []) ∧ (∀ s l c e, r = .partialError s l c e → e ≠ []) := by
  obtain ⟨ls, px, st1, hP⟩ := parse_parsed h
  rw [hP.res]
  unfold resultOf
  constructor
  · intro e he
    split at he <;> split at he <;> simp at he
    subst he; assumption
  · intro s l c e he
    split at he <;> split at he <;> simp at he
    obtain ⟨_, _, _, rfl⟩ := he; assumption

example : ∃ p', Parser.new.parse (lit% "a = 1 # c\r\n[t]\n") = .ok (p', .full) := Out.wit' (by decide +kernel)

/-! ## C03, C04, C05 -/

/-- C03. A document that was read to its end is printed back character for character (unless printing panics, see C05), by every parser a program can
have (also one that has been used before). -/
theorem C03_display_full {p p' : Parser} (hp : Reachable p) {i : Str} {r : ParseResult} (h : p.parse i = .ok (p', r))
    (hr : r = .full ∨ ∃ e, r = .fullError e) {t : Str} (ht : p'.display = .ok t) : t = i := by
  obtain ⟨ls, px, st1, hP⟩ := parse_parsed h
  have hl : p'.leftover = [] := by
    have := hP.res
    unfold resultOf at this
    split at this
    · rcases hr with rfl | ⟨e, rfl⟩ <;> split at this <;> simp at this
    next h => simpa using h
  obtain ⟨_, _, hi⟩ := hP.full hl
  have hd := hP.display (Reachable.parse hp h).inv
  rw [ht, textOr] at hd
  split at hd
  · simp at hd
  · simp at hd; rw [hd, hi]

example : ∃ p', Parser.new.parse (lit% "\t# top\r\n[ a . \"b c\" ]\nx = [ 1,\n 2 , # two\n]\r\ny = {z = '''q'''} ") = .ok (p', .full) ∧
    p'.display = .ok (lit% "\t# top\r\n[ a . \"b c\" ]\nx = [ 1,\n 2 , # two\n]\r\ny = {z = '''q'''} ") :=
  Out.wit (by decide +kernel)

/-- C04. A document that was read in part is printed up to where reading stopped: the printed text is a proper prefix. -/
theorem C04_display_partial {p p' : Parser} (hp : Reachable p) {i : Str} {r : ParseResult} (h : p.parse i = .ok (p', r))
    (hr : (∃ s l c, r = .partialRes s l c) ∨ ∃ s l c e, r = .partialError s l c e) {t : Str} (ht : p'.display = .ok t) :
    ∃ rest, rest ≠ [] ∧ i = t ++ rest := by
  obtain ⟨ls, px, st1, hP⟩ := parse_parsed h
  have hl : p'.leftover ≠ [] := by
    have := hP.res
    unfold resultOf at this
    split at this
    · assumption
    · rcases hr with ⟨_, _, _, rfl⟩ | ⟨_, _, _, _, rfl⟩ <;> split at this <;> simp at this
  refine ⟨_, hl, ?_⟩
  have hd := hP.display (Reachable.parse hp h).inv
  rw [ht, textOr] at hd
  split at hd
  · simp at hd
  · simp at hd; rw [hd]; exact hP.text

example : ∃ p', Parser.new.parse (lit% "a = 1\nb = ]") = .ok (p', .partialRes [] 2 0) ∧ p'.display = .ok (lit% "a = 1\n") :=
  Out.wit (by decide +kernel)

/-- C05. Printing after a parse: it panics exactly when there is an empty inline table among the values that were read. -/
theorem C05_display_panics_iff {p p' : Parser} (hp : Reachable p) {i : Str} {r : ParseResult} (h : p.parse i = .ok (p', r)) :
    ∃ ls, DocWf ls ∧ i = linesText ls ++ p'.leftover ∧
      (hasEmptyTable ls = true → p'.display = .panic .underflow) ∧ (hasEmptyTable ls = false → p'.display = .ok (linesText ls)) := by
  obtain ⟨ls, px, st1, hP⟩ := parse_parsed h
  refine ⟨ls, hP.wf, hP.text, ?_⟩
  rw [hP.display (Reachable.parse hp h).inv, textOr]
  cases hasEmptyTable ls <;> simp

/-- C05, in terms of the text alone: if nowhere in it an opening brace is followed by blanks and a closing brace, printing does not panic. -/
theorem C05_display_ok_of_no_braces {p p' : Parser} (hp : Reachable p) {i : Str} {r : ParseResult} (h : p.parse i = .ok (p', r))
    (hb : ¬ HasBraces i) : ∃ t, p'.display = .ok t := by
  obtain ⟨ls, hw, hi, h1, h2⟩ := C05_display_panics_iff hp h
  cases he : hasEmptyTable ls with
  | false => exact ⟨_, h2 he⟩
  | true =>
    refine absurd ?_ hb
    rw [hi]
    refine (linesText_hasBraces ?_ he).right _
    cases ls with
    | nil => exact hw.elim
    | cons l ls =>
      intro x hx
      rw [List.mem_cons] at hx
      rcases hx with rfl | hx
      · exact hw.2.1
      · exact (hw.2.2 x hx).2

/-- C05, the wish that printing never panics is false: `a = {}` is read in full without errors, and cannot be printed. -/
theorem C05_display_panics : ∃ p', Parser.new.parse (lit% "a = { }") = .ok (p', .full) ∧ p'.display = .panic .underflow :=
  Out.wit (by decide +kernel)

/-- Printing a parser that has not read anything panics as well. -/
theorem C05_display_new_panics : Parser.new.display = .panic .underflow := by decide +kernel

example : ¬ HasBraces (lit% "a = {b = 1}") := by
  rintro ⟨pre, w, post, h, hw⟩
  have h1 : pre.length ≤ 11 := by have := congrArg List.length h; simp at this; omega
  have hlen := congrArg List.length h
  simp at hlen
  -- the only opening brace is at position 4 and is followed by `b`
  have h4 : (pre ++ lit% "{" ++ w ++ lit% "}" ++ post)[pre.length]? = some '{' := by simp
  rw [← h] at h4
  have hp : pre.length = 4 := by
    have : ∀ n, n ≤ 11 → (lit% "a = {b = 1}")[n]? = some '{' → n = 4 := by decide
    exact this _ h1 h4
  have h5 : (pre ++ lit% "{" ++ w ++ lit% "}" ++ post)[pre.length + 1]? = (w ++ lit% "}" ++ post)[0]? := by
    rw [List.append_assoc, List.append_assoc, List.append_assoc, List.getElem?_append_right (by omega)]
    simp
  rw [← h, hp] at h5
  cases w with
  | nil => simp at h5
  | cons c w =>
    simp at h5
    rcases hw c (by simp) with rfl | rfl <;> simp at h5

/-! ## C06 -/

/-- C06 as documented is false: the leftover text is not in the result. A fresh parser on `a = 1` and a second line `]` reports an empty leftover, although
the text `]` was not read. -/
theorem C06_leftover_not_reported : ∃ p', Parser.new.parse (lit% "a = 1\n]") = .ok (p', .partialRes [] 2 0) ∧ p'.leftover = lit% "]" :=
  Out.wit (by decide +kernel)

/-- C06, what the code does: the text reported is the leftover of the parse before, and on a fresh parser it is always empty although some text is left. -/
theorem C06_leftover_always_stale {p p' : Parser} {i : Str} {r : ParseResult} (h : p.parse i = .ok (p', r)) :
    (∀ s l c, r = .partialRes s l c → s = p.leftover ∧ p'.leftover ≠ []) ∧
    (∀ s l c e, r = .partialError s l c e → s = p.leftover ∧ p'.leftover ≠ []) := by
  obtain ⟨ls, px, st1, hP⟩ := parse_parsed h
  rw [hP.res]
  unfold resultOf
  constructor
  · intro s l c he
    split at he <;> split at he <;> simp at he
    exact ⟨he.1.symm, by assumption⟩
  · intro s l c e he
    split at he <;> split at he <;> simp at he
    exact ⟨he.1.symm, by assumption⟩

example : Parser.new.leftover = [] := rfl

example : ∃ p', Parser.new.parse (lit% "]x") = .ok (p', .partialRes [] 1 0) ∧
    (p'.parse (lit% "]y")).map' (·.2) = .ok (.partialRes (lit% "]x") 1 0) := Out.wit (by decide +kernel)

/-! ## C07, C08 -/

/-- C07. Line numbers of a fresh parser, in the result and in every error, lie between 1 and one more than the number of line feeds of the text. -/
theorem C07_line_numbers {p' : Parser} {i : Str} {r : ParseResult} (h : Parser.new.parse i = .ok (p', r)) :
    (∀ l, r.line? = some l → 1 ≤ l ∧ l ≤ 1 + i.count '\n') ∧ (∀ e ∈ r.errs, 1 ≤ e.line ∧ e.line ≤ 1 + i.count '\n') := by
  obtain ⟨ls, px, st1, hP⟩ := parse_parsed h
  have hI := (Reachable.parse .new h).inv.inv
  have hle := hP.line_le
  have hb : p'.st.lineCount ≤ 1 + i.count '\n' := hle
  have hres := hP.res
  constructor
  · intro l hl
    have : l = p'.st.lineCount := by
      rw [hres] at hl
      unfold resultOf at hl
      split at hl <;> split at hl <;> simp [ParseResult.line?] at hl <;> exact hl.symm
    subst this
    exact ⟨hI.line1, hb⟩
  · intro e he
    have he : e ∈ p'.st.errors := by
      rw [hres] at he
      unfold resultOf at he
      split at he <;> split at he <;> simp [ParseResult.errs] at he <;> exact he
    have := hI.lines e he
    exact ⟨this.1, Nat.le_trans this.2 hb⟩

/-- C07, where reading stopped. The line reported is the one after the complete lines read, counting the line breaks between lines and those inside
multi-line strings; it is further down by no more than the line feeds of the unread rest, and exact if the rest has no three quotes in a row. -/
theorem C07_stop_line {p' : Parser} {i : Str} {r : ParseResult} (h : Parser.new.parse i = .ok (p', r)) {n : Nat} (hn : r.line? = some n) :
    ∃ ls, DocWf ls ∧ i = linesText ls ++ p'.leftover ∧ 1 + linesCounted ls ≤ n ∧ n ≤ 1 + linesCounted ls + p'.leftover.count '\n' ∧
      (¬ TripleQuotes p'.leftover → n = 1 + linesCounted ls) := by
  obtain ⟨ls, px, st1, hP⟩ := parse_parsed h
  have h1 := linesEff_line hP.eff
  have h2 := PX.eff_line' hP.pxeff
  have h3 := PX.eff_line hP.pxeff
  obtain ⟨r', hr'⟩ := hP.pxtext
  have hn' : n = p'.st.lineCount := by
    have hn := hn
    rw [hP.res] at hn
    unfold resultOf at hn
    split at hn <;> split at hn <;> simp [ParseResult.line?] at hn <;> exact hn.symm
  have hl : Parser.new.st.lineCount = 1 := rfl
  have hc : p'.leftover.count '\n' = nls px.text + nls r' := by rw [hr']; exact nls_append _ _
  refine ⟨ls, hP.wf, hP.text, by omega, by omega, fun hq => ?_⟩
  by_cases hd : p'.st.lineCount = st1.lineCount
  · omega
  · exact absurd ((h2.2 hd).mono (by rw [hr']; exact (List.prefix_append _ _).isInfix)) hq

/-- Two breaks between lines and one in a string: reading stops on line 4. -/
example : ∃ p', Parser.new.parse (lit% "a = \"\"\"x\ny\"\"\"\n\nb = = 1") = .ok (p', .partialRes [] 4 0) ∧ p'.leftover = lit% "b = = 1" :=
  Out.wit (by decide +kernel)

/-- The rest begins on line 2, and the line reported is that where the string in it ends. -/
example : ∃ p', Parser.new.parse (lit% "a = 1\nb = [\'\'\'\n\'\'\', = ") = .ok (p', .partialRes [] 3 0) ∧
    p'.leftover = lit% "b = [\'\'\'\n\'\'\', = " := Out.wit (by decide +kernel)

/-- C07, errors are reported on the lines that cause them. Let `text` be some lines and `text'` the same lines and one more, `l`. Reading the longer
text reports the errors of the shorter one, and then those of `l`: their kinds are those that such a line can cause, and their line numbers are
those of the lines that `l` occupies. (The pairs listed in an `InvalidTable` error are left out: they grow with the lines that follow.) -/
theorem C07_errors_located {ls : List (Str × ET)} {l : Str × ET} (hs : DocTaken ls) (hs' : DocTaken (ls ++ [l])) {p p' : Parser} {r r' : ParseResult}
    (h : Parser.new.parse (linesText ls) = .ok (p, r)) (h' : Parser.new.parse (linesText (ls ++ [l])) = .ok (p', r')) :
    ∃ new, r'.errs.map ParseError.lessPairs = r.errs.map ParseError.lessPairs ++ new ∧
      ∀ e ∈ new, l.2.mayCause e ∧ 1 + linesCounted ls + nlCount l.1 ≤ e.line ∧ e.line ≤ 1 + linesCounted ls + nlCount l.1 + l.2.counted := by
  rw [parse_fwd hs, Out.bind_ok] at h
  rw [parse_fwd hs', Out.bind_ok] at h'
  obtain ⟨⟨st, es⟩, h1, h⟩ := h
  obtain ⟨⟨st', es'⟩, h1', h'⟩ := h'
  have he : r.errs = st.errors := by
    simp at h; rw [← h.2]; split <;> simp_all [ParseResult.errs]
  have he' : r'.errs = st'.errors := by
    simp at h'; rw [← h'.2]; split <;> simp_all [ParseResult.errs]
  have hl := linesEff_line h1
  have hsn := linesEff_snoc ls l.1 l.2 PState.new
  rw [h1'] at hsn
  simp only [h1, Out.bind, Out.map'_ok] at hsn
  have ha := ET.eff_adds hsn.symm
  have hc := ET.eff_line hsn.symm
  obtain ⟨⟨new, hnew, hall⟩, _⟩ := ha
  refine ⟨new, by rw [he, he', hnew]; rfl, fun e hm => ?_⟩
  have := hall e hm
  simp only [PState.lines, PState.new] at *
  exact ⟨this.1, by omega, by omega⟩

/-- A document of three lines, the last of which is a repeated key, with a value on lines 3 and 4. -/
example : ∃ ls l, DocStrict ls ∧ DocStrict (ls ++ [l]) ∧ linesText (ls ++ [l]) = lit% "a = 1\n# x\na = \'\'\'\n\'\'\'" ∧
    1 + linesCounted ls + nlCount l.1 = 3 ∧ l.2.counted = 1 ∧
    (Parser.new.parse (linesText (ls ++ [l]))).map' (·.2) = .ok (.fullError [.duplicateKey (lit% "a") 4 0 (.str (lit% "\n") .mlLiteral)]) := by
  refine ⟨[([], .kv [] (lit% "a") ⟨lit% " ", lit% " "⟩ (.leaf (.int (lit% "1"))) [] none), (lit% "\n", .comment [] (lit% " x"))],
    (lit% "\n", .kv [] (lit% "a") ⟨lit% " ", lit% " "⟩ (.leaf (.str (lit% "\n") .mlLiteral)) [] none), ?_, ?_, rfl, rfl, rfl, by decide +kernel⟩
  all_goals
    have i1 : IntegerText (lit% "1") := (lang_integer _).mp (Re.find_some (r := Rx.integer) (s := lit% "1") (m := lit% "1") (t := []) (by decide +kernel)).2
    have ks : KeyWf (lit% "a") := .inl ⟨by simp, by decide⟩
    have s1 : Spaces (lit% " ") := Pieces.one SpacePiece.blank
    simp [DocStrict, LinesStrict, ET.strict, VT.strict, Scalar.strict, CommentText, CommentWf, WSSep.wf, Blank, i1, s1, ks]
  refine ⟨Pieces.one MlLiteralPiece.lf, ?_⟩
  intro u v huv hv _ ⟨t, ht⟩
  match u, v with
  | [], v => simp at huv; subst huv; simp [StrType.quotes] at ht
  | x :: u, v => simp at huv; simp [huv.2.2] at hv

/-- C07, line feeds inside the layout of an array are not counted: here the second pair is on line 4 of the text and is reported on line 2. -/
theorem C07_array_newlines_not_counted : ∃ p', Parser.new.parse (lit% "a = [\n1\n]\nb = = 1") = .ok (p', .partialRes [] 2 0) :=
  Out.wit' (by decide +kernel)

example : ∃ p', Parser.new.parse (lit% "a = 1\nb = 2\na = 3\nb = = 1") =
    .ok (p', .partialError [] 4 0 [.duplicateKey (lit% "a") 3 0 (.int (lit% "3"))]) := Out.wit' (by decide +kernel)

/-- C08. Columns are 0 in every result and every error, of every parser a program can have. -/
theorem C08_columns_zero {p p' : Parser} (hp : Reachable p) {i : Str} {r : ParseResult} (h : p.parse i = .ok (p', r)) :
    (∀ c, r.col? = some c → c = 0) ∧ ∀ e ∈ r.errs, e.col = 0 := by
  obtain ⟨ls, px, st1, hP⟩ := parse_parsed h
  have hI := (Reachable.parse hp h).inv.inv
  have hres := hP.res
  constructor
  · intro c hc
    rw [hres] at hc
    unfold resultOf at hc
    split at hc <;> split at hc <;> simp [ParseResult.col?] at hc <;> exact hc.symm
  · intro e he
    refine (hI.cols e ?_).1
    rw [hres] at he
    unfold resultOf at he
    split at he <;> split at he <;> simp [ParseResult.errs] at he <;> exact he

/-! ## C27 -/

/-- C27. No name is twice in a list of children, in every parser a program can have. -/
theorem C27_children_nodup {p : Parser} (hp : Reachable p) {key : Str} {ks : List Str} (h : p.getChildren key = some (.keys ks)) : ks.Nodup := by
  unfold Parser.getChildren at h
  dsimp only at h
  split at h
  next hv hg =>
    simp at h
    have := hp.inv.inv.map.get hg
    rw [h] at this
    exact this
  · simp at h

example : ∃ p', Parser.new.parse (lit% "[a.b]\n[a.c]\n[a.b]\n[a.b.d]") =
      .ok (p', .fullError [.invalidTable (lit% "a.b") 3 0 []]) ∧
    p'.getChildren (lit% "a") = some (.keys [lit% "b", lit% "c"]) := Out.wit (by decide +kernel)

/-! ## C31 -/

/-- C31 is false: reading can panic. A standard table below an array of tables that was left in between: -/
theorem C31_parse_panics : Parser.new.parse (lit% "[[a]]\n[c]\n[a.b]") = .panic .stdTableIndexed := by decide +kernel

/-- C31, an array of tables with the name of a key: -/
theorem C31_parse_panics_key : Parser.new.parse (lit% "a = 1\n[[a]]") = .panic .underflow := by decide +kernel

/-- C31, an array of tables below one that was left in between: -/
theorem C31_parse_panics_arr : Parser.new.parse (lit% "[[a]]\n[c]\n[[a.b]]") = .panic .implicitStd := by decide +kernel

/-- C31, what is true: reading can panic only in these five ways; all of them are failed assertions about the table of keys. -/
theorem C31_parse_panics_partial {p : Parser} (hp : Reachable p) {i : Str} {x : Panic} (h : p.parse i = .panic x) :
    x = .keyNotInMap ∨ x = .stdTableIndexed ∨ x = .implicitStd ∨ x = .addKeyToArray ∨ x = .underflow := by
  have := parse_all hp.inv i
  rw [h] at this
  exact this

end Tomllib
