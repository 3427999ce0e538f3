import Verif.Lemmas.Reads
import Verif.Lemmas.Witness
import Verif.Lemmas.Rebuild
import Verif.Props.Parse
/-!
# Several documents read with the same parser: C52
-/

namespace Tomllib

/-- C52. A parser that has read some documents to the end (C70) reads on with one more, `ls`, just as a new parser reads any document `ks` that says all of it,
one after the other: both panic, or both come to the end with the same values and children at every key, and the same errors but for their positions. -/
theorem C52_reading_on {ds : List (List (Str × ET))} {ls ks : List (Str × ET)} (hd : ∀ d ∈ ds, DocTaken d) (h : DocTaken ls) (hk : DocTaken ks)
    (hc : content ks = ds.flatMap content ++ content ls) {p : Parser} {r : ParseResult} (hp : runReads (Parser.new, .full) (ds.map linesText) = .ok (p, r)) :
    (∃ x, p.parse (linesText ls) = .panic x ∧ Parser.new.parse (linesText ks) = .panic x) ∨
    ∃ p' r' q s, p.parse (linesText ls) = .ok (p', r') ∧ Parser.new.parse (linesText ks) = .ok (q, s) ∧ r'.whole ∧ s.whole ∧
      (∀ k, p'.getValue k = q.getValue k ∧ p'.getChildren k = q.getChildren k) ∧ r'.errs.map ParseError.bare = s.errs.map ParseError.bare := by
  obtain ⟨h1, _, _⟩ := runReads_st hd rfl hp
  have hw : ∀ l : List ParseError, ParseResult.whole (if l ≠ [] then .fullError l else .full) := by
    intro l
    split
    · exact .inr ⟨_, rfl⟩
    · exact .inl rfl
  have hes : ∀ l : List ParseError, ParseResult.errs (if l ≠ [] then .fullError l else .full) = l := by
    intro l
    by_cases h0 : l = [] <;> simp [h0, ParseResult.errs]
  have hn := linesSt_norm (ds.flatten ++ ls) ks (by rw [content_append, content_flatten, hc]) (st := PState.new) (st' := PState.new) rfl
  rw [linesSt_append, show linesSt ds.flatten PState.new = .ok p.st from h1, ← linesEff_st ks] at hn
  simp only [Out.bind, ← linesEff_st ls] at hn
  have ha := parse_all (Reachable.new.reads hp).inv (linesText ls)
  rw [parse_fwd_any h] at ha ⊢
  rw [parse_fwd hk]
  unfold Same at hn
  cases ho : linesEff ls p.st with
  | fuel => rw [ho] at ha; exact ha.elim
  | panic x =>
    rw [ho] at hn
    left
    cases ho' : linesEff ks PState.new <;> rw [ho'] at hn <;> simp at hn
    subst hn
    exact ⟨x, rfl, rfl⟩
  | ok x =>
    rw [ho] at hn
    right
    cases ho' : linesEff ks PState.new <;> rw [ho'] at hn <;> simp at hn
    rename_i y
    refine ⟨_, _, _, _, rfl, rfl, hw _, hw _, fun k => norm_reads hn k, ?_⟩
    rw [hes, hes]
    exact congrArg (fun s : PState => s.errors) hn

/-- C52. The errors of the documents before stay in the list; those of the new one come behind them, on line numbers that are counted on. (The pairs listed in an
`InvalidTable` error are left out: they grow with the lines that follow.) -/
theorem C52_errors {ds : List (List (Str × ET))} {ls : List (Str × ET)} (hd : ∀ d ∈ ds, DocTaken d) (h : DocTaken ls) {p p' : Parser} {r r' : ParseResult}
    (hp : runReads (Parser.new, .full) (ds.map linesText) = .ok (p, r)) (hp' : p.parse (linesText ls) = .ok (p', r')) :
    ∃ new, r'.errs.map ParseError.lessPairs = r.errs.map ParseError.lessPairs ++ new ∧
      ∀ e ∈ new, 1 + linesCounted ds.flatten ≤ e.line ∧ e.line ≤ 1 + linesCounted ds.flatten + linesCounted ls := by
  obtain ⟨_, h2, h3⟩ := runReads_st hd rfl hp
  rw [parse_fwd_any h, Out.bind_ok] at hp'
  obtain ⟨⟨st, ns⟩, h4, h5⟩ := hp'
  obtain ⟨⟨l, b1, b2⟩, _⟩ := linesEff_adds h4
  have h6 := linesEff_line h4
  simp only [Out.ok.injEq, Prod.mk.injEq] at h5
  have h7 : r'.errs = st.errors := by
    rw [← h5.2]
    by_cases h0 : st.errors = [] <;> simp [h0, ParseResult.errs]
  refine ⟨l, by rw [h7, h2, b1], fun e he => ?_⟩
  have := (b2 e he).2
  simp only [PState.new, Parser.new] at h3
  omega

private def exKv (nl k v : Str) : Str × ET := (nl, .kv [] k ⟨lit% " ", lit% " "⟩ (.leaf (.int v)) [] none)

/-- Two texts, the second with a key that is in the first, and a text that says both. -/
example : ∃ d ls ks, DocStrict d ∧ DocStrict ls ∧ DocStrict ks ∧ content ks = [d].flatMap content ++ content ls ∧
    linesText d = lit% "a = 1\n" ∧ linesText ls = lit% "a = 2" ∧ linesText ks = lit% "a = 1\n\na = 2" ∧
    ∃ p, runReads (Parser.new, .full) [linesText d] = .ok (p, .full) ∧
    ∃ p', p.parse (linesText ls) = .ok (p', .fullError [.duplicateKey (lit% "a") 2 0 (.int (lit% "2"))]) ∧
      p'.getValue (lit% "a") = .ok (some (.int (lit% "1"))) ∧
    ∃ q, Parser.new.parse (linesText ks) = .ok (q, .fullError [.duplicateKey (lit% "a") 3 0 (.int (lit% "2"))]) ∧ q.getValue (lit% "a") = .ok (some (.int (lit% "1"))) := by
  have it : ∀ i, Re.find Rx.integer i = some (i, []) → IntegerText i := fun i h => (lang_integer _).mp (Re.find_some h).2
  have i1 := it (lit% "1") (by decide +kernel)
  have i2 := it (lit% "2") (by decide +kernel)
  have ka : KeyWf (lit% "a") := .inl ⟨by simp, by decide⟩
  have s1 : Spaces (lit% " ") := Pieces.one SpacePiece.blank
  have s0 : Spaces [] := .nil
  refine ⟨[exKv [] (lit% "a") (lit% "1"), (lit% "\n", .blank [])], [exKv [] (lit% "a") (lit% "2")],
    [exKv [] (lit% "a") (lit% "1"), (lit% "\n", .blank []), exKv (lit% "\n") (lit% "a") (lit% "2")], ?_, ?_, ?_, rfl, rfl, rfl, rfl, ?_⟩
  · simp [exKv, DocStrict, LinesStrict, ET.strict, VT.strict, Scalar.strict, WSSep.wf, Blank, CommentWf, i1, s0, s1, ka]
  · simp [exKv, DocStrict, LinesStrict, ET.strict, VT.strict, Scalar.strict, WSSep.wf, Blank, CommentWf, i2, s1, ka]
  · simp [exKv, DocStrict, LinesStrict, ET.strict, VT.strict, Scalar.strict, WSSep.wf, Blank, CommentWf, i1, i2, s0, s1, ka]
  · decide +kernel

/-- C52. Only the last text is printed. -/
theorem C52_last_is_printed {ts : List Str} {t : Str} {p p' : Parser} {r r' : ParseResult} (hp : runReads (Parser.new, .full) ts = .ok (p, r))
    (hp' : p.parse t = .ok (p', r')) (hr : r'.whole) {s : Str} (hs : p'.display = .ok s) : s = t := by
  exact C03_display_full (Reachable.new.reads hp) hp' hr hs

/-- C52. So the pairs of the second text are in the last table of the first, an assignment to a key of the first text is accepted and not printed, and what is printed
is not the document that is read. -/
theorem C52_first_not_printed : ∃ p, runReads (Parser.new, .full) [lit% "[t]\nx = 1", lit% "y = 2"] = .ok (p, .full) ∧
    p.getValue (lit% "t.y") = .ok (some (.int (lit% "2"))) ∧ p.getValue (lit% "y") = .ok none ∧
    ∃ p', p.setValue (lit% "t.x") (.int (lit% "9")) = .ok (p', true) ∧ p'.getValue (lit% "t.x") = .ok (some (.int (lit% "9"))) ∧ p'.display = .ok (lit% "y = 2") := by
  decide +kernel

end Tomllib
