import Verif.Lemmas.Source
import Verif.Lemmas.TakenStop
import Verif.Lemmas.Reads
import Verif.Lemmas.Witness
import Verif.Props.Taken
import Verif.Props.Report
/-!
# Nothing is made up: C72

Spec/Source.lean says when a line gives a value to a key.
-/

namespace Tomllib

/-- C72. Whatever is read, and wherever reading stops: what is answered for a key was answered before, or a line of the text gives it, or it is the value of a text that stands
in what could not be read. -/
theorem C72_wherever_it_stops {p p' : Parser} {i : Str} {r : ParseResult} {ls : List (Str × ET)} (hr : Reachable p) (h : p.parse i = .ok (p', r)) (hs : DocTaken ls)
    (hi : i = linesText ls ++ p'.leftover) {K : Str} {v : Value} (hv : p'.getValue K = .ok (some v)) :
    p.getValue K = .ok (some v) ∨ (∃ l ∈ ls, Gives K v l.2) ∨ ∃ t : VT, t.value = v ∧ t.text <:+: p'.leftover := by
  obtain ⟨ht, hres⟩ := toml_of_parse h
  obtain ⟨ls', px, r', st1, h1, h2, h3, h4, h5, h6, h7, h8⟩ := toml_stop ht
  have := h1.taken.one hs (List.append_cancel_right (h2.symm.trans hi))
  subst this
  have hP : Parsed p i p' r ls' px st1 := ⟨hs.wf, h2, h3, h4, ⟨r', h5⟩, h6, h8, hres⟩
  refine (parse_source hr h hP hv).imp_right (.imp_right ?_)
  rintro ⟨t, e1, _, e2⟩
  rw [h5]
  exact ⟨t, e1, infix_left e2 _⟩

/-- C72. What is answered after a text was read to its end was answered before, or a line of the text gives it. -/
theorem C72_any_time {p p' : Parser} {r : ParseResult} {ls : List (Str × ET)} (hr : Reachable p) (hs : DocTaken ls) (h : p.parse (linesText ls) = .ok (p', r))
    {K : Str} {v : Value} (hv : p'.getValue K = .ok (some v)) : p.getValue K = .ok (some v) ∨ ∃ l ∈ ls, Gives K v l.2 := by
  have h' := h
  rw [parse_fwd_any hs, Out.bind_ok] at h
  obtain ⟨⟨st, ns⟩, h1, h2⟩ := h
  simp only [Out.ok.injEq, Prod.mk.injEq] at h2
  obtain ⟨rfl, rfl⟩ := h2
  have hP : Parsed p (linesText ls) ⟨⟨ns⟩, st, []⟩ (if st.errors ≠ [] then .fullError st.errors else .full) ls .nothing st :=
    ⟨hs.wf, by simp, h1, trivial, ⟨[], rfl⟩, rfl, .inl rfl, by simp [resultOf]⟩
  rcases parse_source hr h' hP hv with e | e | ⟨t, _, e, _⟩
  · exact .inl e
  · exact .inr e
  · exact absurd rfl e

/-- C72. What is answered for a key of a document stands in the document, on the right of an end of the key. -/
theorem C72_from_the_text {p : Parser} {r : ParseResult} {ls : List (Str × ET)} (hs : DocTaken ls) (h : Parser.new.parse (linesText ls) = .ok (p, r))
    {K : Str} {v : Value} (hv : p.getValue K = .ok (some v)) : ∃ l ∈ ls, Gives K v l.2 := by
  rcases C72_any_time .new hs h hv with e | e
  · exfalso
    simp only [Parser.getValue, Parser.new, PState.new, SMap.get?] at e
    split at e
    next hg => split at hg <;> simp at hg
    · simp at e
  · exact e

/-! ### The hypotheses are met -/

/-- The document of C59, with most kinds of faults: what is found at two of its keys. -/
example : DocTaken faulty ∧ (Parser.new.parse (linesText faulty)).map' (fun x => (x.1.getValue (lit% "fruit[0].a[1]"), x.1.getValue (lit% "fruit[1].a"))) =
    .ok (.ok (some (.bool true)), .ok (some (.int (lit% "5")))) := ⟨faulty_strict.taken, by decide +kernel⟩

/-- The line `b = {c = [3]}` gives `u[0].b.c[0]` the value 3, and no other. -/
example : let l : ET := .kv [] (lit% "b") ⟨lit% " ", lit% " "⟩ (.itab (.cons (lit% "c") ⟨lit% " ", lit% " "⟩ (.arr (.cons (.leaf (.int (lit% "3"))) none [] .nil) [] []) none [] .nil) ⟨[], []⟩) [] none
    l.text = lit% "b = {c = [3]}" ∧ ∀ v, Gives (lit% "u[0].b.c[0]") v l ↔ v = .int (lit% "3") := by
  intro l
  have suffix : ∀ {k K : Str}, KeyEnds k K → k <:+ K := by
    rintro k K (rfl | ⟨q, rfl⟩)
    · exact List.suffix_refl _
    · exact List.suffix_append _ _
  refine ⟨rfl, fun v => ⟨?_, ?_⟩⟩
  · rintro ⟨e, he, rfl, hk⟩
    have he : e ∈ [(lit% "b.c[0]", VT.leaf (.int (lit% "3"))), (lit% "b.c", .arr (.cons (.leaf (.int (lit% "3"))) none [] .nil) [] []), (lit% "b", _)] := he
    simp only [List.mem_cons, List.not_mem_nil, or_false] at he
    have := suffix hk
    rcases he with rfl | rfl | rfl
    · rfl
    · exact absurd this (by decide)
    · exact absurd this (by decide)
  · rintro rfl
    exact ⟨(lit% "b.c[0]", .leaf (.int (lit% "3"))), .head _, rfl, .inr ⟨lit% "u[0]", rfl⟩⟩

/-- After an assignment and a text that is not read to its end: one value was there before, one is given by a line, one stands in what could not be read. -/
example : ∃ p, Parser.new.parse (lit% "[t]\na = 1") = .ok (p, .full) ∧ ∃ p1, p.setValue (lit% "t.a") (.int (lit% "2")) = .ok (p1, true) ∧
    ∃ p', p1.parse (lit% "[[u]]\nb = {c = [3]}\nd = [4, ?") = .ok (p', .partialRes [] 4 0) ∧ p'.leftover = lit% "d = [4, ?" ∧
    p'.getValue (lit% "t.a") = .ok (some (.int (lit% "2"))) ∧ p'.getValue (lit% "u[0].b.c[0]") = .ok (some (.int (lit% "3"))) ∧
    p'.getValue (lit% "u[0].d[0]") = .ok (some (.int (lit% "4"))) := by decide +kernel

end Tomllib
