import Verif.Lemmas.Fresh
import Verif.Lemmas.ForParse
/-!
# Lemmas for Props/Doc
-/

namespace Tomllib

theorem Parsed.whole {p p' : Parser} {i : Str} {r : ParseResult} {ls : List (Str × ET)} {px : PX} {st1 : PState} (h : Parsed p i p' r ls px st1)
    (hr : r.whole) : p'.leftover = [] ∧ r.errs = p'.st.errors := by
  have := h.res
  unfold resultOf at this
  split at this
  · rcases hr with rfl | ⟨e, rfl⟩ <;> split at this <;> simp at this
  next hl =>
    refine ⟨by simpa using hl, ?_⟩
    rw [this]
    by_cases h2 : p'.st.errors = [] <;> simp [h2, ParseResult.errs]

/-- No `[[` in the text, then no header of an array of tables among its lines. -/
theorem no_double_bracket {ls : List (Str × ET)} (h : ∀ a b, linesText ls ≠ a ++ lit% "[[" ++ b) : hasArrayTable ls = false := by
  cases hb : hasArrayTable ls with
  | false => rfl
  | true =>
    obtain ⟨a, b, e⟩ := hasArrayTable_text hb
    exact absurd e (h a b)

theorem Parsed.full_iff {i : Str} {p : Parser} {r : ParseResult} {ls : List (Str × ET)} {px : PX} {st1 : PState} (hP : Parsed Parser.new i p r ls px st1)
    (hl : p.leftover = []) (hn : hasArrayTable ls = false) :
    r = .full ↔ HeadersOk [] [] ls ∧ repeats [] (docEntries [] ls) = [] ∧ (docEntries [] ls).filterMap badDate = [] ∧
        ∀ e ∈ docEntries [] ls, isMixed e.2 = false := by
  have hR := hP.reading hl hn
  have hf : r = .full ↔ p.st.errors = [] := by
    rw [hP.res, resultOf, if_neg (by simp [hl])]
    split <;> simp_all
  rw [hf]
  constructor
  · intro h0
    have hh := hR.bad.mpr (by rw [h0]; simp)
    obtain ⟨T, F, _, _, l, e1, e2, e3, e4, e5, e6⟩ := hR.ok hh
    have hl : l = [] := by rw [h0] at e1; simpa using e1.symm
    subst hl
    refine ⟨hh, by simpa using e2.symm, by simpa using e3.symm, fun e he => ?_⟩
    cases hm : isMixed e.2 with
    | false => rfl
    | true => exact absurd h0 (e6 e he hm)
  · rintro ⟨hh, h2, h3, h4⟩
    obtain ⟨T, F, _, _, l, e1, e2, e3, e4, e5, e6⟩ := hR.ok hh
    rw [e1]
    cases l with
    | nil => rfl
    | cons x l =>
      rw [h2] at e2
      rw [h3] at e3
      cases x with
      | mixedArray k a b =>
        obtain ⟨e, e', e''⟩ := e4 k (by simp [ParseError.mixed?])
        rw [h4 _ e'] at e''
        simp at e''
      | duplicateKey k a b v => simp [ParseError.dup?] at e2
      | invalidTable k a b m => exact absurd (e5 _ List.mem_cons_self) (by simp [ParseError.table?])
      | invalidDateTime k a b s => simp [ParseError.date?] at e3

theorem header_line {ls : List (Str × ET)} (hw : DocWf ls) {rest : Str} (h : ∃ nl w1 t w2 c, (nl, ET.table w1 t w2 c) ∈ ls) :
    HasHeaderLine (linesText ls ++ rest) := by
  obtain ⟨nl, w1, t, w2, c, hm⟩ := h
  obtain ⟨l1, l2, rfl⟩ := List.append_of_mem hm
  have hd : ∃ b, t.text = lit% "[" ++ b := by
    cases t with
    | std t => exact ⟨t.text ++ lit% "]", by simp [TableType.text]⟩
    | arr t => exact ⟨lit% "[" ++ t.text ++ lit% "]]", by simp [TableType.text]⟩
  obtain ⟨b, hb⟩ := hd
  have hbl : Blank w1 := (hw.lines _ hm).1
  refine ⟨linesText l1 ++ nl, w1, b ++ w2 ++ optComment c ++ linesText l2 ++ rest, ?_, hbl, ?_⟩
  · simp [linesText_append, linesText, ET.text, hb]
  · cases l1 with
    | nil => left; exact hw.1
    | cons x l1 =>
      right
      have := (hw.2.2 (nl, .table w1 t w2 c) (by simp)).1
      rcases this with h | h
      · simp at h; subst h; exact ⟨_, rfl⟩
      · simp at h; subst h; exact ⟨linesText (x :: l1) ++ lit% "\r", by simp⟩

theorem headersOk_none : ∀ {ls : List (Str × ET)} {T : Str} {E : List (Str × Entry)}, (∀ nl w1 t w2 c, (nl, ET.table w1 t w2 c) ∉ ls) → HeadersOk T E ls
  | [], T, E, h => trivial
  | (nl, e) :: ls, T, E, h => by
    have h' : ∀ nl w1 t w2 c, (nl, ET.table w1 t w2 c) ∉ ls := fun nl w1 t w2 c hm => h nl w1 t w2 c (by simp [hm])
    cases e with
    | blank w => exact headersOk_none (ls := ls) h'
    | comment w c => exact headersOk_none (ls := ls) h'
    | kv => exact headersOk_none (ls := ls) h'
    | table w1 t w2 c => exact absurd (by simp) (h nl w1 t w2 c)

end Tomllib
