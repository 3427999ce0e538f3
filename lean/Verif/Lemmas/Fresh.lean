import Verif.Lemmas.DocErrs
import Verif.Lemmas.Document
/-!
# What a new parser knows after reading a document without arrays of tables
-/

namespace Tomllib

theorem DocWf.lines {ls : List (Str × ET)} (h : DocWf ls) : ∀ l ∈ ls, l.2.wf := by
  cases ls with
  | nil => exact h.elim
  | cons x ls =>
    intro l hl
    simp at hl
    rcases hl with rfl | hl
    · exact h.2.1
    · exact (h.2.2 l hl).2

theorem DocInv.getValue {T : List Str} {E : AEnts} {p : Parser} (h : DocInv T E p.st) (k : Str) : p.getValue k = readEntry (lookup k E.erase) := by
  rw [E.lookup_erase]
  have hv := h.vals k
  cases hl : lookup k E with
  | none => rw [hl] at hv; exact (Inv.getValue_none h.inv).mpr hv
  | some y =>
    obtain ⟨a, e⟩ := y
    rw [hl] at hv
    have hr := h.rep _ (lookup_mem hl)
    cases e with
    | val t =>
      obtain ⟨fp, hr⟩ := hr
      exact Inv.getValue_rep h.inv hv hr
    | header =>
      have hr : p.st.heap[a]? = some .table := hr
      have hv : valOf p.st.map k = some a := hv
      rcases Inv.getValue_cases h.inv k with ⟨h1, _⟩ | ⟨b, h1, h2, h3⟩ | ⟨b, t, fp, h1, h2, _⟩
      · rw [hv] at h1; simp at h1
      · exact h3
      · rw [hv] at h1; simp at h1; subst h1
        exact absurd hr (h2.bound a h2.kids.1).2

theorem nkey_nil : nkey [] = [] := rfl

/-- The state after the lines of a document. -/
theorem linesEff_doc {ls : List (Str × ET)} {st : PState} {ns : List NLExpression} (hw : ∀ l ∈ ls, l.2.wf) (hn : hasArrayTable ls = false)
    (h : linesEff ls PState.new = .ok (st, ns)) :
    (HeadersOk [] [] ls ∧ ∃ T F, DocInv T F st ∧ F.erase = docEntries [] ls ∧ DocIss [] st.errors [] (docEntries [] ls)) ∨
    (¬ HeadersOk [] [] ls ∧ HasBad st) := by
  by_cases hh : HeadersOk [] [] ls
  · left
    obtain ⟨st', ns', T, F, r1, r2, r3, r4⟩ := DocInv.linesOk ls DocInv.new hw hn hh
    rw [h] at r1
    simp at r1
    obtain ⟨rfl, rfl⟩ := r1
    exact ⟨hh, T, F, by simpa using r2, r3, r4⟩
  · exact .inr ⟨hh, DocInv.linesBad ls DocInv.new hw hn hh h⟩

theorem linesText_append (a b : List (Str × ET)) : linesText (a ++ b) = linesText a ++ linesText b := by
  induction a with
  | nil => rfl
  | cons x a ih => obtain ⟨nl, e⟩ := x; simp [linesText, ih]

/-- The header of an array of tables shows in the text. -/
theorem hasArrayTable_text {ls : List (Str × ET)} (h : hasArrayTable ls = true) : ∃ a b, linesText ls = a ++ lit% "[[" ++ b := by
  simp only [hasArrayTable, List.any_eq_true] at h
  obtain ⟨⟨nl, e⟩, hl, h⟩ := h
  obtain ⟨l1, l2, rfl⟩ := List.append_of_mem hl
  cases e with
  | table w1 t w2 c =>
    cases t with
    | std t => simp at h
    | arr t =>
      refine ⟨linesText l1 ++ nl ++ w1, t.text ++ lit% "]]" ++ w2 ++ optComment c ++ linesText l2, ?_⟩
      simp [linesText_append, linesText, ET.text, TableType.text]
  | _ => simp at h

/-- Effects of the beginning of a line never panic when all headers are in order. -/
theorem PX.eff_total {T : List Str} {E : AEnts} {st : PState} (h : DocInv T E st) {px : PX} (hw : px.wf) (hn : ∀ t, px ≠ .table (.arr t)) :
    ∃ st', px.eff st = .ok st' := by
  have hpw : ∀ {k : Str}, KeyWf k → PathWf (st.pushK k).keychain := by
    intro k hk
    have hpk : (st.pushK k).keychain = [.str k] := by simp [PState.pushK, h.kc]
    rw [hpk]; exact ⟨hk, by simp⟩
  have hne : ∀ k : Str, (st.pushK k).keychain ≠ [] := by simp [PState.pushK]
  cases px with
  | nothing => exact ⟨_, rfl⟩
  | header => exact ⟨_, rfl⟩
  | key => exact ⟨_, rfl⟩
  | kv k s last => exact last.eff_total (T := T) (h.ctx.congr rfl rfl rfl rfl) (h.inv.pushK k) (hpw hw.1) (hne k) hw.2.2
  | pair k s v =>
    obtain ⟨st', h1, _⟩ := h.kvLine (w1 := []) (s := s) (w2 := []) (c := none) hw.1 hw.2.2
    exact ⟨st', h1⟩
  | table t =>
    cases t with
    | arr t => exact absurd rfl (hn t)
    | std t =>
      by_cases hok : HeaderOk E.erase t.names
      · obtain ⟨s, h1, _⟩ := (h.header hw).1 hok
        exact ⟨s, h1⟩
      · obtain ⟨s, h1, _⟩ := (h.header hw).2 hok
        exact ⟨s, h1⟩

/-- A panic of a new parser on a text without `[[` comes after a bad header. -/
theorem parse_panic {i : Str} {x : Panic} (hi : ∀ a b, i ≠ a ++ lit% "[[" ++ b) (h : Parser.new.parse i = .panic x) :
    ∃ ls rest, DocWf ls ∧ i = linesText ls ++ rest ∧ ¬ HeadersOk [] [] ls := by
  have hs := toml_spec PState.new i
  unfold Parser.parse at h
  rw [show Parser.new.st = PState.new from rfl] at h
  generalize toml PState.new i = o at hs h
  cases hs with
  | done ls px nodes r0 r' st1 st2 h1 h2 h3 h4 h5 h6 h7 =>
    dsimp only at h
    split at h <;> split at h <;> simp at h
  | abort ls nl w px nodes r st1 e h1 h2 h3 h4 h5 h6 h7 =>
    have hn : hasArrayTable ls = false := by
      cases hb : hasArrayTable ls with
      | false => rfl
      | true =>
        obtain ⟨a, b, e⟩ := hasArrayTable_text hb
        exact absurd (by rw [h5, e]; simp) (hi a (b ++ nl ++ w ++ px.text ++ r))
    have hw : ∀ l ∈ ls, l.2.wf := by
      rcases h1 with rfl | h1
      · simp
      · exact h1.lines
    have hpx : ∀ t, px ≠ .table (.arr t) := by
      rintro t rfl
      refine absurd ?_ (hi (linesText ls ++ nl ++ w) (t.text ++ lit% "]]" ++ r))
      rw [h5]; simp [PX.text, TableType.text]
    rcases linesEff_doc hw hn h6 with ⟨_, T, F, hd, _⟩ | ⟨hb, _⟩
    · obtain ⟨st', g⟩ := PX.eff_total (hd.linesN (nlCount nl)) h4 hpx
      rw [g] at h7
      cases e <;> simp [Abort.out] at h7
    · rcases h1 with rfl | h1
      · exact absurd trivial hb
      · exact ⟨ls, _, h1, by rw [h5]; simp only [List.append_assoc]; rfl, hb⟩

/-- Everything about a text without arrays of tables that a new parser read to its end. -/
structure Reading (i : Str) (p : Parser) (ls : List (Str × ET)) : Prop where
  wf : DocWf ls
  text : i = linesText ls
  bad : HeadersOk [] [] ls ↔ ∀ e ∈ p.st.errors, e.table? = none
  ok : HeadersOk [] [] ls → ∃ T F, DocInv T F p.st ∧ F.erase = docEntries [] ls ∧ DocIss [] p.st.errors [] (docEntries [] ls)

theorem Parsed.reading {i : Str} {p : Parser} {r : ParseResult} {ls : List (Str × ET)} {px : PX} {st1 : PState} (h : Parsed Parser.new i p r ls px st1)
    (hl : p.leftover = []) (hn : hasArrayTable ls = false) : Reading i p ls := by
  obtain ⟨rfl, rfl, ht⟩ := h.full hl
  have := linesEff_doc h.wf.lines hn h.eff
  refine ⟨h.wf, ht, ⟨fun hh => ?_, fun hb => ?_⟩, fun hh => ?_⟩
  · rcases this with ⟨_, T, F, _, _, l, e1, _, _, _, e5, _⟩ | ⟨hb, _⟩
    · intro e he
      rw [e1] at he
      exact e5 e (by simpa using he)
    · exact absurd hh hb
  · rcases this with ⟨hh, _⟩ | ⟨_, e, he, hb'⟩
    · exact hh
    · exact absurd (hb e he) hb'
  · rcases this with ⟨_, h⟩ | ⟨hb, _⟩
    · exact h
    · exact absurd hh hb

theorem Reading.getValue {i : Str} {p : Parser} {ls : List (Str × ET)} (h : Reading i p ls) (hh : HeadersOk [] [] ls) (k : Str) :
    p.getValue k = readEntry (lookup k (docEntries [] ls)) := by
  obtain ⟨T, F, hd, e, _⟩ := h.ok hh
  rw [← e]
  exact hd.getValue k

/-- A table header is the first entry with its key. -/
theorem HeadersOk.header : ∀ {ls : List (Str × ET)} {T : Str} {E : List (Str × Entry)}, HeadersOk T E ls → ∀ {k : Str},
    ((∃ e, lookup k E = some e ∧ ∀ t, e ≠ .val t) ∨ (k, Entry.header) ∈ docEntries T ls) → lookup k (E ++ docEntries T ls) = some .header
  | [], T, E, h, k, hk => by
    rcases hk with ⟨e, h1, h2⟩ | hk
    · cases e with
      | val t => exact absurd rfl (h2 t)
      | header => rw [lookup_append, h1]; rfl
    · simp [docEntries] at hk
  | (nl, e) :: ls, T, E, h, k, hk => by
    cases e with
    | blank w => exact HeadersOk.header (ls := ls) h hk
    | comment w c => exact HeadersOk.header (ls := ls) h hk
    | kv w1 k0 s v w2 c =>
      rw [docEntries, ← List.append_assoc]
      refine HeadersOk.header (ls := ls) h ?_
      rcases hk with ⟨e, h1, h2⟩ | hk
      · exact .inl ⟨e, by rw [lookup_append, h1]; rfl, h2⟩
      · rw [docEntries, List.mem_append] at hk
        rcases hk with hk | hk
        · simp at hk
        · exact .inr hk
    | table w1 t w2 c =>
      cases t with
      | arr t => exact HeadersOk.header (ls := ls) h hk
      | std t =>
        rw [docEntries, show ∀ (x : Str × Entry) l, x :: l = [x] ++ l from fun _ _ => rfl, ← List.append_assoc]
        refine HeadersOk.header (ls := ls) h.2 ?_
        rcases hk with ⟨e, h1, h2⟩ | hk
        · exact .inl ⟨e, by rw [lookup_append, h1]; rfl, h2⟩
        · rw [docEntries, List.mem_cons] at hk
          rcases hk with hk | hk
          · simp at hk
            subst hk
            have : joinKey t.names = t.key := rfl
            left
            refine ⟨.header, ?_, by simp⟩
            rw [lookup_append, ← this, h.1.2.1]
            simp [lookup]
          · exact .inr hk

end Tomllib
