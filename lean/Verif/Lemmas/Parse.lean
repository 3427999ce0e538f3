import Verif.Lemmas.Rebuild
/-!
# What `parse` does, in terms of the lines it read
-/

namespace Tomllib

/-- The result reported for a final state and remaining text. -/
def resultOf (old : Str) (st : PState) (rest : Str) : ParseResult :=
  if rest ≠ [] then
    if st.errors ≠ [] then .partialError old st.lineCount 0 st.errors else .partialRes old st.lineCount 0
  else
    if st.errors ≠ [] then .fullError st.errors else .full

/-- A parse that did not panic read the lines `ls`, tried `px`, and stopped there. -/
structure Parsed (p : Parser) (i : Str) (p' : Parser) (r : ParseResult) (ls : List (Str × ET)) (px : PX) (st1 : PState) : Prop where
  wf : DocWf ls
  text : i = linesText ls ++ p'.leftover
  eff : linesEff ls p.st = .ok (st1, p'.tree.exprs)
  pxwf : px.wf
  pxtext : ∃ r', p'.leftover = px.text ++ r'
  pxeff : px.eff st1 = .ok p'.st
  stop : px = .nothing ∨ Stops p'.leftover
  res : r = resultOf p.leftover p'.st p'.leftover

theorem parse_parsed {p p' : Parser} {i : Str} {r : ParseResult} (h : p.parse i = .ok (p', r)) : ∃ ls px st1, Parsed p i p' r ls px st1 := by
  have hs := toml_spec p.st i
  unfold Parser.parse at h
  generalize toml p.st i = o at hs h
  cases hs with
  | done ls px nodes r0 r' st1 st2 h1 h2 h3 h4 h5 h6 h7 =>
    dsimp only at h
    have : p' = ⟨⟨nodes⟩, st2, r0⟩ ∧ r = resultOf p.leftover st2 r0 := by
      unfold resultOf
      split at h <;> split at h <;> simp at h <;> simp_all
    obtain ⟨rfl, rfl⟩ := this
    exact ⟨ls, px, st1, h1, h2, h3, h4, ⟨r', h5⟩, h6, h7, rfl⟩
  | abort ls' nl w px nodes r st1 e _ _ _ _ _ h1 h2 =>
    cases e <;> simp [Abort.out] at h

/-- The whole text was read. -/
theorem Parsed.full {p p' : Parser} {i : Str} {r : ParseResult} {ls : List (Str × ET)} {px : PX} {st1 : PState} (h : Parsed p i p' r ls px st1)
    (hr : p'.leftover = []) : px = .nothing ∧ st1 = p'.st ∧ i = linesText ls := by
  rcases h.stop with rfl | ⟨c, t, e, _⟩
  · have := h.pxeff
    simp [PX.eff] at this
    exact ⟨rfl, this, by have := h.text; rw [hr] at this; simpa using this⟩
  · rw [hr] at e; simp at e

/-- The tree of a parser that just read a document stands for its lines. -/
theorem Parsed.tree {p p' : Parser} {i : Str} {r : ParseResult} {ls : List (Str × ET)} {px : PX} {st1 : PState} (h : Parsed p i p' r ls px st1) :
    ∃ l fp, p'.st.heap = p.st.heap ++ l ∧ LinesRep p'.st.heap ls p'.tree.exprs fp ∧ fp.Nodup ∧ (∀ x : Nat, x ∈ fp → p.st.heap.length ≤ x) ∧
      (px = .nothing → ∀ x : Nat, p.st.heap.length ≤ x → x < p'.st.heap.length → x ∈ fp ∨ p'.st.heap[x]? = some .table) := by
  obtain ⟨l1, fp, e1, e2, e3, e4, e5⟩ := linesEff_rep h.eff
  obtain ⟨l2, g1⟩ := PX.eff_heap h.pxeff
  refine ⟨l1 ++ l2, fp, by rw [g1, e1]; simp, by rw [g1]; exact e2.append _, e3, e4, ?_⟩
  rintro rfl
  have := h.pxeff
  simp [PX.eff] at this
  subst this
  exact e5

theorem Parsed.display {p p' : Parser} {i : Str} {r : ParseResult} {ls : List (Str × ET)} {px : PX} {st1 : PState} (h : Parsed p i p' r ls px st1)
    (hp : PInv p') : p'.display = textOr (hasEmptyTable ls) (linesText ls) := by
  obtain ⟨l, fp, _, h1, _⟩ := h.tree
  obtain ⟨rank, hr⟩ := hp.inv.rank
  have := renderToml_rep hr h1
  have hne : ls.isEmpty = false := by
    have := h.wf
    cases ls with
    | nil => exact this.elim
    | cons => rfl
  rw [hne, Bool.false_or] at this
  exact this

end Tomllib
