import Verif.Lemmas.TakenDoc
import Verif.Lemmas.Content
import Verif.Lemmas.Fresh
/-!
# Reading properly written documents
-/

namespace Tomllib

theorem MoreComments.wf : ∀ {cs : List CNL}, MoreComments cs → CnlsWf cs
  | [], _ => by intro c hc; simp at hc
  | .comment pre t nls :: cs, h => by
    obtain ⟨rfl, h2, h3, h4⟩ := h
    intro c hc
    rw [List.mem_cons] at hc
    rcases hc with rfl | hc
    · exact ⟨.nil, h2, h3.spaces⟩
    · exact MoreComments.wf h4 c hc

theorem Gap.wf {cs : List CNL} (h : Gap cs) : CnlsWf cs := by
  match cs, h with
  | [.newlines w], h =>
    intro c hc
    simp at hc
    subst hc
    exact h
  | .comment pre t nls :: cs, h =>
    obtain ⟨h1, h2, h3, h4⟩ := h
    intro c hc
    rw [List.mem_cons] at hc
    rcases hc with rfl | hc
    · exact ⟨h1, h2, h3.spaces⟩
    · exact h4.wf c hc

mutual
theorem VT.strict.wf : ∀ {t : VT}, t.strict → t.wf
  | .leaf s, h => Scalar.strict.wf h
  | .arr es c1 c2, h => ⟨h.1.wf, Elems.strict.wf h.2.1, by rw [h.2.2]; intro c hc; simp at hc; subst hc; exact .nil⟩
  | .itab kvs ws, h => ⟨⟨h.1, by rw [h.2.2]; intro c hc; simp at hc⟩, Pairs.strict.wf h.2.1⟩
theorem Elems.strict.wf : ∀ {t : Elems}, t.strict → t.wf
  | .nil, _ => trivial
  | .cons v sep cn r, h => ⟨VT.strict.wf h.1, h.2.1.1, h.2.1.2.1.wf, Elems.strict.wf h.2.2.2⟩
theorem Pairs.strict.wf : ∀ {t : Pairs}, t.strict → t.wf
  | .nil, _ => trivial
  | .cons k ws v sep cn r, h => ⟨h.1, h.2.1, VT.strict.wf h.2.2.1, h.2.2.2.1.1, h.2.2.2.1.2.1.wf, Pairs.strict.wf h.2.2.2.2.2⟩
end

theorem ET.strict.wf {e : ET} (h : e.strict) : e.wf := by
  cases e with
  | blank w => exact h
  | comment w c => exact ⟨h.1, fun t ht => by simp at ht; subst ht; exact h.2⟩
  | kv w1 k s v w2 c => exact ⟨h.1, h.2.1, h.2.2.1, h.2.2.2.1.wf, h.2.2.2.2.1, h.2.2.2.2.2⟩
  | table w1 t w2 c => exact ⟨h.1, ⟨h.2.1.1, fun k hk => ⟨(h.2.1.2 k hk).1, (h.2.1.2 k hk).2⟩⟩, h.2.2.1, h.2.2.2⟩

theorem DocStrict.wf : ∀ {ls : List (Str × ET)}, DocStrict ls → DocWf ls
  | [], h => h
  | _ :: _, h => ⟨h.1, h.2.1.wf, fun l hl => ⟨(h.2.2 l hl).1, (h.2.2 l hl).2.wf⟩⟩

theorem ET.taken.wf {e : ET} {r : Str} (h : e.taken r) : e.wf := by
  cases e with
  | blank w => exact h
  | comment w c => exact ⟨h.1, fun t ht => by simp at ht; subst ht; exact h.2⟩
  | kv w1 k s v w2 c => exact ⟨h.1, h.2.1, h.2.2.1, h.2.2.2.1.wf, h.2.2.2.2.1, h.2.2.2.2.2⟩
  | table w1 t w2 c => exact h

theorem LinesTaken.wf : ∀ {ls : List (Str × ET)}, LinesTaken ls → LinesWf ls
  | [], _ => by simp [LinesWf]
  | l :: ls, h => by
    intro x hx
    rcases List.mem_cons.mp hx with rfl | hx
    · exact ⟨h.1, h.2.1.wf⟩
    · exact LinesTaken.wf h.2.2 x hx

theorem DocTaken.wf : ∀ {ls : List (Str × ET)}, DocTaken ls → DocWf ls
  | [], h => h
  | _ :: _, h => ⟨h.1, h.2.1.wf, h.2.2.wf⟩

/-- What `parse` does with a document that is taken. -/
theorem parse_fwd {ls : List (Str × ET)} (h : DocTaken ls) : Parser.new.parse (linesText ls) =
    (linesEff ls PState.new).bind fun x => .ok (⟨⟨x.2⟩, x.1, []⟩, if x.1.errors ≠ [] then .fullError x.1.errors else .full) := by
  unfold Parser.parse
  rw [show Parser.new.st = PState.new from rfl, toml_taken h]
  cases linesEff ls PState.new with
  | panic x => rfl
  | fuel => rfl
  | ok x =>
    obtain ⟨st, ns⟩ := x
    simp only [Out.bind, ne_eq, not_true_eq_false, if_false]
    split <;> rfl

/-- The lines read are the lines of the document. -/
theorem DocTaken.parsed {ls : List (Str × ET)} (h : DocTaken ls) {p : Parser} {r : ParseResult} (hp : Parser.new.parse (linesText ls) = .ok (p, r)) :
    Parsed Parser.new (linesText ls) p r ls .nothing p.st ∧ p.leftover = [] := by
  rw [parse_fwd h, Out.bind_ok] at hp
  obtain ⟨⟨st, ns⟩, h1, h2⟩ := hp
  simp only [Out.ok.injEq, Prod.mk.injEq] at h2
  obtain ⟨rfl, rfl⟩ := h2
  refine ⟨⟨h.wf, by simp, h1, trivial, ⟨[], rfl⟩, rfl, .inl rfl, ?_⟩, rfl⟩
  simp [resultOf]

end Tomllib
