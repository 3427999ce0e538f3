import Verif.Spec.Accept
import Verif.Lemmas.Refuse
import Verif.Lemmas.Reads
import Verif.Lemmas.Answers
/-!
# Lines read without an error are in order
-/

namespace Tomllib
namespace Sections

theorem Sim.line_clean {D : Sections} {st st' : PState} (h : D.Sim st) {e : ET} (hw : e.wf) (hr : D.regular e) (he : e.eff st = .ok st') (hn : st'.errors = []) : D.fits e := by
  cases e with
  | blank w => trivial
  | comment w c => trivial
  | kv w1 k s v w2 c =>
    rw [ET.wf] at hw
    refine h.kv_clean hw.2.1 hw.2.2.2.1 (fun hm => ?_) he hn
    rcases hr hm with h1 | h1
    · exact .inl fun h2 => by rw [h2] at h1; simp at h1
    · exact .inr h1
  | table w1 t w2 c =>
    rw [ET.wf] at hw
    cases t with
    | std t => exact h.std_clean hw.2.1 hr.2.2.1 hr.2.2.2 hr.1 hr.2.1 he hn
    | arr t =>
      refine h.arr_clean hw.2.1 hr.2.2.1 hr.2.2.2 (fun a ha => (hr.1 a ha).1) hr.2.1 (fun a ha hne kvs ws hv => ?_) he hn
      have := (hr.1 a ha).2 hne
      rw [hv] at this
      simp [inlined] at this

theorem Sim.all_clean : ∀ (ls : List (Str × ET)) {D : Sections} {st st' : PState} {es : List NLExpression}, D.Sim st → (∀ l ∈ ls, l.2.wf) → D.Regular ls →
    linesEff ls st = .ok (st', es) → st'.errors = [] → D.Fits ls
  | [], _, _, _, _, _, _, _, _, _ => trivial
  | (nl, e) :: ls, D, st, st', es, h, hw, hr, he, hn => by
    rw [linesEff] at he
    obtain ⟨sa, h1, he⟩ := Out.bind_ok.mp he
    obtain ⟨⟨sb, nb⟩, h2, he⟩ := Out.bind_ok.mp he
    simp at he
    obtain ⟨rfl, _⟩ := he
    have ha := linesEff_clean h2 hn
    have hf : D.fits e := Sim.line_clean (h.lines (nlCount nl)) (hw (nl, e) (by simp)) hr.1 h1 ha
    obtain ⟨sc, g1, g2⟩ := (h.lines (nlCount nl)).line (hw (nl, e) (by simp)) hf
    rw [h1] at g1
    cases g1
    exact ⟨hf, Sim.all_clean ls g2 (fun l hl => hw l (by simp [hl])) (hr.2 hf) h2 hn⟩

end Sections

theorem linesEff_split : ∀ {pre post : List (Str × ET)} {st st' : PState} {es : List NLExpression}, linesEff (pre ++ post) st = .ok (st', es) →
    ∃ s1 e1 e2, linesEff pre st = .ok (s1, e1) ∧ linesEff post s1 = .ok (st', e2)
  | [], post, st, st', es, h => ⟨st, [], es, rfl, h⟩
  | (nl, e) :: pre, post, st, st', es, h => by
    rw [List.cons_append, linesEff] at h
    obtain ⟨sa, h1, h⟩ := Out.bind_ok.mp h
    obtain ⟨⟨sb, nb⟩, h2, h⟩ := Out.bind_ok.mp h
    simp at h
    obtain ⟨rfl, _⟩ := h
    obtain ⟨s1, e1, e2, g1, g2⟩ := linesEff_split h2
    exact ⟨s1, _, e2, by rw [linesEff, h1, Out.bind, g1]; rfl, g2⟩

end Tomllib
