import Verif.Lemmas.Read
import Verif.Lemmas.ForRead
import Verif.Lemmas.Content
import Verif.Lemmas.Count
import Verif.Lemmas.Place
import Verif.Spec.Session
/-!
# Several texts read with the same parser
-/

namespace Tomllib

theorem parse_fwd_any {ls : List (Str × ET)} (h : DocTaken ls) (p : Parser) : p.parse (linesText ls) =
    (linesEff ls p.st).bind fun x => .ok (⟨⟨x.2⟩, x.1, []⟩, if x.1.errors ≠ [] then .fullError x.1.errors else .full) := by
  unfold Parser.parse
  rw [toml_taken h]
  cases linesEff ls p.st with
  | panic x => rfl
  | fuel => rfl
  | ok x =>
    obtain ⟨st, ns⟩ := x
    by_cases he : st.errors = [] <;> simp [Out.bind, he]

theorem linesSt_append : ∀ (a b : List (Str × ET)) (st : PState), linesSt (a ++ b) st = (linesSt a st).bind (linesSt b)
  | [], b, st => rfl
  | (nl, e) :: a, b, st => by
    simp only [List.cons_append, linesSt]
    cases e.eff (st.lines (nlCount nl)) with
    | ok st1 => exact linesSt_append a b st1
    | panic x => rfl
    | fuel => rfl

theorem content_append (a b : List (Str × ET)) : content (a ++ b) = content a ++ content b := List.filterMap_append ..

theorem content_flatten (ds : List (List (Str × ET))) : content ds.flatten = ds.flatMap content := by
  induction ds with
  | nil => rfl
  | cons d ds ih => rw [List.flatten_cons, content_append, ih]; rfl

theorem linesCounted_append (a b : List (Str × ET)) : linesCounted (a ++ b) = linesCounted a + linesCounted b := by
  induction a with
  | nil => simp [linesCounted]
  | cons l a ih => obtain ⟨nl, e⟩ := l; simp only [List.cons_append, linesCounted, ih]; omega

theorem linesEff_adds : ∀ {ls : List (Str × ET)} {st st' : PState} {ns : List NLExpression}, linesEff ls st = .ok (st', ns) → Adds (fun _ => True) st st'
  | [], st, st', ns, h => by simp [linesEff] at h; rw [← h.1]; exact .same rfl (Nat.le_refl _)
  | (nl, e) :: es, st, st', ns, h => by
    rw [linesEff, Out.bind_ok] at h
    obtain ⟨st1, h1, h⟩ := h
    rw [Out.bind_ok] at h
    obtain ⟨⟨s, n⟩, h2, h⟩ := h
    simp at h
    obtain ⟨rfl, _⟩ := h
    have a1 : Adds (fun _ => True) st (st.lines (nlCount nl)) := .same rfl (by simp [PState.lines])
    have a2 : Adds (fun _ => True) (st.lines (nlCount nl)) st1 := by
      obtain ⟨⟨l, b1, b2⟩, b3⟩ := ET.eff_adds h1
      exact ⟨⟨l, b1, fun e he => ⟨trivial, (b2 e he).2⟩⟩, b3⟩
    exact (a1.trans a2).trans (linesEff_adds h2)

theorem runReads_st : ∀ {ds : List (List (Str × ET))} {x y : Parser × ParseResult}, (∀ d ∈ ds, DocTaken d) → x.2.errs = x.1.st.errors →
    runReads x (ds.map linesText) = .ok y →
    linesSt ds.flatten x.1.st = .ok y.1.st ∧ y.2.errs = y.1.st.errors ∧ y.1.st.lineCount = x.1.st.lineCount + linesCounted ds.flatten
  | [], x, y, _, hx, h => by
    simp [runReads] at h
    subst h
    exact ⟨rfl, hx, by simp [linesCounted]⟩
  | d :: ds, x, y, hd, hx, h => by
    simp only [List.map_cons, runReads, bind, parse_fwd_any (hd d (by simp)) x.1] at h
    cases he : linesEff d x.1.st with
    | panic z => simp [he, Out.bind] at h
    | fuel => simp [he, Out.bind] at h
    | ok z =>
      simp only [he, Out.bind] at h
      obtain ⟨h1, h2, h3⟩ := runReads_st (fun d' h' => hd d' (by simp [h'])) (by
        by_cases he : z.1.errors = [] <;> simp [ParseResult.errs, he]) h
      have hs := linesEff_st d x.1.st
      rw [he] at hs
      refine ⟨?_, h2, ?_⟩
      · rw [List.flatten_cons, linesSt_append, ← hs]
        exact h1
      · rw [h3, List.flatten_cons, linesCounted_append, linesEff_line he]
        omega

theorem Reachable.reads {x : Parser × ParseResult} : ∀ {ds : List Str} {y : Parser × ParseResult}, Reachable x.1 → runReads x ds = .ok y → Reachable y.1 := by
  intro ds
  induction ds generalizing x with
  | nil => intro y hx h; simp [runReads] at h; exact h ▸ hx
  | cons d ds ih =>
    intro y hx h
    rw [runReads] at h
    obtain ⟨z, h1, h2⟩ := Out.bind_ok.mp h
    exact ih (.parse hx h1) h2

end Tomllib
