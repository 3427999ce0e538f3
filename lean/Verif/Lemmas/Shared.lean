import Verif.Spec.Shared
import Verif.Lemmas.Stop
import Verif.Lemmas.Reads
/-!
# The list of errors of a parser over time
-/

namespace Tomllib

theorem Adds.mono {P Q : ParseError → Prop} {st st' : PState} (h : Adds P st st') (hq : ∀ e, P e → Q e) : Adds Q st st' := by
  obtain ⟨⟨l, h1, h2⟩, h3⟩ := h
  exact ⟨⟨l, h1, fun e he => ⟨hq e (h2 e he).1, (h2 e he).2⟩⟩, h3⟩

theorem PX.eff_adds {px : PX} {st st' : PState} (h : px.eff st = .ok st') : Adds (fun _ => True) st st' := by
  cases px with
  | nothing => simp [PX.eff] at h; subst h; exact .same rfl (Nat.le_refl _)
  | header txt ks => simp [PX.eff] at h; subst h; exact .same rfl (Nat.le_refl _)
  | key k => simp [PX.eff] at h; subst h; exact .same rfl (Nat.le_refl _)
  | kv k s last => exact ((PV.eff_kept last h).2.congr rfl rfl rfl rfl).mono fun _ _ => trivial
  | pair k s v => exact (ET.eff_adds (e := .kv [] k s v [] none) h).mono fun _ _ => trivial
  | table t => exact (ET.eff_adds (e := .table [] t [] none) h).mono fun _ _ => trivial

theorem parse_adds {p p' : Parser} {i : Str} {r : ParseResult} (h : p.parse i = .ok (p', r)) : Adds (fun _ => True) p.st p'.st ∧ r.held.look p' = r := by
  obtain ⟨ls, px, st1, hP⟩ := parse_parsed h
  refine ⟨(linesEff_adds hP.eff).trans (PX.eff_adds hP.pxeff), ?_⟩
  rw [hP.res]
  unfold resultOf
  split <;> split <;> rfl

theorem setValue_errors {p p' : Parser} {k : Str} {v : Value} {b : Bool} (h : p.setValue k v = .ok (p', b)) :
    p'.st.errors = p.st.errors ∧ p'.st.lineCount = p.st.lineCount := by
  unfold Parser.setValue at h
  split at h
  · split at h
    · obtain ⟨x, _, h⟩ := Out.bind_ok.mp h
      simp only [Out.ok.injEq, Prod.mk.injEq] at h; rw [← h.1]; exact ⟨rfl, rfl⟩
    · obtain ⟨x, _, h⟩ := Out.bind_ok.mp h
      obtain ⟨⟨y, nv⟩, _, h⟩ := Out.bind_ok.mp h
      rcases nv with _ | (_ | _ | _ | _ | _ | _)
      all_goals first
        | (simp only [Out.ok.injEq, Prod.mk.injEq] at h; rw [← h.1]; exact ⟨rfl, rfl⟩)
        | (obtain ⟨z, _, h⟩ := Out.bind_ok.mp h
           obtain ⟨w, _, h⟩ := Out.bind_ok.mp h
           simp only [Out.ok.injEq, Prod.mk.injEq] at h; rw [← h.1]; exact ⟨rfl, rfl⟩)
        | simp at h
  · simp only [Out.ok.injEq, Prod.mk.injEq] at h; rw [← h.1]; exact ⟨rfl, rfl⟩

theorem Program.step_adds {g g' : Program} {c : Call} (hc : c.leavesErrors) (h : g.step c = .ok g') :
    Adds (fun _ => True) g.parser.st g'.parser.st ∧ (∃ more, g'.held = g.held ++ more) ∧ (Reachable g.parser → Reachable g'.parser) := by
  cases c with
  | parse t =>
    obtain ⟨⟨p, r⟩, h1, h⟩ := Out.bind_ok.mp h
    simp at h; subst h
    exact ⟨(parse_adds h1).1, ⟨_, rfl⟩, fun hr => .parse hr h1⟩
  | set k v =>
    obtain ⟨⟨p, r⟩, h1, h⟩ := Out.bind_ok.mp h
    simp at h; subst h
    exact ⟨.same (setValue_errors h1).1 (by rw [(setValue_errors h1).2]; exact Nat.le_refl _), ⟨[], by simp⟩, fun hr => .set hr h1⟩
  | errors f => exact hc.elim

theorem Program.run_adds : ∀ {cs : List Call} {g g' : Program}, (∀ c ∈ cs, c.leavesErrors) → g.run cs = .ok g' →
    Adds (fun _ => True) g.parser.st g'.parser.st ∧ (∃ more, g'.held = g.held ++ more) ∧ (Reachable g.parser → Reachable g'.parser)
  | [], g, g', _, h => by
    simp [Program.run] at h; subst h
    exact ⟨.same rfl (Nat.le_refl _), ⟨[], by simp⟩, id⟩
  | c :: cs, g, g', hc, h => by
    obtain ⟨g1, h1, h⟩ := Out.bind_ok.mp h
    obtain ⟨a1, ⟨m1, b1⟩, c1⟩ := Program.step_adds (hc c (by simp)) h1
    obtain ⟨a2, ⟨m2, b2⟩, c2⟩ := Program.run_adds (fun c' hc' => hc c' (by simp [hc'])) h
    exact ⟨a1.trans a2, ⟨m1 ++ m2, by rw [b2, b1, List.append_assoc]⟩, fun hr => c2 (c1 hr)⟩

end Tomllib
