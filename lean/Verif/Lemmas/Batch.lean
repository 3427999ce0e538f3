import Verif.Spec.Batch
import Verif.Lemmas.Map
/-!
# Lemmas about work on several files
-/

namespace Tomllib

open Cli

/-- The states of the files while texts are written one after the other to a file. -/
def trail (fs : FS) (out : Str) : List Str → List FS
  | [] => [fs]
  | w :: ws => fs :: trail (fs.insert out w) out ws

theorem trail_get (out : Str) : ∀ (ws : List Str) (fs : FS), (trail fs out ws).map (·.get? out) = fs.get? out :: ws.map some := by
  intro ws
  induction ws with
  | nil => intro fs; rfl
  | cons w ws ih => intro fs; simp [trail, ih, SMap.get?_insert_self]

theorem trail_other {out q : Str} (hq : q ≠ out) : ∀ (ws : List Str) (fs : FS), ∀ fs' ∈ trail fs out ws, fs'.get? q = fs.get? q := by
  intro ws
  induction ws with
  | nil => intro fs fs' h; simp [trail] at h; rw [h]
  | cons w ws ih =>
    intro fs fs' h
    simp only [trail, List.mem_cons] at h
    rcases h with h | h
    · rw [h]
    · rw [ih _ _ h, SMap.get?_insert, if_neg (Ne.symm hq)]

theorem trail_ne_nil (fs : FS) (out : Str) (ws : List Str) : trail fs out ws ≠ [] := by cases ws <;> simp [trail]

/-- What is written and how it ends do not depend on the files. -/
def Uniform (out : Str) (R : FS → Run) : Prop := ∃ ws e, ∀ fs, R fs = ⟨trail fs out ws, e⟩

theorem Uniform.none {out : Str} (e : End) : Uniform out fun fs => ⟨[fs], e⟩ := ⟨[], e, fun _ => rfl⟩

theorem Uniform.command {out : Str} {results : List CmdRes} {given : Option (Option (List Str))} {f : Option (List Str) → Out CmdRes}
    {K : List CmdRes → FS → Run} (h : ∀ r, Uniform out (K r)) : Uniform out fun fs => command results given [fs] f fun r => K r fs := by
  unfold Cli.command
  split
  · exact h _
  · unfold step
    split
    · exact h _
    · exact .none _
    · exact .none _
  · exact h _

theorem finish_end (o : Options) (c : Commands) (results : List CmdRes) (doc : Parser) : ∃ e, ∀ states, finish o c results doc states = ⟨states, e⟩ := by
  unfold finish
  split
  · exact ⟨_, fun _ => rfl⟩
  · split
    · unfold step
      split
      · exact ⟨_, fun _ => rfl⟩
      · exact ⟨_, fun _ => rfl⟩
      · exact ⟨_, fun _ => rfl⟩
    · exact ⟨_, fun _ => rfl⟩

theorem Uniform.setAndFinish (o : Options) (c : Commands) (path : Str) (results : List CmdRes) (doc : Parser) :
    Uniform (c.outputFile.getD path) fun fs => setAndFinish o c path results doc fs := by
  unfold Cli.setAndFinish
  split
  · obtain ⟨e, he⟩ := finish_end o c results doc
    exact ⟨[], e, fun fs => he _⟩
  · obtain ⟨e, he⟩ := finish_end o c results doc
    exact ⟨[], e, fun fs => he _⟩
  · unfold step
    split
    next a ha =>
      obtain ⟨doc', r⟩ := a
      cases r with
      | error x =>
        obtain ⟨e, he⟩ := finish_end o c (results ++ [.error x]) doc'
        exact ⟨[], e, fun fs => he _⟩
      | ok s =>
        dsimp only
        split
        next t ht =>
          obtain ⟨e, he⟩ := finish_end o c (results ++ [.ok s]) doc'
          exact ⟨[[], t], e, fun fs => he _⟩
        · exact ⟨[[]], _, fun fs => rfl⟩
        · exact ⟨[[]], _, fun fs => rfl⟩
    · exact .none _
    · exact .none _

/-- What is written and how it ends depend on the contents of the file only. -/
theorem processDocument_uniform (o : Options) (c : Commands) (path : Str) (x : Option Str) :
    ∃ ws e, ∀ fs : FS, fs.get? path = x → processDocument o c path fs = ⟨trail fs (c.outputFile.getD path) ws, e⟩ := by
  have : Uniform (c.outputFile.getD path) fun fs => match x with
      | none => ⟨[fs], .exited .noFile⟩
      | some text =>
        step (Parser.new.parse text) [fs] fun (doc, res) =>
          match res with
          | .full =>
            command [] c.getValue [fs] (fun k => getValue o k doc) fun r =>
            let keycount := match r.getLast?, c.hasValue with
              | some (.error _), _ => 0
              | _, some (some ks) => ks.length
              | _, _ => 0
            command r c.hasValue [fs] (fun k => Out.bind (hasValue o k doc) fun x => .ok x.1) fun r =>
            command r c.getChildren [fs] (fun k => .ok (getChildren o k doc)) fun r =>
            command r c.hasChildren [fs] (fun k => hasChildren o k keycount doc) fun r =>
            setAndFinish o c path r doc fs
          | r => ⟨[fs], .exited (.notRead r)⟩ := by
    cases x with
    | none => exact .none _
    | some text =>
      dsimp only
      unfold step
      split
      next a ha =>
        obtain ⟨doc, res⟩ := a
        cases res with
        | full =>
          refine Uniform.command fun r => Uniform.command fun r' => Uniform.command fun r'' => Uniform.command fun r''' => ?_
          exact Uniform.setAndFinish o c path _ doc
        | _ => exact .none _
      · exact .none _
      · exact .none _
  obtain ⟨ws, e, h⟩ := this
  refine ⟨ws, e, fun fs hx => ?_⟩
  rw [processDocument, hx]
  cases x with
  | none => exact h fs
  | some text => exact h fs

theorem history_eq (o : Options) (c : Commands) (hout : c.outputFile = none) {path : Str} {fs fs2 : FS} (h : fs.get? path = fs2.get? path) :
    history (processDocument o c path fs) path = history (processDocument o c path fs2) path ∧
    (processDocument o c path fs).last = (processDocument o c path fs2).last := by
  obtain ⟨ws, e, hu⟩ := processDocument_uniform o c path (fs2.get? path)
  rw [hu fs h, hu fs2 rfl]
  simp [history, hout, trail_get, h]

theorem states_ne_nil (o : Options) (c : Commands) (path : Str) (fs : FS) : (processDocument o c path fs).states ≠ [] := by
  obtain ⟨ws, e, hu⟩ := processDocument_uniform o c path (fs.get? path)
  rw [hu fs rfl]
  exact trail_ne_nil _ _ _

theorem states_head (o : Options) (c : Commands) (path : Str) (fs : FS) : fs.get? path ∈ history (processDocument o c path fs) path := by
  obtain ⟨ws, e, hu⟩ := processDocument_uniform o c path (fs.get? path)
  rw [hu fs rfl]
  simp only [history, List.mem_map]
  exact ⟨fs, by cases ws <;> simp [trail], rfl⟩

theorem states_other (o : Options) (c : Commands) (path : Str) {q : Str} (hq : q ≠ c.outputFile.getD path) (fs : FS) :
    ∀ fs' ∈ (processDocument o c path fs).states, fs'.get? q = fs.get? q := by
  obtain ⟨ws, e, hu⟩ := processDocument_uniform o c path (fs.get? path)
  rw [hu fs rfl]
  exact trail_other hq _ _

theorem getLastD_mem {α : Type} {l : List α} (h : l ≠ []) (d : α) : l.getLastD d ∈ l := by
  rw [List.getLastD_eq_getLast?, List.getLast?_eq_some_getLast h]
  exact List.getLast_mem h

theorem getLastD_append {α : Type} {a b : List α} (h : b ≠ []) (d d' : α) : (a ++ b).getLastD d = b.getLastD d' := by
  rw [List.getLastD_eq_getLast?, List.getLastD_eq_getLast?, List.getLast?_append, List.getLast?_eq_some_getLast h]
  rfl

theorem getLastD_map {α β : Type} (f : α → β) {l : List α} (h : l ≠ []) (d : α) (d' : β) : f (l.getLastD d) = (l.map f).getLastD d' := by
  rw [List.getLastD_eq_getLast?, List.getLastD_eq_getLast?, List.getLast?_map, List.getLast?_eq_some_getLast h]
  rfl

theorem final_eq (o : Options) (c : Commands) (hout : c.outputFile = none) {path : Str} {fs fs2 : FS} (h : fs.get? path = fs2.get? path) :
    ((processDocument o c path fs).final fs).get? path = ((processDocument o c path fs2).final fs2).get? path := by
  have h1 := (history_eq o c hout h).1
  unfold Cli.Run.final
  rw [getLastD_map (·.get? path) (states_ne_nil o c path fs) fs none, getLastD_map (·.get? path) (states_ne_nil o c path fs2) fs2 none]
  exact congrArg (·.getLastD none) h1

theorem batch_ne_nil (o : Options) (c : Commands) (names : List Str) (fs : FS) : (batch o c names fs).states ≠ [] := by
  cases names with
  | nil => simp [batch]
  | cons p ps =>
    rw [batch]
    dsimp only
    split
    · simp [states_ne_nil]
    · exact states_ne_nil _ _ _ _

theorem batch_cases (o : Options) (c : Commands) (p : Str) (ps : List Str) (fs : FS) :
    let r := processDocument o c p fs
    ((∃ rs d, r.last = .finished rs d) ∧ batch o c (p :: ps) fs =
      ⟨r.states ++ (batch o c ps (r.final fs)).states, (p, r.last) :: (batch o c ps (r.final fs)).ends⟩) ∨
    ((∀ rs d, r.last ≠ .finished rs d) ∧ batch o c (p :: ps) fs = ⟨r.states, [(p, r.last)]⟩) := by
  intro r
  cases hr : r.last with
  | finished rs d => left; exact ⟨⟨rs, d, rfl⟩, by rw [batch]; simp only [show (processDocument o c p fs).last = _ from hr]; rfl⟩
  | exited _ => right; exact ⟨by simp, by rw [batch]; simp only [show (processDocument o c p fs).last = _ from hr]; rfl⟩
  | panicked x => right; exact ⟨by simp, by rw [batch]; simp only [show (processDocument o c p fs).last = _ from hr]; rfl⟩
  | outOfFuel => right; exact ⟨by simp, by rw [batch]; simp only [show (processDocument o c p fs).last = _ from hr]; rfl⟩

/-- A file is only changed when it is worked on. -/
theorem batch_other (o : Options) (c : Commands) {q : Str} : ∀ (names : List Str) (fs : FS),
    (∀ x ∈ (batch o c names fs).ends, q ≠ c.outputFile.getD x.1) → ∀ fs' ∈ (batch o c names fs).states, fs'.get? q = fs.get? q := by
  intro names
  induction names with
  | nil => intro fs _ fs' h; simp [batch] at h; rw [h]
  | cons p ps ih =>
    intro fs hq fs' h
    rcases batch_cases o c p ps fs with ⟨_, hb⟩ | ⟨_, hb⟩
    · rw [hb] at hq h
      have h0 := states_other o c p (hq (p, (processDocument o c p fs).last) (by simp)) fs
      simp only [List.mem_append] at h
      rcases h with h | h
      · exact h0 _ h
      · rw [ih _ (fun x hx => hq x (by simp [hx])) fs' h]
        exact h0 _ (getLastD_mem (states_ne_nil _ _ _ _) _)
    · rw [hb] at hq h
      exact states_other o c p (hq (p, (processDocument o c p fs).last) (by simp)) fs _ h

theorem batch_ends_sub (o : Options) (c : Commands) : ∀ (names : List Str) (fs : FS), (batch o c names fs).ends.map Prod.fst <+: names := by
  intro names
  induction names with
  | nil => intro fs; simp [batch]
  | cons p ps ih =>
    intro fs
    rcases batch_cases o c p ps fs with ⟨_, hb⟩ | ⟨_, hb⟩
    · rw [hb]; simpa using ih _
    · rw [hb]; simp

theorem batch_alone (o : Options) (c : Commands) (hout : c.outputFile = none) : ∀ (names : List Str) (fs : FS), names.Nodup →
    (∀ x ∈ (batch o c names fs).ends, x.2 = (processDocument o c x.1 fs).last ∧
      ((batch o c names fs).final fs).get? x.1 = ((processDocument o c x.1 fs).final fs).get? x.1) ∧
    ∀ fs' ∈ (batch o c names fs).states, ∀ p ∈ names, fs'.get? p ∈ history (processDocument o c p fs) p := by
  intro names
  induction names with
  | nil => intro fs _; simp [batch]
  | cons p ps ih =>
    intro fs hnd
    simp only [List.nodup_cons] at hnd
    have hown : ∀ fs' ∈ (processDocument o c p fs).states, ∀ p' ∈ p :: ps, fs'.get? p' ∈ history (processDocument o c p' fs) p' := by
      intro fs' h p' hp'
      by_cases e : p' = p
      · rw [e]; exact List.mem_map.mpr ⟨_, h, rfl⟩
      · rw [states_other o c p (by rw [hout]; exact e) fs fs' h]
        exact states_head _ _ _ _
    rcases batch_cases o c p ps fs with ⟨_, hb⟩ | ⟨_, hb⟩
    · rw [hb]
      generalize hfs1 : (processDocument o c p fs).final fs = fs1
      have hoth : ∀ q, q ≠ p → fs1.get? q = fs.get? q := fun q hq => by
        rw [← hfs1]
        exact states_other o c p (by rw [hout]; exact hq) fs _ (getLastD_mem (states_ne_nil _ _ _ _) _)
      have hfin : Cli.Batch.final ⟨(processDocument o c p fs).states ++ (batch o c ps fs1).states, (p, (processDocument o c p fs).last) :: (batch o c ps fs1).ends⟩ fs =
          (batch o c ps fs1).final fs1 := getLastD_append (batch_ne_nil _ _ _ _) _ _
      have hkeep : ∀ fs' ∈ (batch o c ps fs1).states, fs'.get? p = fs1.get? p := batch_other o c ps fs1 fun x hx e => by
        rw [hout] at e
        exact hnd.1 (e ▸ (batch_ends_sub o c ps fs1).subset (List.mem_map.mpr ⟨x, hx, rfl⟩))
      obtain ⟨h1, h2⟩ := ih fs1 hnd.2
      constructor
      · intro x hx
        rw [hfin]
        simp only [List.mem_cons] at hx
        rcases hx with rfl | hx
        · refine ⟨rfl, ?_⟩
          rw [Cli.Batch.final, hkeep _ (getLastD_mem (batch_ne_nil _ _ _ _) _), ← hfs1]
        · have hxp : x.1 ≠ p := fun e => hnd.1 (e ▸ (batch_ends_sub o c ps fs1).subset (List.mem_map.mpr ⟨x, hx, rfl⟩))
          obtain ⟨h3, h4⟩ := h1 x hx
          exact ⟨h3.trans (history_eq o c hout (hoth _ hxp)).2, h4.trans (final_eq o c hout (hoth _ hxp))⟩
      · intro fs' h p' hp'
        simp only [List.mem_append] at h
        rcases h with h | h
        · exact hown _ h _ hp'
        · by_cases e : p' = p
          · rw [e, hkeep _ h, ← hfs1]
            exact List.mem_map.mpr ⟨_, getLastD_mem (states_ne_nil _ _ _ _) _, rfl⟩
          · rw [← (history_eq o c hout (hoth _ e)).1]
            exact h2 _ h _ (by simpa [e] using hp')
    · rw [hb]
      exact ⟨fun x hx => by simp at hx; subst hx; exact ⟨rfl, rfl⟩, hown⟩

theorem textOf_printLoop {o : Options} (hq : o.quiet = false) (m : Matches) (path : Str) (cs : List Str) {texts : List Str} (hne : texts ≠ []) {z : List Piece} {w : Str}
    (hd : textOf z = some w) :
    textOf (printLoop o m path cs (texts.map .ok) ++ z) = some (o.separator.intercalate texts ++ lit% "\n" ++ w) := by
  induction texts generalizing cs with
  | nil => exact absurd rfl hne
  | cons t ts ih =>
    cases ts with
    | nil => simp [printLoop, hq, textOf, hd]
    | cons t' ts =>
      have := ih cs.tail (by simp)
      rw [List.map_cons, printLoop]
      simp only [hq]
      simp only [List.map_cons] at this ⊢
      simp [textOf, this, List.intercalate_cons_cons]

end Tomllib
