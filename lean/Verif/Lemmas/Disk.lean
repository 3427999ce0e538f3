import Verif.Spec.Disk
import Verif.Lemmas.Batch
import Verif.Lemmas.ForTool
import Verif.Props.Tool
/-!
# Lemmas about tomlkit with files of bytes
-/

namespace Tomllib

open Cli

/-! ## Bytes -/

theorem encode_eq (s : Str) : ByteArray.mk (encode s).toArray = s.utf8Encode := ByteArray.ext (by rw [List.utf8Encode, List.data_toByteArray]; rfl)

theorem decode_encode (s : Str) : decode (encode s) = some s := by
  rw [decode, encode_eq, List.utf8Decode?_utf8Encode]; simp

theorem encode_of_decode {b : List UInt8} {s : Str} (h : decode b = some s) : b = encode s := by
  rw [decode, Option.map_eq_some_iff] at h
  obtain ⟨a, h1, h2⟩ := h
  have hs : (ByteArray.mk b.toArray).utf8Decode?.isSome = true := by rw [h1]; rfl
  have := ByteArray.utf8Encode_get_utf8Decode? (b := ByteArray.mk b.toArray) (h := hs)
  have e : ((ByteArray.mk b.toArray).utf8Decode?.get hs).toList = s := by
    rw [← h2]; congr 1; exact Option.get_of_eq_some hs h1
  rw [e, ← encode_eq] at this
  have := congrArg (fun x : ByteArray => x.data.toList) this
  simpa using this.symm

theorem encode_inj {s t : Str} (h : encode s = encode t) : s = t := by
  have := decode_encode s
  rw [h, decode_encode] at this
  simpa using this.symm

/-! ## What a run does, apart from the files it does it to -/

/-- What is decided before a file is touched. -/
inductive Plan where
  | calm (e : End)
  | broken (e : End)
  | save (s : Str) (e : End)

def Plan.onFs (out : Str) (fs : FS) : Plan → Run
  | .calm e => ⟨[fs], e⟩
  | .broken e => ⟨[fs, SMap.insert fs out []], e⟩
  | .save s e => ⟨[fs, SMap.insert fs out [], SMap.insert (SMap.insert fs out []) out s], e⟩

def Plan.run (out : Str) (l : Luck) (d : Disk) : Plan → DiskRun
  | .calm e => ⟨[d], .ended e⟩
  | .broken e => if l.created then ⟨[d, SMap.insert d out []], .ended e⟩ else ⟨[d], .notWritten out⟩
  | .save s e =>
    if l.created then
      let d1 := SMap.insert d out []
      let states := [d, d1] ++ (growing (encode s) 0 l.writes).map (SMap.insert d1 out)
      if l.written then
        if l.synced then ⟨states ++ [SMap.insert d1 out (encode s)], .ended e⟩ else ⟨states ++ [SMap.insert d1 out (encode s)], .notWritten out⟩
      else ⟨states, .notWritten out⟩
    else ⟨[d], .notWritten out⟩

/-- Where a plan comes from. -/
def Plan.Sound (c : Commands) (doc : Parser) : Plan → Prop
  | .calm e => ∀ rs p, e = .finished rs p → (∃ x ∈ rs, ∃ e, x = .error e) ∨ c.setValue = none
  | .broken e => (∀ rs p, e ≠ .finished rs p) ∧ ∃ fields doc', c.setValue = some (some fields) ∧ fields ≠ [] ∧ Applied fields doc doc'
  | .save s _ => ∃ fields doc', c.setValue = some (some fields) ∧ fields ≠ [] ∧ Applied fields doc doc' ∧ doc'.display = .ok s

def Both (out : Str) (G : Plan → Prop) (R : FS → Run) (D : Luck → Disk → DiskRun) : Prop := ∃ P : Plan, G P ∧ (∀ fs, R fs = P.onFs out fs) ∧ ∀ l d, D l d = P.run out l d

theorem Both.calm {out : Str} {G : Plan → Prop} {e : End} (h : G (.calm e)) : Both out G (fun fs => ⟨[fs], e⟩) fun _ d => ⟨[d], .ended e⟩ := ⟨.calm e, h, fun _ => rfl, fun _ _ => rfl⟩

theorem Both.command {out : Str} {G : Plan → Prop} (hG : ∀ e, (∀ rs p, e ≠ .finished rs p) → G (.calm e)) {results : List CmdRes} {given : Option (Option (List Str))} {f : Option (List Str) → Out CmdRes}
    {k : List CmdRes → FS → Run} {k' : List CmdRes → Luck → Disk → DiskRun} (h : ∀ r, Both out G (k r) (k' r)) :
    Both out G (fun fs => Cli.command results given [fs] f fun r => k r fs) fun l d => commandOn results given d f fun r => k' r l d := by
  have run : ∀ fields : Option (List Str), Both out G (fun fs => step (f fields) [fs] fun r => k (results ++ [r]) fs)
      fun l d => attempt (f fields) [d] fun r => k' (results ++ [r]) l d := by
    intro fields
    unfold step attempt
    cases f fields with
    | ok a => exact h _
    | panic x => exact .calm (hG _ (by simp))
    | fuel => exact .calm (hG _ (by simp))
  rcases hr : results.getLast? with _ | (e | a) <;> cases given <;> simp only [Cli.command, commandOn, hr]
  · exact h _
  · exact run _
  · exact h _
  · exact h _
  · exact h _
  · exact run _

theorem finish_last_eq (o : Options) (c : Commands) (results : List CmdRes) (doc : Parser) (states : List FS) :
    finish o c results doc states = ⟨states, (finish o c results doc []).last⟩ := by
  obtain ⟨e, he⟩ := finish_end o c results doc
  rw [he, he]

theorem Both.save (o : Options) (c : Commands) (path : Str) (results : List CmdRes) (doc : Parser) :
    Both (c.outputFile.getD path) (Plan.Sound c doc) (setAndFinish o c path results doc) (saveOn o c path results doc) := by
  have last : ∀ {results doc rs p}, (finish o c results doc []).last = .finished rs p → rs = results := fun h => finish_last h
  have quiet : ((∃ e, results.getLast? = some (.error e)) ∨ c.setValue = none) → Both (c.outputFile.getD path) (Plan.Sound c doc) (fun fs => finish o c results doc [fs]) fun _ d => finishOn o c results doc [d] :=
    fun hq => ⟨.calm (finish o c results doc []).last, fun rs p h => hq.imp (fun ⟨e, he⟩ => ⟨_, last h ▸ List.mem_of_getLast? he, e, rfl⟩) id, fun fs => finish_last_eq .., fun l d => rfl⟩
  have run : ∀ fields : Option (List Str), c.setValue = some fields → Both (c.outputFile.getD path) (Plan.Sound c doc) (fun fs => step (Cli.setValue o fields doc) [fs] fun (doc, r) =>
      match r with
      | .error _ => finish o c (results ++ [r]) doc [fs]
      | .ok _ =>
        let out := c.outputFile.getD path
        let fs1 := SMap.insert fs out []
        step doc.display [fs, fs1] fun s =>
          finish o c (results ++ [r]) doc [fs, fs1, SMap.insert fs1 out s]) (fun l d => attempt (Cli.setValue o fields doc) [d] fun (doc, r) =>
      match r with
      | .error _ => finishOn o c (results ++ [r]) doc [d]
      | .ok _ =>
        let out := c.outputFile.getD path
        if l.created then
          let d1 := SMap.insert d out []
          attempt doc.display [d, d1] fun s =>
            let states := [d, d1] ++ (growing (encode s) 0 l.writes).map (SMap.insert d1 out)
            if l.written then
              let states := states ++ [SMap.insert d1 out (encode s)]
              if l.synced then finishOn o c (results ++ [r]) doc states
              else ⟨states, .notWritten out⟩
            else ⟨states, .notWritten out⟩
        else ⟨[d], .notWritten out⟩) := by
    intro fields hset
    unfold step attempt
    cases hv : Cli.setValue o fields doc with
    | panic x => exact .calm (fun _ _ h => by simp at h)
    | fuel => exact .calm (fun _ _ h => by simp at h)
    | ok a =>
      obtain ⟨doc', r⟩ := a
      cases r with
      | error e => exact ⟨.calm _, fun rs p h => .inl ⟨.error e, last h ▸ (by simp), e, rfl⟩, fun fs => finish_last_eq .., fun l d => rfl⟩
      | ok msg =>
        dsimp only
        obtain ⟨fs, rfl, hne, ha⟩ := setValue_applied hv
        cases hs : doc'.display with
        | ok s => exact ⟨.save s (finish o c (results ++ [.ok msg]) doc' []).last, ⟨fs, doc', hset, hne, ha, hs⟩, fun fs => finish_last_eq .., fun l d => rfl⟩
        | panic x => exact ⟨.broken (.panicked x), ⟨by simp, fs, doc', hset, hne, ha⟩, fun fs => rfl, fun l d => rfl⟩
        | fuel => exact ⟨.broken .outOfFuel, ⟨by simp, fs, doc', hset, hne, ha⟩, fun fs => rfl, fun l d => rfl⟩
  rcases hs : c.setValue with _ | fields
  · obtain ⟨P, hP, h1, h2⟩ := quiet (.inr hs)
    refine ⟨P, hP, fun fs => ?_, fun l d => ?_⟩
    · rw [← h1, setAndFinish, hs]; rcases results.getLast? with _ | (e | a) <;> rfl
    · rw [← h2, saveOn, hs]; rcases results.getLast? with _ | (e | a) <;> rfl
  · by_cases he : ∃ e, results.getLast? = some (.error e)
    · obtain ⟨e, he⟩ := he
      obtain ⟨P, hP, h1, h2⟩ := quiet (.inl ⟨e, he⟩)
      refine ⟨P, hP, fun fs => ?_, fun l d => ?_⟩
      · rw [← h1, setAndFinish, hs, he]
      · rw [← h2, saveOn, hs, he]
    · obtain ⟨P, hP, h1, h2⟩ := run fields hs
      refine ⟨P, hP, fun fs => ?_, fun l d => ?_⟩
      · rw [← h1, setAndFinish, hs]
        rcases hr : results.getLast? with _ | (e | a)
        · rfl
        · exact absurd ⟨e, hr⟩ he
        · rfl
      · rw [← h2, saveOn, hs]
        rcases hr : results.getLast? with _ | (e | a)
        · rfl
        · exact absurd ⟨e, hr⟩ he
        · rfl

/-- The same is decided whether the files have characters or bytes. -/
theorem plan_exists (o : Options) (c : Commands) (path : Str) (x : Option Str) : ∃ P : Plan,
    (match x with
      | none => P = .calm (.exited .noFile)
      | some text => (∃ doc, Parser.new.parse text = .ok (doc, .full) ∧ P.Sound c doc) ∨ ∃ e, P = .calm e ∧ ∀ rs p, e ≠ .finished rs p) ∧
    (∀ fs : FS, fs.get? path = x → processDocument o c path fs = P.onFs (outFile c path) fs) ∧
    ∀ l d, getFile l d path = x → processOn o c path l d = P.run (outFile c path) l d := by
  cases x with
  | none =>
    refine ⟨.calm (.exited .noFile), rfl, fun fs h => ?_, fun l d h => ?_⟩
    · rw [processDocument, h]; rfl
    · rw [processOn, h]; rfl
  | some text =>
    have key : Both (outFile c path) (fun P => (∃ doc, Parser.new.parse text = .ok (doc, .full) ∧ P.Sound c doc) ∨ ∃ e, P = .calm e ∧ ∀ rs p, e ≠ .finished rs p) (fun fs => step (Parser.new.parse text) [fs] fun (doc, res) =>
      match res with
      | .full =>
        Cli.command [] c.getValue [fs] (fun k => Cli.getValue o k doc) fun r =>
        Cli.command r c.hasValue [fs] (fun k => Out.bind (hasValue o k doc) fun x => .ok x.1) fun r' =>
        Cli.command r' c.getChildren [fs] (fun k => .ok (Cli.getChildren o k doc)) fun r' =>
        Cli.command r' c.hasChildren [fs] (fun k => hasChildren o k (match r.getLast?, c.hasValue with
          | some (.error _), _ => 0
          | _, some (some ks) => ks.length
          | _, _ => 0) doc) fun r =>
        setAndFinish o c path r doc fs
      | r => ⟨[fs], .exited (.notRead r)⟩)
      (fun l d => attempt (Parser.new.parse text) [d] fun (doc, res) =>
      match res with
      | .full =>
        commandOn [] c.getValue d (fun k => Cli.getValue o k doc) fun r =>
        commandOn r c.hasValue d (fun k => Out.bind (hasValue o k doc) fun x => .ok x.1) fun r' =>
        commandOn r' c.getChildren d (fun k => .ok (Cli.getChildren o k doc)) fun r' =>
        commandOn r' c.hasChildren d (fun k => hasChildren o k (match r.getLast?, c.hasValue with
          | some (.error _), _ => 0
          | _, some (some ks) => ks.length
          | _, _ => 0) doc) fun r =>
        saveOn o c path r doc l d
      | r => ⟨[d], .ended (.exited (.notRead r))⟩) := by
      unfold step attempt
      cases hp : Parser.new.parse text with
      | panic x => exact Both.calm (.inr ⟨_, rfl, by simp⟩)
      | fuel => exact Both.calm (.inr ⟨_, rfl, by simp⟩)
      | ok a =>
        obtain ⟨doc, res⟩ := a
        cases res with
        | full =>
          refine Both.command (fun e he => .inr ⟨e, rfl, he⟩) (k := _) (k' := _) fun r => ?_
          refine Both.command (fun e he => .inr ⟨e, rfl, he⟩) (k := _) (k' := _) fun r => ?_
          refine Both.command (fun e he => .inr ⟨e, rfl, he⟩) (k := _) (k' := _) fun r => ?_
          refine Both.command (fun e he => .inr ⟨e, rfl, he⟩) (k := _) (k' := _) fun r => ?_
          obtain ⟨P, h1, h2, h3⟩ := Both.save o c path r doc
          exact ⟨P, .inl ⟨doc, rfl, h1⟩, h2, h3⟩
        | _ => exact Both.calm (.inr ⟨_, rfl, by simp⟩)
    obtain ⟨P, hP, h1, h2⟩ := key
    refine ⟨P, hP, fun fs h => ?_, fun l d h => ?_⟩
    · rw [processDocument, h]; exact h1 fs
    · rw [processOn, h]; exact h2 l d

/-! ## The files during a run -/

theorem getFile_some {l : Luck} {d : Disk} {path : Str} {t : Str} (h : getFile l d path = some t) : l.opened = true ∧ d.get? path = some (encode t) := by
  unfold getFile at h
  split at h
  next ho =>
    refine ⟨ho, ?_⟩
    cases hd : d.get? path with
    | none => rw [hd] at h; simp at h
    | some b => rw [hd] at h; exact congrArg some (encode_of_decode (by simpa using h))
  · simp at h

/-- Files of characters in which the document is the same. -/
def fsOf (x : Option Str) (path : Str) : FS := match x with
  | some t => [(path, t)]
  | none => []

theorem fsOf_get (x : Option Str) (path : Str) : (fsOf x path).get? path = x := by
  cases x <;> simp [fsOf, SMap.get?]

theorem growing_prefix (b : List UInt8) : ∀ (ks : List Nat) (n : Nat), ∀ x ∈ growing b n ks, x <+: b
  | [], _, x, h => by simp [growing] at h
  | k :: ks, n, x, h => by
    simp only [growing, List.mem_cons] at h
    rcases h with rfl | h
    · exact List.take_prefix _ _
    · exact growing_prefix b ks _ x h

theorem insert_other {V : Type} {m : SMap V} {out q : Str} (h : q ≠ out) (v : V) : (SMap.insert m out v).get? q = m.get? q := by
  rw [SMap.get?_insert, if_neg (fun e => h e.symm)]

/-- In every state of a run the other files are as before, and the output file has its old bytes or is being written. -/
theorem Plan.states {out : Str} {l : Luck} {d : Disk} : ∀ P : Plan, ∀ d' ∈ (P.run out l d).states, d' = d ∨
    ((∀ q, q ≠ out → d'.get? q = d.get? q) ∧ (d'.get? out = some [] ∧ (∀ e, P ≠ .calm e) ∨ ∃ s e b, P = .save s e ∧ b <+: encode s ∧ d'.get? out = some b))
  | .calm e, d', h => by simp [Plan.run] at h; exact .inl h
  | .broken e, d', h => by
    simp only [Plan.run] at h
    split at h
    · simp only [List.mem_cons, List.not_mem_nil, or_false] at h
      rcases h with rfl | rfl
      · exact .inl rfl
      · exact .inr ⟨fun q hq => insert_other hq _, .inl ⟨SMap.get?_insert_self .., by simp⟩⟩
    · simp at h; exact .inl h
  | .save s e, d', h => by
    have h' : d' ∈ [d, SMap.insert d out []] ++ (growing (encode s) 0 l.writes).map (SMap.insert (SMap.insert d out []) out) ++
        [SMap.insert (SMap.insert d out []) out (encode s)] := by
      simp only [Plan.run] at h
      split at h
      · split at h
        · split at h <;> exact h
        · exact List.mem_append_left _ h
      · simp at h; simp [h]
    simp only [List.mem_append, List.mem_cons, List.not_mem_nil, or_false, List.mem_map] at h'
    rcases h' with ((rfl | rfl) | ⟨b, hb, rfl⟩) | rfl
    · exact .inl rfl
    · exact .inr ⟨fun q hq => insert_other hq _, .inl ⟨SMap.get?_insert_self .., by simp⟩⟩
    · exact .inr ⟨fun q hq => by rw [insert_other hq, insert_other hq], .inr ⟨s, e, b, rfl, growing_prefix _ _ _ _ hb, SMap.get?_insert_self ..⟩⟩
    · exact .inr ⟨fun q hq => by rw [insert_other hq, insert_other hq], .inr ⟨s, e, _, rfl, List.prefix_refl _, SMap.get?_insert_self ..⟩⟩

/-- A run, with what was decided. -/
theorem run_plan (o : Options) (c : Commands) (path : Str) (l : Luck) (d : Disk) : ∃ P : Plan,
    processOn o c path l d = P.run (outFile c path) l d ∧
    (∀ fs : FS, fs.get? path = getFile l d path → processDocument o c path fs = P.onFs (outFile c path) fs) ∧
    (getFile l d path = none → P = .calm (.exited .noFile)) ∧
    ((∃ text doc, getFile l d path = some text ∧ Parser.new.parse text = .ok (doc, .full) ∧ P.Sound c doc) ∨ ∃ e, P = .calm e ∧ ∀ rs p, e ≠ .finished rs p) := by
  obtain ⟨P, hP, h1, h2⟩ := plan_exists o c path (getFile l d path)
  refine ⟨P, h2 l d rfl, h1, fun h => by rw [h] at hP; exact hP, ?_⟩
  cases hx : getFile l d path with
  | none => rw [hx] at hP; exact .inr ⟨_, hP, by simp⟩
  | some text =>
    rw [hx] at hP
    rcases hP with ⟨doc, h3, h4⟩ | h3
    · exact .inl ⟨text, doc, rfl, h3, h4⟩
    · exact .inr h3

theorem onDisk_get (fs : FS) (q : Str) : (onDisk fs).get? q = (fs.get? q).map encode := by
  induction fs with
  | nil => rfl
  | cons x fs ih =>
    obtain ⟨k, v⟩ := x
    simp only [onDisk, List.map_cons, SMap.get?] at *
    split
    · rfl
    · exact ih

theorem onDisk_insert (fs : FS) (k : Str) (v : Str) : onDisk (SMap.insert fs k v) = SMap.insert (onDisk fs) k (encode v) := by
  induction fs with
  | nil => rfl
  | cons x fs ih =>
    obtain ⟨k', v'⟩ := x
    simp only [onDisk, List.map_cons, SMap.insert] at *
    split
    · rfl
    · rw [List.map_cons, ih]

theorem getFile_good {l : Luck} (h : l.good) (fs : FS) (path : Str) : getFile l (onDisk fs) path = fs.get? path := by
  rw [getFile, if_pos h.1, onDisk_get]
  cases fs.get? path with
  | none => rfl
  | some t => exact decode_encode t

theorem processOn_good {o : Options} {c : Commands} {path : Str} {l : Luck} (h : l.good) (fs : FS) :
    (processOn o c path l (onDisk fs)).last = .ended (processDocument o c path fs).last ∧
    (processOn o c path l (onDisk fs)).final (onDisk fs) = onDisk ((processDocument o c path fs).final fs) := by
  obtain ⟨P, h1, h2, _, _⟩ := run_plan o c path l (onDisk fs)
  rw [h1, h2 fs (getFile_good h fs path).symm]
  obtain ⟨_, hc, hw, hs⟩ := h
  cases P with
  | calm e => exact ⟨rfl, rfl⟩
  | broken e =>
    simp only [Plan.run, Plan.onFs, hc, if_true]
    refine ⟨trivial, ?_⟩
    simp only [DiskRun.final, Run.final, List.getLastD_cons, List.getLastD_nil]
    exact (onDisk_insert fs (outFile c path) []).symm
  | save s e =>
    simp only [Plan.run, Plan.onFs, hc, hw, hs, if_true]
    refine ⟨trivial, ?_⟩
    have : ∀ (a : List Disk) (x d : Disk), (a ++ [x]).getLastD d = x := fun a x d => by simp [List.getLastD_eq_getLast?]
    rw [DiskRun.final, this]
    simp only [Run.final, List.getLastD_cons, List.getLastD_nil]
    rw [onDisk_insert, onDisk_insert]
    rfl

theorem diskStates_ne_nil (o : Options) (c : Commands) (path : Str) (l : Luck) (d : Disk) : (processOn o c path l d).states ≠ [] := by
  obtain ⟨P, h1, _⟩ := run_plan o c path l d
  rw [h1]
  cases P with
  | calm e => simp [Plan.run]
  | broken e => simp only [Plan.run]; split <;> simp
  | save s e =>
    simp only [Plan.run]
    split
    · split
      · split <;> simp
      · simp
    · simp

/-- A file worked on is followed by the next one exactly if the work on it ends normally. -/
theorem batchOn_cases (o : Options) (c : Commands) (p : Str) (ps : List (Option Str)) (luck : Nat → Luck) (d : Disk) :
    let r := processOn o c p (luck 0) d
    let b := batchOn o c ps (fun n => luck (n + 1)) (r.final d)
    ((∃ rs q, r.last = .ended (.finished rs q)) ∧ batchOn o c (some p :: ps) luck d = ⟨r.states ++ b.states, (p, r.last) :: b.ends, b.noNames⟩) ∨
    ((∀ rs q, r.last ≠ .ended (.finished rs q)) ∧ batchOn o c (some p :: ps) luck d = ⟨r.states, [(p, r.last)], false⟩) := by
  intro r b
  cases h : r.last with
  | notWritten out => right; refine ⟨by simp, ?_⟩; rw [batchOn]; simp only [show (processOn o c p (luck 0) d).last = _ from h]; rfl
  | ended e =>
    cases e with
    | finished rs q => left; refine ⟨⟨rs, q, rfl⟩, ?_⟩; rw [batchOn]; simp only [show (processOn o c p (luck 0) d).last = _ from h]; rfl
    | _ => right; refine ⟨by simp, ?_⟩; rw [batchOn]; simp only [show (processOn o c p (luck 0) d).last = _ from h]; rfl

theorem batchOn_ne_nil (o : Options) (c : Commands) : ∀ (names : List (Option Str)) (luck : Nat → Luck) (d : Disk), (batchOn o c names luck d).states ≠ []
  | [], _, _ => by simp [batchOn]
  | none :: _, _, _ => by simp [batchOn]
  | some p :: ps, luck, d => by
    rcases batchOn_cases o c p ps luck d with ⟨_, h⟩ | ⟨_, h⟩ <;> rw [h] <;> simp [diskStates_ne_nil]

theorem batchOn_good {o : Options} {c : Commands} : ∀ (names : List Str) (luck : Nat → Luck) (fs : FS), (∀ n, (luck n).good) →
    (batchOn o c (names.map some) luck (onDisk fs)).ends = (batch o c names fs).ends.map (fun x => (x.1, .ended x.2)) ∧
    (batchOn o c (names.map some) luck (onDisk fs)).noNames = false ∧
    (batchOn o c (names.map some) luck (onDisk fs)).final (onDisk fs) = onDisk ((batch o c names fs).final fs)
  | [], _, fs, _ => by simp [batchOn, batch, DiskBatch.final, Batch.final]
  | p :: ps, luck, fs, h => by
    obtain ⟨h1, h2⟩ := processOn_good (o := o) (c := c) (path := p) (h 0) fs
    rcases batchOn_cases o c p (ps.map some) luck (onDisk fs) with ⟨⟨rs, q, k1⟩, k2⟩ | ⟨k1, k2⟩ <;> rcases batch_cases o c p ps fs with ⟨⟨rs', q', g1⟩, g2⟩ | ⟨g1, g2⟩
    · rw [List.map_cons, k2, g2]
      rw [h2]
      obtain ⟨i1, i2, i3⟩ := batchOn_good ps (fun n => luck (n + 1)) ((processDocument o c p fs).final fs) (fun n => h (n + 1))
      refine ⟨?_, i2, ?_⟩
      · simp only [List.map_cons]; rw [h1, i1]
      · have e1 : ∀ (a b : List Disk) (d d' : Disk), b ≠ [] → (a ++ b).getLastD d = b.getLastD d' := fun a b d d' hb => getLastD_append hb d d'
        rw [DiskBatch.final, Batch.final]
        simp only
        rw [e1 _ _ _ (onDisk ((processDocument o c p fs).final fs)) (batchOn_ne_nil _ _ _ _ _), getLastD_append (batch_ne_nil _ _ _ _) _ ((processDocument o c p fs).final fs)]
        exact i3
    · rw [h1] at k1; exact absurd (Stop.ended.inj k1) (g1 rs q)
    · rw [h1, g1] at k1; exact absurd rfl (k1 rs' q')
    · rw [List.map_cons, k2, g2]
      exact ⟨by simp [h1], rfl, h2⟩

/-! ## Several files -/

theorem diskStates_other (o : Options) (c : Commands) (path : Str) (l : Luck) (d : Disk) {q : Str} (hq : q ≠ outFile c path) :
    ∀ d' ∈ (processOn o c path l d).states, d'.get? q = d.get? q := by
  intro d' h
  obtain ⟨P, h1, _⟩ := run_plan o c path l d
  rw [h1] at h
  rcases P.states d' h with rfl | ⟨h5, _⟩
  · rfl
  · exact h5 q hq

theorem diskStates_head (o : Options) (c : Commands) (path : Str) (l : Luck) (d : Disk) : d ∈ (processOn o c path l d).states := by
  obtain ⟨P, h1, _⟩ := run_plan o c path l d
  rw [h1]
  cases P with
  | calm e => simp [Plan.run]
  | broken e => simp only [Plan.run]; split <;> simp
  | save s e =>
    simp only [Plan.run]
    split
    · split
      · split <;> simp
      · simp
    · simp

/-- What happens to the output file, and the end, depend only on the document (if it is the output file as well). -/
theorem processOn_alike (o : Options) (c : Commands) (hout : c.outputFile = none) (path : Str) (l : Luck) {d d2 : Disk} (h : d.get? path = d2.get? path) :
    (processOn o c path l d).last = (processOn o c path l d2).last ∧
    (processOn o c path l d).states.map (·.get? path) = (processOn o c path l d2).states.map (·.get? path) := by
  have hf : getFile l d path = getFile l d2 path := by simp only [getFile, h]
  obtain ⟨P, _, _, h2⟩ := plan_exists o c path (getFile l d path)
  rw [h2 l d rfl, h2 l d2 hf.symm]
  have ho : outFile c path = path := by rw [outFile, hout]; rfl
  rw [ho]
  have g : ∀ (m : Disk) b, (SMap.insert m path b).get? path = some b := fun m b => SMap.get?_insert_self ..
  cases P with
  | calm e => exact ⟨rfl, by simp [Plan.run, h]⟩
  | broken e => simp only [Plan.run]; split <;> exact ⟨rfl, by simp [h, g]⟩
  | save s e =>
    simp only [Plan.run]
    split
    · split
      · split <;> exact ⟨rfl, by simp [h, g, Function.comp_def]⟩
      · exact ⟨rfl, by simp [h, g, Function.comp_def]⟩
    · exact ⟨rfl, by simp [h]⟩

theorem batchOn_other (o : Options) (c : Commands) {q : Str} : ∀ (names : List (Option Str)) (luck : Nat → Luck) (d : Disk),
    (∀ p, some p ∈ names → q ≠ outFile c p) → ∀ d' ∈ (batchOn o c names luck d).states, d'.get? q = d.get? q
  | [], _, d, _, d', h => by simp [batchOn] at h; rw [h]
  | none :: _, _, d, _, d', h => by simp [batchOn] at h; rw [h]
  | some p :: ps, luck, d, hq, d', h => by
    have own := diskStates_other o c p (luck 0) d (hq p (by simp))
    rcases batchOn_cases o c p ps luck d with ⟨_, hb⟩ | ⟨_, hb⟩
    · rw [hb] at h
      simp only [List.mem_append] at h
      rcases h with h | h
      · exact own d' h
      · rw [batchOn_other o c ps _ _ (fun p' hp' => hq p' (by simp [hp'])) d' h]
        exact own _ (getLastD_mem (diskStates_ne_nil _ _ _ _ _) _)
    · rw [hb] at h; exact own d' h

/-- Each of the files is treated as if it were the only one. -/
theorem batchOn_alone (o : Options) (c : Commands) (hout : c.outputFile = none) : ∀ (names : List (Option Str)) (luck : Nat → Luck) (d : Disk), names.Nodup →
    ∀ d' ∈ (batchOn o c names luck d).states, ∀ n p, names[n]? = some (some p) → ∃ d2 ∈ (processOn o c p (luck n) d).states, d'.get? p = d2.get? p
  | [], _, _, _, _, _, _, _, hn => by simp at hn
  | none :: _, luck, d, _, d', h, n, p, hn => by
    simp [batchOn] at h
    exact ⟨d, diskStates_head .., by rw [h]⟩
  | some p0 :: ps, luck, d, hnd, d', h, n, p, hn => by
    simp only [List.nodup_cons] at hnd
    have hof : ∀ p, outFile c p = p := fun p => by rw [outFile, hout]; rfl
    have hown : d' ∈ (processOn o c p0 (luck 0) d).states → ∃ d2 ∈ (processOn o c p (luck n) d).states, d'.get? p = d2.get? p := by
      intro h
      cases n with
      | zero => simp at hn; subst hn; exact ⟨d', h, rfl⟩
      | succ n =>
        have hp : p ≠ p0 := fun e => hnd.1 (e ▸ List.mem_of_getElem? (by simpa using hn))
        exact ⟨d, diskStates_head .., diskStates_other o c p0 _ d (by rw [hof]; exact hp) d' h⟩
    rcases batchOn_cases o c p0 ps luck d with ⟨_, hb⟩ | ⟨_, hb⟩
    · rw [hb] at h
      simp only [List.mem_append] at h
      rcases h with h | h
      · exact hown h
      · cases n with
        | zero =>
          simp at hn; subst hn
          refine ⟨_, getLastD_mem (diskStates_ne_nil o c p0 (luck 0) d) d, ?_⟩
          exact batchOn_other o c ps _ _ (fun p' hp' e => hnd.1 (by rw [hof] at e; rw [e]; exact hp')) d' h
        | succ n =>
          have hn' : ps[n]? = some (some p) := by simpa using hn
          have hp : p ≠ p0 := fun e => hnd.1 (e ▸ List.mem_of_getElem? hn')
          obtain ⟨d2, i1, i2⟩ := batchOn_alone o c hout ps (fun n => luck (n + 1)) _ hnd.2 d' h n p hn'
          have hsame : ((processOn o c p0 (luck 0) d).final d).get? p = d.get? p :=
            diskStates_other o c p0 _ d (by rw [hof]; exact hp) _ (getLastD_mem (diskStates_ne_nil _ _ _ _ _) _)
          have := (processOn_alike o c hout p (luck (n + 1)) hsame).2
          have hm : d2.get? p ∈ (processOn o c p (luck (n + 1)) d).states.map (·.get? p) := by
            rw [← this]; exact List.mem_map.mpr ⟨d2, i1, rfl⟩
          obtain ⟨d3, j1, j2⟩ := List.mem_map.mp hm
          exact ⟨d3, j1, i2.trans j2.symm⟩
    · rw [hb] at h; exact hown h

/-! ## The standard input -/

theorem readLines_line {a : List UInt8} (h : 10 ∉ a) (b : List UInt8) : readLines (a ++ [10] ++ b) = (a ++ [10]) :: readLines b := by
  induction a with
  | nil => simp [readLines]
  | cons x a ih =>
    have hx : x ≠ 10 := fun e => h (by simp [e])
    have ha : 10 ∉ a := fun e => h (by simp [e])
    simp only [List.cons_append, readLines, if_neg hx]
    rw [ih ha]

theorem readLines_last {a : List UInt8} (h : 10 ∉ a) (hne : a ≠ []) : readLines a = [a] := by
  induction a with
  | nil => exact absurd rfl hne
  | cons x a ih =>
    have hx : x ≠ 10 := fun e => h (by simp [e])
    have ha : 10 ∉ a := fun e => h (by simp [e])
    simp only [readLines, if_neg hx]
    cases a with
    | nil => simp [readLines]
    | cons y a => rw [ih ha (by simp)]

theorem encode_append (s t : Str) : encode (s ++ t) = encode s ++ encode t := by simp [encode]

theorem encode_newline : encode (lit% "\n") = [10] := by decide +kernel

/-- A newline has the byte 10, and no other character has this byte. -/
theorem newline_byte {c : Char} (h : 10 ∈ String.utf8EncodeChar c) : c = '\n' := by
  have key : ∀ n : Nat, (10 : UInt8) = UInt8.ofNat n → n % 256 = 10 := fun n e => by
    have := congrArg UInt8.toNat e
    simpa using this.symm
  have hv : c.val.toNat = 10 → c = '\n' := fun e => Char.ext (UInt32.toNat_inj.mp (by rw [e]; rfl))
  revert h
  fun_cases String.utf8EncodeChar c
  all_goals
    intro h
    simp only [List.mem_cons, List.not_mem_nil, or_false] at h
  · exact hv (by have := key _ h; omega)
  · rcases h with h | h <;> (have := key _ h; omega)
  · rcases h with h | h | h <;> (have := key _ h; omega)
  · rcases h with h | h | h | h <;> (have := key _ h; omega)

theorem encode_noNewline {s : Str} (h : '\n' ∉ s) : 10 ∉ encode s := by
  intro h'
  simp only [encode, List.mem_flatMap] at h'
  obtain ⟨c, h1, h2⟩ := h'
  exact h (newline_byte h2 ▸ h1)

theorem dropWhile_white {w : Str} (h : ∀ c ∈ w, isWhite c = true) (n : Str) : (w ++ n).dropWhile isWhite = n.dropWhile isWhite := by
  induction w with
  | nil => rfl
  | cons c w ih => rw [List.cons_append, List.dropWhile_cons, if_pos (h c (by simp))]; exact ih fun x hx => h x (by simp [hx])

theorem dropWhile_plain {n : Str} (h : ∀ c x, n = c :: x → isWhite c = false) : n.dropWhile isWhite = n := by
  cases n with
  | nil => rfl
  | cons c x => rw [List.dropWhile_cons, if_neg (by simp [h c x rfl])]

theorem trim_around {a n b : Str} (ha : ∀ c ∈ a, isWhite c = true) (hb : ∀ c ∈ b, isWhite c = true) (hn : ∀ c x, n = c :: x ∨ n = x ++ [c] → isWhite c = false) :
    trim (a ++ n ++ b) = n := by
  rw [trim, List.append_assoc, dropWhile_white ha]
  by_cases he : n = []
  · subst he
    have := dropWhile_white hb []
    rw [List.append_nil] at this
    rw [List.nil_append, this]
    rfl
  · have e1 : (n ++ b).dropWhile isWhite = n ++ b := by
      cases n with
      | nil => exact absurd rfl he
      | cons c x => rw [List.cons_append, List.dropWhile_cons, if_neg (by simp [hn c x (.inl rfl)])]
    rw [e1, List.reverse_append, dropWhile_white (by simpa using hb), dropWhile_plain, List.reverse_reverse]
    intro c x e
    exact hn c x.reverse (.inr (by rw [← List.reverse_reverse n, e]; simp))

theorem white_iff (c : Char) : isWhite c = true ↔ c ∈ whiteSpace := by
  have hc : ∀ n (h : n.isValidChar), c.toNat = n ↔ c = Char.ofNat n := fun n h => by
    constructor
    · intro e; rw [← e]; exact (Char.ofNat_toNat c).symm
    · intro e
      rw [e, Char.ofNat, dif_pos h]
      rfl
  have e : ∀ n, 9 ≤ n ∧ n ≤ 13 ↔ n = 9 ∨ n = 10 ∨ n = 11 ∨ n = 12 ∨ n = 13 := by omega
  have e' : ∀ n, 0x2000 ≤ n ∧ n ≤ 0x200A ↔ n = 0x2000 ∨ n = 0x2001 ∨ n = 0x2002 ∨ n = 0x2003 ∨ n = 0x2004 ∨ n = 0x2005 ∨ n = 0x2006 ∨ n = 0x2007 ∨ n = 0x2008 ∨
      n = 0x2009 ∨ n = 0x200A := by omega
  simp only [isWhite, whiteSpace, List.mem_cons, List.not_mem_nil, or_false, Bool.or_eq_true, decide_eq_true_eq, e, e']
  simp only [hc _ (show Nat.isValidChar 9 by decide), hc _ (show Nat.isValidChar 10 by decide), hc _ (show Nat.isValidChar 11 by decide), hc _ (show Nat.isValidChar 12 by decide),
    hc _ (show Nat.isValidChar 13 by decide), hc _ (show Nat.isValidChar 0x20 by decide), hc _ (show Nat.isValidChar 0x85 by decide), hc _ (show Nat.isValidChar 0xA0 by decide),
    hc _ (show Nat.isValidChar 0x1680 by decide), hc _ (show Nat.isValidChar 0x2000 by decide), hc _ (show Nat.isValidChar 0x2001 by decide),
    hc _ (show Nat.isValidChar 0x2002 by decide), hc _ (show Nat.isValidChar 0x2003 by decide), hc _ (show Nat.isValidChar 0x2004 by decide),
    hc _ (show Nat.isValidChar 0x2005 by decide), hc _ (show Nat.isValidChar 0x2006 by decide), hc _ (show Nat.isValidChar 0x2007 by decide),
    hc _ (show Nat.isValidChar 0x2008 by decide), hc _ (show Nat.isValidChar 0x2009 by decide), hc _ (show Nat.isValidChar 0x200A by decide),
    hc _ (show Nat.isValidChar 0x2028 by decide), hc _ (show Nat.isValidChar 0x2029 by decide), hc _ (show Nat.isValidChar 0x202F by decide),
    hc _ (show Nat.isValidChar 0x205F by decide), hc _ (show Nat.isValidChar 0x3000 by decide)]
  simp only [or_assoc]

theorem white_false {c : Char} (h : c ∉ whiteSpace) : isWhite c = false := by
  cases hw : isWhite c with
  | false => rfl
  | true => exact absurd ((white_iff c).mp hw) h

theorem names_line {a n b : Str} (ha : Around a) (hn : PlainName n) (hb : Around b) (rest : List UInt8) :
    namesOn (encode (a ++ n ++ b ++ lit% "\n") ++ rest) = some n :: namesOn rest := by
  have h10 : 10 ∉ encode (a ++ n ++ b) := encode_noNewline (by
    simp only [List.mem_append, not_or]
    exact ⟨⟨fun h => (ha _ h).2 rfl, hn.1⟩, fun h => (hb _ h).2 rfl⟩)
  rw [namesOn, encode_append, encode_newline, readLines_line h10, List.map_cons, ← encode_newline, ← encode_append, decode_encode]
  rw [show a ++ n ++ b ++ lit% "\n" = a ++ n ++ (b ++ lit% "\n") by simp, Option.map_some,
    trim_around (fun c h => (white_iff c).mpr (ha c h).1) (fun c h => by
      rcases List.mem_append.mp h with h | h
      · exact (white_iff c).mpr (hb c h).1
      · simp at h; subst h; decide) (fun c x h => white_false (hn.2 c x h))]
  rfl

theorem names_last {a n b : Str} (ha : Around a) (hn : PlainName n) (hb : Around b) (hne : a ++ n ++ b ≠ []) : namesOn (encode (a ++ n ++ b)) = [some n] := by
  have h10 : 10 ∉ encode (a ++ n ++ b) := encode_noNewline (by
    simp only [List.mem_append, not_or]
    exact ⟨⟨fun h => (ha _ h).2 rfl, hn.1⟩, fun h => (hb _ h).2 rfl⟩)
  have hne' : encode (a ++ n ++ b) ≠ [] := fun e => hne (encode_inj (t := []) e)
  rw [namesOn, readLines_last h10 hne', List.map_singleton, decode_encode, Option.map_some, trim_around (fun c h => (white_iff c).mpr (ha c h).1) (fun c h => (white_iff c).mpr (hb c h).1) (fun c x h => white_false (hn.2 c x h))]

theorem names_lines : ∀ L : List (Str × Str × Str), (∀ x ∈ L, Around x.1 ∧ PlainName x.2.1 ∧ Around x.2.2) → ∀ rest,
    namesOn (encode (L.flatMap fun x => x.1 ++ x.2.1 ++ x.2.2 ++ lit% "\n") ++ rest) = L.map (fun x => some x.2.1) ++ namesOn rest
  | [], _, rest => by simp [encode]
  | x :: L, h, rest => by
    obtain ⟨h1, h2, h3⟩ := h x (by simp)
    rw [List.flatMap_cons, encode_append, List.append_assoc, names_line h1 h2 h3, names_lines L (fun y hy => h y (by simp [hy]))]
    rfl

end Tomllib
