import Verif.Lemmas.Disk
import Verif.Lemmas.Witness
/-!
# The command-line tool when files cannot be read or written: C68, C69

`processOn o c path l d` is the work on the document in the file `path`, where the files hold the bytes `d` and the operating system does what `l` says.
-/

namespace Tomllib

open Cli

/-- C68. At every moment, whatever goes wrong: the files are as before, or the document has been read without an error, all assignments have succeeded, only the
output file is different, and it holds a beginning of the bytes of the printed document (perhaps nothing, perhaps all of it). -/
theorem C68_every_moment (o : Options) (c : Commands) (path : Str) (l : Luck) (d : Disk) :
    ∀ d' ∈ (processOn o c path l d).states, d' = d ∨ Saving c path d d' := by
  intro d' h
  obtain ⟨P, h1, _, _, h4⟩ := run_plan o c path l d
  rw [h1] at h
  rcases P.states d' h with h | ⟨h5, h6⟩
  · exact .inl h
  · right
    rcases h4 with ⟨text, doc, hf, hp, hs⟩ | ⟨e, rfl, _⟩
    · obtain ⟨_, hd⟩ := getFile_some hf
      rcases h6 with ⟨h6, h7⟩ | ⟨s, e, b, rfl, h7, h8⟩
      · cases P with
        | calm e => exact absurd rfl (h7 e)
        | broken e =>
          obtain ⟨_, fields, doc', k1, k2, k3⟩ := hs
          exact ⟨doc', ⟨text, doc, fields, hd, hp, k1, k2, k3⟩, h5, .inl h6⟩
        | save s e =>
          obtain ⟨fields, doc', k1, k2, k3, _⟩ := hs
          exact ⟨doc', ⟨text, doc, fields, hd, hp, k1, k2, k3⟩, h5, .inl h6⟩
      · obtain ⟨fields, doc', k1, k2, k3, k4⟩ := hs
        exact ⟨doc', ⟨text, doc, fields, hd, hp, k1, k2, k3⟩, h5, .inr ⟨s, b, k4, h7, h8⟩⟩
    · rcases h6 with ⟨_, h7⟩ | ⟨s, e', b, h7, _⟩
      · exact absurd rfl (h7 e)
      · simp at h7

/-- C68. A run that comes to its end has changed nothing, because nothing was to be assigned or a command failed; or all of the new text is in the file, and the
operating system has done all it was asked for. -/
theorem C68_finished {o : Options} {c : Commands} {path : Str} {l : Luck} {d : Disk} {rs : List CmdRes} (h : (processOn o c path l d).last.finished = some rs) :
    ((∃ x ∈ rs, ∃ e, x = .error e) ∨ c.setValue = none) ∧ (processOn o c path l d).states = [d] ∨
    Saved c path d ((processOn o c path l d).final d) ∧ l.good := by
  obtain ⟨P, h1, _, _, h4⟩ := run_plan o c path l d
  rw [h1] at h ⊢
  rcases h4 with ⟨text, doc, hf, hp, hs⟩ | ⟨e, rfl, he⟩
  · obtain ⟨ho, hd⟩ := getFile_some hf
    cases P with
    | calm e =>
      cases e with
      | finished rs' p =>
        simp only [Plan.run, Stop.finished, Option.some.injEq] at h
        subst h
        exact .inl ⟨hs _ _ rfl, rfl⟩
      | _ => simp [Plan.run, Stop.finished] at h
    | broken e =>
      simp only [Plan.run] at h
      split at h
      · cases e with
        | finished rs' p => exact absurd rfl (hs.1 rs' p)
        | _ => simp [Stop.finished] at h
      · simp [Stop.finished] at h
    | save s e =>
      obtain ⟨fields, doc', k1, k2, k3, k4⟩ := hs
      by_cases hc : l.created = true <;> by_cases hw : l.written = true <;> by_cases hy : l.synced = true <;>
        simp only [Plan.run, hc, hw, hy, if_true, Stop.finished, Bool.false_eq_true, if_false, reduceCtorEq] at h ⊢
      right
      refine ⟨⟨doc', s, ⟨text, doc, fields, hd, hp, k1, k2, k3⟩, fun q hq => ?_, k4, ?_⟩, ho, hc, hw, hy⟩
      · simp only [DiskRun.final, List.getLastD_eq_getLast?]
        simp only [List.getLast?_append, List.getLast?_singleton, Option.some_or, Option.getD_some]
        rw [insert_other hq, insert_other hq]
      · simp only [DiskRun.final, List.getLastD_eq_getLast?]
        simp only [List.getLast?_append, List.getLast?_singleton, Option.some_or, Option.getD_some]
        exact SMap.get?_insert_self ..
  · cases e with
    | finished rs' p => exact absurd rfl (he rs' p)
    | _ => simp [Plan.run, Stop.finished] at h

/-- C68. If the output file cannot be written, the program says so, names both files, and ends with status 255. (Then there was something to write, and the operating
system refused. If it refused to create the file, the old file is still there.) -/
theorem C68_not_written {o : Options} {c : Commands} {path : Str} {l : Luck} {d : Disk} {out : Str} (h : (processOn o c path l d).last = .notWritten out) :
    out = outFile c path ∧ (∃ doc', Edited c path d doc') ∧ (l.created = false ∨ l.written = false ∨ l.synced = false) ∧
    (l.created = false → (processOn o c path l d).states = [d]) ∧ (processOn o c path l d).last.status = 255 ∧
    ∀ m, (processOn o c path l d).last.output o m path =
      [.text (lit% "Error \"" ++ path ++ lit% "\": Unable to write to file: \"" ++ out ++ lit% "\". Reason: "), .os, .text (lit% "\n")] := by
  refine ⟨?_, ?_, ?_, ?_, by rw [h]; rfl, fun m => by rw [h]; simp [Stop.output, errorIn]⟩
  all_goals
    obtain ⟨P, h1, _, _, h4⟩ := run_plan o c path l d
    rw [h1] at h
    try rw [h1]
  · cases P <;> simp only [Plan.run, reduceCtorEq] at h
    · split at h <;> simp at h; exact h.symm
    · split at h
      · split at h
        · split at h <;> simp at h; exact h.symm
        · simp at h; exact h.symm
      · simp at h; exact h.symm
  · rcases h4 with ⟨text, doc, hf, hp, hs⟩ | ⟨e, rfl, he⟩
    · obtain ⟨_, hd⟩ := getFile_some hf
      cases P with
      | calm e => simp [Plan.run] at h
      | broken e =>
        obtain ⟨_, fields, doc', k1, k2, k3⟩ := hs
        exact ⟨doc', text, doc, fields, hd, hp, k1, k2, k3⟩
      | save s e =>
        obtain ⟨fields, doc', k1, k2, k3, k4⟩ := hs
        exact ⟨doc', text, doc, fields, hd, hp, k1, k2, k3⟩
    · simp [Plan.run] at h
  · cases hc : l.created <;> cases hw : l.written <;> cases hy : l.synced <;> simp
    cases P <;> simp [Plan.run, hc, hw, hy] at h
  · intro hc
    cases P <;> simp [Plan.run, hc] at h ⊢

/-- C68. A file that cannot be read, or whose bytes are not a text, is reported and left as it is. -/
theorem C68_not_text {o : Options} {c : Commands} {path : Str} {l : Luck} {d : Disk} (h : l.opened = false ∨ ∀ s, d.get? path ≠ some (encode s)) :
    processOn o c path l d = ⟨[d], .ended (.exited .noFile)⟩ := by
  obtain ⟨P, h1, _, h3, _⟩ := run_plan o c path l d
  rw [h1, h3]
  · rfl
  · cases hf : getFile l d path with
    | none => rfl
    | some t =>
      obtain ⟨h4, h5⟩ := getFile_some hf
      rcases h with h | h
      · rw [h] at h4; simp at h4
      · exact absurd h5 (h t)

/-- C68. If the operating system does all it is asked for, what happens is what the other theorems about the tool say (C36, C41, C49 to C54, C60, C61), with texts as
UTF-8. -/
theorem C68_good_luck (o : Options) (c : Commands) (path : Str) {l : Luck} (h : l.good) (fs : FS) :
    (processOn o c path l (onDisk fs)).last = .ended (processDocument o c path fs).last ∧
    (processOn o c path l (onDisk fs)).final (onDisk fs) = onDisk ((processDocument o c path fs).final fs) :=
  processOn_good h fs

/-- C68. The same for several files. -/
theorem C68_good_luck_all (o : Options) (c : Commands) (names : List Str) (luck : Nat → Luck) (h : ∀ n, (luck n).good) (fs : FS) :
    (batchOn o c (names.map some) luck (onDisk fs)).ends = (batch o c names fs).ends.map (fun x => (x.1, .ended x.2)) ∧
    (batchOn o c (names.map some) luck (onDisk fs)).noNames = false ∧
    (batchOn o c (names.map some) luck (onDisk fs)).final (onDisk fs) = onDisk ((batch o c names fs).final fs) :=
  batchOn_good names luck fs h

/-- C68. Several different files, without an output file: at every moment each of them is as it is at some moment of the work on it alone, and all others are as
before, whatever goes wrong. -/
theorem C68_several {o : Options} {c : Commands} (hout : c.outputFile = none) {names : List (Option Str)} (hd : names.Nodup) (luck : Nat → Luck) (d : Disk) :
    ∀ d' ∈ (batchOn o c names luck d).states,
      (∀ n p, names[n]? = some (some p) → ∃ d2 ∈ (processOn o c p (luck n) d).states, d'.get? p = d2.get? p) ∧
      ∀ q, some q ∉ names → d'.get? q = d.get? q := by
  intro d' h
  refine ⟨batchOn_alone o c hout names luck d hd d' h, fun q hq => batchOn_other o c names luck d (fun p hp e => hq ?_) d' h⟩
  rw [outFile, hout] at e
  exact e ▸ hp

/-- A disk that is full after some bytes. -/
def fullAfter (n : Nat) : Luck := ⟨true, true, [n], false, false⟩

/-- All goes well, the text is written in two portions. -/
def lucky : Luck := ⟨true, true, [3], true, true⟩

example : lucky.good := by simp [Luck.good, lucky]

example : (processOn .default (setOne (lit% "a") (lit% "5") (lit% "int")) (lit% "f") lucky (onDisk [(lit% "f", lit% "a = 1 # ü")])).states.map
      (fun d => (d.get? (lit% "f")).bind decode) =
    [some (lit% "a = 1 # ü"), some [], some (lit% "a ="), some (lit% "a = 5 # ü")] := by decide +kernel

/-- C68, what is not promised: when the disk is full, the old contents are lost, and what is left can be a document that is read without an error, but in which
values are missing. -/
theorem C68_truncated :
    let r := processOn .default (setOne (lit% "a") (lit% "5") (lit% "int")) (lit% "f") (fullAfter 6) (onDisk [(lit% "f", lit% "a = 1\nb = 2\n")])
    (r.final []).get? (lit% "f") = some (encode (lit% "a = 5\n")) ∧ r.last.status = 255 ∧
    ∃ p, Parser.new.parse (lit% "a = 5\n") = .ok (p, .full) ∧ p.getValue (lit% "b") = .ok none := by
  refine ⟨by decide +kernel, by decide +kernel, Out.wit (by decide +kernel)⟩

/-- C68. Or it is no longer a text: the next run cannot read the file. -/
theorem C68_half_a_character :
    let r := processOn .default (setOne (lit% "a") (lit% "5") (lit% "int")) (lit% "f") (fullAfter 9) (onDisk [(lit% "f", lit% "a = 1 # ü")])
    (((r.final []).get? (lit% "f")).map fun b => b.length) = some 9 ∧ r.last.status = 255 ∧
    (processOn .default (setOne (lit% "a") (lit% "5") (lit% "int")) (lit% "f") lucky (r.final [])).last.status = 255 := by
  decide +kernel

/-- C68. If the file cannot be created, nothing is lost. -/
example : let r := processOn .default (setOne (lit% "a") (lit% "5") (lit% "int")) (lit% "f") ⟨true, false, [], false, false⟩ (onDisk [(lit% "f", lit% "a = 1")])
    r.states = [onDisk [(lit% "f", lit% "a = 1")]] ∧ r.last.status = 255 := by
  decide +kernel

/-! ## C69 -/

/-- C69. The files that are worked on are named by the lines of the standard input, in order, without the whitespace around. The last line needs no newline. -/
theorem C69_names (L : List (Str × Str × Str)) (h : ∀ x ∈ L, Around x.1 ∧ PlainName x.2.1 ∧ Around x.2.2) :
    namesOn (encode (L.flatMap fun x => x.1 ++ x.2.1 ++ x.2.2 ++ lit% "\n")) = L.map (fun x => some x.2.1) ∧
    ∀ a n b, Around a → PlainName n → Around b → a ++ n ++ b ≠ [] →
      namesOn (encode ((L.flatMap fun x => x.1 ++ x.2.1 ++ x.2.2 ++ lit% "\n") ++ a ++ n ++ b)) = L.map (fun x => some x.2.1) ++ [some n] := by
  constructor
  · have := names_lines L h []
    simpa [namesOn, readLines] using this
  · intro a n b ha hn hb hne
    rw [show (L.flatMap fun x => x.1 ++ x.2.1 ++ x.2.2 ++ lit% "\n") ++ a ++ n ++ b = (L.flatMap fun x => x.1 ++ x.2.1 ++ x.2.2 ++ lit% "\n") ++ (a ++ n ++ b) by simp,
      encode_append, names_lines L h, names_last ha hn hb hne]

/-- C69. So, without an input file, and if all goes well, the program does what `main` does with the names on the lines (C53, C54, C60, C61). -/
theorem C69_main (csv : Str → Option (List Str)) (m : Matches) (hm : m.get? (lit% "input-file") = none) (L : List (Str × Str × Str))
    (h : ∀ x ∈ L, Around x.1 ∧ PlainName x.2.1 ∧ Around x.2.2) (luck : Nat → Luck) (hl : ∀ n, (luck n).good) (fs : FS) :
    let b := mainOn csv m (encode (L.flatMap fun x => x.1 ++ x.2.1 ++ x.2.2 ++ lit% "\n")) luck (onDisk fs)
    let a := main csv m (L.map fun x => x.2.1) fs
    b.final (onDisk fs) = onDisk (a.final fs) ∧ b.status = a.status ∧ b.output (Options.new csv m) m = a.output (Options.new csv m) m := by
  intro b a
  have key : b.ends = a.ends.map (fun x => (x.1, .ended x.2)) ∧ b.noNames = false ∧ b.final (onDisk fs) = onDisk (a.final fs) := by
    by_cases hh : m.contains (lit% "help") = true
    · have e1 : b = ⟨[onDisk fs], [], false⟩ := by simp only [b, mainOn, hh, if_true]
      have e2 : a = ⟨[fs], []⟩ := by simp only [a, main, hh, if_true]
      rw [e1, e2]
      exact ⟨rfl, rfl, rfl⟩
    · have e1 : b = batchOn (Options.new csv m) (Commands.new csv m) ((L.map fun x => x.2.1).map some) luck (onDisk fs) := by
        simp only [b, mainOn, if_neg hh, hm, (C69_names L h).1]
        rw [List.map_map]; rfl
      have e2 : a = batch (Options.new csv m) (Commands.new csv m) (L.map fun x => x.2.1) fs := by simp only [a, main, if_neg hh, hm]
      rw [e1, e2]
      exact batchOn_good _ luck fs hl
  obtain ⟨h1, h2, h3⟩ := key
  refine ⟨h3, ?_, ?_⟩
  · rw [DiskBatch.status, h1, h2, Batch.status, List.getLast?_map]
    cases a.ends.getLast? with
    | none => rfl
    | some x => rfl
  · rw [DiskBatch.output, h1, h2, Batch.output, List.flatMap_map]
    simp only [Bool.false_eq_true, if_false, List.append_nil]
    congr 1
    funext x
    cases x.2 <;> rfl

/-- C69. With an input file the standard input is not looked at: there is one document, and when its end is reached the program ends (with `--help` there is
none). -/
theorem C69_input_file (csv : Str → Option (List Str)) (m : Matches) {f : Str} (hm : m.get? (lit% "input-file") = some f) (stdin : List UInt8) (luck : Nat → Luck) (d : Disk) :
    let b := mainOn csv m stdin luck d
    let r := processOn (Options.new csv m) (Commands.new csv m) f (luck 0) d
    (m.contains (lit% "help") = true → b.states = [d] ∧ b.ends = []) ∧
    (m.contains (lit% "help") = false → (∀ d', d' ∈ b.states ↔ d' ∈ r.states) ∧ b.final d = r.final d ∧ b.ends = [(f, r.last)] ∧ b.status = r.last.status ∧
      b.output (Options.new csv m) m = r.last.output (Options.new csv m) m f) := by
  intro b r
  refine ⟨fun hh => ?_, fun hh => ?_⟩
  · have e1 : b = ⟨[d], [], false⟩ := by simp only [b, mainOn, hh, if_true]
    rw [e1]; exact ⟨rfl, rfl⟩
  · have e1 : b = batchOn (Options.new csv m) (Commands.new csv m) [some f] luck d := by simp only [b, mainOn, hh, Bool.false_eq_true, if_false, hm]
    have hne : r.states ≠ [] := diskStates_ne_nil _ _ _ _ _
    have hlast : r.final d ∈ r.states := by
      rw [DiskRun.final, List.getLastD_eq_getLast?]
      cases hg : r.states.getLast? with
      | none => exact absurd (List.getLast?_eq_none_iff.mp hg) hne
      | some x => exact List.mem_of_getLast? hg
    rcases batchOn_cases (Options.new csv m) (Commands.new csv m) f [] luck d with ⟨_, e⟩ | ⟨_, e⟩
    · rw [e1, e]
      simp only [batchOn]
      refine ⟨fun d' => ?_, ?_, rfl, rfl, ?_⟩
      · simp only [List.mem_append, List.mem_singleton]
        exact ⟨fun h => h.elim id (fun h => h ▸ hlast), .inl⟩
      · simp [DiskBatch.final, List.getLastD_eq_getLast?, r]
      · simp [DiskBatch.output, r]
    · rw [e1, e]
      refine ⟨fun d' => Iff.rfl, rfl, rfl, rfl, ?_⟩
      simp [DiskBatch.output, r]

example :
    let b := mainOn (fun s => some (s.splitOn ',')) [(lit% "set-value", lit% "a,5,int"), (lit% "input-file", lit% "f")] (encode (lit% "g\n")) (fun _ => lucky)
      (onDisk [(lit% "f", lit% "a = 1"), (lit% "g", lit% "a = 1")])
    (b.final []).get? (lit% "f") = some (encode (lit% "a = 5")) ∧ (b.final []).get? (lit% "g") = some (encode (lit% "a = 1")) ∧ b.status = 0 := by
  decide +kernel

/-- C69. A line with nothing but whitespace is a name too: there is no such file, and the program ends; the files named after it are not worked on. -/
theorem C69_empty_line {o : Options} {c : Commands} {ps : List (Option Str)} {luck : Nat → Luck} {d : Disk} (h : d.get? [] = none) :
    batchOn o c (some [] :: ps) luck d = ⟨[d], [([], .ended (.exited .noFile))], false⟩ ∧
    (batchOn o c (some [] :: ps) luck d).status = 255 := by
  have e : processOn o c [] (luck 0) d = ⟨[d], .ended (.exited .noFile)⟩ := C68_not_text (.inr fun s => by rw [h]; simp)
  have : batchOn o c (some [] :: ps) luck d = ⟨[d], [([], .ended (.exited .noFile))], false⟩ := by rw [batchOn]; simp only [e]
  exact ⟨this, by rw [this]; rfl⟩

/-- C69. A line whose bytes are not a text is no name; if it is reached, the program ends with status 255 after all files before it were worked on to the end. -/
theorem C69_not_text (L : List (Str × Str × Str)) (h : ∀ x ∈ L, Around x.1 ∧ PlainName x.2.1 ∧ Around x.2.2) {bad : List UInt8} (h10 : 10 ∉ bad)
    (hb : ∀ s, bad ++ [10] ≠ encode s) (rest : List UInt8) :
    namesOn (encode (L.flatMap fun x => x.1 ++ x.2.1 ++ x.2.2 ++ lit% "\n") ++ (bad ++ [10] ++ rest)) = L.map (fun x => some x.2.1) ++ none :: namesOn rest ∧
    ∀ o c ps luck d, let b := batchOn o c (L.map (fun x => some x.2.1) ++ none :: ps) luck d
      (∀ x ∈ b.ends, x.2.finished.isSome = true) → b.ends.map (fun x => some x.1) = L.map (fun x => some x.2.1) ∧ b.status = 255 ∧
      ∀ m, b.output o m = b.ends.flatMap (fun x => x.2.output o m x.1) ++ [.text (lit% "Unable to read input file names from stdin: "), .os, .text (lit% "\n")] := by
  constructor
  · rw [names_lines L h, namesOn, readLines_line h10, List.map_cons]
    have : decode (bad ++ [10]) = none := by
      cases hd : decode (bad ++ [10]) with
      | none => rfl
      | some s => exact absurd (encode_of_decode hd) (hb s)
    rw [this]; rfl
  · intro o c ps
    clear hb h10 h
    suffices hs : ∀ luck d, let b := batchOn o c (L.map (fun x => some x.2.1) ++ none :: ps) luck d
        (∀ x ∈ b.ends, x.2.finished.isSome = true) → b.ends.map (fun x => some x.1) = L.map (fun x => some x.2.1) ∧ b.noNames = true by
      intro luck d b hf
      obtain ⟨h1, h2⟩ := hs luck d hf
      exact ⟨h1, by rw [DiskBatch.status, if_pos h2], fun m => by rw [DiskBatch.output, if_pos h2]⟩
    induction L with
    | nil => intro luck d b _; exact ⟨rfl, rfl⟩
    | cons x L ih =>
      intro luck d b hf
      rcases batchOn_cases o c x.2.1 (L.map (fun x => some x.2.1) ++ none :: ps) luck d with ⟨_, e⟩ | ⟨h1, e⟩
      · have e' : b = _ := e
        rw [e'] at hf ⊢
        obtain ⟨h2, h3⟩ := ih (fun n => luck (n + 1)) ((processOn o c x.2.1 (luck 0) d).final d) (fun y hy => hf y (List.mem_cons_of_mem _ hy))
        exact ⟨by simp only [List.map_cons, h2], h3⟩
      · have e' : b = _ := e
        rw [e'] at hf
        have := hf _ (List.mem_singleton.mpr rfl)
        exfalso
        cases hl : (processOn o c x.2.1 (luck 0) d).last with
        | notWritten out => rw [hl] at this; simp [Stop.finished] at this
        | ended e =>
          rw [hl] at this
          cases e with
          | finished rs q => exact h1 rs q hl
          | _ => simp [Stop.finished] at this

example : (namesOn (encode (lit% "f\n") ++ [255, 10] ++ encode (lit% "g\n"))) = [some (lit% "f"), none, some (lit% "g")] := by decide +kernel

/-- C69. The exit status, whatever the operating system does: 0 exactly if all files on the lines were worked on to the end; 255 if the last one reached could not be
read, was not in order, or could not be written, or if a line is not a text; 101 for a panic. -/
theorem C69_status (o : Options) (c : Commands) : ∀ (names : List (Option Str)) (luck : Nat → Luck) (d : Disk),
    let b := batchOn o c names luck d
    (b.status = 0 ↔ b.ends.map (fun x => some x.1) = names ∧ ∀ x ∈ b.ends, x.2.finished.isSome = true) ∧
    (b.status = 255 ↔ b.noNames = true ∨ ∃ x ∈ b.ends, (∃ why, x.2 = .ended (.exited why)) ∨ ∃ out, x.2 = .notWritten out) ∧
    (b.status = 0 ∨ b.status = 255 ∨ b.status = 101)
  | [], _, _ => by simp [batchOn, DiskBatch.status]
  | none :: ps, _, _ => by simp [batchOn, DiskBatch.status]
  | some p :: ps, luck, d => by
    intro b
    rcases batchOn_cases o c p ps luck d with ⟨⟨rs, q, h1⟩, e⟩ | ⟨h1, e⟩
    · have ih := C69_status o c ps (fun n => luck (n + 1)) ((processOn o c p (luck 0) d).final d)
      have e' : b = _ := e
      generalize batchOn o c ps (fun n => luck (n + 1)) ((processOn o c p (luck 0) d).final d) = b' at ih e'
      have hs : b.status = b'.status := by
        rw [e', DiskBatch.status, DiskBatch.status, h1]
        cases b'.noNames with
        | true => rfl
        | false =>
          simp only [Bool.false_eq_true, if_false]
          cases hb : b'.ends with
          | nil => rfl
          | cons x xs => rw [List.getLast?_cons_cons]
      dsimp only at ih
      rw [hs, ih.1, ih.2.1, e', h1]
      refine ⟨?_, ?_, by have := ih.2.2; rwa [ih.1, ih.2.1] at this⟩
      · simp [Stop.finished]
      · simp
    · have e' : b = _ := e
      cases hl : (processOn o c p (luck 0) d).last with
      | notWritten out => rw [e', hl]; simp [DiskBatch.status, Stop.status, Stop.finished]
      | ended en => cases en with
        | finished rs q => exact absurd hl (h1 rs q)
        | _ => rw [e', hl]; simp [DiskBatch.status, Stop.status, End.status, Stop.finished]

/-- The first file is written, the second cannot be created. -/
example :
    let b := mainOn (fun s => some (s.splitOn ',')) [(lit% "set-value", lit% "a,5,int")] (encode (lit% "f\ng\n"))
      (fun n => if n = 0 then lucky else { lucky with created := false }) (onDisk [(lit% "f", lit% "a = 1"), (lit% "g", lit% "a = 1")])
    (b.final []).get? (lit% "f") = some (encode (lit% "a = 5")) ∧ (b.final []).get? (lit% "g") = some (encode (lit% "a = 1")) ∧ b.status = 255 := by
  decide +kernel

/-- The hypotheses of `C69_names` are met: three lines, the first with blanks around the name, the second with a carriage return, the third empty. -/
example : (∀ x ∈ [(lit% " ", lit% "my file", lit% "\t"), ([], lit% "g", lit% "\r"), ([], [], [])], Around x.1 ∧ PlainName x.2.1 ∧ Around x.2.2) ∧
    namesOn (encode (lit% " my file\t\ng\r\n\n")) = [some (lit% "my file"), some (lit% "g"), some []] := by
  refine ⟨?_, by decide +kernel⟩
  have around : ∀ w : Str, (w.all fun c => whiteSpace.contains c && c ≠ '\n') = true → Around w := fun w h c hc => by simpa using List.all_eq_true.mp h c hc
  have plain : ∀ n : Str, '\n' ∉ n → (n.head?.all fun c => !whiteSpace.contains c) = true → (n.getLast?.all fun c => !whiteSpace.contains c) = true → PlainName n :=
    fun n h1 h2 h3 => ⟨h1, fun c x e => by
      rcases e with rfl | rfl
      · simpa using h2
      · simpa using h3⟩
  intro x hx
  simp only [List.mem_cons, List.not_mem_nil, or_false] at hx
  rcases hx with rfl | rfl | rfl
  · exact ⟨around _ (by decide), plain _ (by decide) (by decide) (by decide), around _ (by decide)⟩
  · exact ⟨around _ (by decide), plain _ (by decide) (by decide) (by decide), around _ (by decide)⟩
  · exact ⟨around _ (by decide), plain _ (by decide) (by decide) (by decide), around _ (by decide)⟩

/-- C69, an empty line between two names: the first file is changed, the second is not, the status is 255. -/
example :
    let b := mainOn (fun s => some (s.splitOn ',')) [(lit% "set-value", lit% "a,5,int")] (encode (lit% "f\n\ng\n")) (fun _ => lucky)
      (onDisk [(lit% "f", lit% "a = 1"), (lit% "g", lit% "a = 1")])
    (b.final []).get? (lit% "f") = some (encode (lit% "a = 5")) ∧ (b.final []).get? (lit% "g") = some (encode (lit% "a = 1")) ∧ b.status = 255 := by
  decide +kernel

end Tomllib
