import Verif.Lemmas.Batch
import Verif.Props.Says
import Verif.Props.Field
/-!
# Properties C53 and C54: tomlkit on several files, and what it prints
-/

namespace Tomllib

open Cli

/-! ## C53 -/

/-- C53. The files are worked on in the order of their names. The first one on which work does not end normally is the last one. -/
theorem C53_in_order (o : Options) (c : Commands) (names : List Str) (fs : FS) :
    let b := batch o c names fs
    b.ends.map Prod.fst <+: names ∧ (∀ x ∈ b.ends.dropLast, ∃ rs d, x.2 = .finished rs d) ∧
    (b.ends.map Prod.fst = names ∨ ∃ x, b.ends.getLast? = some x ∧ ∀ rs d, x.2 ≠ .finished rs d) := by
  refine ⟨batch_ends_sub o c names fs, ?_⟩
  induction names generalizing fs with
  | nil => simp [batch]
  | cons p ps ih =>
    rcases batch_cases o c p ps fs with ⟨hf, hb⟩ | ⟨hf, hb⟩
    · rw [hb]
      obtain ⟨h1, h2⟩ := ih ((processDocument o c p fs).final fs)
      constructor
      · intro x hx
        cases he : (batch o c ps ((processDocument o c p fs).final fs)).ends with
        | nil => simp [he] at hx
        | cons y ys =>
          rw [he] at hx h1
          simp only [List.dropLast_cons_cons, List.mem_cons] at hx
          rcases hx with rfl | hx
          · exact hf
          · exact h1 x hx
      · rcases h2 with h2 | ⟨x, h2, h3⟩
        · exact .inl (by simp [h2])
        · refine .inr ⟨x, ?_, h3⟩
          simp [List.getLast?_cons, h2]
    · rw [hb]
      exact ⟨by simp, .inr ⟨_, rfl, hf⟩⟩

/-- C53. If the names are different and no output file is named, then work on each file that is reached ends as it would end if that file were the only one, and
leaves that file as it would be left then. -/
theorem C53_as_if_alone {o : Options} {c : Commands} {names : List Str} {fs : FS} (hd : names.Nodup) (hout : c.outputFile = none) {p : Str} {e : End}
    (h : (p, e) ∈ (batch o c names fs).ends) :
    e = (processDocument o c p fs).last ∧ ((batch o c names fs).final fs).get? p = ((processDocument o c p fs).final fs).get? p :=
  (batch_alone o c hout names fs hd).1 (p, e) h

/-- C53. The same at every moment, if the program is stopped: each file is as it is at some moment of work on it alone. -/
theorem C53_every_moment {o : Options} {c : Commands} {names : List Str} {fs : FS} (hd : names.Nodup) (hout : c.outputFile = none) {fs' : FS}
    (h : fs' ∈ (batch o c names fs).states) {p : Str} (hp : p ∈ names) : fs'.get? p ∈ history (processDocument o c p fs) p :=
  (batch_alone o c hout names fs hd).2 fs' h p hp

/-- C53. Files that are not reached, and all files that are not named, stay as they are at every moment; with an output file, only that one is touched. -/
theorem C53_others_untouched {o : Options} {c : Commands} {names : List Str} {fs : FS} {q : Str}
    (hq : ∀ p e, (p, e) ∈ (batch o c names fs).ends → q ≠ c.outputFile.getD p) {fs' : FS} (h : fs' ∈ (batch o c names fs).states) : fs'.get? q = fs.get? q :=
  batch_other o c names fs (fun x hx => hq x.1 x.2 hx) fs' h

/-- C53. It is not all or nothing: when the second of three files is not in order, the first has been changed already, and the third is left alone. -/
theorem C53_not_all_or_nothing :
    let fs : FS := [(lit% "f", lit% "a = 1"), (lit% "g", lit% "a = "), (lit% "h", lit% "a = 1")]
    let b := batch .default (setOne (lit% "a") (lit% "2") (lit% "int")) [lit% "f", lit% "g", lit% "h"] fs
    [lit% "f", lit% "g", lit% "h"].map (b.final fs).get? = [some (lit% "a = 2"), some (lit% "a = "), some (lit% "a = 1")] ∧ b.status = 255 := by
  decide +kernel

/-- C53. With an output file, the results of all files go to that one file: only the last is kept. -/
theorem C53_output_overwritten :
    let fs : FS := [(lit% "f", lit% "a = 1"), (lit% "g", lit% "a = 7 # g")]
    let b := batch .default { setOne (lit% "a") (lit% "2") (lit% "int") with outputFile := some (lit% "o") } [lit% "f", lit% "g"] fs
    [lit% "f", lit% "g", lit% "o"].map (b.final fs).get? = [some (lit% "a = 1"), some (lit% "a = 7 # g"), some (lit% "a = 2 # g")] ∧ b.status = 0 := by
  decide +kernel

example : ∃ e, (lit% "g", e) ∈ (batch .default (setOne (lit% "a") (lit% "2") (lit% "int")) [lit% "f", lit% "g"]
    [(lit% "f", lit% "a = 1"), (lit% "g", lit% "a = 7 # g")]).ends := by
  have : (batch .default (setOne (lit% "a") (lit% "2") (lit% "int")) [lit% "f", lit% "g"]
    [(lit% "f", lit% "a = 1"), (lit% "g", lit% "a = 7 # g")]).ends.map Prod.fst = [lit% "f", lit% "g"] := by decide +kernel
  have h : lit% "g" ∈ (batch .default (setOne (lit% "a") (lit% "2") (lit% "int")) [lit% "f", lit% "g"]
    [(lit% "f", lit% "a = 1"), (lit% "g", lit% "a = 7 # g")]).ends.map Prod.fst := by rw [this]; simp
  obtain ⟨⟨p, e⟩, h, rfl⟩ := List.mem_map.mp h
  exact ⟨e, h⟩

/-! ## C54 -/

/-- C54. The results of the commands are printed with the separator between them, then a line break, then the document if that was asked for. -/
theorem C54_printed {o : Options} (hq : o.quiet = false) (m : Matches) (path : Str) {texts : List Str} (hne : texts ≠ []) (d : Option Str) :
    textOf (printed o m path (texts.map .ok) d) =
      some (o.separator.intercalate texts ++ lit% "\n" ++ (match d with | some s => s ++ lit% "\n" | none => [])) := by
  have := fun z w h => textOf_printLoop hq m path (commandNames.filter fun x => m.contains x) hne (z := z) (w := w) h
  cases d with
  | none => simpa [printed] using this [] [] rfl
  | some s => simpa [printed] using this [.text s, .text (lit% "\n")] (s ++ lit% "\n") (by simp [textOf])

/-- C54. A command that fails is the last; the results of the commands before it are printed all the same. -/
theorem C54_printed_failure {o : Options} (hq : o.quiet = false) (m : Matches) (path : Str) (texts : List Str) (e : CmdErr) (d : Option Str) :
    printed o m path (texts.map .ok ++ [.error e]) d =
      texts.flatMap (fun t => [.text t, .text o.separator]) ++
      [.text (lit% "Error \"" ++ path ++ lit% "\": ")] ++ e.message m ((commandNames.filter fun x => m.contains x).getD texts.length []) ++ [.text (lit% "\n")] ++
      (match d with | some s => [.text s, .text (lit% "\n")] | none => []) := by
  unfold printed
  congr 1
  generalize commandNames.filter _ = cs
  induction texts generalizing cs with
  | nil => cases cs <;> simp [printLoop, errorIn]
  | cons t ts ih =>
    rw [List.map_cons, List.cons_append, printLoop, ih]
    cases cs <;> simp [hq]

/-- C54. `quiet` makes no difference. -/
theorem C54_quiet_ignored (csv : Str → Option (List Str)) (m : Matches) (x : Str) (stdin : List Str) (fs : FS) :
    main csv (m.insert (lit% "quiet") x) stdin fs = main csv m stdin fs ∧ Options.new csv (m.insert (lit% "quiet") x) = Options.new csv m := by
  have h : ∀ k : Str, lit% "quiet" ≠ k → (m.insert (lit% "quiet") x).get? k = m.get? k := fun k hk => by rw [SMap.get?_insert, if_neg hk]
  have ho : Options.new csv (m.insert (lit% "quiet") x) = Options.new csv m := by
    simp [Options.new, SMap.contains, h]
  have hc : Commands.new csv (m.insert (lit% "quiet") x) = Commands.new csv m := by
    simp [Commands.new, h]
  refine ⟨?_, ho⟩
  unfold main
  rw [ho, hc, SMap.contains, SMap.contains, h _ (by decide), h _ (by decide)]

/-- C54. The exit status is 0 exactly if work on every file ended normally. -/
theorem C54_status (o : Options) (c : Commands) (names : List Str) (fs : FS) :
    (batch o c names fs).status = 0 ↔ ∀ x ∈ (batch o c names fs).ends, ∃ rs d, x.2 = .finished rs d := by
  have hs : ∀ e : End, e.status = 0 ↔ ∃ rs d, e = .finished rs d := by intro e; cases e <;> simp [End.status]
  obtain ⟨_, h2, _⟩ := C53_in_order o c names fs
  unfold Batch.status
  cases hl : (batch o c names fs).ends.getLast? with
  | none =>
    rw [List.getLast?_eq_none_iff] at hl
    simp [hl]
  | some y =>
    obtain ⟨p, e⟩ := y
    dsimp only
    rw [hs]
    constructor
    · intro h x hx
      obtain ⟨ys, hys⟩ := List.getLast?_eq_some_iff.mp hl
      rw [hys] at hx h2
      simp only [List.dropLast_concat, List.mem_append, List.mem_singleton] at hx h2
      rcases hx with hx | hx
      · exact h2 x hx
      · rw [hx]; exact h
    · intro h
      exact h _ (List.mem_of_getLast? hl)

/-- C54. A command that fails does not show in the exit status. -/
theorem C54_failure_exits_zero :
    let csv : Str → Option (List Str) := fun s => some [s]
    let fs : FS := [(lit% "f", lit% "a = 1")]
    let m : Matches := [(lit% "input-file", lit% "f"), (lit% "get-value", lit% "b")]
    let b := main csv m [] fs
    b.output (Options.new csv m) m = [.text (lit% "Error \"f\": "), .text (lit% "Key \"b\" not found."), .text (lit% "\n")] ∧ b.status = 0 := by decide +kernel

/-- C54. From the command line to the output: `--input-file=path --get-value=arg` prints the values of the keys in `arg` with the separator between them (the one
given by `--separator`, a comma and a blank by default) and a line break, touches no file, and the exit status is 0. -/
theorem C54_get_value {csv : Str → Option (List Str)} {m : Matches} {stdin ks : List Str} {fs : FS} {path arg text : Str} {doc : Parser} {f : Str → Str}
    (h0 : ∀ k ∈ [lit% "help", lit% "has-value", lit% "get-children", lit% "has-children", lit% "set-value", lit% "print-doc"], m.get? k = none)
    (hi : m.get? (lit% "input-file") = some path) (hg : m.get? (lit% "get-value") = some arg) (hk : csv arg = some ks) (hne : ks ≠ [])
    (ht : fs.get? path = some text) (hp : Parser.new.parse text = .ok (doc, .full)) (hv : ∀ k ∈ ks, SaysValue (Options.new csv m) doc k (f k)) :
    let b := main csv m stdin fs
    textOf (b.output (Options.new csv m) m) = some (((m.get? (lit% "separator")).getD (lit% ", ")).intercalate (ks.map f) ++ lit% "\n") ∧
    (∀ fs' ∈ b.states, fs' = fs) ∧ b.status = 0 := by
  intro b
  simp only [List.mem_cons, List.not_mem_nil, or_false, forall_eq_or_imp, forall_eq] at h0
  obtain ⟨h1, h2, h3, h4, h5, h6⟩ := h0
  have hr : reading (Options.new csv m) (Commands.new csv m) doc =
      [.ok (.ok ((Options.new csv m).separator.intercalate (ks.map f)))] := by
    simp only [reading, Commands.new, hg, h2, h3, h4, Option.map_some, Option.map_none, Option.toList_some, Option.toList_none, List.map_cons, List.map_nil,
      List.append_nil, hk]
    rw [C49_get_value hne hv]
  have hpd : processDocument (Options.new csv m) (Commands.new csv m) path fs =
      ⟨[fs], .finished [.ok ((Options.new csv m).separator.intercalate (ks.map f))] none⟩ := by
    rw [C49_order (by simp [Commands.new, h5]) ht hp (by rw [hr]; simp), hr]
    have : (Options.new csv m).printDoc = false := by simp [Options.new, SMap.contains, h6]
    simp [collect, Out.bind, lastOf, this]
  have hb : b = ⟨[fs, fs], [(path, .finished [.ok ((Options.new csv m).separator.intercalate (ks.map f))] none)]⟩ := by
    show main csv m stdin fs = _
    unfold main
    rw [SMap.contains, h1, hi]
    simp [batch, hpd]
  rw [hb]
  refine ⟨?_, by simp, rfl⟩
  have := C54_printed (o := Options.new csv m) rfl m path (texts := [(Options.new csv m).separator.intercalate (ks.map f)]) (by simp) none
  simpa [Batch.output, Options.new] using this

/-- C54. The same for `--set-value=arg`: the document is printed to the file, and `Success` for each assignment. -/
theorem C54_set_value {csv : Str → Option (List Str)} {m : Matches} {stdin fields : List Str} {fs : FS} {path arg text s : Str} {doc doc' : Parser}
    (h0 : ∀ k ∈ [lit% "help", lit% "get-value", lit% "has-value", lit% "get-children", lit% "has-children", lit% "print-doc"], m.get? k = none)
    (hi : m.get? (lit% "input-file") = some path) (hg : m.get? (lit% "set-value") = some arg) (hk : csv arg = some fields) (hne : fields ≠ [])
    (ht : fs.get? path = some text) (hp : Parser.new.parse text = .ok (doc, .full)) (ha : Applied fields doc doc') (hs : doc'.display = .ok s) :
    let b := main csv m stdin fs
    let out := (m.get? (lit% "output-file")).getD path
    textOf (b.output (Options.new csv m) m) =
      some (((m.get? (lit% "separator")).getD (lit% ", ")).intercalate (List.replicate (fields.length / 3) (lit% "Success")) ++ lit% "\n") ∧
    (b.final fs).get? out = some s ∧ (∀ q, q ≠ out → (b.final fs).get? q = fs.get? q) ∧ b.status = 0 := by
  intro b out
  simp only [List.mem_cons, List.not_mem_nil, or_false, forall_eq_or_imp, forall_eq] at h0
  obtain ⟨h1, h2, h3, h4, h5, h6⟩ := h0
  have hr : reading (Options.new csv m) (Commands.new csv m) doc = [] := by
    simp only [reading, Commands.new, h2, h3, h4, h5, Option.map_none, Option.toList_none, List.map_nil, List.append_nil]
  obtain ⟨k1, k2⟩ := C50_assigned (o := Options.new csv m) (c := Commands.new csv m) (rs := []) ht hp (by rw [hr]; rfl) (by simp)
    (by simp [Commands.new, hg, hk]) hne ha hs
  simp only [List.nil_append] at k2
  have hpr : (Options.new csv m).printDoc = false := by simp [Options.new, SMap.contains, h6]
  rw [hpr] at k2
  have hq : (Options.new csv m).quiet = false := rfl
  rw [hq] at k2
  simp only [Bool.false_eq_true, if_false] at k2
  have hb : b = ⟨(processDocument (Options.new csv m) (Commands.new csv m) path fs).states ++
      [(processDocument (Options.new csv m) (Commands.new csv m) path fs).final fs],
      [(path, .finished [.ok ((Options.new csv m).separator.intercalate (List.replicate (fields.length / 3) (lit% "Success")))] none)]⟩ := by
    show main csv m stdin fs = _
    unfold main
    rw [SMap.contains, h1, hi]
    simp [batch, k2, Run.final]
  rw [hb]
  have hfin : ∀ z, Batch.final ⟨(processDocument (Options.new csv m) (Commands.new csv m) path fs).states ++
      [(processDocument (Options.new csv m) (Commands.new csv m) path fs).final fs], z⟩ fs =
      (processDocument (Options.new csv m) (Commands.new csv m) path fs).final fs := by
    intro z; simp [Batch.final]
  rw [hfin]
  refine ⟨?_, ?_, ?_, rfl⟩
  · have := C54_printed (o := Options.new csv m) rfl m path
      (texts := [(Options.new csv m).separator.intercalate (List.replicate (fields.length / 3) (lit% "Success"))]) (by simp) none
    simpa [Batch.output, Options.new] using this
  · have := getLastD_map (·.get? out) (states_ne_nil (Options.new csv m) (Commands.new csv m) path fs) fs none
    rw [Run.final]
    refine this.trans ?_
    have k1' : (processDocument (Options.new csv m) (Commands.new csv m) path fs).states.map (·.get? out) = [fs.get? out, some [], some s] := k1
    rw [k1']; rfl
  · intro q hq
    exact states_other _ _ path hq fs _ (getLastD_mem (states_ne_nil _ _ _ _) _)

/-- The keys asked for: the argument up to a comma and after it. -/
def halves (s : Str) : Option (List Str) := some [s.takeWhile (· ≠ ','), (s.dropWhile (· ≠ ',')).drop 1]

example : let m : Matches := [(lit% "input-file", lit% "f"), (lit% "get-value", lit% "b.x,a"), (lit% "separator", lit% " | ")]
    let b := main halves m [] [(lit% "f", lit% "a = 1\n[b]\nx = 'y'")]
    textOf (b.output (Options.new halves m) m) = some (lit% "'y' | 1\n") ∧ b.status = 0 := by decide +kernel

example : let fields : Str → Option (List Str) := fun s => some [s, lit% "2", lit% "int"]
    let fs : FS := [(lit% "f", lit% "a = 1 # one")]
    let m : Matches := [(lit% "input-file", lit% "f"), (lit% "set-value", lit% "a")]
    let b := main fields m [] fs
    textOf (b.output (Options.new fields m) m) = some (lit% "Success\n") ∧ (b.final fs).get? (lit% "f") = some (lit% "a = 2 # one") ∧ b.status = 0 := by
  decide +kernel

end Tomllib
