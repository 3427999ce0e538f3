import Verif.Lemmas.ForTool
import Verif.Lemmas.ForSays
import Verif.Lemmas.Witness
/-!
# What the `set-value` command does: C50
-/

namespace Tomllib

open Cli

/-- C50. A text stands for at most one value of a type. -/
theorem C50_one_value {v typ : Str} {x y : Value} (h : Denotes v typ x) (h' : Denotes v typ y) : x = y := h.unique h'

/-- C50. Assignments that can all be made are made in the order given, each with the value that its text stands for as a value of its type, and the document is saved.
The files before, in the middle and after; the results are those of the other commands and then `Success` for each assignment. -/
theorem C50_assigned {o : Options} {c : Commands} {path text : Str} {fs : FS} {doc doc' : Parser} {fields : List Str} {rs : List CmdRes} {s : Str}
    (ht : fs.get? path = some text) (hp : Parser.new.parse text = .ok (doc, .full))
    (hread : collect (reading o c doc) = .ok rs) (hok : ∀ r ∈ rs, ∃ t, r = .ok t)
    (hset : c.setValue = some (some fields)) (hne : fields ≠ []) (ha : Applied fields doc doc') (hs : doc'.display = .ok s) :
    let out := c.outputFile.getD path
    let r := processDocument o c path fs
    history r out = [fs.get? out, some [], some s] ∧
    r.last = .finished (rs ++ [.ok (if o.quiet then [] else o.separator.intercalate (List.replicate (fields.length / 3) (lit% "Success")))])
      (if o.printDoc then some s else none) := by
  intro out r
  have hl : ∀ e, rs.getLast? ≠ some (.error e) := by
    intro e h
    obtain ⟨t, ht⟩ := hok _ (List.mem_of_getLast? h)
    cases ht
  obtain ⟨n, hn⟩ := ha.length
  have hn0 : fields.length ≠ 0 := fun h => hne (List.length_eq_zero_iff.mp h)
  have hsv : Cli.setValue o (some fields) doc = .ok (doc', .ok (messages o (fields.length / 3) false)) := by
    have := setLoop_prefix o ha [] []
    simp only [List.append_nil, List.nil_append] at this
    rw [Cli.setValue, if_neg (by omega), this]
    simp [setLoop]
  have hr : r = ⟨[fs, SMap.insert fs out [], SMap.insert (SMap.insert fs out []) out s], .finished (rs ++ [.ok (messages o (fields.length / 3) false)])
      (if o.printDoc then some s else none)⟩ := by
    refine (processDocument_reading (g := fun x => match x with
      | .ok rs => setAndFinish o c path rs doc fs
      | .panic x => ⟨[fs], .panicked x⟩
      | .fuel => ⟨[fs], .outOfFuel⟩) ht hp (fun _ => rfl) rfl (fun _ => rfl)).trans ?_
    rw [hread]
    dsimp only
    unfold setAndFinish
    rw [hset]
    split
    next h => exact absurd h (hl _)
    next h _ => simp at h
    next f hf _ =>
      simp only [Option.some.injEq] at hf
      subst hf
      simp only [step, hsv, hs]
      rw [finish, if_neg (by simp [hset])]
      by_cases hpd : o.printDoc = true
      · simp [hpd, step, hs, out]
      · rw [if_neg hpd, if_neg hpd]
  refine ⟨?_, ?_⟩
  · rw [hr]
    simp [history, SMap.get?_insert_self]
  · rw [hr]
    simp [messages]

/-- C50. If the assignments up to some point can be made, but the next text does not stand for a value of its type, or the value is refused, then the command is an
error and the files stay as they are. -/
theorem C50_not_assigned {o : Options} {c : Commands} {path text : Str} {fs : FS} {doc doc1 : Parser} {a b : List Str} {k v t : Str} {rs : List CmdRes}
    (ht : fs.get? path = some text) (hp : Parser.new.parse text = .ok (doc, .full))
    (hread : collect (reading o c doc) = .ok rs) (hok : ∀ r ∈ rs, ∃ t, r = .ok t)
    (hset : c.setValue = some (some (a ++ k :: v :: t :: b))) (ha : Applied a doc doc1)
    (hbad : (∀ x, ¬ Denotes v t x) ∨ ∃ x doc2, Denotes v t x ∧ doc1.setValue k x = .ok (doc2, false)) :
    let r := processDocument o c path fs
    r.states = [fs] ∧ (o.printDoc = false → ∃ e, r.last = .finished (rs ++ [.error e]) none) := by
  intro r
  have hl : ∀ e, rs.getLast? ≠ some (.error e) := by
    intro e h
    obtain ⟨t, ht⟩ := hok _ (List.mem_of_getLast? h)
    cases ht
  obtain ⟨doc2, e, hsv⟩ : ∃ doc2 e, Cli.setValue o (some (a ++ k :: v :: t :: b)) doc = .ok (doc2, .error e) := by
    rw [Cli.setValue]
    split
    · exact ⟨_, _, rfl⟩
    · rw [setLoop_prefix o ha, setLoop]
      rcases hbad with h | ⟨x, doc2, h1, h2⟩
      · obtain ⟨e, he⟩ := fieldValue_error h
        simp only [he, Out.bind_eq, Out.bind]
        exact ⟨_, _, rfl⟩
      · simp only [(fieldValue_iff _ _ _).mpr h1, Out.bind_eq, Out.bind, h2]
        exact ⟨_, _, rfl⟩
  have hr : r = finish o c (rs ++ [.error e]) doc2 [fs] := by
    refine (processDocument_reading (g := fun x => match x with
      | .ok rs => setAndFinish o c path rs doc fs
      | .panic x => ⟨[fs], .panicked x⟩
      | .fuel => ⟨[fs], .outOfFuel⟩) ht hp (fun _ => rfl) rfl (fun _ => rfl)).trans ?_
    rw [hread]
    dsimp only
    unfold setAndFinish
    rw [hset]
    split
    next h => exact absurd h (hl _)
    next h _ => simp at h
    next f hf _ =>
      simp only [Option.some.injEq] at hf
      subst hf
      simp only [step, hsv]
  refine ⟨by rw [hr]; exact finish_states .., fun hpd => ⟨e, ?_⟩⟩
  rw [hr, finish, if_neg (by simp [hset]), if_neg (by simp [hpd])]

/-- C50. Fields that do not come in threes are an error, and the files stay as they are. -/
theorem C50_not_threes {o : Options} {c : Commands} {path text : Str} {fs : FS} {doc : Parser} {fields : List Str} {rs : List CmdRes}
    (ht : fs.get? path = some text) (hp : Parser.new.parse text = .ok (doc, .full))
    (hread : collect (reading o c doc) = .ok rs) (hok : ∀ r ∈ rs, ∃ t, r = .ok t)
    (hset : c.setValue = some (some fields)) (h3 : fields = [] ∨ ¬ 3 ∣ fields.length) :
    let r := processDocument o c path fs
    r.states = [fs] ∧ (o.printDoc = false → ∃ e, r.last = .finished (rs ++ [.error e]) none) := by
  intro r
  have hl : ∀ e, rs.getLast? ≠ some (.error e) := by
    intro e h
    obtain ⟨t, ht⟩ := hok _ (List.mem_of_getLast? h)
    cases ht
  have hsv : Cli.setValue o (some fields) doc = .ok (doc, .error .noKeys) := by
    rw [Cli.setValue]
    rw [if_pos]
    rcases h3 with rfl | h3
    · exact .inr rfl
    · exact .inl fun h => h3 (Nat.dvd_of_mod_eq_zero h)
  have hr : r = finish o c (rs ++ [.error .noKeys]) doc [fs] := by
    refine (processDocument_reading (g := fun x => match x with
      | .ok rs => setAndFinish o c path rs doc fs
      | .panic x => ⟨[fs], .panicked x⟩
      | .fuel => ⟨[fs], .outOfFuel⟩) ht hp (fun _ => rfl) rfl (fun _ => rfl)).trans ?_
    rw [hread]
    dsimp only
    unfold setAndFinish
    rw [hset]
    split
    next h => exact absurd h (hl _)
    next h _ => simp at h
    next f hf _ =>
      simp only [Option.some.injEq] at hf
      subst hf
      simp only [step, hsv]
  refine ⟨by rw [hr]; exact finish_states .., fun hpd => ⟨.noKeys, ?_⟩⟩
  rw [hr, finish, if_neg (by simp [hset]), if_neg (by simp [hpd])]

/-- C50. The wish that a date-time is stored as given fails: `Z` is dropped. -/
theorem C50_zulu_dropped :
    history (processDocument .default (setOne (lit% "a") (lit% "2001-02-03T04:05:06Z") (lit% "dt")) (lit% "f")
      [(lit% "f", lit% "a = 1999-01-01T00:00:00Z")]) (lit% "f") =
    [some (lit% "a = 1999-01-01T00:00:00Z"), some [], some (lit% "a = 2001-02-03T04:05:06")] := by decide +kernel

example : ∃ x, Denotes (lit% "12x") (lit% "int") x := ⟨_, .int (lit% "12") (lit% "x") (by simp) rfl ((lang_integer _).mp (Re.find_some (r := Rx.integer)
  (s := lit% "12") (m := lit% "12") (t := []) (by decide +kernel)).2)⟩

example : ∀ x, ¬ Denotes (lit% "12") (lit% "Int") x := by
  intro x h
  rw [← fieldValue_iff] at h
  revert h
  simp [fieldValue]

/-- Two assignments, of which the second is refused: nothing is saved. -/
example : history (processDocument .default ⟨none, none, none, none, some (some [lit% "a", lit% "2", lit% "int", lit% "b", lit% "x", lit% "bool"]), none⟩ (lit% "f")
    [(lit% "f", lit% "a = 1\nb = true")]) (lit% "f") = [some (lit% "a = 1\nb = true")] := by decide +kernel

/-- Two assignments that are made, and a question asked before. -/
example : let c : Commands := ⟨some (some [lit% "a"]), none, none, none, some (some [lit% "a", lit% "2", lit% "int", lit% "b", lit% "FALSE", lit% "bool"]), some (lit% "g")⟩
    let r := processDocument .default c (lit% "f") [(lit% "f", lit% "a = 1\nb = true")];
    history r (lit% "g") = [none, some [], some (lit% "a = 2\nb = false")] ∧ End.said r.last = some [some (lit% "1"), some (lit% "Success, Success")] := by decide +kernel

end Tomllib
