import Verif.Lemmas.Line
import Verif.Spec.Message
/-!
# Lemmas for C61: the messages of the command-line tool
-/

namespace Tomllib.Cli

theorem said_append (w : Wording) (a b : List Piece) : said w (a ++ b) = said w a ++ said w b := by simp [said]

theorem before_get (m : Matches) (command k : Str) :
    (before m command).get? k = if k ∈ order.dropWhile (· ≠ command) then none else m.get? k := by
  unfold before
  induction m with
  | nil => simp [SMap.get?]
  | cons x m ih =>
    obtain ⟨a, b⟩ := x
    rw [List.filter_cons]
    by_cases ha : a ∈ order.dropWhile (· ≠ command)
    · rw [if_neg (by simpa using ha), ih]
      by_cases hk : k ∈ order.dropWhile (· ≠ command)
      · rw [if_pos hk, if_pos hk]
      · have : ¬ a = k := fun h => hk (h ▸ ha)
        rw [if_neg hk, if_neg hk, SMap.get?, if_neg this]
    · rw [if_pos (by simpa using ha), SMap.get?, SMap.get?, ih]
      by_cases hk : a = k
      · subst hk
        rw [if_pos rfl, if_neg ha, if_pos rfl]
      · rw [if_neg hk, if_neg hk]

theorem before_options (csv : Str → Option (List Str)) (m : Matches) (command : Str) :
    Options.new csv (before m command) = Options.new csv m := by
  have h : ∀ k : Str, k ∉ order → (before m command).get? k = m.get? k := by
    intro k hk
    rw [before_get, if_neg]
    exact fun h => hk ((List.dropWhile_sublist _).subset h)
  simp only [Options.new, SMap.contains]
  rw [h _ (by decide), h _ (by decide), h _ (by decide), h _ (by decide), h _ (by decide), h _ (by decide), h _ (by decide), h _ (by decide), h _ (by decide)]

/-- The number of results is the number of commands that read. -/
theorem Results.length {csv : Str → Option (List Str)} {m : Matches} {doc : Parser} {out : List Str} (h : Results csv m doc out) :
    out.length = ([lit% "get-value", lit% "has-value", lit% "get-children", lit% "has-children"].filter fun x => m.contains x).length := by
  have hr : ∀ {command : Str} {P : List Str → Str → Prop} {out : List Str}, Result csv m command P out → out.length = ([command].filter fun x => m.contains x).length := by
    intro command P out h
    unfold Result at h
    simp only [List.filter_cons, List.filter_nil, SMap.contains]
    cases hm : m.get? command with
    | none => rw [hm] at h; simp only at h; simp [h]
    | some arg => rw [hm] at h; obtain ⟨_, _, _, _, _, rfl⟩ := h; rfl
  obtain ⟨o1, o2, o3, o4, rfl, h1, h2, h3, h4⟩ := h
  rw [show [lit% "get-value", lit% "has-value", lit% "get-children", lit% "has-children"] =
    [lit% "get-value"] ++ [lit% "has-value"] ++ [lit% "get-children"] ++ [lit% "has-children"] from rfl]
  simp only [List.filter_append, List.length_append, hr h1, hr h2, hr h3, hr h4]

/-- The failing command is the one after the results. -/
theorem name_at {csv : Str → Option (List Str)} {m : Matches} {doc : Parser} {out : List Str} {command arg : Str} (hc : command ∈ order)
    (hg : m.get? command = some arg) (h : Results csv (before m command) doc out) :
    (commandNames.filter fun x => m.contains x).getD out.length [] = command := by
  rw [h.length]
  have hb : ∀ x, (before m command).contains x = if x ∈ order.dropWhile (· ≠ command) then false else m.contains x := by
    intro x
    rw [SMap.contains, before_get]
    split <;> rfl
  have hg' : m.contains command = true := by rw [SMap.contains, hg]; rfl
  simp only [hb]
  simp only [order, List.mem_cons, List.not_mem_nil, or_false] at hc
  rcases hc with rfl | rfl | rfl | rfl | rfl <;> simp [commandNames, order, List.dropWhile, List.filter_cons, hg'] <;>
    cases m.contains (lit% "get-value") <;> try rfl
  all_goals cases m.contains (lit% "has-value") <;> try rfl
  all_goals cases m.contains (lit% "get-children") <;> try rfl
  all_goals cases m.contains (lit% "has-children") <;> rfl

theorem fieldValue_type {v t : Str} (h : t ∉ typeNames) : fieldValue v t = .ok (.error .badType) := by
  simp only [typeNames, List.mem_cons, List.not_mem_nil, or_false, not_or] at h
  simp [fieldValue, h]

theorem fieldValue_value {v t : Str} (h : t ∈ typeNames) (hx : ∀ x, ¬ Denotes v t x) : fieldValue v t = .ok (.error .badValue) := by
  obtain ⟨e, he⟩ := fieldValue_error hx
  cases e with
  | badValue => exact he
  | badType =>
    exfalso
    have of : ∀ r : Option Value, (Out.ok (match r with | some x => .ok x | none => .error .badValue) : Out (Except FieldErr Value)) ≠ .ok (.error .badType) := by
      intro r; cases r <;> simp
    unfold fieldValue at he
    simp only at he
    split at he
    · exact of _ he
    split at he
    · exact of _ he
    split at he
    · exact of _ he
    split at he
    · exact of _ he
    split at he
    · exact of _ he
    split at he
    · exact of _ he
    split at he
    · exact of _ he
    split at he
    · rw [Out.bind_eq, Out.bind_ok] at he
      obtain ⟨r, _, he⟩ := he
      split at he <;> simp at he
    · simp only [typeNames, List.mem_cons, List.not_mem_nil, or_false] at h
      simp_all

/-- A command that reads fails. -/
theorem fails_reads {w : Wording} {csv : Str → Option (List Str)} {m : Matches} {doc doc' : Parser} {command arg msg : Str}
    (hg : m.get? command = some arg) (h : FailsWith w csv m doc command arg (csv arg) msg doc') (hs : command ≠ lit% "set-value") :
    doc' = doc ∧ ∃ e rest, reading (Options.new csv m) (Commands.new csv m) doc =
      reading (Options.new csv m) (Commands.new csv (before m command)) doc ++ .ok (.error e) :: rest ∧ said w (e.message m command) = msg := by
  generalize hf : csv arg = fields at h
  have htv : (Options.new csv m).trueVals = csv (given m (lit% "set-true") (lit% "true")) := by rw [← given_eq]; rfl
  have hfv : (Options.new csv m).falseVals = csv (given m (lit% "set-false") (lit% "false")) := by rw [← given_eq]; rfl
  -- the four commands
  have k1 : command = lit% "get-value" → ∀ e, Cli.getValue (Options.new csv m) fields doc = .ok (.error e) → ∃ rest,
      reading (Options.new csv m) (Commands.new csv m) doc = reading (Options.new csv m) (Commands.new csv (before m command)) doc ++ .ok (.error e) :: rest := by
    rintro rfl e he
    simp only [reading, Commands.new, before_get, hg, Option.map_some, hf, Option.toList_some, List.map_cons, List.map_nil, he]
    exact ⟨_, by simp [order, List.dropWhile]; rfl⟩
  have k2 : command = lit% "has-value" → ∀ e n, Cli.hasValue (Options.new csv m) fields doc = .ok (.error e, n) → ∃ rest,
      reading (Options.new csv m) (Commands.new csv m) doc = reading (Options.new csv m) (Commands.new csv (before m command)) doc ++ .ok (.error e) :: rest := by
    rintro rfl e n he
    simp only [reading, Commands.new, before_get, hg, Option.map_some, hf, Option.toList_some, List.map_cons, List.map_nil, he, Out.bind]
    exact ⟨_, by simp [order, List.dropWhile]; rfl⟩
  have k3 : command = lit% "get-children" → ∀ e, Cli.getChildren (Options.new csv m) fields doc = .error e → ∃ rest,
      reading (Options.new csv m) (Commands.new csv m) doc = reading (Options.new csv m) (Commands.new csv (before m command)) doc ++ .ok (.error e) :: rest := by
    rintro rfl e he
    simp only [reading, Commands.new, before_get, hg, Option.map_some, hf, Option.toList_some, List.map_cons, List.map_nil, he]
    exact ⟨_, by simp [order, List.dropWhile]; rfl⟩
  have k4 : command = lit% "has-children" → ∀ e, Cli.hasChildren (Options.new csv m) fields (asked csv m) doc = .ok (.error e) → ∃ rest,
      reading (Options.new csv m) (Commands.new csv m) doc = reading (Options.new csv m) (Commands.new csv (before m command)) doc ++ .ok (.error e) :: rest := by
    rintro rfl e he
    have hn : ∀ z : Nat → Out CmdRes, z (match (Commands.new csv m).hasValue with | some (some l) => l.length | _ => 0) = z (asked csv m) := by
      intro z
      simp only [Commands.new, asked]
      cases m.get? (lit% "has-value") with
      | none => rfl
      | some arg =>
        simp only [Option.map_some]
        cases csv arg <;> rfl
    have hn' : ∀ ks, hasChildren (Options.new csv m) ks (match (Commands.new csv m).hasValue with | some (some l) => l.length | _ => 0) doc =
        hasChildren (Options.new csv m) ks (asked csv m) doc := fun ks => hn fun n => hasChildren (Options.new csv m) ks n doc
    refine ⟨[], ?_⟩
    refine (congrArg (fun z => _ ++ z) (List.map_congr_left fun ks _ => hn' ks)).trans ?_
    unfold reading
    simp only [Commands.new, before_get, hg, Option.map_some, hf, Option.toList_some, List.map_cons, List.map_nil, he]
    simp [order, List.dropWhile]
  have sayV : ∀ x s, PrintsValue m doc x s → SaysValue (Options.new csv m) doc x s := by
    rintro x s ⟨v, t, a1, a2, a3⟩
    refine ⟨v, t, a1, a2, ?_⟩
    have : ((Options.new csv m).stripQuotes = true) ↔ isGiven m (lit% "strip-quotes") := isGiven_iff m _
    simp only [this]
    exact a3
  have sayC : ∀ x s, PrintsChildren m doc x s → SaysChildren (Options.new csv m) doc x s := by
    intro x s h
    refine h.imp ?_ id
    rintro ⟨l, a1, a2⟩
    refine ⟨l, a1, ?_⟩
    have : ((Options.new csv m).arrLen = true) ↔ isGiven m (lit% "array-length") := isGiven_iff m _
    simp only [this]
    rw [a2, ← given_eq, ← given_eq, ← given_eq]
    rfl
  have fn : ∀ {a : List Str} {P : Str → Str → Prop}, (∀ x ∈ a, ∃ s, P x s) → ∃ f : Str → Str, ∀ x ∈ a, P x (f x) := by
    intro a P h
    classical
    exact ⟨fun x => if hx : ∃ s, P x s then hx.choose else [], fun x hx => by dsimp only; rw [dif_pos (h x hx)]; exact (h x hx).choose_spec⟩
  have hgd : (m.get? command).getD [] = arg := by rw [hg]; rfl
  cases h with
  | noKeys hc =>
    refine ⟨rfl, .noKeys, ?_⟩
    have hm : said w (CmdErr.message m command .noKeys) = lit% "No keys specified: \"" ++ arg ++ lit% "\"." := by
      rw [CmdErr.message, if_neg hs, hgd]; simp [said]
    simp only [List.mem_cons, List.not_mem_nil, or_false] at hc
    rcases hc with hc | hc | hc | hc
    · obtain ⟨r, hr⟩ := k1 hc .noKeys rfl; exact ⟨r, hr, hm⟩
    · obtain ⟨r, hr⟩ := k2 hc .noKeys _ rfl; exact ⟨r, hr, hm⟩
    · obtain ⟨r, hr⟩ := k3 hc .noKeys rfl; exact ⟨r, hr, hm⟩
    · obtain ⟨r, hr⟩ := k4 hc .noKeys rfl; exact ⟨r, hr, hm⟩
  | noFields =>
    obtain ⟨r, hr⟩ := k1 rfl .csv rfl
    refine ⟨rfl, .csv, r, hr, ?_⟩
    rw [CmdErr.message, if_pos rfl, hgd]; simp [said]
  | noFields' hc =>
    refine ⟨rfl, .csv, ?_⟩
    simp only [List.mem_cons, List.not_mem_nil, or_false] at hc
    have hm : said w (CmdErr.message m command .csv) = lit% "Could not parse keys: \"" ++ arg ++ lit% "\"." := by
      rw [CmdErr.message, if_neg (by rcases hc with rfl | rfl | rfl | rfl <;> decide), hgd]; simp [said]
    rcases hc with hc | hc | hc | hc
    · obtain ⟨r, hr⟩ := k2 hc .csv _ rfl; exact ⟨r, hr, hm⟩
    · obtain ⟨r, hr⟩ := k3 hc .csv rfl; exact ⟨r, hr, hm⟩
    · obtain ⟨r, hr⟩ := k4 hc .csv rfl; exact ⟨r, hr, hm⟩
    · exact absurd hc hs
  | noValue ha hk =>
    obtain ⟨f, hfa⟩ := fn ha
    obtain ⟨r, hr⟩ := k1 rfl _ (C49_get_value_fails (fun k hk => sayV k _ (hfa k hk)) hk)
    exact ⟨rfl, _, r, hr, by simp [CmdErr.message, said]⟩
  | noEntry ha hk =>
    obtain ⟨f, hfa⟩ := fn ha
    obtain ⟨r, hr⟩ := k3 rfl _ ((C49_get_children_fails (fun k hk => sayC k _ (hfa k hk))).1 hk)
    exact ⟨rfl, _, r, hr, by simp [CmdErr.message, said]⟩
  | noChildren ha hk =>
    obtain ⟨f, hfa⟩ := fn ha
    obtain ⟨r, hr⟩ := k3 rfl _ ((C49_get_children_fails (fun k hk => sayC k _ (hfa k hk))).2 hk)
    exact ⟨rfl, _, r, hr, by simp [CmdErr.message, said]⟩
  | @noTrue _ _ ks hc hne ht =>
    refine ⟨rfl, .badTrueVals, ?_⟩
    have hm : said w (CmdErr.message m command .badTrueVals) = lit% "Invalid set of true values specified: \"" ++ given m (lit% "set-true") (lit% "true") ++ lit% "\"." := by
      rw [CmdErr.message, given_eq]; simp [said]
    simp only [List.mem_cons, List.not_mem_nil, or_false] at hc
    cases ks with
    | nil => exact absurd rfl hne
    | cons k ks =>
      rcases hc with hc | hc
      · obtain ⟨r, hr⟩ := k2 hc .badTrueVals (k :: ks).length (by simp only [Cli.hasValue, hasValueLoop, htv, ht]; rfl); exact ⟨r, hr, hm⟩
      · obtain ⟨r, hr⟩ := k4 hc .badTrueVals (by simp only [Cli.hasChildren, hasChildrenLoop, htv, ht]); exact ⟨r, hr, hm⟩
  | @noFalse _ _ ks ts hc hne ht he hff =>
    refine ⟨rfl, .badFalseVals, ?_⟩
    have hm : said w (CmdErr.message m command .badFalseVals) = lit% "Invalid set of false values specified: \"" ++ given m (lit% "set-false") (lit% "false") ++ lit% "\"." := by
      rw [CmdErr.message, given_eq]; simp [said]
    simp only [List.mem_cons, List.not_mem_nil, or_false] at hc
    cases ks with
    | nil => exact absurd rfl hne
    | cons k ks =>
      rcases hc with hc | hc
      · rw [if_neg (by rw [hc]; decide)] at he
        obtain ⟨r, hr⟩ := k2 hc .badFalseVals (k :: ks).length (by
          simp only [Cli.hasValue, hasValueLoop, htv, ht, hfv, hff, pick_ok he (by omega : 0 < 0 + 1), Out.bind_eq, Out.bind])
        exact ⟨r, hr, hm⟩
      · rw [if_pos hc] at he
        obtain ⟨r, hr⟩ := k4 hc .badFalseVals (by
          simp only [Cli.hasChildren, hasChildrenLoop, htv, ht, hfv, hff, pick_ok he (by omega : asked csv m < asked csv m + 1), Out.bind_eq, Out.bind])
        exact ⟨r, hr, hm⟩
  | notThrees => exact absurd rfl hs
  | noType => exact absurd rfl hs
  | notOfType => exact absurd rfl hs
  | notSet => exact absurd rfl hs

/-- `--set-value` fails. -/
theorem fails_sets {w : Wording} {csv : Str → Option (List Str)} {m : Matches} {doc doc' : Parser} {arg msg : Str}
    (hg : m.get? (lit% "set-value") = some arg) {fields : Option (List Str)} (h : FailsWith w csv m doc (lit% "set-value") arg fields msg doc') (o : Options) :
    ∃ e, Cli.setValue o fields doc = .ok (doc', .error e) ∧ said w (e.message m (lit% "set-value")) = msg := by
  have hgd : (m.get? (lit% "set-value")).getD [] = arg := by rw [hg]; rfl
  have three : ∀ {a b : List Str} {k v t : Str} {doc1 : Parser}, 3 ∣ b.length → Applied a doc doc1 →
      ¬ ((a ++ k :: v :: t :: b).length % 3 ≠ 0 ∨ (a ++ k :: v :: t :: b).length = 0) := by
    intro a b k v t doc1 hb ha
    obtain ⟨n, hn⟩ := ha.length
    simp only [List.length_append, List.length_cons, hn]
    omega
  cases h with
  | noKeys hc => exact absurd hc (by decide)
  | noFields' hc =>
    refine ⟨.csv, rfl, ?_⟩
    rw [CmdErr.message, if_neg (by decide), hgd]; simp [said]
  | noTrue hc => exact absurd hc (by decide)
  | noFalse hc => exact absurd hc (by decide)
  | notThrees h3 =>
    refine ⟨.noKeys, ?_, ?_⟩
    · rw [Cli.setValue, if_pos]
      rcases h3 with rfl | h3
      · exact .inr rfl
      · exact .inl fun h => h3 (Nat.dvd_of_mod_eq_zero h)
    · rw [CmdErr.message, if_pos rfl, hgd]; simp [said]
  | @noType _ a k v t b _ hb ha ht =>
    refine ⟨.badType t k, ?_, ?_⟩
    · rw [Cli.setValue]
      simp only [if_neg (three hb ha)]
      rw [setLoop_prefix o ha, setLoop]
      simp only [fieldValue_type ht, Out.bind_eq, Out.bind]
      rfl
    · simp [CmdErr.message, said]
  | @notOfType _ a k v t b _ hb ha ht hx =>
    refine ⟨.badValue v t k, ?_, ?_⟩
    · rw [Cli.setValue]
      simp only [if_neg (three hb ha)]
      rw [setLoop_prefix o ha, setLoop]
      simp only [fieldValue_value ht hx, Out.bind_eq, Out.bind]
      rfl
    · simp [CmdErr.message, said]
  | @notSet _ a k v t b _ _ _ hb ha hx hs =>
    refine ⟨.notSet k v t, ?_, ?_⟩
    · rw [Cli.setValue]
      simp only [if_neg (three hb ha)]
      rw [setLoop_prefix o ha, setLoop]
      simp only [(fieldValue_iff _ _ _).mpr hx, Out.bind_eq, Out.bind, hs]
      rfl
    · simp [CmdErr.message, said]

theorem reading_before_set (o : Options) (csv : Str → Option (List Str)) (m : Matches) (doc : Parser) :
    reading o (Commands.new csv (before m (lit% "set-value"))) doc = reading o (Commands.new csv m) doc := by
  simp only [reading, Commands.new, before_get]
  rfl

theorem collect_error (out : List Str) (e : CmdErr) (rest : List (Out CmdRes)) :
    collect (out.map (fun s => .ok (.ok s)) ++ .ok (.error e) :: rest) = .ok (out.map .ok ++ [.error e]) := by
  induction out with
  | nil => rfl
  | cons s out ih => rw [List.map_cons, List.cons_append, collect, ih]; rfl

theorem setAndFinish_last {o : Options} {c : Commands} {path : Str} {rs : List CmdRes} {doc : Parser} {fs : FS} {e : CmdErr} (h : rs.getLast? = some (.error e)) :
    setAndFinish o c path rs doc fs = finish o c rs doc [fs] := by
  unfold setAndFinish
  rw [h]

theorem setAndFinish_error {o : Options} {c : Commands} {path : Str} {rs : List CmdRes} {doc doc' : Parser} {fs : FS} {e : CmdErr} {fields : Option (List Str)}
    (h : ∀ e, rs.getLast? ≠ some (.error e)) (hs : c.setValue = some fields) (he : Cli.setValue o fields doc = .ok (doc', .error e)) :
    setAndFinish o c path rs doc fs = finish o c (rs ++ [.error e]) doc' [fs] := by
  unfold setAndFinish
  rw [hs]
  split
  next h' => exact absurd h' (h _)
  next h' _ => simp at h'
  next f hf _ =>
    simp only [Option.some.injEq] at hf
    subst hf
    simp only [step, he]

theorem not_all_none {csv : Str → Option (List Str)} {m : Matches} {command arg : Str} (hc : command ∈ order) (hg : m.get? command = some arg) :
    ¬ ((Commands.new csv m).getValue.isNone ∧ (Commands.new csv m).hasValue.isNone ∧ (Commands.new csv m).getChildren.isNone ∧
      (Commands.new csv m).hasChildren.isNone ∧ (Commands.new csv m).setValue.isNone) := by
  rintro ⟨h1, h2, h3, h4, h5⟩
  simp only [order, List.mem_cons, List.not_mem_nil, or_false] at hc
  simp only [Commands.new] at h1 h2 h3 h4 h5
  rcases hc with rfl | rfl | rfl | rfl | rfl <;> simp_all

theorem main_one' {csv : Str → Option (List Str)} {m : Matches} {stdin : List Str} {fs : FS} {path : Str}
    (hh : ¬ isGiven m (lit% "help")) (hi : m.get? (lit% "input-file") = some path) :
    main csv m stdin fs = batch (Options.new csv m) (Commands.new csv m) [path] fs := by
  unfold main
  have h1 : m.contains (lit% "help") = false := by rw [← Bool.not_eq_true, isGiven_iff]; exact hh
  rw [h1, hi]
  rfl

theorem main_alone {csv : Str → Option (List Str)} {m : Matches} {stdin : List Str} {fs : FS} {path : Str} {rs : List CmdRes} {d : Option Str}
    (hh : ¬ isGiven m (lit% "help")) (hi : m.get? (lit% "input-file") = some path)
    (hl : processDocument (Options.new csv m) (Commands.new csv m) path fs = ⟨[fs], .finished rs d⟩) :
    mainOutput csv m stdin fs = printed (Options.new csv m) m path rs d ∧ (main csv m stdin fs).status = 0 := by
  have h1 : m.contains (lit% "help") = false := by rw [← Bool.not_eq_true, isGiven_iff]; exact hh
  rw [mainOutput, h1, main_one' hh hi]
  simp [batch, hl, Batch.output, Batch.status, End.status]

theorem main_states {csv : Str → Option (List Str)} {m : Matches} {stdin : List Str} {fs : FS} {path : Str} {rs : List CmdRes} {d : Option Str}
    (hh : ¬ isGiven m (lit% "help")) (hi : m.get? (lit% "input-file") = some path)
    (hl : processDocument (Options.new csv m) (Commands.new csv m) path fs = ⟨[fs], .finished rs d⟩) :
    (main csv m stdin fs).states = [fs, fs] := by
  rw [main_one' hh hi]
  simp [batch, hl]

theorem main_exits {csv : Str → Option (List Str)} {m : Matches} {stdin : List Str} {fs : FS} {path : Str} {r : Reason}
    (hh : ¬ isGiven m (lit% "help")) (hi : m.get? (lit% "input-file") = some path)
    (hl : processDocument (Options.new csv m) (Commands.new csv m) path fs = ⟨[fs], .exited r⟩) :
    main csv m stdin fs = ⟨[fs], [(path, .exited r)]⟩ := by
  rw [main_one' hh hi]
  simp [batch, hl]

theorem said_texts (w : Wording) (sep : Str) (out : List Str) : said w (out.flatMap fun t => [.text t, .text sep]) = out.flatMap (· ++ sep) := by
  induction out with
  | nil => rfl
  | cons t out ih => rw [List.flatMap_cons, said_append, ih]; simp [said]

/-- What is printed about one file. -/
def outputOf (o : Options) (m : Matches) (x : Str × End) : List Piece :=
  match x.2 with
  | .finished rs d => printed o m x.1 rs d
  | .exited why => why.message x.1
  | _ => []

theorem output_eq (o : Options) (m : Matches) (b : Batch) : b.output o m = b.ends.flatMap (outputOf o m) := rfl

theorem printLoop_input (o : Options) (m : Matches) (p path : Str) : ∀ (rs : List CmdRes) (cs : List Str), (∀ c ∈ cs, c ∈ order) →
    printLoop o (m.insert (lit% "input-file") p) path cs rs = printLoop o m path cs rs := by
  have h : ∀ k : Str, lit% "input-file" ≠ k → (m.insert (lit% "input-file") p).get? k = m.get? k := fun k hk => by rw [SMap.get?_insert, if_neg hk]
  intro rs
  induction rs with
  | nil => intro cs _; cases cs <;> rfl
  | cons r rs ih =>
    intro cs hcs
    have hc : (m.insert (lit% "input-file") p).get? (cs.headD []) = m.get? (cs.headD []) := by
      apply h
      cases cs with
      | nil => decide
      | cons c cs =>
        intro hh
        have := hcs c (by simp)
        rw [List.headD_cons] at hh
        rw [← hh] at this
        exact absurd this (by decide)
    simp only [printLoop]
    rw [ih _ (fun c hc => hcs c (List.mem_of_mem_tail hc))]
    congr 2
    cases r with
    | ok s => rfl
    | error e =>
      dsimp only
      congr 1
      cases e <;> simp only [CmdErr.message, hc, h _ (by decide : lit% "input-file" ≠ lit% "set-true"), h _ (by decide : lit% "input-file" ≠ lit% "set-false")]

theorem outputOf_input (o : Options) (m : Matches) (p : Str) (x : Str × End) : outputOf o (m.insert (lit% "input-file") p) x = outputOf o m x := by
  have h : ∀ k ∈ commandNames, (m.insert (lit% "input-file") p).contains k = m.contains k := fun k hk => by
    rw [SMap.contains, SMap.get?_insert, if_neg (fun h => by rw [← h] at hk; exact absurd hk (by decide)), SMap.contains]
  unfold outputOf
  split
  · unfold printed
    rw [List.filter_congr h, printLoop_input]
    intro c hc
    exact (List.mem_filter.mp hc).1
  · rfl
  · rfl

theorem options_input (csv : Str → Option (List Str)) (m : Matches) (p : Str) :
    Options.new csv (m.insert (lit% "input-file") p) = Options.new csv m ∧ Commands.new csv (m.insert (lit% "input-file") p) = Commands.new csv m := by
  have h : ∀ k : Str, lit% "input-file" ≠ k → (m.insert (lit% "input-file") p).get? k = m.get? k := fun k hk => by rw [SMap.get?_insert, if_neg hk]
  constructor
  · simp [Options.new, SMap.contains, h]
  · simp [Commands.new, h]

theorem batch_single (o : Options) (c : Commands) (p : Str) (fs : FS) : (batch o c [p] fs).ends = [(p, (processDocument o c p fs).last)] := by
  simp only [batch]
  split <;> simp_all

theorem mainOutput_input {csv : Str → Option (List Str)} {m : Matches} (hh : ¬ isGiven m (lit% "help")) (p : Str) (fs : FS) :
    mainOutput csv (m.insert (lit% "input-file") p) [] fs =
      outputOf (Options.new csv m) m (p, (processDocument (Options.new csv m) (Commands.new csv m) p fs).last) := by
  have h1 : ¬ isGiven (m.insert (lit% "input-file") p) (lit% "help") := by
    rintro ⟨a, h⟩
    rw [SMap.get?_insert, if_neg (by decide)] at h
    exact hh ⟨a, h⟩
  rw [mainOutput, if_neg (by rw [isGiven_iff]; exact h1), main_one' h1 (by rw [SMap.get?_insert_self]), output_eq, (options_input csv m p).1, (options_input csv m p).2,
    batch_single, List.flatMap_singleton, outputOf_input]

end Tomllib.Cli
