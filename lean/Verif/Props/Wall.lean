import Verif.Lemmas.Wall
import Verif.Lemmas.WallText
import Verif.Lemmas.Stay
import Verif.Props.Crash
import Verif.Props.Grow
/-!
# Exactly when `parse` panics on a text without arrays of tables: C30

`Parser.barred` (Spec/Wall.lean) says it of a header by what the parser answers that has read the lines before.
-/

namespace Tomllib

theorem Flow.run : ∀ {ls : List (Str × ET)} {st : PState}, Flow st → (∀ l ∈ ls, l.2.wf) → (∀ l ∈ ls, l.2.plain) →
    ((∃ x, linesEff ls st = .panic x) ∧ ∃ pre nl w1 t w2 c post st1 es, ls = pre ++ (nl, .table w1 (.std t) w2 c) :: post ∧ linesEff pre st = .ok (st1, es) ∧ Flow st1 ∧
      Barred st1.map st1.heap t.names) ∨ ∃ st' es, linesEff ls st = .ok (st', es) ∧ Flow st'
  | [], st, h, _, _ => .inr ⟨st, [], rfl, h⟩
  | (nl, e) :: ls, st, h, hw, hp => by
    rcases (h.lines (nlCount nl)).next (hw (nl, e) (by simp)) (hp (nl, e) (by simp)) with ⟨⟨w1, t, w2, c, rfl, hb⟩, x, hx⟩ | ⟨_, s1, hx, h1⟩
    · exact .inl ⟨⟨x, by rw [linesEff, hx]; rfl⟩, [], nl, w1, t, w2, c, ls, st, [], rfl, rfl, h, hb⟩
    · rcases Flow.run (ls := ls) h1 (fun l hl => hw l (by simp [hl])) (fun l hl => hp l (by simp [hl])) with
        ⟨⟨x, hx'⟩, pre, nl', w1, t, w2, c, post, st1, es, rfl, g1, g2, g3⟩ | ⟨st', es, g1, g2⟩
      · exact .inl ⟨⟨x, by rw [linesEff, hx, Out.bind, hx']; rfl⟩, (nl, e) :: pre, nl', w1, t, w2, c, post, st1, _, rfl, by rw [linesEff, hx, Out.bind, g1]; rfl, g2, g3⟩
      · exact .inr ⟨st', _, by rw [linesEff, hx, Out.bind, g1]; rfl, g2⟩

theorem LinesTaken.left : ∀ {ls more : List (Str × ET)}, LinesTaken (ls ++ more) → LinesTaken ls
  | [], _, _ => trivial
  | l :: ls, more, h => ⟨h.1, ET.taken.less (r' := linesText more) (by rw [← linesText_append]; exact h.2.1), LinesTaken.left h.2.2⟩

theorem DocTaken.left : ∀ {ls more : List (Str × ET)}, DocTaken (ls ++ more) → ls ≠ [] → DocTaken ls
  | [], _, _, h => absurd rfl h
  | l :: ls, more, h, _ => ⟨h.1, ET.taken.less (r' := linesText more) (by rw [← linesText_append]; exact h.2.1), LinesTaken.left h.2.2⟩

theorem plain_of {ls : List (Str × ET)} (hn : hasArrayTable ls = false) : ∀ l ∈ ls, l.2.plain := by
  intro l hl
  simp only [hasArrayTable, List.any_eq_false] at hn
  have := hn l hl
  obtain ⟨nl, e⟩ := l
  cases e with
  | table w1 t w2 c => cases t <;> simp_all [ET.plain]
  | _ => trivial

theorem not_barred_new {N : List Str} (hw : NamesWf N) (hne : N ≠ []) : ¬ Barred PState.new.map PState.new.heap N := by
  have hdw : NamesWf N.dropLast := fun k hk => hw k (List.dropLast_subset _ hk)
  have hkc : keyHasChildrenWithValues PState.new.map PState.new.heap (par N.dropLast) = .ok false := by
    unfold keyHasChildrenWithValues
    split
    · rfl
    next h =>
      have : PState.new.map.get? (par N.dropLast) = none := by
        show (SMap.insert [] root _).get? _ = none
        rw [SMap.get?_insert, if_neg (Ne.symm h)]
        rfl
      rw [this]
  rintro ⟨_, ⟨x, hx⟩ | ⟨_, _, hb⟩⟩
  · rw [hkc] at hx; simp at hx
  · cases N with
    | nil => exact hne rfl
    | cons n N =>
      rw [Blocked, show kidsOf PState.new.map (par []) = some (.keys []) from rfl] at hb
      simp at hb

/-- C30. `parse` panics on a document without arrays of tables exactly if one of its lines is a header that is barred, for the parser that has read the lines before. -/
theorem C30_panics_iff {ls : List (Str × ET)} (h : DocTaken ls) (hn : hasArrayTable ls = false) : (∃ x, Parser.new.parse (linesText ls) = .panic x) ↔
    ∃ pre nl w1 t w2 c post p r, ls = pre ++ (nl, .table w1 (.std t) w2 c) :: post ∧ Parser.new.parse (linesText pre) = .ok (p, r) ∧ pre ≠ [] ∧ p.barred (t.keys.map (·.key)) := by
  have hw := h.wf.lines
  have hpl := plain_of hn
  have hnames : ∀ {pre nl w1 t w2 c post}, ls = pre ++ (nl, ET.table w1 (.std t) w2 c) :: post → NamesWf t.names ∧ t.names ≠ [] := by
    intro pre nl w1 t w2 c post e
    have := hw (nl, .table w1 (.std t) w2 c) (by rw [e]; simp)
    have hw' : (TableType.std t).wf := this.2.1
    refine ⟨Table.namesWf hw'.2, ?_⟩
    have : t.keys ≠ [] := hw'.1
    simpa [Table.names] using this
  constructor
  · rintro ⟨x, hx⟩
    rw [parse_fwd h] at hx
    rcases Flow.run Flow.new hw hpl with ⟨_, pre, nl, w1, t, w2, c, post, st1, es, e, g1, g2, g3⟩ | ⟨st', es, g1, _⟩
    · obtain ⟨n1, n2⟩ := hnames e
      have hpre : pre ≠ [] := by
        rintro rfl
        simp [linesEff] at g1
        rw [← g1.1] at g3
        exact not_barred_new n1 n2 g3
      have hd : DocTaken pre := DocTaken.left (more := (nl, .table w1 (.std t) w2 c) :: post) (by rw [← e]; exact h) hpre
      have hp := parse_fwd hd
      rw [g1] at hp
      refine ⟨pre, nl, w1, t, w2, c, post, _, _, e, hp, hpre, ?_⟩
      exact (barred_iff (p := ⟨⟨es⟩, st1, []⟩) g2.inv n1 n2).mpr g3
    · rw [g1] at hx
      simp [Out.bind] at hx
  · rintro ⟨pre, nl, w1, t, w2, c, post, p, r, e, hp, hpre, hb⟩
    obtain ⟨n1, n2⟩ := hnames e
    have hd : DocTaken pre := DocTaken.left (more := (nl, .table w1 (.std t) w2 c) :: post) (by rw [← e]; exact h) hpre
    have he := (hd.parsed hp).1.eff
    have hwp : ∀ l ∈ pre, l.2.wf := fun l hl => hw l (by rw [e]; simp [hl])
    have hpp : ∀ l ∈ pre, l.2.plain := fun l hl => hpl l (by rw [e]; simp [hl])
    rcases Flow.run Flow.new hwp hpp with ⟨⟨x, hx⟩, _⟩ | ⟨st', es, g1, g2⟩
    · rw [show linesEff pre PState.new = _ from he] at hx; simp at hx
    · have hst : st' = p.st := by
        rw [show linesEff pre PState.new = _ from he] at g1
        simp at g1
        exact g1.1.symm
      subst hst
      have hbar : Barred p.st.map p.st.heap t.names := (barred_iff g2.inv n1 n2).mp hb
      have hl : (ET.table w1 (.std t) w2 c).wf ∧ (ET.table w1 (.std t) w2 c).plain :=
        ⟨hw (nl, .table w1 (.std t) w2 c) (by rw [e]; simp), hpl (nl, .table w1 (.std t) w2 c) (by rw [e]; simp)⟩
      rw [parse_fwd h, e, linesEff_app pre g1, linesEff]
      rcases (g2.lines (nlCount nl)).next hl.1 hl.2 with ⟨_, x, hx⟩ | ⟨hno, _⟩
      · rw [hx]; exact ⟨x, rfl⟩
      · exact absurd ⟨w1, t, w2, c, rfl, hbar⟩ hno

theorem plain_upTo {ls : List (Str × ET)} {rest : Str} (hd : DocUpTo ls rest) (hi : ¬ HasArrayHeaderLine (linesText ls ++ rest)) : ∀ l ∈ ls, l.2.plain := by
  rintro ⟨nl, e⟩ hl
  cases e with
  | table w1 t w2 c =>
    cases t with
    | std t => trivial
    | arr t => exact absurd (array_header_line hd.taken.wf ⟨nl, w1, t, w2, c, hl⟩) hi
  | _ => trivial

/-- C30. `parse` panics on a text without arrays of tables exactly if the text begins with lines that are taken, then comes a newline and a table header, and this header is barred for
the parser that has read the lines before. -/
theorem C30_panics_text {i : Str} (hi : ¬ HasArrayHeaderLine i) : (∃ x, Parser.new.parse i = .panic x) ↔
    ∃ pre nl w t rest p r, i = linesText pre ++ (nl ++ (w ++ (TableType.std t).text ++ rest)) ∧ DocUpTo pre (nl ++ (w ++ (TableType.std t).text ++ rest)) ∧
      (nl = lit% "\n" ∨ nl = lit% "\r\n") ∧ Blank w ∧ (TableType.std t).wf ∧ Parser.new.parse (linesText pre) = .ok (p, r) ∧ p.barred (t.keys.map (·.key)) := by
  have hnames : ∀ {t : Table}, (TableType.std t).wf → NamesWf t.names ∧ t.names ≠ [] := by
    intro t hw'
    refine ⟨Table.namesWf hw'.2, ?_⟩
    have : t.keys ≠ [] := hw'.1
    simpa [Table.names] using this
  constructor
  · rintro ⟨x, hx⟩
    unfold Parser.parse at hx
    rw [show Parser.new.st = PState.new from rfl] at hx
    have ht : toml PState.new i = .panic x := by
      generalize toml PState.new i = o at hx
      match o, hx with
      | .panic y, hx => simpa using hx
      | .ok (st, .done r1 y), hx => dsimp only at hx; split at hx <;> split at hx <;> simp at hx
      | .ok (st, .err), hx => simp at hx
      | .ok (st, .inc), hx => simp at hx
    rcases toml_panic ht with ⟨w, px, r, g1, g2, rfl, g4⟩ | ⟨pre, nl, w, px, r, st1, ns, g1, rfl, g3, g4, g5, g6, g7⟩
    · exfalso
      have hpx : ∀ t, px ≠ .table (.arr t) := by
        rintro t rfl
        exact hi ⟨[], w, t.text ++ lit% "]]" ++ r, by simp [PX.text, TableType.text], g1, .inl rfl⟩
      rcases Flow.new.px g2 hpx with ⟨t, rfl, hb⟩ | ⟨st', e⟩
      · obtain ⟨n1, n2⟩ := hnames (t := t) g2
        exact not_barred_new n1 n2 hb
      · rw [e] at g4; simp at g4
    · have hpx : ∀ t, px ≠ .table (.arr t) := by
        rintro t rfl
        refine hi ⟨linesText pre ++ nl, w, t.text ++ lit% "]]" ++ r, by simp [PX.text, TableType.text], g4, .inr ?_⟩
        rcases g3 with rfl | rfl
        · exact ⟨linesText pre, rfl⟩
        · exact ⟨linesText pre ++ lit% "\r", by simp⟩
      have hp := parse_fwd g1.taken
      rw [g6] at hp
      rcases Flow.run Flow.new g1.taken.wf.lines (plain_upTo g1 hi) with ⟨⟨y, hy⟩, _⟩ | ⟨st', es, hst, hF⟩
      · rw [g6] at hy; simp at hy
      · rw [g6] at hst
        simp only [Out.ok.injEq, Prod.mk.injEq] at hst
        obtain ⟨rfl, rfl⟩ := hst
        rcases (hF.lines 1).px g5 hpx with ⟨t, rfl, hb⟩ | ⟨st', e⟩
        · obtain ⟨n1, n2⟩ := hnames (t := t) g5
          exact ⟨pre, nl, w, t, r, _, _, rfl, g1, g3, g4, g5, hp, (barred_iff (p := ⟨⟨ns⟩, st1, []⟩) hF.inv n1 n2).mpr hb⟩
        · rw [e] at g7; simp at g7
  · rintro ⟨pre, nl, w, t, rest, p, r, rfl, g1, g2, g3, g4, hp, hb⟩
    obtain ⟨n1, n2⟩ := hnames g4
    have he : linesEff pre PState.new = _ := (g1.taken.parsed hp).1.eff
    rcases Flow.run Flow.new g1.taken.wf.lines (plain_upTo g1 hi) with ⟨⟨y, hy⟩, _⟩ | ⟨st', es, hst, hF⟩
    · rw [he] at hy; simp at hy
    · have hst' : st' = p.st := by
        rw [he] at hst
        simp at hst
        exact hst.1.symm
      subst hst'
      have hbar : Barred p.st.map p.st.heap t.names := (barred_iff hF.inv n1 n2).mp hb
      have hl : (ET.table [] (.std t) [] none).wf := ⟨by simp [Blank], g4, by simp [Blank], by simp [CommentWf]⟩
      rcases (hF.lines 1).next hl trivial with ⟨_, x, hx⟩ | ⟨hno, _⟩
      · refine ⟨x, ?_⟩
        unfold Parser.parse
        rw [show Parser.new.st = PState.new from rfl, toml_to_panic g2 g3 g4 (t := .std t) (x := x) hx g1 hst]
      · exact absurd ⟨_, t, _, _, rfl, hbar⟩ hno

theorem Parser.not_filled {p : Parser} {k : Str} (h : p.getValue k = .ok none) : ¬ p.filled k := by
  rintro ⟨v, hv⟩
  rw [h] at hv
  simp at hv

theorem Parser.not_filled' {p : Parser} {k : Str} {x : Panic} (h : p.getValue k = .panic x) : ¬ p.filled k := by
  rintro ⟨v, hv⟩
  rw [h] at hv
  simp at hv

/-- The panic where the children of the table above are counted: the array `a` was not entered, its element was. -/
example : ∃ p, Parser.new.parse (lit% "[t]\n[t]\na = [1]") = .ok (p, .fullError [.invalidTable (lit% "t") 2 0 [(lit% "a", .arr [.int (lit% "1")])]]) ∧
    p.barred [lit% "a", lit% "b"] := by
  obtain ⟨p, hp, h1, h2, h3⟩ : ∃ p, Parser.new.parse (lit% "[t]\n[t]\na = [1]") = .ok (p, .fullError [.invalidTable (lit% "t") 2 0 [(lit% "a", .arr [.int (lit% "1")])]]) ∧
    p.getValue (lit% "a") = .ok none ∧ p.getValue (lit% "a.b") = .ok none ∧ p.getChildren (lit% "a") = some (.count 1) := Out.wit (by decide +kernel)
  refine ⟨p, hp, ?_, .inl ⟨by simp, 0, h3⟩⟩
  intro a b ha e
  match a, e with
  | [x], e =>
    simp at e; obtain ⟨rfl, _⟩ := e
    exact Parser.not_filled h1
  | [x, y], e =>
    simp at e; obtain ⟨rfl, rfl, _⟩ := e
    exact Parser.not_filled h2
  | x :: y :: z :: a, e => simp at e

example : Parser.new.parse (lit% "[t]\n[t]\na = [1]\n[a.b]") = .panic .stdTableIndexed := by decide +kernel

/-- The panic where the way is blocked: the header `[a]` has made `a` a table, but its children are counted. -/
example : ∃ p, Parser.new.parse (lit% "[t]\n[t]\na = [1]\n[a]") = .ok (p, .fullError [.invalidTable (lit% "t") 2 0 [(lit% "a", .arr [.int (lit% "1")])]]) ∧
    p.barred [lit% "a", lit% "b", lit% "c"] := by
  obtain ⟨p, hp, h1, h2, h3, h4, h5, h6⟩ : ∃ p, Parser.new.parse (lit% "[t]\n[t]\na = [1]\n[a]") = .ok (p, .fullError [.invalidTable (lit% "t") 2 0 [(lit% "a", .arr [.int (lit% "1")])]]) ∧
    p.getValue (lit% "a") = .panic .tableToVal ∧ p.getValue (lit% "a.b") = .ok none ∧ p.getValue (lit% "a.b.c") = .ok none ∧
    p.getChildren [] = some (.keys [lit% "t", lit% "a"]) ∧ p.getChildren (lit% "a") = some (.count 1) ∧ p.getChildren (lit% "a.b") = none := Out.wit (by decide +kernel)
  refine ⟨p, hp, ?_, .inr ⟨h3, fun _ l hl => ?_, ?_⟩⟩
  · intro a b ha e
    match a, e with
    | [x], e =>
      simp at e; obtain ⟨rfl, _⟩ := e
      exact Parser.not_filled' h1
    | [x, y], e =>
      simp at e; obtain ⟨rfl, rfl, _⟩ := e
      exact Parser.not_filled h2
    | [x, y, z], e =>
      simp at e; obtain ⟨rfl, rfl, rfl, _⟩ := e
      exact Parser.not_filled h3
    | x :: y :: z :: w :: a, e => simp at e
  · have hl : p.getChildren (lit% "a.b") = _ := hl
    rw [h6] at hl
    simp at hl
  · rw [Parser.blocked, show p.getChildren (tableKey []) = _ from h4]
    refine ⟨by simp, ?_⟩
    rw [Parser.blocked, show p.getChildren (tableKey ([] ++ [lit% "a"])) = _ from h5]
    trivial

example : Parser.new.parse (lit% "[t]\n[t]\na = [1]\n[a]\n[a.b.c]") = .panic .implicitStd := by decide +kernel

/-- Without the header `[a]` the way is not blocked, since nothing lists `a`. -/
example : ∃ p, Parser.new.parse (lit% "[t]\n[t]\na = [1]\n[a.b.c]\nd = 2") = .ok (p, .fullError [.invalidTable (lit% "t") 2 0 [(lit% "a", .arr [.int (lit% "1")])]]) ∧
    p.getValue (lit% "a.b.c.d") = .ok (some (.int (lit% "2"))) := Out.wit (by decide +kernel)

/-- The hypothesis of `C30_panics_text` is met, and both cases occur: what follows the header need not be readable. -/
example : ¬ HasArrayHeaderLine (lit% "[t]\n[t]\na = [1]\n[a.b] ?") ∧ (∃ x, Parser.new.parse (lit% "[t]\n[t]\na = [1]\n[a.b] ?") = .panic x) ∧
    ¬ HasArrayHeaderLine (lit% "[t]\n[t]\na = 1\n[a.b] ?") ∧ ¬ ∃ x, Parser.new.parse (lit% "[t]\n[t]\na = 1\n[a.b] ?") = .panic x := by
  refine ⟨?_, ⟨.stdTableIndexed, by decide +kernel⟩, ?_, ?_⟩
  · rintro ⟨a, w, b, e, _⟩
    exact noArrays_spec (s := lit% "[t]\n[t]\na = [1]\n[a.b] ?") (by decide) (a ++ w) b e
  · rintro ⟨a, w, b, e, _⟩
    exact noArrays_spec (s := lit% "[t]\n[t]\na = 1\n[a.b] ?") (by decide) (a ++ w) b e
  · rintro ⟨x, hx⟩
    obtain ⟨p, hp, _⟩ : ∃ p, Parser.new.parse (lit% "[t]\n[t]\na = 1\n[a.b] ?") = .ok (p, .partialError [] 4 0
      [.invalidTable (lit% "t") 2 0 [(lit% "a", .int (lit% "1"))]]) ∧ p.leftover = lit% "?" := Out.wit (by decide +kernel)
    rw [hp] at hx
    simp at hx

/-- A header below an array that was not entered. -/
def walled : List (Str × ET) :=
  [([], .table [] (.std ⟨[⟨⟨[], []⟩, lit% "t"⟩]⟩) [] none), (lit% "\n", .table [] (.std ⟨[⟨⟨[], []⟩, lit% "t"⟩]⟩) [] none),
    (lit% "\n", .kv [] (lit% "a") ⟨lit% " ", lit% " "⟩ (.arr (.cons (.leaf (.int (lit% "1"))) none [.newlines []] .nil) [.newlines []] [.newlines []]) [] none),
    (lit% "\n", .table [] (.std ⟨[⟨⟨[], []⟩, lit% "a"⟩, ⟨⟨[], []⟩, lit% "b"⟩]⟩) [] none)]

/-- The hypotheses of `C30_panics_iff` are met. -/
example : linesText walled = lit% "[t]\n[t]\na = [1]\n[a.b]" ∧ DocTaken walled ∧ hasArrayTable walled = false := by
  refine ⟨by decide +kernel, DocStrict.taken ?_, rfl⟩
  have i1 : IntegerText (lit% "1") := (lang_integer _).mp (Re.find_some (r := Rx.integer) (s := lit% "1") (m := lit% "1") (t := []) (by decide +kernel)).2
  have ks : ∀ k ∈ [lit% "a", lit% "b", lit% "t"], KeyWf k := by
    intro k hk
    left
    simp only [List.mem_cons, List.not_mem_nil, or_false] at hk
    rcases hk with rfl | rfl | rfl <;> exact ⟨by simp, by decide⟩
  have s0 : Spaces [] := .nil
  simp only [List.mem_cons, List.not_mem_nil, or_false, forall_eq_or_imp, forall_eq] at ks
  simp [walled, DocStrict, LinesStrict, ET.strict, TableType.strict, TableType.table, VT.strict, Elems.strict, Scalar.strict, Apart, SepWf, Gap, CommentWf, WSSep.wf, Blank, i1, s0, ks]

end Tomllib
