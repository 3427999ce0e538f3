import Verif.Lemmas.Fwd
import Verif.Lemmas.Doc
/-!
# Values are read back from their text: arrays and inline tables
-/

namespace Tomllib
open P

/-! ## Blanks, line breaks, comments -/

/-- The text does not begin with one of the characters. -/
def Avoids (cs : Str) (i : Str) : Prop := ∀ c t, i = c :: t → c ∉ cs

theorem prefixFree_space : PrefixFree (Re.alts [Re.ch ' ', Re.ch '\t', Re.ch '\n', Re.lit ['\r', '\n']]) := by
  intro u v w x hu hv e
  rw [lang_spacePiece] at hu hv
  cases hu <;> cases hv <;> simp_all

theorem Avoids.fails {r : Re} {cs i : Str} (h : Avoids cs i) (hn : r.nullable = false) (hs : ∀ c, r.starts c = true → c ∈ cs) : Fails r i := by
  cases i with
  | nil => exact Fails.nil hn
  | cons c t =>
    refine Fails.cons hn ?_
    cases hc : r.starts c with
    | false => rfl
    | true => exact absurd (hs c hc) (h c t rfl)

theorem starts_ch {c d : Char} : (Re.ch d).starts c = true ↔ c = d := by
  simp only [Re.ch, Re.starts]; exact inCls_ch

theorem wsNewline_fwd {w i : Str} (hw : Spaces w) (hi : Avoids (lit% " \t\n\r") i) (st : PState) :
    wsNewline st (w ++ i) = .ok (st, .done i w) := by
  refine (prefixFree_space.chain (g := true) ((lang_wsNewline w).mpr hw) ?_).det.re st
  refine hi.fails (by decide) ?_
  intro c hc
  simp only [Re.alts, Re.lit, Re.starts, Bool.or_eq_true, starts_ch, Re.ch, inCls_ch, Bool.and_eq_true] at hc
  rcases hc with rfl | rfl | rfl | rfl | hc <;> simp_all [Re.nullable]

theorem Blank.lang {w : Str} (h : Blank w) : Lang Rx.ws w := by
  induction w with
  | nil => exact .nil
  | cons c w ih =>
    have := Lang.cons (r := .alt (Re.ch ' ') (Re.ch '\t')) (g := true) (s := [c]) (t := w) (by simp) (by
      rcases h c (by simp) with rfl | rfl
      · exact .altl (.ch _)
      · exact .altr (.ch _)) (ih fun x hx => h x (by simp [hx]))
    exact this

theorem ws_fwd {w i : Str} (hw : Blank w) (hi : Avoids (lit% " \t") i) (st : PState) : ws st (w ++ i) = .ok (st, .done i w) := by
  have pf : PrefixFree (.alt (Re.ch ' ') (Re.ch '\t')) := PrefixFree.length 1 fun u hu => by
    rcases lang_alt hu with h | h <;> rw [lang_ch h] <;> rfl
  refine (pf.chain (g := true) hw.lang ?_).det.re st
  refine hi.fails (by decide) ?_
  intro c hc
  simp only [Re.starts, Bool.or_eq_true, Re.ch, inCls_ch] at hc
  rcases hc with rfl | rfl <;> simp

theorem CommentText.notEol {t : Str} (h : CommentText t) : ∀ c ∈ t, notEol c = true := by
  intro c hc
  rcases h c hc with rfl | ⟨h1, h2⟩
  · decide
  · simp [Tomllib.notEol, h1, h2]

theorem comment_fwd {t i : Str} (ht : CommentText t) (hi : ∀ c x, i = c :: x → notEol c = false) (st : PState) :
    comment st (remark t ++ i) = .ok (st, .done i t) := by
  have h1 : P.tag (lit% "#") st (remark t ++ i) = .ok (st, .done (t ++ i) (lit% "#")) := tag_append (lit% "#")
  simp only [comment, bind_eq]
  rw [bind_done h1]
  have : (t ++ i).takeWhile notEol = t ∧ (t ++ i).dropWhile notEol = i := by
    replace ht := ht.notEol
    clear h1
    induction t with
    | nil =>
      cases i with
      | nil => simp
      | cons c x => simp [hi c x rfl]
    | cons c t ih => simp [ht c (by simp), ih (fun x hx => ht x (by simp [hx]))]
  simp [P.takeWhile, this.1, this.2]

theorem Broken.spaces {s : Str} (h : Broken s) : Spaces s := by
  obtain ⟨w, h1, rfl | rfl⟩ := h
  · exact .cons .lf h1
  · exact .cons .crlf h1

theorem Broken.eol {s : Str} (h : Broken s) {i : Str} : ∀ c x, s ++ i = c :: x → notEol c = false := by
  obtain ⟨w, h1, rfl | rfl⟩ := h <;> (intro c x e; simp at e; rw [← e.1]; decide)

theorem Broken.length {s : Str} (h : Broken s) : 0 < s.length := by
  obtain ⟨w, h1, rfl | rfl⟩ := h <;> simp

/-- One comment with what is around it. -/
theorem commentOrNl_comment {pre t nls i : Str} (h1 : Spaces pre) (h2 : CommentText t) (h3 : Broken nls) (hi : Avoids (lit% " \t\n\r") i) (st : PState) :
    commentOrNl st (pre ++ (remark t ++ (nls ++ i))) = .ok (st, .done i (.comment pre t nls)) := by
  have : commentNl st (pre ++ (remark t ++ (nls ++ i))) = .ok (st, .done i (.comment pre t nls)) := by
    simp only [commentNl, bind_eq]
    rw [bind_done (wsNewline_fwd h1 (by intro c x e; simp [remark] at e; rw [← e.1]; decide) st),
      bind_done (comment_fwd h2 h3.eol st), bind_done (wsNewline_fwd h3.spaces hi st)]
    rfl
  exact alt_done (complete_done this)

/-- Blanks and line breaks without a comment. -/
theorem commentOrNl_spaces {w i : Str} (h1 : Spaces w) (hi : Avoids (lit% " \t\n\r#") i) (st : PState) :
    commentOrNl st (w ++ i) = .ok (st, .done i (.newlines w)) := by
  have hi' : Avoids (lit% " \t\n\r") i := fun c t e hc => hi c t e (by simp at hc ⊢; grind)
  have hw := wsNewline_fwd h1 hi' st
  have hc : P.complete commentNl st (w ++ i) = .ok (st, .err) := by
    have : ∃ o, (o = .err ∨ o = .inc) ∧ comment st i = .ok (st, o) := by
      simp only [comment, bind_eq]
      cases i with
      | nil => exact ⟨.inc, .inr rfl, bind_inc tag_nil⟩
      | cons c t =>
        have : c ≠ '#' := fun e => hi c t rfl (by rw [e]; decide)
        exact ⟨.err, .inl rfl, bind_err (tag1_ne this (by decide))⟩
    obtain ⟨o, ho, h⟩ := this
    simp only [commentNl, bind_eq, P.complete]
    rw [bind_done hw]
    rcases ho with rfl | rfl
    · rw [bind_err h]
    · rw [bind_inc h]
  unfold commentOrNl
  rw [alt_err hc]
  simp only [P.mapP]
  rw [bind_done (complete_done hw)]
  rfl

theorem more_avoids {cs : List CNL} (h : MoreComments cs) {i : Str} (hi : Avoids (lit% " \t\n\r#") i) : Avoids (lit% " \t\n\r") (gapText cs ++ i) := by
  cases cs with
  | nil => intro c t e hc; exact hi c t e (by simp at hc ⊢; grind)
  | cons a cs =>
    cases a with
    | newlines w => exact absurd h (by simp [MoreComments])
    | comment pre t nls =>
      obtain ⟨rfl, _⟩ := h
      intro c x e
      simp [gapText, CNL.text, remark] at e
      rw [← e.1]; decide

theorem moreComments_fwd {i : Str} (hi : Avoids (lit% " \t\n\r#") i) (st : PState) : ∀ (cs : List CNL), MoreComments cs → ∀ n acc,
    (gapText cs ++ i).length < n → P.many1Loop commentOrNl n acc st (gapText cs ++ i) = .ok (st, .done i (acc ++ cs)) := by
  intro cs
  induction cs with
  | nil =>
    intro _ n acc hn
    cases n with
    | zero => omega
    | succ n =>
      unfold P.many1Loop
      by_cases he : i = []
      · subst he; simp [gapText]
      · have := commentOrNl_spaces (w := []) .nil hi st
        simp only [List.nil_append] at this
        simp [gapText, he, this]
  | cons a cs ih =>
    intro h n acc hn
    cases a with
    | newlines w => exact absurd h (by simp [MoreComments])
    | comment pre t nls =>
      obtain ⟨rfl, h1, h2, h3⟩ := h
      cases n with
      | zero => omega
      | succ n =>
        unfold P.many1Loop
        have hc := commentOrNl_comment (pre := []) .nil h1 h2 (more_avoids h3 hi) st
        have e : gapText (.comment [] t nls :: cs) ++ i = [] ++ (remark t ++ (nls ++ (gapText cs ++ i))) := by simp [gapText, CNL.text]
        rw [e, if_neg (by simp [remark]), hc]
        dsimp only
        have hl : (gapText cs ++ i).length < ([] ++ (remark t ++ (nls ++ (gapText cs ++ i)))).length := by
          have := h2.length
          simp; omega
        rw [e] at hn
        rw [if_neg (by omega), ih h3 n _ (by omega)]
        simp

theorem gap_fwd {cs : List CNL} (h : Gap cs) {i : Str} (hi : Avoids (lit% " \t\n\r#") i) (st : PState) :
    commentOrNls st (gapText cs ++ i) = .ok (st, .done i cs) := by
  unfold commentOrNls P.many1
  match cs, h with
  | [.newlines w], h =>
    have := commentOrNl_spaces (w := w) h hi st
    simp only [gapText, CNL.text, List.append_nil]
    rw [bind_done this]
    have := moreComments_fwd hi st [] trivial (i.length + 1) [.newlines w] (by simp [gapText])
    simpa [gapText] using this
  | .comment pre t nls :: cs, ⟨h1, h2, h3, h4⟩ =>
    have hc := commentOrNl_comment h1 h2 h3 (more_avoids h4 hi) st
    have e : gapText (.comment pre t nls :: cs) ++ i = pre ++ (remark t ++ (nls ++ (gapText cs ++ i))) := by simp [gapText, CNL.text]
    rw [e, bind_done hc]
    have := moreComments_fwd hi st cs h4 ((gapText cs ++ i).length + 1) [.comment pre t nls] (by omega)
    simpa using this

theorem spaces_head {w : Str} (h : Spaces w) : ∀ c t, w = c :: t → c ∈ lit% " \t\n\r" := by
  intro c t e
  cases h with
  | nil => simp at e
  | cons h1 _ => cases h1 <;> (simp at e; simp [← e.1])

/-- A gap that is not empty begins with one of these. -/
theorem gap_head {cs : List CNL} (h : Gap cs) : ∀ c t, gapText cs = c :: t → c ∈ lit% " \t\n\r#" := by
  intro c t e
  match cs, h with
  | [.newlines w], h =>
    simp [gapText, CNL.text] at e
    have := spaces_head h c t e
    simp at this ⊢; grind
  | .comment pre x nls :: cs, ⟨h1, h2, h3, h4⟩ =>
    cases pre with
    | nil => simp [gapText, CNL.text, remark] at e; simp [← e.1]
    | cons d pre =>
      simp [gapText, CNL.text] at e
      have := spaces_head h1 d pre rfl
      rw [e.1] at this
      simp at this ⊢; grind

/-! ## Separators -/

theorem sep_some {w : WSSep} (hw : w.wf) {i : Str} (hi : NoBlank i) (st : PState) :
    P.opt (P.complete arraySep) st (w.ws1 ++ lit% "," ++ w.ws2 ++ i) = .ok (st, .done i (some w)) := by
  refine opt_done (complete_done ?_)
  have h2 : P.tag (lit% ",") st (lit% "," ++ (w.ws2 ++ i)) = .ok (st, .done (w.ws2 ++ i) (lit% ",")) := tag_append _
  have e : w.ws1 ++ lit% "," ++ w.ws2 ++ i = w.ws1 ++ (lit% "," ++ (w.ws2 ++ i)) := by simp
  simp only [arraySep, bind_eq]
  rw [e, bind_done (ws_fwd hw.1 (by intro c t e; simp at e; rw [← e.1]; decide) st), bind_done h2, bind_done (ws_fwd hw.2 ?_ st)]
  · rfl
  · intro c t e hc
    simp at hc
    rcases hc with rfl | rfl
    · exact (hi t).1 e
    · exact (hi t).2 e

/-- No comma after blanks. -/
def NoComma (i : Str) : Prop := ∀ w x, Blank w → i ≠ w ++ ',' :: x

theorem sep_none {i : Str} (hi : NoComma i) (st : PState) : P.opt (P.complete arraySep) st i = .ok (st, .done i none) := by
  refine opt_err ?_
  obtain ⟨w, m, j, h1, rfl, rfl, hb⟩ := LexT.ws st i
  simp only [arraySep, bind_eq, P.complete]
  rw [bind_done h1]
  cases j with
  | nil => rw [bind_inc tag_nil]
  | cons c t =>
    have : c ≠ ',' := fun e => hi w t hb (by rw [e])
    rw [bind_err (tag1_ne this (by decide))]

theorem NoComma.of {w i : Str} (hi : ∀ c t, i = c :: t → c ∉ lit% " \t,") (hw : ∀ c ∈ w, c ≠ ',') : NoComma (w ++ i) := by
  intro b x hb e
  induction w generalizing b with
  | nil =>
    cases b with
    | nil => simp at e; exact hi _ _ e (by decide)
    | cons d b =>
      simp at e
      have := hb d (by simp)
      exact hi _ _ e (by rcases this with rfl | rfl <;> decide)
  | cons a w ih =>
    cases b with
    | nil => simp at e; exact hw a (by simp) e.1
    | cons d b =>
      simp at e
      exact ih (fun c hc => hw c (by simp [hc])) b (fun c hc => hb c (by simp [hc])) e.2

/-- After blanks of a gap no comma follows. -/
theorem gap_noComma {cs : List CNL} (h : Gap cs) {i : Str} (hi : ∀ c t, i = c :: t → c ∉ lit% " \t,") : NoComma (gapText cs ++ i) := by
  have hsp : ∀ w, Spaces w → ∀ c ∈ w, c ≠ ',' := by
    intro w hw
    induction hw with
    | nil => simp
    | cons h1 _ ih =>
      intro c hc
      rcases List.mem_append.mp hc with hc | hc
      · cases h1 <;> (simp at hc; grind)
      · exact ih c hc
  match cs, h with
  | [.newlines w], h =>
    simp only [gapText, CNL.text, List.append_nil]
    exact NoComma.of hi (hsp w h)
  | .comment pre x nls :: cs, ⟨h1, h2, h3, h4⟩ =>
    have e : gapText (.comment pre x nls :: cs) ++ i = pre ++ ('#' :: (x ++ nls ++ gapText cs ++ i)) := by simp [gapText, CNL.text, remark]
    rw [e]
    exact NoComma.of (by intro c t e; simp at e; rw [← e.1]; decide) (hsp pre h1)

/-- What a comma and a gap are read as. -/
theorem apart_fwd {sep : Option WSSep} {cn : List CNL} (h : Apart sep cn) {i : Str} (hi : Avoids (lit% " \t\n\r#,") i) (st : PState) :
    P.opt (P.complete arraySep) st (commaText sep ++ gapText cn ++ i) = .ok (st, .done (gapText cn ++ i) sep) ∧
    P.complete commentOrNls st (gapText cn ++ i) = .ok (st, .done i cn) := by
  obtain ⟨h1, h2, h3⟩ := h
  constructor
  · cases sep with
    | none =>
      simp only [commaText, List.nil_append]
      exact sep_none (gap_noComma h2 fun c t e hc => hi c t e (by simp at hc ⊢; grind)) st
    | some w =>
      have hb := h3 rfl
      simp only [commaText, List.append_assoc]
      have := sep_some (h1 w rfl) (i := gapText cn ++ i) (by
        intro x
        cases hc : gapText cn with
        | nil =>
          simp only [List.nil_append]
          exact ⟨fun e => hi _ _ e (by decide), fun e => hi _ _ e (by decide)⟩
        | cons d y =>
          rw [hc] at hb
          constructor
          · intro e; simp at e; exact (hb y).1 (by rw [e.1])
          · intro e; simp at e; exact (hb y).2 (by rw [e.1])) st
      simpa using this
  · exact complete_done (gap_fwd h2 (fun c t e hc => hi c t e (by simp at hc ⊢; grind)) st)

theorem apart_closes {sep : Option WSSep} {cn : List CNL} (h : Apart sep cn) {i : Str} (hi : Closes i ∨ sep.isSome ∨ gapText cn ≠ []) :
    Closes (commaText sep ++ gapText cn ++ i) := by
  intro c t e
  cases sep with
  | some w =>
    obtain ⟨h1, _⟩ := h
    have hw := (h1 w rfl).1
    cases hw1 : w.ws1 with
    | nil => simp [commaText, hw1] at e; simp [← e.1]
    | cons d x =>
      have := hw d (by simp [hw1])
      simp [commaText, hw1] at e
      rw [← e.1]; rcases this with rfl | rfl <;> decide
  | none =>
    cases hc : gapText cn with
    | cons d x =>
      have := gap_head h.2.1 d x hc
      simp [commaText, hc] at e
      rw [← e.1]
      simp at this ⊢; grind
    | nil =>
      simp [hc] at hi
      exact hi c t (by simpa [commaText, hc] using e)

/-! ## Keys -/

theorem key_fwd {k i : Str} (hk : KeyWf k) (hi : ∀ c t, i = c :: t → isKeychar c = false) (st : PState) :
    key st (k ++ i) = .ok (st.pushK k, .done i k) := by
  unfold key
  rcases hk with ⟨h1, h2⟩ | ⟨s, h1, h2, rfl⟩
  · have hq : P.complete (P.re Rx.quotedKey) st (k ++ i) = .ok (st, .err) := by
      cases k with
      | nil => simp at h1
      | cons c k =>
        refine complete_err (re_err (by decide) ?_)
        have hc := h2 c (by simp)
        cases hs : Rx.quotedKey.starts c with
        | false => rfl
        | true =>
          have : c = '"' := inCls_ch.mp (by simpa [Rx.quotedKey, Re.seqs, Re.starts, Re.ch, Re.nullable] using hs)
          subst this; revert hc; decide
    simp only [bind_eq]
    rw [alt_err (bind_err hq)]
    have : (k ++ i).takeWhile isKeychar = k ∧ (k ++ i).dropWhile isKeychar = i := by
      clear hq h1
      induction k with
      | nil =>
        cases i with
        | nil => simp
        | cons c t => simp [hi c t rfl]
      | cons c k ih => simp [(isKeychar_eq c).trans (h2 c (by simp)), ih fun x hx => h2 x (by simp [hx])]
    have ht : P.complete (P.takeWhile1 isKeychar) st (k ++ i) = .ok (st, .done i k) := by
      apply complete_done
      simp [P.takeWhile1, this.1, this.2, h1]
    rw [bind_done ht]
    rfl
  · have hd : Det Rx.quotedKey (lit% "\"" ++ s ++ lit% "\"") i := by
      cases h2 with
      | nil => simp at h1
      | @cons u v hu hv =>
        have : Det Rx.quotedKey (['"'] ++ ((u ++ v) ++ ['"'])) i := by
          refine Det.seq (Det.ch _ _) (Det.seq (Det.seq (prefixFree_basic.det ((lang_basicItem u).mpr hu) _) ?_) (Det.ch _ _))
          exact (prefixFree_basic.chain (g := true) ((lang_basics v).mpr hv) (Fails.cons (by decide) (by decide))).det
        simpa using this
    simp only [bind_eq]
    refine alt_done ?_
    rw [bind_done (complete_done (hd.re st))]
    rfl

theorem keyvalSep_fwd {s : WSSep} (hs : s.wf) {i : Str} (hi : Avoids (lit% " \t") i) (st : PState) :
    keyvalSep st (s.ws1 ++ lit% "=" ++ s.ws2 ++ i) = .ok (st, .done i s) := by
  have h2 : P.tag (lit% "=") st (lit% "=" ++ (s.ws2 ++ i)) = .ok (st, .done (s.ws2 ++ i) (lit% "=")) := tag_append _
  have e : s.ws1 ++ lit% "=" ++ s.ws2 ++ i = s.ws1 ++ (lit% "=" ++ (s.ws2 ++ i)) := by simp
  simp only [keyvalSep, bind_eq]
  rw [e, bind_done (ws_fwd hs.1 (by intro c t e; simp at e; rw [← e.1]; decide) st), bind_done h2, bind_done (ws_fwd hs.2 hi st)]
  rfl

/-- What follows a key: blanks or an equals sign, not a key character. -/
theorem sep_nokey {s : WSSep} (hs : s.wf) {i : Str} : ∀ c t, s.ws1 ++ lit% "=" ++ s.ws2 ++ i = c :: t → isKeychar c = false := by
  intro c t e
  cases h : s.ws1 with
  | nil => simp [h] at e; rw [← e.1]; decide
  | cons d x =>
    have := hs.1 d (by simp [h])
    simp [h] at e
    rw [← e.1]; rcases this with rfl | rfl <;> decide

/-! ## Values -/

/-- What the text of a value begins with. -/
theorem Scalar.strict.head {s : Scalar} (h : s.strict) : ∃ c t, s.text = c :: t ∧ c ∉ lit% " \t\n\r#,]}[{" := by
  have hre : ∀ {r : Re} {x : Str}, Lang r x → r.nullable = false → (∀ c ∈ lit% " \t\n\r#,]}[{", r.starts c = false) →
      ∃ c t, x = c :: t ∧ c ∉ lit% " \t\n\r#,]}[{" := by
    intro r x h hn h1
    cases x with
    | nil => have := h.nullable rfl; simp [hn] at this
    | cons c t =>
      refine ⟨c, t, rfl, fun hc => ?_⟩
      have := h.starts c t rfl
      rw [h1 c hc] at this; simp at this
  have hw := h.wf
  cases s with
  | int s => exact hre (r := Rx.integer) ((lang_integer _).mpr hw) (by decide) (by decide)
  | float s => exact hre (r := Rx.float) ((lang_float_iff _).mpr hw) (by decide) (by decide)
  | bool b => cases b <;> exact ⟨_, _, rfl, by decide⟩
  | dt d =>
    obtain ⟨y, x, ⟨h1, h2⟩, h3⟩ := shape_disp hw
    cases y with
    | nil => simp at h1
    | cons c y =>
      refine ⟨c, y ++ '-' :: x, by simp [Scalar.text, h3], ?_⟩
      have := h2 c (by simp)
      simp only [List.mem_cons, List.not_mem_nil, or_false]
      rintro (rfl | rfl | rfl | rfl | rfl | rfl | rfl | rfl | rfl | rfl) <;> revert this <;> decide
  | str x t => cases t <;> exact ⟨_, _, rfl, by decide⟩

theorem VT.strict.head {t : VT} (h : t.strict) : ∃ c s, t.text = c :: s ∧ c ∉ lit% " \t\n\r#,]}" := by
  cases t with
  | leaf s =>
    obtain ⟨c, x, h1, h2⟩ := Scalar.strict.head (s := s) (by simpa [VT.strict] using h)
    exact ⟨c, x, h1, fun hc => h2 (by simp at hc ⊢; grind)⟩
  | arr es c1 c2 => exact ⟨_, _, by rw [VT.text]; rfl, by decide⟩
  | itab kvs ws => exact ⟨_, _, by rw [VT.text]; rfl, by decide⟩

/-- A parser of values on the text of a value. -/
def FwdV (pval : P Addr) (t : VT) : Prop := ∀ st r, Closes r →
  pval st (t.text ++ r) = (t.eff st).bind fun st' => .ok (st', .done r (t.addr st.heap.length))

theorem scalarVal_close {c : Char} {i : Str} (h : c = ']' ∨ c = '}') (st : PState) : scalarVal st (c :: i) = .ok (st, .err) := by
  rcases ScASpec.scalarVal st (c :: i) with ⟨s, r, h1, h2, _⟩ | h'
  · obtain ⟨d, u, f1, _, _, f2, f3, _⟩ := Scalar.text_cons h1
    rw [f1] at h2
    simp at h2
    rcases h with rfl | rfl
    · exact absurd h2.1.symm f2
    · exact absurd h2.1.symm f3
  · exact h'

theorem val_close {n : Nat} (hn : 0 < n) {i : Str} (st : PState) : valFuel n st (']' :: i) = .ok (st, .err) := by
  cases n with
  | zero => omega
  | succ n =>
    simp only [valFuel]
    rw [valStep_eq, alt_err (bind_err (array_none (valFuel n) st (by simp))), alt_err (bind_err (inlineTable_none (valFuel n) st (by simp)))]
    exact scalarVal_close (.inl rfl) st

theorem Elems.head_avoids {es : Elems} (h : es.strict) {i : Str} (hi : Avoids (lit% " \t\n\r#,") i) : Avoids (lit% " \t\n\r#,") (es.text ++ i) := by
  cases es with
  | nil => simpa [Elems.text] using hi
  | cons v sep cn r =>
    rw [Elems.strict] at h
    obtain ⟨c, s, h1, h2⟩ := h.1.head
    intro d t e hd
    simp [Elems.text, h1] at e
    rw [← e.1] at hd
    exact h2 (by simp at hd ⊢; grind)

theorem KeyWf.head {k : Str} (h : KeyWf k) : ∃ c t, k = c :: t ∧ c ∉ lit% " \t\n\r#,]}[{" := by
  obtain ⟨c, t, h1, h2⟩ := KeyWf.cons h
  refine ⟨c, t, h1, ?_⟩
  simp only [List.mem_cons, List.not_mem_nil, or_false]
  rcases h2 with h2 | rfl
  · rintro (rfl | rfl | rfl | rfl | rfl | rfl | rfl | rfl | rfl | rfl) <;> revert h2 <;> decide
  · decide

theorem Pairs.head_avoids {es : Pairs} (h : es.strict) {i : Str} (hi : Avoids (lit% " \t\n\r#,") i) : Avoids (lit% " \t\n\r#,") (es.text ++ i) := by
  cases es with
  | nil => simpa [Pairs.text] using hi
  | cons k ws v sep cn r =>
    rw [Pairs.strict] at h
    obtain ⟨c, s, h1, h2⟩ := h.1.head
    intro d t e hd
    simp [Pairs.text, h1] at e
    rw [← e.1] at hd
    exact h2 (by simp at hd ⊢; grind)

/-- The element and what is up to the next one. -/
theorem arrayValue_fwd {pval : P Addr} {v : VT} (hv : FwdV pval v) {sep : Option WSSep} {cn : List CNL} (ha : Apart sep cn) {i : Str}
    (hi : Avoids (lit% " \t\n\r#,") i) (hc : Closes i ∨ sep.isSome ∨ gapText cn ≠ []) (st : PState) :
    arrayValue pval st (v.text ++ commaText sep ++ gapText cn ++ i) =
      (v.eff st).bind fun st1 => (arrayValueAct (st1.heap.length - 1) st1).bind fun st2 => .ok (st2, .done i ⟨v.addr st.heap.length, sep, cn⟩) := by
  have h1 := hv st _ (apart_closes ha hc)
  have e : v.text ++ commaText sep ++ gapText cn ++ i = v.text ++ (commaText sep ++ gapText cn ++ i) := by simp
  rw [e]
  simp only [arrayValue, bind_eq]
  rcases Out.cases' (v.eff st) with ⟨st1, he⟩ | ⟨e, he⟩
  · rw [he] at h1 ⊢
    obtain ⟨g1, g2⟩ := apart_fwd ha hi st1
    rw [bind_done h1, bind_done g1, bind_done g2]
    simp only [P.act, Out.ok_bind, VT.eff_addr he]
    cases arrayValueAct (v.addr st.heap.length) st1 <;> rfl
  · rw [he, Abort.bind] at h1 ⊢
    exact bind_abort h1

theorem keyval_fwd {pval : P Addr} {v : VT} (hv : FwdV pval v) (hs : v.strict) {k : Str} (hk : KeyWf k) {ws : WSSep} (hw : ws.wf) {i : Str}
    (hi : Closes i) (st : PState) :
    keyval pval st (k ++ ws.ws1 ++ lit% "=" ++ ws.ws2 ++ v.text ++ i) =
      (v.eff (st.pushK k)).bind fun st1 => (keyvalAct k (st1.heap.length - 1) st1).bind fun st2 => .ok (st2, .done i ⟨k, ws, v.addr st.heap.length⟩) := by
  have e : k ++ ws.ws1 ++ lit% "=" ++ ws.ws2 ++ v.text ++ i = k ++ (ws.ws1 ++ lit% "=" ++ ws.ws2 ++ (v.text ++ i)) := by simp
  have hb : Avoids (lit% " \t") (v.text ++ i) := by
    obtain ⟨c, s, h1, h2⟩ := hs.head
    intro d t e hd
    simp [h1] at e
    rw [← e.1] at hd
    exact h2 (by simp at hd ⊢; grind)
  have h1 := hv (st.pushK k) i hi
  rw [e]
  simp only [keyval, bind_eq]
  rw [bind_done (key_fwd hk (sep_nokey hw) st), bind_done (keyvalSep_fwd hw hb (st.pushK k))]
  have hp : (st.pushK k).heap.length = st.heap.length := rfl
  rcases Out.cases' (v.eff (st.pushK k)) with ⟨st1, he⟩ | ⟨e, he⟩
  · rw [he] at h1 ⊢
    rw [bind_done h1]
    simp only [P.act, Out.ok_bind, VT.eff_addr he, hp]
    cases keyvalAct k (v.addr st.heap.length) st1 <;> rfl
  · rw [he, Abort.bind] at h1 ⊢
    exact bind_abort h1

theorem tableKeyval_fwd {pval : P Addr} {v : VT} (hv : FwdV pval v) (hs : v.strict) {k : Str} (hk : KeyWf k) {ws : WSSep} (hw : ws.wf)
    {sep : Option WSSep} {cn : List CNL} (ha : Apart sep cn) {i : Str}
    (hi : Avoids (lit% " \t\n\r#,") i) (hc : Closes i ∨ sep.isSome ∨ gapText cn ≠ []) (st : PState) :
    tableKeyval pval st (k ++ ws.ws1 ++ lit% "=" ++ ws.ws2 ++ v.text ++ commaText sep ++ gapText cn ++ i) =
      (v.eff (st.pushK k)).bind fun st1 => (keyvalAct k (st1.heap.length - 1) st1).bind fun st2 =>
        .ok (st2, .done i ⟨⟨k, ws, v.addr st.heap.length⟩, sep, cn⟩) := by
  have h1 := keyval_fwd hv hs hk hw (apart_closes ha hc) st
  have e : k ++ ws.ws1 ++ lit% "=" ++ ws.ws2 ++ v.text ++ commaText sep ++ gapText cn ++ i =
    k ++ ws.ws1 ++ lit% "=" ++ ws.ws2 ++ v.text ++ (commaText sep ++ gapText cn ++ i) := by simp
  rw [e]
  simp only [tableKeyval, bind_eq]
  rcases Out.cases' (v.eff (st.pushK k)) with ⟨st1, he⟩ | ⟨e, he⟩
  · rw [he] at h1 ⊢
    simp only [Out.ok_bind] at h1 ⊢
    rcases Out.cases' (keyvalAct k (st1.heap.length - 1) st1) with ⟨st2, he2⟩ | ⟨e, he2⟩
    · rw [he2] at h1 ⊢
      obtain ⟨g1, g2⟩ := apart_fwd ha hi st2
      rw [bind_done h1, bind_done g1, bind_done g2]
      rfl
    · rw [he2, Abort.bind] at h1 ⊢
      exact bind_abort h1
  · rw [he, Abort.bind] at h1 ⊢
    exact bind_abort h1

theorem close_avoids (i : Str) : Avoids (lit% " \t\n\r#,") (']' :: i) ∧ Avoids (lit% " \t\n\r#,") ('}' :: i) := by
  constructor <;> (intro c t e; simp at e; rw [← e.1]; decide)

theorem close_closes (i : Str) : Closes (']' :: i) ∧ Closes ('}' :: i) := by
  constructor <;> (intro c t e; simp at e; rw [← e.1]; decide)

theorem gap_nil : Gap [.newlines []] := Pieces.nil

theorem Avoids.sub {a b i : Str} (h : Avoids a i) (hs : ∀ c ∈ b, c ∈ a := by decide) : Avoids b i := fun c t e hc => h c t e (hs c hc)

theorem array_fwd {pval : P Addr} {es : Elems} {c1 : List CNL} (h1 : Gap c1) (h2 : es.strict) {r : Str} (st : PState)
    (hl : ∀ m acc st, (es.text ++ ']' :: r).length < m → P.many0Loop (arrayValue pval) m acc st (es.text ++ ']' :: r) =
      (es.eff st).bind fun st' => .ok (st', .done (']' :: r) (acc ++ es.avs st.heap.length))) :
    P.complete (array pval) st ((VT.arr es c1 [.newlines []]).text ++ r) =
      (es.eff st.openArr).bind fun st' => .ok (st'.closeArr, .done r (.arr (es.avs st.heap.length) c1 [.newlines []])) := by
  have e : (VT.arr es c1 [.newlines []]).text ++ r = lit% "[" ++ (gapText c1 ++ (es.text ++ ']' :: r)) := by simp [VT.text, gapText, CNL.text]
  have htag : P.tag (lit% "[") st.openArr (lit% "[" ++ (gapText c1 ++ (es.text ++ ']' :: r))) =
    .ok (st.openArr, .done (gapText c1 ++ (es.text ++ ']' :: r)) (lit% "[")) := tag_append _
  have hg := gap_fwd h1 ((Elems.head_avoids h2 (close_avoids r).1).sub) st.openArr
  have hm := hl _ [] st.openArr (Nat.lt_succ_self _)
  rw [e]
  have key : arrayInternal pval st.openArr (lit% "[" ++ (gapText c1 ++ (es.text ++ ']' :: r))) =
      (es.eff st.openArr).bind fun st' => .ok (st', .done r (.arr (es.avs st.heap.length) c1 [.newlines []])) := by
    simp only [arrayInternal, bind_eq]
    rw [bind_done htag, bind_done hg]
    rcases Out.cases' (es.eff st.openArr) with ⟨st1, he⟩ | ⟨e, he⟩
    · rw [he] at hm ⊢
      simp only [Out.ok_bind] at hm ⊢
      have hm' : arrayValues pval st.openArr (es.text ++ ']' :: r) = .ok (st1, .done (']' :: r) (es.avs st.heap.length)) := by
        simpa [arrayValues, P.many0, PState.openArr] using hm
      have hg2 := gap_fwd gap_nil ((close_avoids r).1.sub) st1
      simp only [gapText, CNL.text, List.append_nil, List.nil_append] at hg2
      have ht : P.tag (lit% "]") st1 (']' :: r) = .ok (st1, .done r (lit% "]")) := tag_append (lit% "]")
      rw [bind_done hm', bind_done hg2, bind_done ht]
      rfl
    · rw [he, Abort.bind] at hm ⊢
      exact bind_abort hm
  have harr : array pval st (lit% "[" ++ (gapText c1 ++ (es.text ++ ']' :: r))) =
      (es.eff st.openArr).bind fun st' => .ok (st'.closeArr, .done r (.arr (es.avs st.heap.length) c1 [.newlines []])) := by
    simp only [array]
    change (match arrayInternal pval st.openArr _ with | .ok (st', r) => _ | .panic x => _ | .fuel => _) = _
    rw [key]
    cases es.eff st.openArr <;> rfl
  rcases Out.cases' (es.eff st.openArr) with ⟨st1, he⟩ | ⟨e, he⟩
  · rw [he] at harr ⊢
    exact complete_done harr
  · rw [he, Abort.bind] at harr ⊢
    exact complete_abort harr

theorem inlineTable_fwd {pval : P Addr} {kvs : Pairs} {w : Str} (h1 : Blank w) (h2 : kvs.strict) {r : Str} (st : PState)
    (hl : ∀ m acc st, (kvs.text ++ '}' :: r).length < m → P.many0Loop (tableKeyval pval) m acc st (kvs.text ++ '}' :: r) =
      (kvs.eff st).bind fun st' => .ok (st', .done ('}' :: r) (acc ++ kvs.tkvs st.heap.length))) :
    P.complete (inlineTable pval) st ((VT.itab kvs ⟨w, []⟩).text ++ r) =
      (kvs.eff st).bind fun st' => .ok (st', .done r (.itab (kvs.tkvs st.heap.length) ⟨w, []⟩)) := by
  have e : (VT.itab kvs ⟨w, []⟩).text ++ r = lit% "{" ++ (w ++ (kvs.text ++ '}' :: r)) := by simp [VT.text]
  have htag : P.tag (lit% "{") st (lit% "{" ++ (w ++ (kvs.text ++ '}' :: r))) =
    .ok (st, .done (w ++ (kvs.text ++ '}' :: r)) (lit% "{")) := tag_append _
  have hw := ws_fwd h1 ((Pairs.head_avoids h2 (close_avoids r).2).sub) st
  have hm := hl _ [] st (Nat.lt_succ_self _)
  rw [e]
  simp only [inlineTable, bind_eq]
  rcases Out.cases' (kvs.eff st) with ⟨st1, he⟩ | ⟨e, he⟩
  · rw [he] at hm ⊢
    simp only [Out.ok_bind, List.nil_append] at hm ⊢
    have hw2 := ws_fwd (w := []) (by simp [Blank]) ((close_avoids r).2.sub) st1
    have ht : P.tag (lit% "}") st1 ('}' :: r) = .ok (st1, .done r (lit% "}")) := tag_append (lit% "}")
    apply complete_done
    rw [bind_done htag, bind_done hw, bind_done (opt_done (complete_done (p := P.many0 (tableKeyval pval)) hm))]
    simp only [List.nil_append] at hw2
    rw [bind_done hw2, bind_done ht]
    rfl
  · rw [he, Abort.bind] at hm ⊢
    apply complete_abort
    rw [bind_done htag, bind_done hw]
    exact bind_abort (opt_abort (complete_abort (p := P.many0 (tableKeyval pval)) hm))

mutual
theorem VT.fwd : ∀ (t : VT), t.strict → ∀ n, t.text.length < n → FwdV (valFuel n) t
  | .leaf s, h, n, hn => by
    intro st r hr
    rw [VT.strict] at h
    cases n with
    | zero => omega
    | succ n =>
      obtain ⟨c, x, h1, h2⟩ := h.head
      simp only [VT.text, valFuel]
      rw [valStep_eq, alt_err (bind_err (array_none (valFuel n) st ?_)), alt_err (bind_err (inlineTable_none (valFuel n) st ?_))]
      · exact scalarVal_fwd h hr st
      · intro j e; rw [h1] at e; simp at e; exact h2 (by rw [e.1]; decide)
      · intro j e; rw [h1] at e; simp at e; exact h2 (by rw [e.1]; decide)
  | .arr es c1 c2, h, n, hn => by
    intro st r hr
    rw [VT.strict] at h
    obtain ⟨h1, h2, rfl⟩ := h
    cases n with
    | zero => omega
    | succ n =>
      have hlen : es.text.length < n := by simp [VT.text] at hn; omega
      have ha := array_fwd h1 h2 (r := r) st (fun m acc st hm => Elems.fwd es h2 n hlen m acc st r hm)
      simp only [valFuel]
      rw [valStep_eq]
      rcases Out.cases' (es.eff st.openArr) with ⟨st1, he⟩ | ⟨e, he⟩
      · rw [he] at ha
        simp only [Out.ok_bind] at ha
        refine (alt_done (r := r) (a := (VT.arr es c1 [.newlines []]).addr st.heap.length)
          (st' := st1.closeArr.cell (.arr (es.avs st.heap.length) c1 [.newlines []])) ?_).trans ?_
        · rw [bind_done ha]
          have := Elems.eff_heap _ _ _ he
          simp [alloc, P.act, PState.cell, VT.addr, VT.size, PState.closeArr, this, Elems.cells_length, PState.openArr]
        · simp [VT.eff, he]
      · rw [he, Abort.bind] at ha
        rw [alt_abort (bind_abort ha)]
        simp [VT.eff, he]
  | .itab kvs ws, h, n, hn => by
    intro st r hr
    rw [VT.strict] at h
    obtain ⟨h1, h2, h3⟩ := h
    obtain ⟨w, w2⟩ := ws
    simp only at h3
    subst h3
    cases n with
    | zero => omega
    | succ n =>
      have hlen : kvs.text.length < n := by simp [VT.text] at hn; omega
      have ha := inlineTable_fwd h1 h2 (r := r) st (fun m acc st hm => Pairs.fwd kvs h2 n hlen m acc st r hm)
      simp only [valFuel]
      rw [valStep_eq, alt_err (bind_err (array_none (valFuel n) st (by simp [VT.text])))]
      rcases Out.cases' (kvs.eff st) with ⟨st1, he⟩ | ⟨e, he⟩
      · rw [he] at ha
        simp only [Out.ok_bind] at ha
        refine (alt_done (r := r) (a := (VT.itab kvs ⟨w, []⟩).addr st.heap.length)
          (st' := st1.cell (.itab (kvs.tkvs st.heap.length) ⟨w, []⟩)) ?_).trans ?_
        · rw [bind_done ha]
          have := Pairs.eff_heap _ _ _ he
          simp [alloc, P.act, PState.cell, VT.addr, VT.size, this, Pairs.cells_length]
        · simp [VT.eff, he]
      · rw [he, Abort.bind] at ha
        rw [alt_abort (bind_abort ha)]
        simp [VT.eff, he]
theorem Elems.fwd : ∀ (es : Elems), es.strict → ∀ n, es.text.length < n → ∀ m acc st r, (es.text ++ ']' :: r).length < m →
    P.many0Loop (arrayValue (valFuel n)) m acc st (es.text ++ ']' :: r) =
      (es.eff st).bind fun st' => .ok (st', .done (']' :: r) (acc ++ es.avs st.heap.length))
  | .nil, _, n, hn, m, acc, st, r, hm => by
    cases m with
    | zero => omega
    | succ m =>
      have : arrayValue (valFuel n) st (']' :: r) = .ok (st, .err) := by
        simp only [arrayValue, bind_eq]
        exact bind_err (val_close (by omega) st)
      simp [P.many0Loop, Elems.text, this, Elems.eff, Elems.avs]
  | .cons v sep cn es, h, n, hn, m, acc, st, r, hm => by
    rw [Elems.strict] at h
    obtain ⟨h1, h2, h3, h4⟩ := h
    cases m with
    | zero => omega
    | succ m =>
      obtain ⟨c, x, hx, _⟩ := h1.head
      have hlv : v.text.length < n := by simp [Elems.text] at hn; omega
      have hle : es.text.length < n := by simp [Elems.text] at hn; omega
      have hc : Closes (es.text ++ ']' :: r) ∨ sep.isSome ∨ gapText cn ≠ [] := by
        cases es with
        | nil => left; simpa [Elems.text] using (close_closes r).1
        | cons v' s' c' e' => exact .inr (h3 (by simp))
      have ha := arrayValue_fwd (VT.fwd v h1 n hlv) h2 (Elems.head_avoids h4 (close_avoids r).1) hc st
      have e : (Elems.cons v sep cn es).text ++ ']' :: r = v.text ++ commaText sep ++ gapText cn ++ (es.text ++ ']' :: r) := by simp [Elems.text]
      unfold P.many0Loop
      rw [e, if_neg (by simp [hx]), ha, Elems.eff]
      rcases Out.cases' (v.eff st) with ⟨st1, he⟩ | ⟨e, he⟩
      · rw [he]
        simp only [Out.ok_bind]
        rcases Out.cases' (arrayValueAct (st1.heap.length - 1) st1) with ⟨st2, he2⟩ | ⟨e, he2⟩
        · rw [he2]
          simp only [Out.ok_bind]
          rw [if_neg (by simp [hx]; omega)]
          rw [e] at hm
          rw [Elems.fwd es h4 n hle m _ st2 r (by simp [hx] at hm ⊢; omega)]
          have hh : st2.heap.length = st.heap.length + v.size := by
            rw [arrayValueAct_heap he2, VT.eff_length he]
          simp [Elems.avs, hh]
        · rw [he2]; cases e <;> rfl
      · rw [he]; cases e <;> rfl
theorem Pairs.fwd : ∀ (kvs : Pairs), kvs.strict → ∀ n, kvs.text.length < n → ∀ m acc st r, (kvs.text ++ '}' :: r).length < m →
    P.many0Loop (tableKeyval (valFuel n)) m acc st (kvs.text ++ '}' :: r) =
      (kvs.eff st).bind fun st' => .ok (st', .done ('}' :: r) (acc ++ kvs.tkvs st.heap.length))
  | .nil, _, n, hn, m, acc, st, r, hm => by
    cases m with
    | zero => omega
    | succ m =>
      have : tableKeyval (valFuel n) st ('}' :: r) = .ok (st, .err) := by
        simp only [tableKeyval, keyval, bind_eq]
        exact bind_err (bind_err (key_none (by decide) (by decide)))
      simp [P.many0Loop, Pairs.text, this, Pairs.eff, Pairs.tkvs]
  | .cons k ws v sep cn es, h, n, hn, m, acc, st, r, hm => by
    rw [Pairs.strict] at h
    obtain ⟨hk, hw, h1, h2, h3, h4⟩ := h
    cases m with
    | zero => omega
    | succ m =>
      obtain ⟨c, x, hx, _⟩ := hk.head
      have hlv : v.text.length < n := by simp [Pairs.text] at hn; omega
      have hle : es.text.length < n := by simp [Pairs.text] at hn; omega
      have hc : Closes (es.text ++ '}' :: r) ∨ sep.isSome ∨ gapText cn ≠ [] := by
        cases es with
        | nil => left; simpa [Pairs.text] using (close_closes r).2
        | cons _ _ v' s' c' e' => exact .inr (h3 (by simp))
      have ha := tableKeyval_fwd (VT.fwd v h1 n hlv) h1 hk hw h2 (Pairs.head_avoids h4 (close_avoids r).2) hc st
      have e : (Pairs.cons k ws v sep cn es).text ++ '}' :: r =
        k ++ ws.ws1 ++ lit% "=" ++ ws.ws2 ++ v.text ++ commaText sep ++ gapText cn ++ (es.text ++ '}' :: r) := by simp [Pairs.text]
      unfold P.many0Loop
      rw [e, if_neg (by simp), ha, Pairs.eff]
      rcases Out.cases' (v.eff (st.pushK k)) with ⟨st1, he⟩ | ⟨e, he⟩
      · rw [he]
        simp only [Out.ok_bind]
        rcases Out.cases' (keyvalAct k (st1.heap.length - 1) st1) with ⟨st2, he2⟩ | ⟨e, he2⟩
        · rw [he2]
          simp only [Out.ok_bind]
          rw [if_neg (by simp; omega)]
          rw [e] at hm
          rw [Pairs.fwd es h4 n hle m _ st2 r (by simp at hm ⊢; omega)]
          have hh : st2.heap.length = st.heap.length + v.size := by
            rw [keyvalAct_heap he2, VT.eff_length he]; rfl
          simp [Pairs.tkvs, hh]
        · rw [he2]; cases e <;> rfl
      · rw [he]; cases e <;> rfl
end

/-- The parser of values reads a properly written value back. -/
theorem val_fwd {t : VT} (h : t.strict) : FwdV val t := fun st r hr => VT.fwd t h _ (by simp; omega) st r hr

end Tomllib
