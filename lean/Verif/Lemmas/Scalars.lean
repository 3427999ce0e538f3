import Verif.Lemmas.Strings
/-!
# Scalars are read back from their text
-/

namespace Tomllib
open P

/-- What may follow a value: the end of the text, a blank, a line break, a comma, a closing bracket or a comment. -/
def Closes (r : Str) : Prop := ∀ c t, r = c :: t → c ∈ lit% " \t\n\r,]}#"

theorem Closes.nil : Closes [] := by intro c t h; simp at h

theorem Closes.ne {r : Str} (h : Closes r) {c : Char} {t : Str} (e : r = c :: t) (d : Char) (hd : d ∉ lit% " \t\n\r,]}#" := by decide) : c ≠ d := by
  rintro rfl
  exact hd (h c t e)

/-- A pattern that cannot begin with a stopping character. -/
theorem Closes.fails {r : Str} (h : Closes r) {e : Re} (hn : e.nullable = false)
    (hs : ∀ c ∈ lit% " \t\n\r,]}#", e.starts c = false) : Fails e r := by
  cases r with
  | nil => exact .nil hn
  | cons c t => exact .cons hn (hs c (h c t rfl))

theorem Closes.tag {r : Str} (h : Closes r) {q : Char} {t : Str} (hq : q ∉ lit% " \t\n\r,]}#") (st : PState) :
    P.complete (P.tag (q :: t)) st r = .ok (st, .err) := by
  cases r with
  | nil => exact complete_tag_nil
  | cons c t => exact complete_tag_ne (h.ne rfl q hq)

/-! ## Date-times -/

theorem lang_dd_iff (s : Str) : Lang Rx.d09 s ↔ ∃ c, s = [c] ∧ (48 ≤ c.toNat ∧ c.toNat ≤ 57) :=
  lang_cls_iff (by intro c; simp [inCls]) s

theorem Digits.det (n : Nat) {s : Str} (h : Digits n s) (t : Str) : Det (Re.rep Rx.d09 n) s t :=
  (PrefixFree.length n fun _ hu => ((lang_rep lang_dd_iff n _).mp hu).1).det ((lang_rep lang_dd_iff n _).mpr h) t

theorem Digits.dd {s : Str} (h : Digits 2 s) (st : PState) (t : Str) : P.re Rx.dd st (s ++ t) = .ok (st, .done t s) := (h.det 2 t).re st
theorem Digits.dddd {s : Str} (h : Digits 4 s) (st : PState) (t : Str) : P.re Rx.dddd st (s ++ t) = .ok (st, .done t s) := (h.det 4 t).re st

theorem prefixFree_d09 : PrefixFree Rx.d09 := PrefixFree.length 1 fun _ hu => by
  obtain ⟨c, rfl, _⟩ := (lang_dd_iff _).mp hu; rfl

theorem lang_digits_iff {g : Bool} (s : Str) : Lang (.star g Rx.d09) s ↔ ∀ c ∈ s, 48 ≤ c.toNat ∧ c.toNat ≤ 57 := by
  constructor
  · intro h
    refine lang_star h (Q := fun s => ∀ c ∈ s, 48 ≤ c.toNat ∧ c.toNat ≤ 57) (by simp) ?_
    intro u v _ hu _ hv c hc
    rcases List.mem_append.mp hc with hc | hc
    · exact (lang_d09 hu).2 c hc
    · exact hv c hc
  · intro h
    induction s with
    | nil => exact .nil
    | cons c s ih =>
      exact Lang.cons (s := [c]) (by simp) ((lang_dd_iff _).mpr ⟨c, rfl, h c (by simp)⟩) (ih fun x hx => h x (by simp [hx]))

theorem fractional_fwd {f t : Str} (hf : f ≠ []) (hd : Digits f.length f) (ht : Fails Rx.d09 t) (st : PState) :
    fractional st (lit% "." ++ f ++ t) = .ok (st, .done t f) := by
  cases f with
  | nil => simp at hf
  | cons c f =>
    have hc := hd.2 c (by simp)
    have : Det Rx.fractional (lit% "." ++ (c :: f)) t := by
      refine Det.seq (m := lit% ".") (Det.ch '.' _) (Det.seq (m := [c]) (m' := f) (Det.cls (by simp [inCls]; exact hc)) ?_)
      exact (prefixFree_d09.chain (g := true) ((lang_digits_iff f).mpr fun x hx => hd.2 x (by simp [hx])) ht).det
    have := this.re st
    simp only [fractional, P.mapP]
    rw [bind_done this]
    rfl

theorem timeOffset_fwd {o : TimeOffset} (ho : o.shape) (t : Str) (st : PState) :
    P.complete timeOffset st (o.text ++ t) = .ok (st, .done t o) := by
  apply complete_done
  cases o with
  | zulu =>
    unfold timeOffset
    refine alt_done ?_
    have := tag_append (lit% "Z") (i := t) (st := st)
    rw [P.mapP]
    exact bind_done (complete_done this)
  | time o =>
    obtain ⟨p, h, m⟩ := o
    obtain ⟨hh, hm⟩ := ho
    unfold timeOffset
    have hz : P.mapP (fun _ => TimeOffset.zulu) (P.complete (P.tag (lit% "Z"))) st ((TimeOffset.time ⟨p, h, m⟩).text ++ t) = .ok (st, .err) := by
      refine bind_err ?_
      cases p <;> exact complete_tag_ne (by decide)
    rw [alt_err hz]
    have hpn : ∃ pn, P.alt (P.complete (P.tag (lit% "+"))) (P.complete (P.tag (lit% "-"))) st ((TimeOffset.time ⟨p, h, m⟩).text ++ t) =
        .ok (st, .done (h ++ (lit% ":" ++ (m ++ t))) pn) ∧ newOffset pn h m = ⟨p, h, m⟩ := by
      cases p with
      | pos =>
        refine ⟨lit% "+", ?_, by simp [newOffset]⟩
        refine alt_done (complete_done ?_)
        have := tag_append (lit% "+") (i := h ++ (lit% ":" ++ (m ++ t))) (st := st)
        simpa [TimeOffset.text, OffsetAmount.text, OffsetAmount.text] using this
      | neg =>
        refine ⟨lit% "-", ?_, by simp [newOffset]⟩
        rw [alt_err (by exact complete_tag_ne (by decide))]
        refine complete_done ?_
        have := tag_append (lit% "-") (i := h ++ (lit% ":" ++ (m ++ t))) (st := st)
        simpa [TimeOffset.text, OffsetAmount.text, OffsetAmount.text] using this
    obtain ⟨pn, h1, h2⟩ := hpn
    rw [P.mapP, bind_done (a := ⟨p, h, m⟩) (st' := st) (r := t)]
    · rfl
    · apply complete_done
      simp only [timeOffsetAmount, bind_eq]
      rw [bind_done h1, bind_done (hh.dd st _), bind_done (tag_append (lit% ":")), bind_done (hm.dd st _), h2]
      rfl

theorem Closes.fractional {r : Str} (h : Closes r) (st : PState) : P.complete fractional st r = .ok (st, .err) := by
  apply complete_err
  exact bind_err ((h.fails (by decide) (by decide)).re st)

theorem Closes.timeOffset {r : Str} (h : Closes r) (st : PState) : P.complete Tomllib.timeOffset st r = .ok (st, .err) := by
  apply complete_err
  unfold Tomllib.timeOffset
  have hz : P.mapP (fun _ => TimeOffset.zulu) (P.complete (P.tag (lit% "Z"))) st r = .ok (st, .err) := bind_err (h.tag (by decide) st)
  rw [alt_err hz]
  refine bind_err ?_
  apply complete_err
  simp only [timeOffsetAmount, bind_eq]
  refine bind_err ?_
  rw [alt_err (h.tag (by decide) st)]
  exact h.tag (by decide) st

theorem opt_done {α : Type} {p : P α} {st st' : PState} {i r : Str} {a : α} (h : p st i = .ok (st', .done r a)) :
    P.opt p st i = .ok (st', .done r (some a)) := by simp [P.opt, h]
theorem opt_err {α : Type} {p : P α} {st st' : PState} {i : Str} (h : p st i = .ok (st', .err)) :
    P.opt p st i = .ok (st', .done i none) := by simp [P.opt, h]

theorem Time.text_eq (t : Time) : t.text = lit% "T" ++ t.hour ++ lit% ":" ++ t.minute ++ lit% ":" ++ t.second ++ fracText t.fraction ++ offText t.offset := rfl

theorem TimeOffset.text_head (o : TimeOffset) : ∃ c t, o.text = c :: t ∧ (c = 'Z' ∨ c = '+' ∨ c = '-') := by
  cases o with
  | zulu => exact ⟨_, _, rfl, .inl rfl⟩
  | time o =>
    obtain ⟨p, h, m⟩ := o
    cases p
    · exact ⟨_, _, rfl, .inr (.inl rfl)⟩
    · exact ⟨_, _, rfl, .inr (.inr rfl)⟩

theorem time_fwd {t : Time} (ht : t.shape) {r : Str} (hr : Closes r) (st : PState) : time st (t.text ++ r) = .ok (st, .done r t) := by
  obtain ⟨h, m, s, f, o⟩ := t
  obtain ⟨hh, hm, hs, hf, ho⟩ := ht
  rw [Time.text_eq]
  simp only [List.append_assoc]
  have ho' : P.opt (P.complete timeOffset) st (offText o ++ r) = .ok (st, .done r o) := by
    cases o with
    | none => exact opt_err (hr.timeOffset st)
    | some o => exact opt_done (timeOffset_fwd (ho o rfl) r st)
  have hf' : P.opt (P.complete fractional) st (fracText f ++ (offText o ++ r)) = .ok (st, .done (offText o ++ r) f) := by
    have hend : ∀ e : Re, e.nullable = false → (∀ c ∈ lit% " \t\n\r,]}#", e.starts c = false) → (∀ c ∈ lit% "Z+-", e.starts c = false) →
        Fails e (offText o ++ r) := by
      intro e h1 h2 h3
      cases o with
      | none => exact hr.fails h1 h2
      | some o =>
        obtain ⟨c, x, hx, hc⟩ := o.text_head
        simp only [offText, hx, List.cons_append]
        exact .cons h1 (h3 c (by simpa using hc))
    cases f with
    | none =>
      refine opt_err (complete_err (bind_err ?_))
      exact (hend Rx.fractional (by decide) (by decide) (by decide)).re st
    | some f =>
      obtain ⟨h1, h2⟩ := hf f rfl
      refine opt_done (complete_done ?_)
      have := fractional_fwd h1 h2 (hend Rx.d09 (by decide) (by decide) (by decide)) st
      simpa [fracText] using this
  simp only [time, bind_eq]
  rw [bind_done (tag_append (lit% "T")), bind_done (hh.dd st _), bind_done (tag_append (lit% ":")), bind_done (hm.dd st _),
    bind_done (tag_append (lit% ":")), bind_done (hs.dd st _), bind_done hf', bind_done ho']
  rfl

theorem dateTimeInternal_fwd {d : DateTime} (hd : d.shape) {r : Str} (hr : Closes r) (st : PState) :
    dateTimeInternal st (d.text ++ r) = .ok (st, .done r d) := by
  obtain ⟨⟨y, m, dd⟩, t⟩ := d
  obtain ⟨⟨hy, hm, hdd⟩, ht⟩ := hd
  have key : ∀ x, date st (y ++ (lit% "-" ++ (m ++ (lit% "-" ++ (dd ++ x))))) = .ok (st, .done x ⟨y, m, dd⟩) := by
    intro x
    simp only [date, bind_eq]
    rw [bind_done (hy.dddd st _), bind_done (tag_append (lit% "-")), bind_done (hm.dd st _), bind_done (tag_append (lit% "-")),
      bind_done (hdd.dd st _)]
    rfl
  simp only [dateTimeInternal, bind_eq]
  cases t with
  | none =>
    have := key r
    rw [show (DateTime.mk ⟨y, m, dd⟩ none).text ++ r = y ++ (lit% "-" ++ (m ++ (lit% "-" ++ (dd ++ r)))) by simp [DateTime.text, Date.text]]
    rw [bind_done this, bind_done (opt_err ?_)]
    · rfl
    · simp only [time, bind_eq]
      have := hr.tag (q := 'T') (t := []) (by decide) st
      rcases Lex.tag (lit% "T") st r with ⟨a, mm, r', h1, h2, rfl, rfl⟩ | h1 | h1
      · rw [complete_done h1] at this; simp at this
      · exact complete_err (bind_err h1)
      · exact complete_inc (bind_inc h1)
  | some t =>
    have := key (t.text ++ r)
    rw [show (DateTime.mk ⟨y, m, dd⟩ (some t)).text ++ r = y ++ (lit% "-" ++ (m ++ (lit% "-" ++ (dd ++ (t.text ++ r))))) by
      simp [DateTime.text, Date.text]]
    rw [bind_done this, bind_done (opt_done (complete_done (time_fwd (ht t rfl) hr st)))]
    rfl

/-! ## Which characters a match can contain -/

/-- Does a class of the pattern contain the character? -/
def Re.uses (c : Char) : Re → Bool
  | .eps => false
  | .cls rs => inCls rs c
  | .seq a b => uses c a || uses c b
  | .alt a b => uses c a || uses c b
  | .star _ r => uses c r

theorem Lang.uses {r : Re} {s : Str} (h : Lang r s) : ∀ c ∈ s, r.uses c = true := by
  induction h with
  | eps => simp
  | cls h => intro c hc; simp at hc; subst hc; simpa [Re.uses] using h
  | seq _ _ ih1 ih2 =>
    intro c hc
    rcases List.mem_append.mp hc with hc | hc
    · simp [Re.uses, ih1 c hc]
    · simp [Re.uses, ih2 c hc]
  | altl _ ih => intro c hc; simp [Re.uses, ih c hc]
  | altr _ ih => intro c hc; simp [Re.uses, ih c hc]
  | nil => simp
  | cons _ _ _ ih1 ih2 =>
    intro c hc
    rcases List.mem_append.mp hc with hc | hc
    · exact ih1 c hc
    · exact ih2 c hc

/-- A text without stopping characters that begins `m ++ t`, where `t` stops, begins `m`. -/
theorem Closes.prefix {m t m' t' : Str} (ht : Closes t) (e : m ++ t = m' ++ t') (hm : ∀ c ∈ m', c ∉ lit% " \t\n\r,]}#") : m' <+: m := by
  rcases List.append_eq_append_iff.mp e with ⟨a, rfl, h2⟩ | ⟨a, h1, h2⟩
  · cases a with
    | nil => simp
    | cons c a => exact absurd (ht c _ h2) (hm c (by simp))
  · exact ⟨a, h1.symm⟩

theorem Closes.lang_prefix {m t m' t' : Str} (ht : Closes t) (e : m ++ t = m' ++ t') {r : Re} (hm : Lang r m')
    (hr : ∀ c ∈ lit% " \t\n\r,]}#", r.uses c = false) : m' <+: m :=
  ht.prefix e fun c hc hc' => by
    have := hm.uses c hc
    rw [hr c hc'] at this
    simp at this

theorem inCls_ch {c d : Char} : inCls [(c.toNat, c.toNat)] d = true ↔ d = c := by
  simp only [inCls, List.any_cons, List.any_nil, Bool.or_false, Bool.and_eq_true, Nat.ble_eq]
  constructor
  · rintro ⟨h1, h2⟩; exact char_eq_of_toNat (Nat.le_antisymm h2 h1)
  · rintro rfl; exact ⟨Nat.le_refl _, Nat.le_refl _⟩

/-! ## Numbers -/

theorem prefixFree_dOrUd : PrefixFree Rx.dOrUd := by
  have hd : ∀ {u}, Lang Rx.dOrUd u → (∃ c, u = [c] ∧ inCls Rx.digitRanges c = true) ∨ (∃ c, u = ['_', c]) := by
    intro u h
    rcases lang_alt h with h | h
    · obtain ⟨c, rfl, hc⟩ := lang_cls h; exact .inl ⟨c, rfl, hc⟩
    · obtain ⟨x, y, rfl, h1, h2⟩ := lang_seq h
      obtain ⟨c, rfl, _⟩ := lang_cls h2
      rw [lang_ch h1]
      exact .inr ⟨c, rfl⟩
  have hus : inCls Rx.digitRanges '_' = false := by decide
  intro u v w x hu hv e
  rcases hd hu with ⟨c, rfl, hc⟩ | ⟨c, rfl⟩ <;> rcases hd hv with ⟨d, rfl, hd'⟩ | ⟨d, rfl⟩
  · simp at e; simp [e.1]
  · simp at e; rw [e.1, hus] at hc; simp at hc
  · simp at e; rw [← e.1, hus] at hd'; simp at hd'
  · simp at e; simp [e.1]

/-- The number part: digits with underscores. -/
theorem det_intPart {m t : Str} (hm : Lang Rx.intPart m) (ht : Fails Rx.dOrUd t) : Det Rx.intPart m t := by
  rcases lang_alt hm with hm | hm
  · obtain ⟨u, v, rfl, h1, h2⟩ := lang_seq hm
    obtain ⟨c, rfl, hc⟩ := lang_cls h1
    obtain ⟨w, x, rfl, h3, h4⟩ := lang_seq h2
    refine Det.altl (Det.seq (Det.cls hc) (Det.seq (prefixFree_dOrUd.det h3 _) ?_))
    exact (prefixFree_dOrUd.chain h4 ht).det
  · obtain ⟨c, rfl, hc⟩ := lang_cls hm
    refine Det.altr ?_ (Det.cls hc)
    intro m' t' e hm'
    obtain ⟨u, v, rfl, h1, h2⟩ := lang_seq hm'
    obtain ⟨d, rfl, _⟩ := lang_cls h1
    obtain ⟨w, x, rfl, h3, h4⟩ := lang_seq h2
    simp at e
    exact ht w (x ++ t') e.2 h3

theorem lang_intPart_head {m : Str} (hm : Lang Rx.intPart m) : ∃ c t, m = c :: t ∧ inCls Rx.digitRanges c = true := by
  rcases lang_alt hm with hm | hm
  · obtain ⟨u, v, rfl, h1, h2⟩ := lang_seq hm
    obtain ⟨c, rfl, hc⟩ := lang_cls h1
    refine ⟨c, v, rfl, ?_⟩
    simp only [inCls, List.any_cons, List.any_nil, Bool.or_false, Bool.and_eq_true, Nat.ble_eq] at hc
    simp only [inCls, Rx.digitRanges, List.map_cons, List.cons_append, List.any_cons, Bool.or_eq_true, Bool.and_eq_true, Nat.ble_eq]
    exact .inl ⟨by omega, by omega⟩
  · obtain ⟨c, rfl, hc⟩ := lang_cls hm
    exact ⟨c, [], rfl, hc⟩

theorem det_signed {r : Re} {m t : Str} (hr : ∀ u, Lang r u → ∃ c x, u = c :: x ∧ inCls Rx.digitRanges c = true)
    (hm : Lang (.seq (Re.opt Rx.sign) r) m) (hd : ∀ u, Lang r u → u <:+ m → Det r u t) : Det (.seq (Re.opt Rx.sign) r) m t := by
  obtain ⟨u, v, rfl, h1, h2⟩ := lang_seq hm
  have hv := hd v h2 (List.suffix_append _ _)
  rcases lang_alt h1 with h1 | h1
  · refine Det.seq (Det.altl ?_) hv
    rcases lang_alt h1 with h1 | h1 <;> rw [lang_ch h1]
    · exact Det.altl (Det.ch _ _)
    · exact Det.altr (Fails.cons (by decide) (by decide)) (Det.ch _ _)
  · rw [lang_eps h1]
    refine Det.seq (Det.altr ?_ (Det.eps _)) hv
    obtain ⟨c, x, rfl, hc⟩ := hr v h2
    refine Fails.cons (by decide) ?_
    have h3 : c ≠ '+' := by rintro rfl; revert hc; decide
    have h4 : c ≠ '-' := by rintro rfl; revert hc; decide
    simp only [Rx.sign, Re.starts, Re.ch, Bool.or_eq_false_iff]
    constructor
    · rw [← Bool.not_eq_true, inCls_ch]; exact h3
    · rw [← Bool.not_eq_true, inCls_ch]; exact h4

theorem det_integer {m t : Str} (hm : Lang Rx.integer m) (ht : Fails Rx.dOrUd t) : Det Rx.integer m t :=
  det_signed (r := Rx.intPart) (fun _ h => lang_intPart_head h) hm fun _ hu _ => det_intPart hu ht

theorem det_fracPart {m t : Str} (hm : Lang Rx.fracPart m) (ht : Fails Rx.dOrUd t) : Det Rx.fracPart m t := by
  obtain ⟨u, v, rfl, h1, h2⟩ := lang_seq hm
  obtain ⟨w, x, rfl, h3, h4⟩ := lang_seq h2
  rw [lang_ch h1]
  obtain ⟨c, rfl, hc⟩ := lang_cls h3
  exact Det.seq (Det.ch _ _) (Det.seq (Det.cls hc) (prefixFree_dOrUd.chain h4 ht).det)

theorem det_expPart {m t : Str} (hm : Lang Rx.expPart m) (ht : Fails Rx.dOrUd t) : Det Rx.expPart m t := by
  obtain ⟨u, v, rfl, h1, h2⟩ := lang_seq hm
  refine Det.seq ?_ ?_
  · rcases lang_alt h1 with h1 | h1 <;> rw [lang_ch h1]
    · exact Det.altl (Det.ch _ _)
    · exact Det.altr (Fails.cons (by decide) (by decide)) (Det.ch _ _)
  · exact det_signed (r := Rx.intPart) (fun _ h => lang_intPart_head h) h2 fun _ hu _ => det_intPart hu ht

theorem lang_expPart_head {m : Str} (hm : Lang Rx.expPart m) : ∃ c t, m = c :: t ∧ (c = 'e' ∨ c = 'E') := by
  obtain ⟨u, v, rfl, h1, h2⟩ := lang_seq hm
  rcases lang_alt h1 with h1 | h1 <;> rw [lang_ch h1]
  · exact ⟨_, _, rfl, .inl rfl⟩
  · exact ⟨_, _, rfl, .inr rfl⟩

theorem lang_fracPart_head {m : Str} (hm : Lang Rx.fracPart m) : ∃ t, m = '.' :: t := by
  obtain ⟨u, v, rfl, h1, h2⟩ := lang_seq hm
  rw [lang_ch h1]
  exact ⟨_, rfl⟩

/-- The part of a float after its integer part. -/
theorem lang_floatTail_head {m : Str} (hm : Lang Rx.floatTail m) : ∃ c t, m = c :: t ∧ (c = '.' ∨ c = 'e' ∨ c = 'E') := by
  rcases lang_alt hm with hm | hm
  · obtain ⟨u, v, rfl, h1, h2⟩ := lang_seq hm
    obtain ⟨x, rfl⟩ := lang_fracPart_head h1
    exact ⟨_, _, rfl, .inl rfl⟩
  · rcases lang_alt hm with hm | hm
    · obtain ⟨x, rfl⟩ := lang_fracPart_head hm
      exact ⟨_, _, rfl, .inl rfl⟩
    · obtain ⟨c, x, rfl, h⟩ := lang_expPart_head hm
      exact ⟨_, _, rfl, .inr h⟩

theorem Closes.dOrUd {t : Str} (h : Closes t) : Fails Rx.dOrUd t := h.fails (by decide) (by decide)

theorem det_floatTail {m t : Str} (hm : Lang Rx.floatTail m) (ht : Closes t) : Det Rx.floatTail m t := by
  rcases lang_alt hm with hm | hm
  · obtain ⟨u, v, rfl, h1, h2⟩ := lang_seq hm
    refine Det.altl (Det.seq (det_fracPart h1 ?_) (det_expPart h2 ht.dOrUd))
    obtain ⟨c, x, rfl, h⟩ := lang_expPart_head h2
    rcases h with rfl | rfl <;> exact Fails.cons (by decide) (by decide)
  · rcases lang_alt hm with hm | hm
    · refine Det.altr ?_ (Det.altl (det_fracPart hm ht.dOrUd))
      intro m' t' e hm'
      have hp := ht.lang_prefix e hm' (by decide)
      obtain ⟨u, v, rfl, h1, h2⟩ := lang_seq hm'
      obtain ⟨c, x, rfl, h⟩ := lang_expPart_head h2
      have hc : c ∈ m := hp.subset (by simp)
      have := hm.uses c hc
      rcases h with rfl | rfl <;> (revert this; decide)
    · obtain ⟨c, x, rfl, h⟩ := lang_expPart_head hm
      refine Det.altr ?_ (Det.altr ?_ (det_expPart hm ht.dOrUd))
      · rcases h with rfl | rfl <;> exact Fails.cons (by decide) (by decide)
      · rcases h with rfl | rfl <;> exact Fails.cons (by decide) (by decide)

theorem det_float {m t : Str} (hm : Lang Rx.float m) (ht : Closes t) : Det Rx.float m t := by
  refine det_signed (r := .seq Rx.intPart Rx.floatTail) ?_ hm ?_
  · intro u hu
    obtain ⟨a, b, rfl, h1, h2⟩ := lang_seq hu
    obtain ⟨c, x, rfl, hc⟩ := lang_intPart_head h1
    exact ⟨c, x ++ b, rfl, hc⟩
  · intro u hu _
    obtain ⟨a, b, rfl, h1, h2⟩ := lang_seq hu
    refine Det.seq (det_intPart h1 ?_) (det_floatTail h2 ht)
    obtain ⟨c, x, rfl, h⟩ := lang_floatTail_head h2
    rcases h with rfl | rfl | rfl <;> exact Fails.cons (by decide) (by decide)

/-- An integer is not the beginning of a float. -/
theorem float_fails {m t : Str} (hm : Lang Rx.integer m) (ht : Closes t) : Fails Rx.float (m ++ t) := by
  intro m' t' e hm'
  have hp := ht.lang_prefix e hm' (by decide)
  obtain ⟨u, v, rfl, h1, h2⟩ := lang_seq (lang_float hm')
  obtain ⟨a, b, rfl, h3, h4⟩ := lang_seq h2
  obtain ⟨c, x, rfl, h⟩ := lang_floatTail_head h4
  have hc : c ∈ m := hp.subset (by simp)
  have := hm.uses c hc
  rcases h with rfl | rfl | rfl <;> (revert this; decide)

/-! ## Dates are not numbers -/

theorem shape_disp {d : DateTime} (h : d.shape) : ∃ y x, Digits 4 y ∧ d.text = y ++ '-' :: x := by
  obtain ⟨⟨y, m, dd⟩, t⟩ := d
  refine ⟨y, ?_⟩
  cases t with
  | none => exact ⟨m ++ '-' :: dd, h.1.1, by simp [DateTime.text, Date.text]⟩
  | some t => exact ⟨m ++ '-' :: dd ++ t.text, h.1.1, by simp [DateTime.text, Date.text]⟩

/-- A text that begins with digits and underscores, followed by something else than a minus sign, is not a date. -/
theorem not_date {i : Str} {st : PState} (h : ∀ y x, Digits 4 y → i ≠ y ++ '-' :: x) : P.complete dateTime st i = .ok (st, .err) := by
  rcases Lex.dateTimeInternal st i with ⟨d, m, r, h1, h2, rfl, h3⟩ | h1 | h1
  · obtain ⟨y, x, hy, hd⟩ := shape_disp h3
    exact absurd (show i = y ++ '-' :: (x ++ r) by rw [h2, hd]; simp) (h y _ hy)
  · exact complete_err (by simp [dateTime, h1])
  · exact complete_inc (by simp [dateTime, h1])

theorem not_date_head {c : Char} {i : Str} {st : PState} (h : ¬ (48 ≤ c.toNat ∧ c.toNat ≤ 57)) :
    P.complete dateTime st (c :: i) = .ok (st, .err) := by
  apply not_date
  rintro y x ⟨hl, hd⟩ e
  cases y with
  | nil => simp at hl
  | cons d y => simp at e; rw [e.1] at h; exact h (hd d (by simp))

/-- In a number, what comes before the first character that is no digit or underscore is not the year of a date. -/
theorem not_date_number {a b : Str} {st : PState} (ha : ∀ c ∈ a, c ≠ '-') (hb : ∀ c x, b = c :: x → ¬ (48 ≤ c.toNat ∧ c.toNat ≤ 57) ∧ c ≠ '-') :
    P.complete dateTime st (a ++ b) = .ok (st, .err) := by
  apply not_date
  rintro y x ⟨hl, hd⟩ e
  rcases List.append_eq_append_iff.mp e with ⟨z, rfl, h2⟩ | ⟨z, rfl, h2⟩
  · cases z with
    | nil => exact (hb _ _ h2).2 rfl
    | cons c z => exact (hb _ _ h2).1 (hd c (by simp))
  · cases z with
    | nil => exact (hb _ _ (by simpa using h2.symm)).2 rfl
    | cons c z => simp at h2; exact ha c (by simp) h2.1.symm

theorem not_date_signed {r : Re} {m t : Str} {st : PState} (hm : Lang (.seq (Re.opt Rx.sign) r) m)
    (hr : ∀ u, Lang r u → ∃ a b, u ++ t = a ++ b ∧ (∀ c ∈ a, c ≠ '-') ∧ (∀ c x, b = c :: x → ¬ (48 ≤ c.toNat ∧ c.toNat ≤ 57) ∧ c ≠ '-')) :
    P.complete dateTime st (m ++ t) = .ok (st, .err) := by
  obtain ⟨u, v, rfl, h1, h2⟩ := lang_seq hm
  rcases lang_alt h1 with h1 | h1
  · rcases lang_alt h1 with h1 | h1 <;> rw [lang_ch h1] <;> exact not_date_head (by decide)
  · rw [lang_eps h1]
    obtain ⟨a, b, e, h3, h4⟩ := hr v h2
    rw [List.nil_append, e]
    exact not_date_number h3 h4

theorem Closes.no_date {t : Str} (ht : Closes t) : ∀ c x, t = c :: x → ¬ (48 ≤ c.toNat ∧ c.toNat ≤ 57) ∧ c ≠ '-' := by
  intro c x e
  have := ht c x e
  simp at this
  rcases this with rfl | rfl | rfl | rfl | rfl | rfl | rfl | rfl <;> decide

theorem intPart_minus {a : Str} (h : Lang Rx.intPart a) : ∀ c ∈ a, c ≠ '-' := by
  rintro c hc rfl
  have := h.uses _ hc
  revert this; decide

theorem not_date_int {m t : Str} {st : PState} (hm : Lang Rx.integer m) (ht : Closes t) : P.complete dateTime st (m ++ t) = .ok (st, .err) :=
  not_date_signed (r := Rx.intPart) hm fun u hu => ⟨u, t, rfl, intPart_minus hu, ht.no_date⟩

theorem not_date_float {m t : Str} {st : PState} (hm : Lang Rx.float m) : P.complete dateTime st (m ++ t) = .ok (st, .err) :=
  not_date_signed (lang_float hm) fun u hu => by
    obtain ⟨a, b, rfl, h1, h2⟩ := lang_seq hu
    obtain ⟨c, x, rfl, h⟩ := lang_floatTail_head h2
    refine ⟨a, c :: x ++ t, by simp, intPart_minus h1, ?_⟩
    intro d y e
    simp at e
    rw [← e.1]
    rcases h with rfl | rfl | rfl <;> decide

end Tomllib
