import Verif.Lemmas.Fwd
import Verif.Spec.Taken
/-!
# Which scalar is taken from a text

The longest number or date that begins the text, the shortest string.
-/

namespace Tomllib
open P

/-! ## Numbers: the longest -/

/-- `m` is the longest match at the beginning of `m ++ t`. -/
def Longest (r : Re) (m t : Str) : Prop := Lang r m ∧ ∀ m' t', m ++ t = m' ++ t' → Lang r m' → m'.length ≤ m.length

theorem exists_max {P : Str → Prop} {i : Str} (h : ∃ m t, i = m ++ t ∧ P m) :
    ∃ m t, i = m ++ t ∧ P m ∧ ∀ m' t', i = m' ++ t' → P m' → m'.length ≤ m.length := by
  obtain ⟨m, t, e, hm⟩ := h
  have : ∀ n m t, i = m ++ t → P m → t.length ≤ n → ∃ m t, i = m ++ t ∧ P m ∧ ∀ m' t', i = m' ++ t' → P m' → m'.length ≤ m.length := by
    intro n
    induction n with
    | zero =>
      intro m t e hm hn
      refine ⟨m, t, e, hm, fun m' t' e' _ => ?_⟩
      have h1 := congrArg List.length e
      have h2 := congrArg List.length e'
      simp at h1 h2; omega
    | succ n ih =>
      intro m t e hm hn
      by_cases hx : ∃ m' t', i = m' ++ t' ∧ P m' ∧ m.length < m'.length
      · obtain ⟨m', t', e', hm', hl⟩ := hx
        refine ih m' t' e' hm' ?_
        have h1 := congrArg List.length e
        have h2 := congrArg List.length e'
        simp at h1 h2; omega
      · exact ⟨m, t, e, hm, fun m' t' e' hm' => Nat.le_of_not_lt fun hl => hx ⟨m', t', e', hm', hl⟩⟩
  exact this _ m t e hm (Nat.le_refl _)

theorem exists_min {P : Str → Prop} : ∀ {m : Str}, P m → ∃ m', P m' ∧ m' <+: m ∧ ∀ x, P x → x <+: m → m'.length ≤ x.length := by
  intro m
  have : ∀ n (m : Str), m.length ≤ n → P m → ∃ m', P m' ∧ m' <+: m ∧ ∀ x, P x → x <+: m → m'.length ≤ x.length := by
    intro n
    induction n with
    | zero =>
      intro m hn hm
      exact ⟨m, hm, List.prefix_refl _, fun _ _ _ => by omega⟩
    | succ n ih =>
      intro m hn hm
      by_cases hx : ∃ x, P x ∧ x <+: m ∧ x.length < m.length
      · obtain ⟨x, h1, h2, h3⟩ := hx
        obtain ⟨m', g1, g2, g3⟩ := ih x (by omega) h1
        refine ⟨m', g1, g2.trans h2, fun y hy hp => ?_⟩
        by_cases hl : y.length ≤ x.length
        · exact g3 y hy (List.prefix_of_prefix_length_le hp h2 hl)
        · have := g2.length_le; omega
      · exact ⟨m, hm, List.prefix_refl _, fun x h1 h2 => Nat.le_of_not_lt fun h3 => hx ⟨x, h1, h2, h3⟩⟩
  exact this _ m (Nat.le_refl _)

/-- More digits would make the match longer. -/
theorem Fails.of_longer {r e : Re} {m t : Str} (h : Longest r m t) (hx : ∀ u, Lang e u → Lang r (m ++ u)) (hn : e.nullable = false) : Fails e t := by
  intro u v e' hu
  have := h.2 (m ++ u) v (by simp [e']) (hx u hu)
  have hne : u ≠ [] := by rintro rfl; have := hu.nullable rfl; simp [hn] at this
  have : 0 < u.length := List.length_pos_iff.mpr hne
  simp at *; omega

theorem lang_star_snoc {g : Bool} {r : Re} {m u : Str} (hm : Lang (.star g r) m) (hu : Lang r u) : Lang (.star g r) (m ++ u) := by
  by_cases he : u = []
  · simpa [he] using hm
  · refine lang_star hm (Q := fun m => Lang (.star g r) (m ++ u)) ?_ ?_
    · simpa using Lang.cons he hu .nil
    · intro a b ha h1 _ h2
      rw [List.append_assoc]
      exact Lang.cons ha h1 h2

theorem longest_intPart {m t : Str} (h : Longest Rx.intPart m t) : Det Rx.intPart m t := by
  rcases lang_alt h.1 with hm | hm
  · refine det_intPart h.1 (Fails.of_longer h ?_ (by decide))
    intro x hx
    obtain ⟨u, v, rfl, h1, h2⟩ := lang_seq hm
    obtain ⟨w, y, rfl, h3, h4⟩ := lang_seq h2
    have : Lang Rx.intPart (u ++ (w ++ (y ++ x))) := Lang.altl (b := Rx.d) (Lang.seq h1 (Lang.seq h3 (lang_star_snoc h4 hx)))
    simpa using this
  · obtain ⟨c, rfl, hc⟩ := lang_cls hm
    refine Det.altr ?_ (Det.cls hc)
    intro u v e hu
    have hle := h.2 u v e (.altl hu)
    obtain ⟨a, b, rfl, h1, h2⟩ := lang_seq hu
    obtain ⟨w, y, rfl, h3, h4⟩ := lang_seq h2
    obtain ⟨d, rfl, _⟩ := lang_cls h1
    have hne : w ≠ [] := by rintro rfl; have := h3.nullable rfl; revert this; decide
    have hpos : 0 < w.length := List.length_pos_iff.mpr hne
    rw [List.length_append, List.length_append] at hle
    simp only [List.length_cons, List.length_nil] at hle
    omega

theorem det_signed' {r : Re} {m t : Str} (hr : ∀ u, Lang r u → ∃ c x, u = c :: x ∧ inCls Rx.digitRanges c = true)
    (hm : Longest (.seq (Re.opt Rx.sign) r) m t) (hd : ∀ u, Longest r u t → Det r u t) : Det (.seq (Re.opt Rx.sign) r) m t := by
  obtain ⟨hm, hx⟩ := hm
  obtain ⟨u, v, rfl, h1, h2⟩ := lang_seq hm
  have hv := hd v ⟨h2, fun m' t' e hm' => by
    have := hx (u ++ m') t' (by simp [e]) (.seq h1 hm')
    simp at this; omega⟩
  rcases lang_alt h1 with h1 | h1
  · refine Det.seq (Det.altl ?_) hv
    rcases lang_alt h1 with h1 | h1 <;> rw [lang_ch h1]
    · exact Det.altl (Det.ch _ _)
    · exact Det.altr (Fails.cons (by decide) (by decide)) (Det.ch _ _)
  · rw [lang_eps h1]
    refine Det.seq (Det.altr ?_ (Det.eps _)) hv
    obtain ⟨c, x, rfl, hc⟩ := hr v h2
    refine Fails.cons (by decide) ?_
    have h3 : c ≠ '+' := by rintro rfl; revert hc; decide
    have h4 : c ≠ '-' := by rintro rfl; revert hc; decide
    simp only [Rx.sign, Re.starts, Re.ch, Bool.or_eq_false_iff]
    constructor
    · rw [← Bool.not_eq_true, inCls_ch]; exact h3
    · rw [← Bool.not_eq_true, inCls_ch]; exact h4

theorem longest_integer {m t : Str} (h : Longest Rx.integer m t) : Det Rx.integer m t :=
  det_signed' (r := Rx.intPart) (fun _ h => lang_intPart_head h) h fun _ hu => longest_intPart hu

theorem longest_fracPart {m t : Str} (h : Longest Rx.fracPart m t) : Det Rx.fracPart m t := by
  refine det_fracPart h.1 (Fails.of_longer h ?_ (by decide))
  intro y hy
  obtain ⟨u, v, rfl, h1, h2⟩ := lang_seq h.1
  obtain ⟨w, x, rfl, h3, h4⟩ := lang_seq h2
  have : Lang Rx.fracPart (u ++ (w ++ (x ++ y))) := Lang.seq h1 (Lang.seq h3 (lang_star_snoc h4 hy))
  simpa using this

theorem longest_expPart {m t : Str} (h : Longest Rx.expPart m t) : Det Rx.expPart m t := by
  obtain ⟨hm, hx⟩ := h
  obtain ⟨u, v, rfl, h1, h2⟩ := lang_seq hm
  refine Det.seq ?_ ?_
  · rcases lang_alt h1 with h1 | h1 <;> rw [lang_ch h1]
    · exact Det.altl (Det.ch _ _)
    · exact Det.altr (Fails.cons (by decide) (by decide)) (Det.ch _ _)
  · refine det_signed' (r := Rx.intPart) (fun _ h => lang_intPart_head h) ⟨h2, fun m' t' e hm' => ?_⟩ fun _ hu => longest_intPart hu
    have := hx (u ++ m') t' (by simp [e]) (.seq h1 hm')
    simp at this; omega

theorem longest_floatTail {m t : Str} (h : Longest Rx.floatTail m t) : Det Rx.floatTail m t := by
  obtain ⟨hm, hx⟩ := h
  rcases lang_alt hm with hm | hm
  · obtain ⟨u, v, rfl, h1, h2⟩ := lang_seq hm
    refine Det.altl (Det.seq (det_fracPart h1 ?_) (longest_expPart ⟨h2, fun m' t' e hm' => ?_⟩))
    · obtain ⟨c, x, rfl, h⟩ := lang_expPart_head h2
      rcases h with rfl | rfl <;> exact Fails.cons (by decide) (by decide)
    · have := hx (u ++ m') t' (by simp [e]) (.altl (.seq h1 hm'))
      simp at this; omega
  · rcases lang_alt hm with hm | hm
    · refine Det.altr ?_ (Det.altl (longest_fracPart ⟨hm, fun m' t' e hm' => hx m' t' e (.altr (.altl hm'))⟩))
      intro m' t' e hm'
      have hl := hx m' t' e (.altl hm')
      have hp : m' <+: m := List.prefix_of_prefix_length_le ⟨t', e.symm⟩ ⟨t, rfl⟩ hl
      obtain ⟨u, v, rfl, h1, h2⟩ := lang_seq hm'
      obtain ⟨c, x, rfl, h⟩ := lang_expPart_head h2
      have hc : c ∈ m := hp.subset (by simp)
      have := hm.uses c hc
      rcases h with rfl | rfl <;> (revert this; decide)
    · obtain ⟨c, x, rfl, h⟩ := lang_expPart_head hm
      refine Det.altr ?_ (Det.altr ?_ (longest_expPart ⟨hm, fun m' t' e hm' => hx m' t' e (.altr (.altr hm'))⟩))
      · rcases h with rfl | rfl <;> exact Fails.cons (by decide) (by decide)
      · rcases h with rfl | rfl <;> exact Fails.cons (by decide) (by decide)

theorem longest_float {m t : Str} (h : Longest Rx.float m t) : Det Rx.float m t := by
  refine det_signed' (r := .seq Rx.intPart Rx.floatTail) ?_ h ?_
  · intro u hu
    obtain ⟨a, b, rfl, h1, h2⟩ := lang_seq hu
    obtain ⟨c, x, rfl, hc⟩ := lang_intPart_head h1
    exact ⟨c, x ++ b, rfl, hc⟩
  · intro u hu
    obtain ⟨a, b, rfl, h1, h2⟩ := lang_seq hu.1
    refine Det.seq (det_intPart h1 ?_) (longest_floatTail ⟨h2, fun m' t' e hm' => ?_⟩)
    · obtain ⟨c, x, rfl, h⟩ := lang_floatTail_head h2
      rcases h with rfl | rfl | rfl <;> exact Fails.cons (by decide) (by decide)
    · have := hu.2 (a ++ m') t' (by simp [e]) (.seq h1 hm')
      simp at this; omega

/-! ## Dates: the longest -/

/-- `d` is the longest date with or without a time at the beginning of its text followed by `r`. -/
def LongestDate (d : DateTime) (r : Str) : Prop := d.shape ∧ ∀ d' : DateTime, d'.shape → d'.text <+: d.text ++ r → d'.text.length ≤ d.text.length

theorem offset_none {r : Str} (h : ∀ (o : TimeOffset) x, o.shape → r ≠ o.text ++ x) (st : PState) : P.complete timeOffset st r = .ok (st, .err) := by
  rcases LexC.timeOffset st r with ⟨a, m, r', h1, h2, rfl, h3⟩ | h1
  · exact absurd h2 (h a r' h3)
  · exact complete_err h1

theorem fractional_none {r : Str} (h : ∀ (f : Str) x, f ≠ [] → Digits f.length f → r ≠ lit% "." ++ f ++ x) (st : PState) :
    P.complete fractional st r = .ok (st, .err) := by
  rcases Lex.fractional st r with ⟨a, m, r', h1, h2, rfl, h3, h4⟩ | h1
  · exact absurd h2 (h a r' h3 h4)
  · exact complete_err h1

theorem time_longest {t : Time} (ht : t.shape) {r : Str} (hl : ∀ t' : Time, t'.shape → t'.text <+: t.text ++ r → t'.text.length ≤ t.text.length) (st : PState) :
    time st (t.text ++ r) = .ok (st, .done r t) := by
  obtain ⟨h, m, s, f, o⟩ := t
  obtain ⟨hh, hm, hs, hf, ho⟩ := ht
  rw [Time.text_eq] at hl ⊢
  simp only [List.append_assoc] at hl ⊢
  have ho' : P.opt (P.complete timeOffset) st (offText o ++ r) = .ok (st, .done r o) := by
    cases o with
    | none =>
      refine opt_err (offset_none (fun o x h1 e => ?_) st)
      simp only [offText, List.nil_append] at e hl
      have := hl ⟨h, m, s, f, some o⟩ ⟨hh, hm, hs, hf, by rintro _ ⟨⟩; exact h1⟩ ⟨x, by simp [Time.text_eq, e, offText]⟩
      obtain ⟨c, y, hc, _⟩ := o.text_head
      simp [Time.text_eq, offText, hc] at this
      omega
    | some o => exact opt_done (timeOffset_fwd (ho o rfl) r st)
  have hf' : P.opt (P.complete fractional) st (fracText f ++ (offText o ++ r)) = .ok (st, .done (offText o ++ r) f) := by
    cases f with
    | none =>
      refine opt_err (fractional_none (fun f x h1 h2 e => ?_) st)
      cases o with
      | some o =>
        obtain ⟨c, y, hy, hc⟩ := o.text_head
        simp [fracText, offText, hy] at e
        rcases hc with rfl | rfl | rfl <;> simp at e
      | none =>
        simp only [fracText, offText, List.nil_append] at e hl
        have := hl ⟨h, m, s, some f, none⟩ ⟨hh, hm, hs, by rintro _ ⟨⟩; exact ⟨h1, h2⟩, by simp⟩ ⟨x, by simp [Time.text_eq, e, offText, fracText]⟩
        simp [Time.text_eq, offText, fracText] at this
        omega
    | some f =>
      obtain ⟨h1, h2⟩ := hf f rfl
      refine opt_done (complete_done ?_)
      have hend : Fails Rx.d09 (offText o ++ r) := by
        cases o with
        | some o =>
          obtain ⟨c, x, hx, hc⟩ := o.text_head
          simp only [offText, hx, List.cons_append]
          rcases hc with rfl | rfl | rfl <;> exact .cons (by decide) (by decide)
        | none =>
          intro u v e hu
          obtain ⟨c, rfl, hc⟩ := (lang_dd_iff _).mp hu
          simp only [offText, List.nil_append] at e hl
          have := hl ⟨h, m, s, some (f ++ [c]), none⟩ ⟨hh, hm, hs, by
            rintro _ ⟨⟩
            refine ⟨by simp, by simp, ?_⟩
            intro x hx
            rcases List.mem_append.mp hx with hx | hx
            · exact h2.2 x hx
            · simp at hx; subst hx; exact hc, by simp⟩ ⟨v, by simp [Time.text_eq, e, offText, fracText]⟩
          simp [Time.text_eq, offText, fracText] at this
          omega
      have := fractional_fwd h1 h2 hend st
      simpa [fracText] using this
  simp only [time, bind_eq]
  rw [bind_done (tag_append (lit% "T")), bind_done (hh.dd st _), bind_done (tag_append (lit% ":")), bind_done (hm.dd st _),
    bind_done (tag_append (lit% ":")), bind_done (hs.dd st _), bind_done hf', bind_done ho']
  rfl

theorem dateTimeInternal_longest {d : DateTime} {r : Str} (hd : LongestDate d r) (st : PState) :
    dateTimeInternal st (d.text ++ r) = .ok (st, .done r d) := by
  obtain ⟨⟨y, m, dd⟩, t⟩ := d
  obtain ⟨⟨⟨hy, hm, hdd⟩, ht⟩, hl⟩ := hd
  have key : ∀ x, date st (y ++ (lit% "-" ++ (m ++ (lit% "-" ++ (dd ++ x))))) = .ok (st, .done x ⟨y, m, dd⟩) := by
    intro x
    simp only [date, bind_eq]
    rw [bind_done (hy.dddd st _), bind_done (tag_append (lit% "-")), bind_done (hm.dd st _), bind_done (tag_append (lit% "-")),
      bind_done (hdd.dd st _)]
    rfl
  simp only [dateTimeInternal, bind_eq]
  cases t with
  | none =>
    have := key r
    rw [show (DateTime.mk ⟨y, m, dd⟩ none).text ++ r = y ++ (lit% "-" ++ (m ++ (lit% "-" ++ (dd ++ r)))) by simp [DateTime.text, Date.text]]
    rw [bind_done this, bind_done (opt_err ?_)]
    · rfl
    · rcases Lex.time.complete st r with ⟨t, _, x, _, h2, rfl, h3⟩ | h1
      · have := hl ⟨⟨y, m, dd⟩, some t⟩ ⟨⟨hy, hm, hdd⟩, by rintro _ ⟨⟩; exact h3⟩ ⟨x, by simp [DateTime.text, Date.text, h2]⟩
        simp [DateTime.text, Date.text, Time.text_eq] at this
        omega
      · exact h1
  | some t =>
    have := key (t.text ++ r)
    rw [show (DateTime.mk ⟨y, m, dd⟩ (some t)).text ++ r = y ++ (lit% "-" ++ (m ++ (lit% "-" ++ (dd ++ (t.text ++ r))))) by
      simp [DateTime.text, Date.text]]
    have htl : ∀ t' : Time, t'.shape → t'.text <+: t.text ++ r → t'.text.length ≤ t.text.length := by
      rintro t' h1 ⟨x, h2⟩
      have := hl ⟨⟨y, m, dd⟩, some t'⟩ ⟨⟨hy, hm, hdd⟩, by rintro _ ⟨⟩; exact h1⟩ ⟨x, by simp [DateTime.text, Date.text, h2]⟩
      simp [DateTime.text] at this
      exact this
    rw [bind_done this, bind_done (opt_done (complete_done (time_longest (ht t rfl) htl st)))]
    rfl

/-! ## Of a kind, the scalar taken -/

/-- A parser of scalars of some kinds (from `a` on, before `b`), with the scalar it takes. -/
def ScBest (p : P TVal) (a b : Nat) : Prop := ∀ i,
  (∃ s r, Scalar.wf s ∧ a ≤ s.rank ∧ s.rank < b ∧ i = s.text ++ r ∧ (∀ s' : Scalar, s'.wf → s'.text <+: i → a ≤ s'.rank → s.Precedes s') ∧ FwdS p s r) ∨
  ((∀ s' : Scalar, s'.wf → s'.text <+: i → a ≤ s'.rank → b ≤ s'.rank) ∧ ErrOn p i)

theorem ScBest.alt {p q : P TVal} {a b c : Nat} (hab : a ≤ b) (hbc : b ≤ c) (hp : ScBest p a b) (hq : ScBest q b c) : ScBest (P.alt p q) a c := fun i => by
  rcases hp i with ⟨s, r, h1, h2, h3, rfl, h4, h5⟩ | ⟨h1, h2⟩
  · exact .inl ⟨s, r, h1, h2, by omega, rfl, h4, h5.altl⟩
  · rcases hq i with ⟨s, r, g1, g2, g3, rfl, g4, g5⟩ | ⟨g1, g2⟩
    · exact .inl ⟨s, r, g1, by omega, g3, rfl, fun s' k1 k2 k3 => g4 s' k1 k2 (h1 s' k1 k2 k3), FwdS.altr h2 g5⟩
    · exact .inr ⟨fun s' k1 k2 k3 => g1 s' k1 k2 (h1 s' k1 k2 k3), ErrOn.alt h2 g2⟩

theorem ScBest.complete {p : P TVal} {a b : Nat} (h : ScBest p a b) : ScBest (P.complete p) a b := fun i => by
  rcases h i with ⟨s, r, h1, h2, h3, rfl, h4, h5⟩ | ⟨h1, h2⟩
  · exact .inl ⟨s, r, h1, h2, h3, rfl, h4, h5.complete⟩
  · exact .inr ⟨h1, h2.complete⟩

/-- One kind, the longest. -/
theorem ScBest.longest {p : P TVal} {a : Nat} (ha : a < 4) {i : Str}
    (hl : ∀ (s : Scalar) r, s.wf → s.rank = a → i = s.text ++ r → (∀ s' : Scalar, s'.wf → s'.rank = a → s'.text <+: i → s'.text.length ≤ s.text.length) → FwdS p s r)
    (he : (∀ s' : Scalar, s'.wf → s'.rank = a → ¬ s'.text <+: i) → ErrOn p i) :
    (∃ s r, Scalar.wf s ∧ a ≤ s.rank ∧ s.rank < a + 1 ∧ i = s.text ++ r ∧ (∀ s' : Scalar, s'.wf → s'.text <+: i → a ≤ s'.rank → s.Precedes s') ∧ FwdS p s r) ∨
    ((∀ s' : Scalar, s'.wf → s'.text <+: i → a ≤ s'.rank → a + 1 ≤ s'.rank) ∧ ErrOn p i) := by
  by_cases hx : ∃ m t, i = m ++ t ∧ ∃ s : Scalar, s.wf ∧ s.rank = a ∧ s.text = m
  · obtain ⟨_, r, e, ⟨s, h1, h2, rfl⟩, h3⟩ := exists_max hx
    have h4 : ∀ s' : Scalar, s'.wf → s'.rank = a → s'.text <+: i → s'.text.length ≤ s.text.length := by
      rintro s' k1 k2 ⟨x, k3⟩
      exact h3 _ x k3.symm ⟨s', k1, k2, rfl⟩
    refine .inl ⟨s, r, h1, by omega, by omega, e, fun s' k1 k2 k3 => ?_, hl s r h1 h2 e h4⟩
    by_cases hr : s'.rank = a
    · exact .inr ⟨by omega, fun _ => h4 s' k1 hr k2, fun _ => by omega⟩
    · exact .inl (by omega)
  · have h4 : ∀ s' : Scalar, s'.wf → s'.rank = a → ¬ s'.text <+: i := by
      rintro s' k1 k2 ⟨x, k3⟩
      exact hx ⟨_, x, k3.symm, s', k1, k2, rfl⟩
    refine .inr ⟨fun s' k1 k2 k3 => ?_, he h4⟩
    have : s'.rank ≠ a := fun e => h4 s' k1 e k2
    omega

/-- One kind, the shortest. -/
theorem ScBest.shortest {p : P TVal} {a : Nat} (ha : 4 ≤ a) {i : Str}
    (hl : ∀ (s : Scalar) r, s.wf → s.rank = a → i = s.text ++ r → (∀ s' : Scalar, s'.wf → s'.rank = a → s'.text <+: i → s.text.length ≤ s'.text.length) → FwdS p s r)
    (he : (∀ s' : Scalar, s'.wf → s'.rank = a → ¬ s'.text <+: i) → ErrOn p i) :
    (∃ s r, Scalar.wf s ∧ a ≤ s.rank ∧ s.rank < a + 1 ∧ i = s.text ++ r ∧ (∀ s' : Scalar, s'.wf → s'.text <+: i → a ≤ s'.rank → s.Precedes s') ∧ FwdS p s r) ∨
    ((∀ s' : Scalar, s'.wf → s'.text <+: i → a ≤ s'.rank → a + 1 ≤ s'.rank) ∧ ErrOn p i) := by
  by_cases hx : ∃ s : Scalar, s.wf ∧ s.rank = a ∧ s.text <+: i
  · obtain ⟨s0, k1, k2, k3⟩ := hx
    obtain ⟨_, ⟨s, h1, h2, rfl⟩, h0, h3⟩ := exists_min (P := fun m => ∃ s : Scalar, s.wf ∧ s.rank = a ∧ s.text = m) (m := s0.text) ⟨s0, k1, k2, rfl⟩
    obtain ⟨r, e⟩ := h0.trans k3
    have h4 : ∀ s' : Scalar, s'.wf → s'.rank = a → s'.text <+: i → s.text.length ≤ s'.text.length := by
      intro s' k1 k2 k4
      by_cases hl : s'.text.length ≤ s0.text.length
      · exact h3 _ ⟨s', k1, k2, rfl⟩ (List.prefix_of_prefix_length_le k4 k3 hl)
      · have := h0.length_le; omega
    refine .inl ⟨s, r, h1, by omega, by omega, e.symm, fun s' k1 k2 k3 => ?_, hl s r h1 h2 e.symm h4⟩
    by_cases hr : s'.rank = a
    · exact .inr ⟨by omega, fun _ => by omega, fun _ => h4 s' k1 hr k2⟩
    · exact .inl (by omega)
  · have h4 : ∀ s' : Scalar, s'.wf → s'.rank = a → ¬ s'.text <+: i := fun s' k1 k2 k3 => hx ⟨s', k1, k2, k3⟩
    refine .inr ⟨fun s' k1 k2 k3 => ?_, he h4⟩
    have : s'.rank ≠ a := fun e => h4 s' k1 e k2
    omega

theorem ScBest.dateTime : ScBest (P.mapP TVal.dt (P.complete dateTime)) 0 1 := fun i => by
  refine ScBest.longest (by omega) (fun s r h1 h2 e h3 st => ?_) (fun h st => ?_)
  · cases s with
    | dt d =>
      have hl : LongestDate d r := ⟨h1, fun d' hd hp => h3 (.dt d') hd rfl (e ▸ hp)⟩
      have h1 := dateTimeInternal_longest hl st
      simp only [Scalar.text, P.mapP, P.bind, P.complete, Tomllib.dateTime, h1, Scalar.eff, Scalar.cell]
      by_cases hv : d.validate
      · simp [hv, P.pure]
      · have ht : (d.text ++ r).take ((d.text ++ r).length - r.length) = d.text := by simp
        simp only [hv, ht]
        cases hk : getFullKey st.map st.heap st.lastArrayTables st.lastArrayTablesIndex st.keychain <;> simp [P.pure, Out.bind]
    | str x t => cases t <;> simp [Scalar.rank] at h2
    | _ => simp [Scalar.rank] at h2
  · rcases ScSpec.dateTime st i with ⟨s, r, h1, h2, h3⟩ | h1
    · rcases Lex.dateTimeInternal st i with ⟨d, m, r, h1, h2, rfl, h3⟩ | h1 | h1
      · exact absurd ⟨r, h2.symm⟩ (h (.dt d) h3 rfl)
      · simp [P.mapP, P.bind, P.complete, Tomllib.dateTime, h1]
      · simp [P.mapP, P.bind, P.complete, Tomllib.dateTime, h1]
    · exact h1

theorem ScBest.float : ScBest (P.mapP TVal.float (P.complete float)) 1 2 := fun i => by
  refine ScBest.longest (by omega) (fun s r h1 h2 e h3 st => ?_) (fun h => ?_)
  · cases s with
    | float x =>
      subst e
      have hl : Longest Rx.float x r := ⟨(lang_float_iff _).mpr h1, fun m' t' e hm' => h3 (.float m') ((lang_float_iff _).mp hm') rfl ⟨t', e.symm⟩⟩
      have h1 := (longest_float hl).re st
      simp [P.mapP, P.bind, P.complete, Tomllib.float, Scalar.text, h1, P.pure, Scalar.eff, Scalar.cell]
    | str x t => cases t <;> simp [Scalar.rank] at h2
    | _ => simp [Scalar.rank] at h2
  · refine ErrOn.mapP (ErrOn.complete (p := Tomllib.float) (Fails.errOn ?_))
    intro m t e hm
    exact h (.float m) ((lang_float_iff _).mp hm) rfl ⟨t, e.symm⟩

theorem ScBest.integer : ScBest (P.mapP TVal.int (P.complete integer)) 2 3 := fun i => by
  refine ScBest.longest (by omega) (fun s r h1 h2 e h3 st => ?_) (fun h => ?_)
  · cases s with
    | int x =>
      subst e
      have hl : Longest Rx.integer x r := ⟨(lang_integer _).mpr h1, fun m' t' e hm' => h3 (.int m') ((lang_integer _).mp hm') rfl ⟨t', e.symm⟩⟩
      have h1 := (longest_integer hl).re st
      simp [P.mapP, P.bind, P.complete, Tomllib.integer, Scalar.text, h1, P.pure, Scalar.eff, Scalar.cell]
    | str x t => cases t <;> simp [Scalar.rank] at h2
    | _ => simp [Scalar.rank] at h2
  · refine ErrOn.mapP (ErrOn.complete (p := Tomllib.integer) (Fails.errOn ?_))
    intro m t e hm
    exact h (.int m) ((lang_integer _).mp hm) rfl ⟨t, e.symm⟩

theorem ScBest.boolean : ScBest (P.mapP TVal.bool (P.complete boolean)) 3 4 := fun i => by
  refine ScBest.longest (by omega) (fun s r h1 h2 e h3 => ?_) (fun h st => ?_)
  · cases s with
    | bool b => exact boolean_fwd b r
    | str x t => cases t <;> simp [Scalar.rank] at h2
    | _ => simp [Scalar.rank] at h2
  · rcases LexC.boolean st i with ⟨b, m, r, h1, h2, rfl⟩ | h1
    · exact absurd ⟨r, h2.symm⟩ (h (.bool b) trivial rfl)
    · simp [P.mapP, P.bind, P.complete, h1]

theorem quoted_length (t : StrType) (s : Str) : (t.quoted s).length = t.quotes.length + s.length + t.quotes.length := by
  rw [StrType.quoted_eq]; simp; omega

/-- The shortest contents do not end early. -/
theorem noEarlyEnd_shortest {t : StrType} {s r : Str} (h : ∀ u, Pieces t.Piece u → t.quoted u <+: t.quoted s ++ r → (t.quoted s).length ≤ (t.quoted u).length) :
    t.NoEarlyEnd s := by
  rintro u v rfl hv hu ⟨x, hx⟩
  have := h u hu ⟨x ++ r, by
    rw [StrType.quoted_eq, StrType.quoted_eq]
    have e : t.quotes ++ u ++ t.quotes ++ (x ++ r) = t.quotes ++ u ++ (t.quotes ++ x) ++ r := by simp
    rw [e, hx]; simp⟩
  rw [quoted_length, quoted_length] at this
  have hp : 0 < v.length := List.length_pos_iff.mpr hv
  simp at this
  omega

theorem raw_none {t : StrType} {i : Str} (h : ∀ u x, Pieces t.Piece u → i ≠ t.quoted u ++ x) : Fails t.raw i := by
  intro m x e hm
  obtain ⟨u, rfl⟩ : ∃ u, m = t.quoted u := by
    rw [StrType.raw_eq] at hm
    obtain ⟨a, b, rfl, h1, h2⟩ := lang_seq hm
    obtain ⟨c, d, rfl, h3, h4⟩ := lang_seq h2
    rw [lang_lit h1, lang_lit h4]
    exact ⟨c, by rw [StrType.quoted_eq]; simp⟩
  exact h u x (lang_raw_iff.mp hm) e

theorem ScBest.mlLiteral : ScBest (P.mapP (TVal.str · .mlLiteral) (P.complete mlLiteralString)) 4 5 := fun i => by
  refine ScBest.shortest (by omega) (fun s r h1 h2 e h3 st => ?_) (fun h => ?_)
  · cases s with
    | str x t =>
      obtain rfl : t = .mlLiteral := by cases t <;> simp [Scalar.rank] at h2 ⊢
      have he : StrType.mlLiteral.NoEarlyEnd x := noEarlyEnd_shortest (r := r) fun u hu hp => h3 (.str u .mlLiteral) hu rfl (e ▸ hp)
      have hp := string_parts .mlLiteral x r h1 he st
      simp only [StrType.raw] at hp
      have hu := unquote_quote (StrType.mlLiteral.quotes) x
      simp [P.mapP, P.complete, P.bind, mlLiteralString, bind_eq, Scalar.text, hp, addLines, P.act, Scalar.eff, PState.lines, P.pure, pure_eq, Scalar.cell]
      simpa [StrType.quoted, StrType.quotes] using hu
    | _ => simp [Scalar.rank] at h2
  · exact (ErrOn.bind (raw_none (t := .mlLiteral) fun u x hu e => h (.str u .mlLiteral) hu rfl ⟨x, e.symm⟩).errOn).complete.mapP

theorem ScBest.mlBasic : ScBest (P.mapP (TVal.str · .mlBasic) (P.complete mlBasicString)) 5 6 := fun i => by
  refine ScBest.shortest (by omega) (fun s r h1 h2 e h3 st => ?_) (fun h => ?_)
  · cases s with
    | str x t =>
      obtain rfl : t = .mlBasic := by cases t <;> simp [Scalar.rank] at h2 ⊢
      have he : StrType.mlBasic.NoEarlyEnd x := noEarlyEnd_shortest (r := r) fun u hu hp => h3 (.str u .mlBasic) hu rfl (e ▸ hp)
      have hp := string_parts .mlBasic x r h1 he st
      simp only [StrType.raw] at hp
      have hu := unquote_quote (StrType.mlBasic.quotes) x
      simp [P.mapP, P.complete, P.bind, mlBasicString, bind_eq, Scalar.text, hp, addLines, P.act, Scalar.eff, PState.lines, P.pure, pure_eq, Scalar.cell]
      simpa [StrType.quoted, StrType.quotes] using hu
    | _ => simp [Scalar.rank] at h2
  · exact (ErrOn.bind (raw_none (t := .mlBasic) fun u x hu e => h (.str u .mlBasic) hu rfl ⟨x, e.symm⟩).errOn).complete.mapP

theorem ScBest.basic : ScBest (P.mapP (TVal.str · .basic) (P.complete basicString)) 6 7 := fun i => by
  refine ScBest.shortest (by omega) (fun s r h1 h2 e h3 st => ?_) (fun h => ?_)
  · cases s with
    | str x t =>
      obtain rfl : t = .basic := by cases t <;> simp [Scalar.rank] at h2 ⊢
      have he : StrType.basic.NoEarlyEnd x := noEarlyEnd_shortest (r := r) fun u hu hp => h3 (.str u .basic) hu rfl (e ▸ hp)
      have hp := string_parts .basic x r h1 he st
      simp only [StrType.raw] at hp
      have hu := unquote_quote (StrType.basic.quotes) x
      simp [P.mapP, P.complete, P.bind, basicString, bind_eq, Scalar.text, hp, addLines, P.act, Scalar.eff, PState.lines, P.pure, pure_eq, Scalar.cell]
      simpa [StrType.quoted, StrType.quotes] using hu
    | _ => simp [Scalar.rank] at h2
  · exact (ErrOn.bind (raw_none (t := .basic) fun u x hu e => h (.str u .basic) hu rfl ⟨x, e.symm⟩).errOn).complete.mapP

theorem ScBest.literal : ScBest (P.mapP (TVal.str · .literal) (P.complete literalString)) 7 8 := fun i => by
  refine ScBest.shortest (by omega) (fun s r h1 h2 e h3 st => ?_) (fun h => ?_)
  · cases s with
    | str x t =>
      obtain rfl : t = .literal := by cases t <;> simp [Scalar.rank] at h2 ⊢
      have he : StrType.literal.NoEarlyEnd x := noEarlyEnd_shortest (r := r) fun u hu hp => h3 (.str u .literal) hu rfl (e ▸ hp)
      have hp := string_parts .literal x r h1 he st
      simp only [StrType.raw] at hp
      have hu := unquote_quote (StrType.literal.quotes) x
      simp [P.mapP, P.complete, P.bind, literalString, bind_eq, Scalar.text, hp, addLines, P.act, Scalar.eff, PState.lines, P.pure, pure_eq, Scalar.cell]
      simpa [StrType.quoted, StrType.quotes] using hu
    | _ => simp [Scalar.rank] at h2
  · exact (ErrOn.bind (raw_none (t := .literal) fun u x hu e => h (.str u .literal) hu rfl ⟨x, e.symm⟩).errOn).complete.mapP

theorem ScBest.string : ScBest string 4 8 :=
  ScBest.mlLiteral.alt (by omega) (by omega) (ScBest.mlBasic.alt (by omega) (by omega) (ScBest.basic.alt (by omega) (by omega) ScBest.literal))

/-! ## The scalar taken -/

theorem alt_alloc (p q : P TVal) : P.alt (P.bind p alloc) (P.bind q alloc) = P.bind (P.alt p q) alloc := by
  funext st i
  simp only [P.alt, P.bind]
  cases h : p st i with
  | ok x => obtain ⟨st', _ | _ | _⟩ := x <;> simp [alloc, P.act]
  | panic x => rfl
  | fuel => rfl

/-- The alternatives for scalars, without the cell. -/
def anyScalar : P TVal :=
  P.alt (P.mapP TVal.dt (complete dateTime)) (P.alt (P.mapP TVal.float (complete float)) (P.alt (P.mapP TVal.int (complete integer))
    (P.alt (P.mapP TVal.bool (complete boolean)) (complete string))))

theorem scalarVal_any : scalarVal = P.bind anyScalar alloc := by
  unfold anyScalar
  rw [← alt_alloc, ← alt_alloc, ← alt_alloc, ← alt_alloc]
  simp only [bind_mapP]
  rfl

theorem ScBest.any : ScBest anyScalar 0 8 :=
  ScBest.dateTime.alt (by omega) (by omega) (ScBest.float.alt (by omega) (by omega) (ScBest.integer.alt (by omega) (by omega)
    (ScBest.boolean.alt (by omega) (by omega) ScBest.string.complete)))

theorem Scalar.rank_lt (s : Scalar) : s.rank < 8 := by
  cases s with
  | str x t => cases t <;> simp [Scalar.rank]
  | _ => simp [Scalar.rank]

/-- From any text the scalar that comes first is taken, if there is one. -/
theorem scalarVal_best (i : Str) :
    (∃ (s : Scalar) (r : Str), s.taken r ∧ i = s.text ++ r ∧
      ∀ st, scalarVal st i = ((VT.leaf s).eff st).bind fun st' => .ok (st', .done r ((VT.leaf s).addr st.heap.length))) ∨
    ((∀ s : Scalar, s.wf → ¬ s.text <+: i) ∧ ErrOn scalarVal i) := by
  rw [scalarVal_any]
  rcases ScBest.any i with ⟨s, r, h1, _, _, rfl, h4, h5⟩ | ⟨h1, h2⟩
  · refine .inl ⟨s, r, ⟨h1, fun s' k1 k2 => h4 s' k1 k2 (Nat.zero_le _)⟩, rfl, fun st => ?_⟩
    have h3 := h5 st
    rcases Out.cases' (s.eff st) with ⟨st', he⟩ | ⟨e, he⟩
    · rw [he] at h3
      simp only [Out.ok_bind] at h3
      rw [bind_done h3]
      have := Scalar.eff_heap he
      simp [VT.eff, he, alloc, P.act, PState.cell, VT.addr, VT.size, this]
    · rw [he, Abort.bind] at h3
      rw [bind_abort h3, VT.eff, he]
      simp
  · refine .inr ⟨fun s k1 k2 => ?_, fun st => bind_err (h2 st)⟩
    have := h1 s k1 k2 (Nat.zero_le _)
    have := s.rank_lt
    omega

theorem Scalar.text_inj {s s' : Scalar} (h : s.wf) (h' : s'.wf) (hr : s.rank = s'.rank) (ht : s.text = s'.text) : s = s' := by
  cases s with
  | int x => cases s' with
    | int y => exact congrArg _ ht
    | str y t => cases t <;> simp [Scalar.rank] at hr
    | _ => simp [Scalar.rank] at hr
  | float x => cases s' with
    | float y => exact congrArg _ ht
    | str y t => cases t <;> simp [Scalar.rank] at hr
    | _ => simp [Scalar.rank] at hr
  | bool b => cases s' with
    | bool b' => cases b <;> cases b' <;> first | rfl | (simp [Scalar.text, boolText] at ht)
    | str y t => cases t <;> simp [Scalar.rank] at hr
    | _ => simp [Scalar.rank] at hr
  | dt d => cases s' with
    | dt d' =>
      have e1 := dateTimeInternal_fwd h Closes.nil PState.new
      have e2 := dateTimeInternal_fwd h' Closes.nil PState.new
      have ht : d.text = d'.text := ht
      rw [ht, e2] at e1
      simp at e1
      rw [e1]
    | str y t => cases t <;> simp [Scalar.rank] at hr
    | _ => simp [Scalar.rank] at hr
  | str x t =>
    cases s' with
    | str y t' =>
      obtain rfl : t = t' := by cases t <;> cases t' <;> simp [Scalar.rank] at hr ⊢
      simp only [Scalar.text, StrType.quoted_eq] at ht
      simpa using ht
    | _ => cases t <;> simp [Scalar.rank] at hr

/-- At most one scalar is taken from a text. -/
theorem Scalar.taken_unique {s s' : Scalar} {r r' : Str} (h : s.taken r) (h' : s'.taken r') (e : s.text ++ r = s'.text ++ r') : s = s' ∧ r = r' := by
  have h1 := h.2 s' h'.1 ⟨r', e.symm⟩
  have h2 := h'.2 s h.1 ⟨r, e⟩
  have hr : s.rank = s'.rank ∧ s.text.length = s'.text.length := by
    rcases h1 with h1 | ⟨a1, b1, c1⟩ <;> rcases h2 with h2 | ⟨a2, b2, c2⟩ <;> omega
  obtain ⟨e1, e2⟩ := List.append_inj e hr.2
  exact ⟨Scalar.text_inj h.1 h'.1 hr.1 e1, e2⟩

/-- What the alternatives for scalars do with the text of a scalar that is taken. -/
theorem scalarVal_taken {s : Scalar} {r : Str} (h : s.taken r) (st : PState) :
    scalarVal st (s.text ++ r) = ((VT.leaf s).eff st).bind fun st' => .ok (st', .done r ((VT.leaf s).addr st.heap.length)) := by
  rcases scalarVal_best (s.text ++ r) with ⟨s', r', h1, h2, h3⟩ | ⟨h1, _⟩
  · obtain ⟨rfl, rfl⟩ := Scalar.taken_unique h h1 h2
    exact h3 st
  · exact absurd ⟨r, rfl⟩ (h1 s h.1)

/-- A properly written scalar is taken. -/
theorem Scalar.strict.taken {s : Scalar} (h : s.strict) {r : Str} (hr : Closes r) : s.taken r := by
  rcases scalarVal_best (s.text ++ r) with ⟨s', r', h1, h2, h3⟩ | ⟨h1, _⟩
  · have hf := scalarVal_fwd h hr PState.new
    rw [h3] at hf
    have ok : ∀ x : Scalar, ∃ st, x.eff PState.new = .ok st := by
      intro x
      cases x with
      | dt d =>
        simp only [Scalar.eff]
        split
        · exact ⟨_, rfl⟩
        · exact ⟨_, rfl⟩
      | str x t => cases t <;> exact ⟨_, rfl⟩
      | _ => exact ⟨_, rfl⟩
    obtain ⟨x, hx⟩ := ok s
    obtain ⟨y, hy⟩ := ok s'
    have ex := Scalar.eff_heap hx
    have ey := Scalar.eff_heap hy
    simp only [VT.eff, hx, hy, Out.ok_bind, Out.ok.injEq, Prod.mk.injEq, IRes.done.injEq] at hf
    obtain ⟨e1, rfl, _⟩ := hf
    have e2 := congrArg PState.heap e1
    simp [PState.cell, ex, ey] at e2
    have : s' = s := by
      cases s <;> cases s' <;> simp_all [Scalar.cell]
    exact this ▸ h1
  · exact absurd ⟨r, rfl⟩ (h1 s h.wf)

end Tomllib
