import Verif.Lemmas.Det
import Verif.Spec.Text
/-!
# The patterns of strings
-/

namespace Tomllib

/-! ## Prefixes -/

theorem UnicodeEsc.prefix {u v w x : Str} (hu : UnicodeEsc u) (hv : UnicodeEsc v) (e : u ++ w = v ++ x) : u = v := by
  cases hu with
  | u4 h h1 h2 =>
    cases hv with
    | u4 h' h1' h2' => simp at e; rw [(List.append_inj e (by omega)).1]
    | u8 h' h1' h2' => simp at e
  | u8 h h1 h2 =>
    cases hv with
    | u4 h' h1' h2' => simp at e
    | u8 h' h1' h2' => simp at e; rw [(List.append_inj e (by omega)).1]

theorem UnicodeEsc.head {u : Str} (hu : UnicodeEsc u) : ∃ t, u = '\\' :: 'u' :: t ∨ u = '\\' :: 'U' :: t := by
  cases hu with
  | u4 h _ _ => exact ⟨h, .inl rfl⟩
  | u8 h _ _ => exact ⟨h, .inr rfl⟩

theorem BasicPiece.prefix {u v w x : Str} (hu : BasicPiece u) (hv : BasicPiece v) (e : u ++ w = v ++ x) : u = v := by
  cases hu with
  | char c h1 h2 h3 =>
    cases hv with
    | char d g1 g2 g3 => simp at e; simp [e.1]
    | esc d g1 => simp at e; exact absurd e.1 h3
    | uni g => obtain ⟨t, rfl | rfl⟩ := g.head <;> (simp at e; exact absurd e.1 h3)
  | esc c h1 =>
    cases hv with
    | char d g1 g2 g3 => simp at e; exact absurd e.1.symm g3
    | esc d g1 => simp at e; simp [e.1]
    | uni g => obtain ⟨t, rfl | rfl⟩ := g.head <;> (simp at e; rw [e.1] at h1; simp at h1)
  | uni h =>
    cases hv with
    | char d g1 g2 g3 => obtain ⟨t, rfl | rfl⟩ := h.head <;> (simp at e; exact absurd e.1.symm g3)
    | esc d g1 => obtain ⟨t, rfl | rfl⟩ := h.head <;> (simp at e; rw [← e.1] at g1; simp at g1)
    | uni g => exact h.prefix g e

/-- The second part of an escape in a multi-line basic string. -/
theorem MlBasicPiece.head {u : Str} (hu : MlBasicPiece u) : (∃ c, u = [c] ∧ c ≠ '\\' ∧ c ≠ '\r') ∨ u = ['\r', '\n'] ∨ UnicodeEsc u ∨
    (∃ c, u = ['\\', c] ∧ c ≠ 'u' ∧ c ≠ 'U' ∧ c ≠ '\r') ∨ u = ['\\', '\r', '\n'] := by
  cases hu with
  | char c h1 h2 =>
    refine .inl ⟨c, rfl, h2, ?_⟩
    rintro rfl
    simp [plain] at h1
  | esc c h => refine .inr (.inr (.inr (.inl ⟨c, rfl, ?_, ?_, ?_⟩))) <;> (rintro rfl; simp at h)
  | uni h => exact .inr (.inr (.inl h))
  | lf => exact .inl ⟨_, rfl, by simp, by simp⟩
  | crlf => simp
  | bslf => exact .inr (.inr (.inr (.inl ⟨_, rfl, by simp, by simp, by simp⟩)))
  | bscrlf => simp

theorem MlBasicPiece.prefix {u v w x : Str} (hu : MlBasicPiece u) (hv : MlBasicPiece v) (e : u ++ w = v ++ x) : u = v := by
  rcases hu.head with ⟨c, rfl, h1, h2⟩ | rfl | h | ⟨c, rfl, h1, h2, h3⟩ | rfl <;>
  rcases hv.head with ⟨d, rfl, g1, g2⟩ | rfl | g | ⟨d, rfl, g1, g2, g3⟩ | rfl
  all_goals first
    | exact h.prefix g e
    | (obtain ⟨t, rfl | rfl⟩ := h.head <;> simp at e <;> grind)
    | (obtain ⟨t, rfl | rfl⟩ := g.head <;> simp at e <;> grind)
    | (simp at e; done)
    | (simp at e; grind)

theorem prefixFree_basic : PrefixFree Rx.basicItem := fun _ _ _ _ hu hv e =>
  ((lang_basicItem _).mp hu).prefix ((lang_basicItem _).mp hv) e
theorem prefixFree_mlBasic : PrefixFree Rx.mlBasicItem := fun _ _ _ _ hu hv e =>
  ((lang_mlBasicItem _).mp hu).prefix ((lang_mlBasicItem _).mp hv) e
theorem prefixFree_literal : PrefixFree Rx.literalItem :=
  PrefixFree.length 1 fun u hu => by obtain ⟨c, _, _⟩ := (lang_literalItem u).mp hu; rfl

/-! ## Cutting a text into pieces -/

theorem Pieces.append {p : Str → Prop} {s t : Str} (hs : Pieces p s) (ht : Pieces p t) : Pieces p (s ++ t) := by
  induction hs with
  | nil => exact ht
  | cons h _ ih => rw [List.append_assoc]; exact .cons h ih

theorem Pieces.one {p : Str → Prop} {s : Str} (h : p s) : Pieces p s := by
  have := Pieces.cons h .nil
  simpa using this

theorem Pieces.cancel {p : Str → Prop} (hn : ∀ s, p s → s ≠ []) (hp : ∀ u v w x, p u → p v → u ++ w = v ++ x → u = v) {u : Str}
    (hu : Pieces p u) : ∀ {v : Str}, Pieces p (u ++ v) → Pieces p v := by
  induction hu with
  | nil => intro v h; exact h
  | @cons a u h1 h2 ih =>
    intro v h
    generalize hx : a ++ u ++ v = x at h
    cases h with
    | nil => simp at hx; exact absurd hx.1 (hn _ h1)
    | @cons b s g1 g2 =>
      rw [List.append_assoc] at hx
      have := hp _ _ _ _ h1 g1 hx
      subst this
      have : u ++ v = s := by simpa using hx
      subst this
      exact ih g2

theorem MlLiteralPiece.prefix {u v w x : Str} (hu : MlLiteralPiece u) (hv : MlLiteralPiece v) (e : u ++ w = v ++ x) : u = v := by
  have hc : ∀ c, plain c → c ≠ '\n' ∧ c ≠ '\r' := by
    intro c h; constructor <;> (rintro rfl; simp [plain] at h)
  cases hu with
  | char c h =>
    have := hc c h
    cases hv <;> simp at e <;> simp_all
  | lf =>
    cases hv with
    | char c h => have := hc c h; simp at e; simp [← e.1]
    | _ => simp at e ⊢
  | crlf =>
    cases hv with
    | char c h => have := hc c h; simp at e; exact absurd e.1.symm this.2
    | _ => simp at e ⊢

theorem StrType.Piece.prefix {t : StrType} {u v w x : Str} (hu : t.Piece u) (hv : t.Piece v) (e : u ++ w = v ++ x) : u = v := by
  cases t with
  | basic => exact BasicPiece.prefix hu hv e
  | mlBasic => exact MlBasicPiece.prefix hu hv e
  | literal => cases hu; cases hv; simp at e; simp [e.1]
  | mlLiteral => exact MlLiteralPiece.prefix hu hv e

/-- The first iteration on a text made of pieces. -/
theorem StrType.step {t : StrType} {s r : Str} (hs : Pieces t.Piece s) (hn : s ≠ []) (hr : ∀ x, r ≠ ' ' :: x) :
    ∃ u v, s = u ++ v ∧ u ≠ [] ∧ Pieces t.Piece u ∧ Pieces t.Piece v ∧ Det t.item u (v ++ r) := by
  cases hs with
  | nil => simp at hn
  | @cons u s h1 h2 =>
    cases t with
    | basic => exact ⟨u, s, rfl, BasicPiece.ne_nil h1, .one h1, h2, prefixFree_basic.det ((lang_basicItem _).mpr h1) _⟩
    | mlBasic => exact ⟨u, s, rfl, MlBasicPiece.ne_nil h1, .one h1, h2, prefixFree_mlBasic.det ((lang_mlBasicItem _).mpr h1) _⟩
    | literal => exact ⟨u, s, rfl, LiteralPiece.ne_nil h1, .one h1, h2, prefixFree_literal.det ((lang_literalItem _).mpr h1) _⟩
    | mlLiteral =>
      by_cases hsp : [' ', ' '] <+: u ++ (s ++ r)
      · have hu : u = [' '] := by
          cases h1 with
          | char c h => obtain ⟨x, hx⟩ := hsp; simp at hx; simp [← hx.1]
          | lf => obtain ⟨x, hx⟩ := hsp; simp at hx
          | crlf => obtain ⟨x, hx⟩ := hsp; simp at hx
        subst hu
        obtain ⟨x, hx⟩ := hsp
        simp at hx
        cases h2 with
        | nil => simp at hx; exact absurd hx.symm (hr x)
        | @cons w s' g1 g2 =>
          have hw : w = [' '] := by
            cases g1 with
            | char c h => simp at hx; simp [← hx.1]
            | lf => simp at hx
            | crlf => simp at hx
          subst hw
          exact ⟨[' ', ' '], s', rfl, by simp, Pieces.cons (u := [' ']) h1 (.one g1), g2, Det.altl (Det.lit _ _)⟩
      · refine ⟨u, s, rfl, MlLiteralPiece.ne_nil h1, .one h1, h2, ?_⟩
        refine Det.altr (Fails.lit hsp) (Det.unique ?_ ?_)
        · rcases h1 with ⟨c, h3, h4⟩ | _ | _
          · exact .altl (.cls (by simp [inCls, h3, h4]))
          · exact .altr (.altl (.ch _))
          · exact .altr (.altr (.lit _))
        · intro m' t' e hm
          have : Lang Rx.mlLiteralItem m' := .altr hm
          rcases (lang_mlLiteralItem m').mp this with rfl | hm'
          · exact absurd ⟨t', e.symm⟩ hsp
          · exact (MlLiteralPiece.prefix h1 hm' e).symm

theorem StrType.item_facts (t : StrType) : t.item.nullable = false ∧ t.quotes.length ≤ 3 ∧
    (∃ q x, t.quotes = q :: x ∧ q ≠ ' ') := by
  cases t <;> exact ⟨by decide, by decide, _, _, rfl, by decide⟩

theorem StrType.chain {t : StrType} {r : Str} (hr : Fails t.item r) (hr' : ∀ x, r ≠ ' ' :: x) : ∀ n s, s.length ≤ n → Pieces t.Piece s → Chain t.item s r := by
  intro n
  induction n with
  | zero => intro s hl _; rw [List.length_eq_zero_iff.mp (Nat.le_zero.mp hl)]; exact .nil hr
  | succ n ih =>
    intro s hl hs
    by_cases hn : s = []
    · subst hn; exact .nil hr
    · obtain ⟨u, v, rfl, h1, h2, h3, h4⟩ := StrType.step hs hn hr'
      have : 0 < u.length := List.length_pos_iff.mpr h1
      exact .cons h1 h4 (ih v (by simp at hl; omega) h3)

theorem StrType.findsAll {t : StrType} {s : Str} : findsAll (.star true t.item) s = true ↔ Pieces t.Piece s := by
  constructor
  · intro h
    unfold Tomllib.findsAll at h
    split at h
    next m rest hf =>
      obtain ⟨h1, h2⟩ := Re.find_some hf
      have hr : rest = [] := by simpa using h
      subst hr
      rw [h1]
      simpa using (StrType.lang_items _).mp h2
    next => simp at h
  · intro h
    have := Det.find (StrType.chain (r := []) (Fails.nil t.item_facts.1) (by simp) _ s (Nat.le_refl _) h).det
    simp at this
    simp [Tomllib.findsAll, this]

theorem StrType.lchain {t : StrType} {r : Str} : ∀ n s, s.length ≤ n → Pieces t.Piece s → t.NoEarlyEnd s →
    LChain t.item (Re.lit t.quotes) (s ++ t.quotes) r := by
  obtain ⟨_, _, q, x, hq, hq'⟩ := t.item_facts
  intro n
  induction n with
  | zero => intro s hl _ _; rw [List.length_eq_zero_iff.mp (Nat.le_zero.mp hl)]; exact .nil (Det.lit _ _)
  | succ n ih =>
    intro s hl hs he
    by_cases hn : s = []
    · subst hn; exact .nil (Det.lit _ _)
    · have h0 : Fails (Re.lit t.quotes) (s ++ t.quotes ++ r) := by
        refine Fails.lit fun hp => he [] s rfl hn .nil ?_
        exact List.prefix_of_prefix_length_le hp (List.prefix_append _ _) (by simp)
      obtain ⟨u, v, rfl, h1, h2, h3, h4⟩ := StrType.step (r := t.quotes ++ r) hs hn
        (by rw [hq]; intro y hy; simp at hy; exact hq' hy.1)
      have : 0 < u.length := List.length_pos_iff.mpr h1
      have hi := ih v (by simp at hl; omega) h3 (fun u' v' e hv hu => he (u ++ u') v' (by simp [e]) hv (h2.append hu))
      have := LChain.cons (r := t.item) (b := Re.lit t.quotes) (m := u) (m' := v ++ t.quotes) (t := r) h1
        (by simpa using h0) (by simpa using h4) hi
      simpa using this

theorem StrType.det_raw {t : StrType} {s r : Str} (hs : Pieces t.Piece s) (he : t.NoEarlyEnd s) : Det t.raw (t.quoted s) r := by
  rw [StrType.raw_eq, StrType.quoted_eq, List.append_assoc]
  exact Det.seq (Det.lit _ _) (StrType.lchain _ s (Nat.le_refl _) hs he).det

/-- One-line strings cannot end early. -/
theorem StrType.noEarlyEnd {t : StrType} {s : Str} (ht : t = .basic ∨ t = .literal) (hs : Pieces t.Piece s) : t.NoEarlyEnd s := by
  rintro u v rfl hv hu ⟨x, hx⟩
  have h := Pieces.cancel (fun _ h => StrType.Piece.ne_nil h) (fun _ _ _ _ h1 h2 e => StrType.Piece.prefix h1 h2 e) hu hs
  cases h with
  | nil => simp at hv
  | @cons w v h1 _ =>
    rcases ht with rfl | rfl
    · cases h1 with
      | char c _ h2 _ => simp [StrType.quotes] at hx; exact h2 hx.1.symm
      | esc c _ => simp [StrType.quotes] at hx
      | uni h2 => obtain ⟨t, rfl | rfl⟩ := h2.head <;> simp [StrType.quotes] at hx
    · cases h1 with
      | char c _ h2 => simp [StrType.quotes] at hx; exact h2 hx.1.symm

end Tomllib
