import Verif.Lemmas.Re
import Verif.Grammar
import Verif.Spec.Syntax
/-!
# What the patterns of the program describe

Each pattern of the program describes the same texts as its specification.
-/

namespace Tomllib

/-! ## Languages of small patterns -/

theorem lang_cls {rs s} (h : Lang (.cls rs) s) : ∃ c, s = [c] ∧ inCls rs c = true := by
  cases h with
  | cls h => exact ⟨_, rfl, h⟩

theorem lang_seq {a b s} (h : Lang (.seq a b) s) : ∃ u v, s = u ++ v ∧ Lang a u ∧ Lang b v := by
  cases h with
  | seq h1 h2 => exact ⟨_, _, rfl, h1, h2⟩

theorem lang_alt {a b s} (h : Lang (.alt a b) s) : Lang a s ∨ Lang b s := by
  cases h with
  | altl h => exact .inl h
  | altr h => exact .inr h

theorem lang_eps {s} (h : Lang .eps s) : s = [] := by cases h; rfl

theorem char_eq_of_toNat {c d : Char} (h : c.toNat = d.toNat) : c = d := Char.toNat_inj.mp h

theorem lang_ch {c : Char} {s} (h : Lang (Re.ch c) s) : s = [c] := by
  obtain ⟨d, rfl, h1⟩ := lang_cls h
  simp [inCls] at h1
  rw [char_eq_of_toNat (Nat.le_antisymm h1.2 h1.1)]

theorem lang_lit : ∀ {t s : Str}, Lang (Re.lit t) s → s = t
  | [], _, h => lang_eps h
  | [_], _, h => lang_ch h
  | c :: d :: t, s, h => by
    obtain ⟨u, v, rfl, h1, h2⟩ := lang_seq (show Lang (.seq (Re.ch c) (Re.lit (d :: t))) s from h)
    rw [lang_ch h1, lang_lit h2]; rfl

/-- Induction over the iterations of a star. -/
theorem lang_star {g r s} (h : Lang (.star g r) s) {Q : Str → Prop} (h0 : Q [])
    (hs : ∀ u v, u ≠ [] → Lang r u → Lang (.star g r) v → Q v → Q (u ++ v)) : Q s := by
  generalize hre : Re.star g r = re at h
  induction h with
  | nil => exact h0
  | cons h1 h2 h3 _ ih3 =>
    injection hre with e1 e2
    subst e1 e2
    exact hs _ _ h1 h2 h3 (ih3 rfl)
  | eps => cases hre
  | cls _ => cases hre
  | seq _ _ => cases hre
  | altl _ => cases hre
  | altr _ => cases hre

theorem lang_ws {s} (h : Lang Rx.ws s) : Blank s := by
  refine lang_star h (Q := Blank) (by simp [Blank]) ?_
  intro u v _ hu _ hv c hc
  rcases List.mem_append.mp hc with hc | hc
  · rcases lang_alt hu with h | h <;> (rw [lang_ch h] at hc; simp at hc; simp [hc])
  · exact hv c hc

/-! ## Building and inverting small languages -/

theorem Lang.ch (c : Char) : Lang (Re.ch c) [c] := .cls (by simp [inCls])
theorem Lang.lit : ∀ q : Str, Lang (Re.lit q) q
  | [] => .eps
  | [c] => .ch c
  | c :: d :: q => Lang.seq (s := [c]) (.ch c) (Lang.lit (d :: q))

theorem lang_alts {rs : List Re} {s : Str} (h : Lang (Re.alts rs) s) : ∃ r ∈ rs, Lang r s := by
  induction rs with
  | nil => obtain ⟨c, _, h⟩ := lang_cls h; simp [inCls] at h
  | cons r rs ih =>
    cases rs with
    | nil => exact ⟨r, by simp, h⟩
    | cons r' rs =>
      rcases lang_alt h with h | h
      · exact ⟨r, by simp, h⟩
      · obtain ⟨x, h1, h2⟩ := ih h
        exact ⟨x, by simp only [List.mem_cons] at h1 ⊢; exact .inr h1, h2⟩

theorem Lang.alts {rs : List Re} {r : Re} {s : Str} (hr : r ∈ rs) (h : Lang r s) : Lang (Re.alts rs) s := by
  induction rs with
  | nil => simp at hr
  | cons r' rs ih =>
    cases rs with
    | nil => simp at hr; subst hr; exact h
    | cons r'' rs =>
      rcases List.mem_cons.mp hr with rfl | hr
      · exact .altl h
      · exact .altr (ih hr)

theorem lang_rep {r : Re} {p : Char → Prop} (hr : ∀ s, Lang r s ↔ ∃ c, s = [c] ∧ p c) :
    ∀ (n : Nat) (s : Str), Lang (Re.rep r n) s ↔ s.length = n ∧ ∀ c ∈ s, p c
  | 0, s => by
    constructor
    · intro h; rw [lang_eps h]; simp
    · rintro ⟨h, _⟩; rw [List.length_eq_zero_iff.mp h]; exact .eps
  | 1, s => by
    rw [show Re.rep r 1 = r from rfl, hr]
    constructor
    · rintro ⟨c, rfl, h⟩; simpa using h
    · rintro ⟨h1, h2⟩
      match s, h1 with
      | [c], _ => exact ⟨c, rfl, h2 c (by simp)⟩
  | n + 2, s => by
    rw [show Re.rep r (n + 2) = .seq r (Re.rep r (n + 1)) from rfl]
    constructor
    · intro h
      obtain ⟨u, v, rfl, h1, h2⟩ := lang_seq h
      obtain ⟨c, rfl, hc⟩ := (hr u).mp h1
      obtain ⟨h3, h4⟩ := (lang_rep hr (n + 1) v).mp h2
      refine ⟨by simp [h3], ?_⟩
      intro x hx
      simp at hx
      rcases hx with rfl | hx
      · exact hc
      · exact h4 x hx
    · rintro ⟨h1, h2⟩
      match s, h1 with
      | c :: s, h1 =>
        exact Lang.seq (s := [c]) ((hr _).mpr ⟨c, rfl, h2 c (by simp)⟩)
          ((lang_rep hr (n + 1) s).mpr ⟨by simpa using h1, fun x hx => h2 x (by simp [hx])⟩)

theorem lang_cls_iff {rs : List (Nat × Nat)} {p : Char → Prop} (h : ∀ c, inCls rs c = true ↔ p c) (s : Str) :
    Lang (.cls rs) s ↔ ∃ c, s = [c] ∧ p c := by
  constructor
  · intro hs
    obtain ⟨c, rfl, hc⟩ := lang_cls hs
    exact ⟨c, rfl, (h c).mp hc⟩
  · rintro ⟨c, rfl, hc⟩
    exact .cls ((h c).mpr hc)

theorem lang_hexish (s : Str) : Lang Rx.hexish s ↔ ∃ c, s = [c] ∧ hexLike c :=
  lang_cls_iff (by intro c; simp [inCls, hexLike]) s

theorem lang_star_iff {g : Bool} {r : Re} {p : Str → Prop} (h : ∀ s, Lang r s ↔ p s) (hp : ∀ s, p s → s ≠ []) (s : Str) :
    Lang (.star g r) s ↔ Pieces p s := by
  constructor
  · intro hs
    refine lang_star hs (Q := Pieces p) .nil ?_
    intro u v _ hu _ hv
    exact .cons ((h u).mp hu) hv
  · intro hs
    induction hs with
    | nil => exact .nil
    | cons h1 _ ih => exact .cons (hp _ h1) ((h _).mpr h1) ih

theorem lang_uEscs (s : Str) : (∃ r ∈ Rx.uEscs, Lang r s) ↔ UnicodeEsc s := by
  constructor
  · rintro ⟨r, hr, h⟩
    simp only [Rx.uEscs, List.mem_cons, List.not_mem_nil, or_false] at hr
    rcases hr with rfl | rfl <;> obtain ⟨u, v, rfl, h1, h2⟩ := lang_seq h <;> rw [lang_lit h1] <;>
      obtain ⟨h3, h4⟩ := (lang_rep lang_hexish _ _).mp h2
    · exact .u4 v h3 h4
    · exact .u8 v h3 h4
  · rintro (⟨h, h1, h2⟩ | ⟨h, h1, h2⟩)
    · exact ⟨_, List.mem_cons_self, Lang.seq (s := ['\\', 'u']) (.lit _) ((lang_rep lang_hexish _ _).mpr ⟨h1, h2⟩)⟩
    · exact ⟨_, List.mem_cons_of_mem _ List.mem_cons_self, Lang.seq (s := ['\\', 'U']) (.lit _) ((lang_rep lang_hexish _ _).mpr ⟨h1, h2⟩)⟩

theorem UnicodeEsc.ne_nil {s : Str} (h : UnicodeEsc s) : s ≠ [] := by cases h <;> simp

theorem char_ne_iff {c d : Char} : c ≠ d ↔ c.toNat ≠ d.toNat :=
  not_congr ⟨fun h => by rw [h], char_eq_of_toNat⟩

theorem lang_basicItem (s : Str) : Lang Rx.basicItem s ↔ BasicPiece s := by
  constructor
  · intro h
    obtain ⟨r, hr, h⟩ := lang_alts h
    simp only [Rx.escs, List.mem_append, List.mem_cons, List.not_mem_nil, or_false] at hr
    rcases hr with (((rfl | rfl | rfl | rfl) | (rfl | rfl | rfl | rfl | rfl | rfl | rfl)) | rfl) | hr
    · rw [lang_ch h]; exact .char _ (by simp [plain]) (by simp) (by simp)
    · rw [lang_ch h]; exact .char _ (by simp [plain]) (by simp) (by simp)
    · obtain ⟨c, rfl, hc⟩ := lang_cls h
      simp [inCls] at hc
      exact .char _ (by simp [plain]; omega) (char_ne_iff.mpr (by simp; omega)) (char_ne_iff.mpr (by simp; omega))
    · obtain ⟨c, rfl, hc⟩ := lang_cls h
      simp [inCls] at hc
      exact .char _ (by simp [plain]; omega) (char_ne_iff.mpr (by simp; omega)) (char_ne_iff.mpr (by simp; omega))
    all_goals first
      | exact .uni ((lang_uEscs s).mp ⟨r, by simpa using hr, h⟩)
      | (rw [lang_lit h]; exact .esc _ (by simp))
  · rintro (⟨c, h1, h2, h3⟩ | ⟨c, h1⟩ | h1)
    · have h2' := char_ne_iff.mp h2
      have h3' := char_ne_iff.mp h3
      simp at h2' h3'
      obtain ⟨h4, h5⟩ := h1
      by_cases h6 : c.toNat ≤ 0x21
      · by_cases h7 : c.toNat = 0x20
        · have : c = ' ' := char_eq_of_toNat h7
          subst this
          exact Lang.alts (r := Re.ch ' ') (by simp) (.ch _)
        · have : c = '!' := char_eq_of_toNat (by simp; omega)
          subst this
          exact Lang.alts (r := Re.ch '!') (by simp) (.ch _)
      · by_cases h7 : c.toNat ≤ 0x5B
        · exact Lang.alts (r := .cls [(0x23, 0x5B)]) (by simp) (.cls (by simp [inCls]; omega))
        · exact Lang.alts (r := .cls [(0x5D, 0xFFFF)]) (by simp) (.cls (by simp [inCls]; omega))
    · simp at h1
      refine Lang.alts (r := Re.lit ['\\', c]) ?_ (.lit _)
      rcases h1 with rfl | rfl | rfl | rfl | rfl | rfl | rfl | rfl <;> simp [Rx.escs]
    · obtain ⟨r, h2, h3⟩ := (lang_uEscs s).mpr h1
      exact Lang.alts (r := r) (by simp [h2]) h3

theorem lang_mlBasicItem (s : Str) : Lang Rx.mlBasicItem s ↔ MlBasicPiece s := by
  constructor
  · intro h
    obtain ⟨r, hr, h⟩ := lang_alts h
    simp only [Rx.escs, List.mem_append, List.mem_cons, List.not_mem_nil, or_false] at hr
    rcases hr with ((((rfl | rfl) | (rfl | rfl | rfl | rfl | rfl | rfl | rfl)) | rfl) | hr) | (rfl | rfl | rfl)
    · obtain ⟨c, rfl, hc⟩ := lang_cls h
      simp [inCls] at hc
      exact .char _ (.inl (by simp [plain]; omega)) (char_ne_iff.mpr (by simp; omega))
    · obtain ⟨c, rfl, hc⟩ := lang_cls h
      simp [inCls] at hc
      exact .char _ (.inl (by simp [plain]; omega)) (char_ne_iff.mpr (by simp; omega))
    · rw [lang_lit h]; exact .esc _ (by simp)
    · rw [lang_lit h]; exact .esc _ (by simp)
    · rw [lang_lit h]; exact .esc _ (by simp)
    · rw [lang_lit h]; exact .esc _ (by simp)
    · rw [lang_lit h]; exact .esc _ (by simp)
    · rw [lang_lit h]; exact .esc _ (by simp)
    · rw [lang_lit h]; exact .esc _ (by simp)
    · rw [lang_ch h]; exact .char _ (.inr rfl) (by simp)
    · exact .uni ((lang_uEscs s).mp ⟨r, hr, h⟩)
    · rw [lang_ch h]; exact .lf
    · rw [lang_lit h]; exact .crlf
    · obtain ⟨u, v, rfl, h1, h2⟩ := lang_seq h
      rw [lang_ch h1]
      rcases lang_alt h2 with h2 | h2
      · rw [lang_ch h2]; exact .bslf
      · rw [lang_lit h2]; exact .bscrlf
  · rintro (⟨c, h1, h3⟩ | ⟨c, h1⟩ | h1 | _ | _ | _ | _)
    · rcases h1 with ⟨h4, h5⟩ | rfl
      · have h3' := char_ne_iff.mp h3
        simp at h3'
        by_cases h7 : c.toNat ≤ 0x5B
        · exact Lang.alts (r := .cls [(0x20, 0x5B)]) (by simp) (.cls (by simp [inCls]; omega))
        · exact Lang.alts (r := .cls [(0x5D, 0xFFFF)]) (by simp) (.cls (by simp [inCls]; omega))
      · exact Lang.alts (r := Re.ch '\t') (by simp) (.ch _)
    · simp at h1
      refine Lang.alts (r := Re.lit ['\\', c]) ?_ (.lit _)
      rcases h1 with rfl | rfl | rfl | rfl | rfl | rfl | rfl <;> simp [Rx.escs]
    · obtain ⟨r, h2, h3⟩ := (lang_uEscs s).mpr h1
      exact Lang.alts (r := r) (by simp [h2]) h3
    · exact Lang.alts (r := Re.ch '\n') (by simp) (.ch _)
    · exact Lang.alts (r := Re.lit ['\r', '\n']) (by simp) (.lit _)
    · exact Lang.alts (r := .seq (Re.ch '\\') (.alt (Re.ch '\n') (Re.lit ['\r', '\n']))) (by simp)
        (Lang.seq (s := ['\\']) (.ch _) (.altl (.ch _)))
    · exact Lang.alts (r := .seq (Re.ch '\\') (.alt (Re.ch '\n') (Re.lit ['\r', '\n']))) (by simp)
        (Lang.seq (s := ['\\']) (.ch _) (.altr (.lit _)))

theorem lang_literalItem (s : Str) : Lang Rx.literalItem s ↔ LiteralPiece s := by
  constructor
  · intro h
    obtain ⟨r, hr, h⟩ := lang_alts h
    simp only [List.mem_cons, List.not_mem_nil, or_false] at hr
    rcases hr with rfl | rfl | rfl
    · rw [lang_ch h]; exact .char _ (by simp [plain]) (by simp)
    · obtain ⟨c, rfl, hc⟩ := lang_cls h
      simp [inCls] at hc
      exact .char _ (by simp [plain]; omega) (char_ne_iff.mpr (by simp; omega))
    · obtain ⟨c, rfl, hc⟩ := lang_cls h
      simp [inCls] at hc
      exact .char _ (by simp [plain]; omega) (char_ne_iff.mpr (by simp; omega))
  · rintro ⟨c, ⟨h1, h2⟩, h3⟩
    have h3' := char_ne_iff.mp h3
    simp at h3'
    by_cases h7 : c.toNat ≤ 0x26
    · exact Lang.alts (r := .cls [(0x20, 0x26)]) (by simp) (.cls (by simp [inCls]; omega))
    · exact Lang.alts (r := .cls [(0x28, 0xFFFF)]) (by simp) (.cls (by simp [inCls]; omega))

theorem BasicPiece.ne_nil {s : Str} (h : BasicPiece s) : s ≠ [] := by
  rcases h with _ | _ | h
  · simp
  · simp
  · exact h.ne_nil
theorem MlBasicPiece.ne_nil {s : Str} (h : MlBasicPiece s) : s ≠ [] := by
  cases h with
  | uni h => exact h.ne_nil
  | _ => simp
theorem LiteralPiece.ne_nil {s : Str} (h : LiteralPiece s) : s ≠ [] := by
  cases h; simp
theorem MlLiteralPiece.ne_nil {s : Str} (h : MlLiteralPiece s) : s ≠ [] := by
  cases h <;> simp

theorem lang_basics {g : Bool} (s : Str) : Lang (.star g Rx.basicItem) s ↔ Pieces BasicPiece s :=
  lang_star_iff lang_basicItem (fun _ => BasicPiece.ne_nil) s
theorem lang_mlBasics {g : Bool} (s : Str) : Lang (.star g Rx.mlBasicItem) s ↔ Pieces MlBasicPiece s :=
  lang_star_iff lang_mlBasicItem (fun _ => MlBasicPiece.ne_nil) s
theorem lang_literals {g : Bool} (s : Str) : Lang (.star g Rx.literalItem) s ↔ Pieces LiteralPiece s :=
  lang_star_iff lang_literalItem (fun _ => LiteralPiece.ne_nil) s


/-- The pattern of a piece. -/
def StrType.item : StrType → Re
  | .basic => Rx.basicItem
  | .mlBasic => Rx.mlBasicItem
  | .literal => Rx.literalItem
  | .mlLiteral => Rx.mlLiteralItem

theorem lang_mlLiteralItem (s : Str) : Lang Rx.mlLiteralItem s ↔ s = [' ', ' '] ∨ MlLiteralPiece s := by
  constructor
  · intro h
    obtain ⟨r, hr, h⟩ := lang_alts h
    simp only [List.mem_cons, List.not_mem_nil, or_false] at hr
    rcases hr with rfl | rfl | rfl | rfl
    · exact .inl (lang_lit h)
    · obtain ⟨c, rfl, hc⟩ := lang_cls h
      simp [inCls] at hc
      exact .inr (.char _ hc)
    · rw [lang_ch h]; exact .inr .lf
    · rw [lang_lit h]; exact .inr .crlf
  · rintro (rfl | ⟨c, h1, h2⟩ | _ | _)
    · exact Lang.alts (r := Re.lit [' ', ' ']) (by simp) (.lit _)
    · exact Lang.alts (r := .cls [(0x20, 0xFFFF)]) (by simp) (.cls (by simp [inCls, h1, h2]))
    · exact Lang.alts (r := Re.ch '\n') (by simp) (.ch _)
    · exact Lang.alts (r := Re.lit ['\r', '\n']) (by simp) (.lit _)

theorem lang_mlLiterals {g : Bool} (s : Str) : Lang (.star g Rx.mlLiteralItem) s ↔ Pieces MlLiteralPiece s := by
  constructor
  · intro hs
    refine lang_star hs (Q := Pieces MlLiteralPiece) .nil ?_
    intro u v _ hu _ hv
    rcases (lang_mlLiteralItem u).mp hu with rfl | hu
    · exact Pieces.cons (u := [' ']) (.char ' ' (by simp [plain])) (Pieces.cons (u := [' ']) (.char ' ' (by simp [plain])) hv)
    · exact .cons hu hv
  · intro hs
    induction hs with
    | nil => exact .nil
    | cons h1 _ ih => exact .cons h1.ne_nil ((lang_mlLiteralItem _).mpr (.inr h1)) ih

theorem StrType.Piece.ne_nil {t : StrType} {s : Str} (h : t.Piece s) : s ≠ [] := by
  cases t with
  | basic => exact BasicPiece.ne_nil h
  | mlBasic => exact MlBasicPiece.ne_nil h
  | literal => exact LiteralPiece.ne_nil h
  | mlLiteral => exact MlLiteralPiece.ne_nil h

theorem StrType.lang_items {t : StrType} {g : Bool} (s : Str) : Lang (.star g t.item) s ↔ Pieces t.Piece s := by
  cases t with
  | basic => exact lang_basics s
  | mlBasic => exact lang_mlBasics s
  | literal => exact lang_literals s
  | mlLiteral => exact lang_mlLiterals s

/-- The pattern of a string with its quotes. -/
def StrType.raw : StrType → Re
  | .basic => Rx.rawBasic
  | .mlBasic => Rx.rawMlBasic
  | .literal => Rx.rawLiteral
  | .mlLiteral => Rx.rawMlLiteral

theorem StrType.quoted_eq (t : StrType) (s : Str) : t.quoted s = t.quotes ++ s ++ t.quotes := by
  cases t <;> rfl

theorem StrType.raw_eq (t : StrType) : t.raw = .seq (Re.lit t.quotes) (.seq (.star false t.item) (Re.lit t.quotes)) := by
  cases t <;> rfl

theorem lang_raw {t : StrType} {s : Str} (h : Lang t.raw (t.quoted s)) : Pieces t.Piece s := by
  rw [StrType.raw_eq] at h
  obtain ⟨u, v, e, h1, h2⟩ := lang_seq h
  obtain ⟨w, x, rfl, h3, h4⟩ := lang_seq h2
  rw [lang_lit h1, lang_lit h4, StrType.quoted_eq] at e
  have : s = w := by simpa using e
  rw [this]
  exact (StrType.lang_items _).mp h3

theorem lang_raw_iff {t : StrType} {s : Str} : Lang t.raw (t.quoted s) ↔ Pieces t.Piece s := by
  refine ⟨lang_raw, fun h => ?_⟩
  rw [StrType.raw_eq, StrType.quoted_eq, List.append_assoc]
  exact .seq (.lit _) (.seq ((StrType.lang_items _).mpr h) (.lit _))

/-! ## The texts of numbers -/

def Rx.floatTail : Re := .alt (.seq Rx.fracPart Rx.expPart) (.alt Rx.fracPart Rx.expPart)

theorem lang_float {m : Str} (hm : Lang Rx.float m) : Lang (.seq (Re.opt Rx.sign) (.seq Rx.intPart Rx.floatTail)) m := hm

theorem lang_dOrUd (s : Str) : Lang Rx.dOrUd s ↔ DigitGroup s := by
  constructor
  · intro h
    rcases lang_alt h with h | h
    · obtain ⟨c, rfl, hc⟩ := lang_cls h; exact .digit c hc
    · obtain ⟨x, y, rfl, h1, h2⟩ := lang_seq h
      obtain ⟨c, rfl, hc⟩ := lang_cls h2
      rw [lang_ch h1]
      exact .under c hc
  · rintro (⟨c, hc⟩ | ⟨c, hc⟩)
    · exact .altl (.cls hc)
    · exact .altr (Lang.seq (s := ['_']) (.ch _) (.cls hc))

theorem DigitGroup.ne_nil {s : Str} (h : DigitGroup s) : s ≠ [] := by cases h <;> simp

theorem lang_groups {g : Bool} (s : Str) : Lang (.star g Rx.dOrUd) s ↔ Pieces DigitGroup s :=
  lang_star_iff lang_dOrUd (fun _ => DigitGroup.ne_nil) s

theorem lang_intPart (s : Str) : Lang Rx.intPart s ↔ Unsigned s := by
  constructor
  · intro h
    rcases lang_alt h with h | h
    · obtain ⟨u, v, rfl, h1, h2⟩ := lang_seq h
      obtain ⟨c, rfl, hc⟩ := lang_cls h1
      obtain ⟨w, x, rfl, h3, h4⟩ := lang_seq h2
      simp only [inCls, List.any_cons, List.any_nil, Bool.or_false, Bool.and_eq_true, Nat.ble_eq] at hc
      exact .many c w x (by omega) (by omega) ((lang_dOrUd _).mp h3) ((lang_groups _).mp h4)
    · obtain ⟨c, rfl, hc⟩ := lang_cls h; exact .one c hc
  · rintro (⟨c, hc⟩ | ⟨c, u, s, h1, h2, h3, h4⟩)
    · exact .altr (.cls hc)
    · exact .altl (Lang.seq (s := [c]) (.cls (by simp [inCls]; omega)) (.seq ((lang_dOrUd _).mpr h3) ((lang_groups _).mpr h4)))

theorem lang_signed {r : Re} {p : Str → Prop} (hr : ∀ s, Lang r s ↔ p s) (s : Str) : Lang (.seq (Re.opt Rx.sign) r) s ↔ Signed p s := by
  constructor
  · intro h
    obtain ⟨u, v, rfl, h1, h2⟩ := lang_seq h
    have h2 := (hr v).mp h2
    rcases lang_alt h1 with h1 | h1
    · rcases lang_alt h1 with h1 | h1 <;> rw [lang_ch h1]
      · exact .plus h2
      · exact .minus h2
    · rw [lang_eps h1]; exact .plain h2
  · rintro (h | h | h)
    · exact Lang.seq (s := []) (.altr .eps) ((hr _).mpr h)
    · exact Lang.seq (s := ['+']) (.altl (.altl (.ch _))) ((hr _).mpr h)
    · exact Lang.seq (s := ['-']) (.altl (.altr (.ch _))) ((hr _).mpr h)

theorem lang_integer (s : Str) : Lang Rx.integer s ↔ IntegerText s := lang_signed (r := Rx.intPart) lang_intPart s

theorem lang_fraction (s : Str) : Lang Rx.fracPart s ↔ Fraction s := by
  constructor
  · intro h
    obtain ⟨u, v, rfl, h1, h2⟩ := lang_seq h
    obtain ⟨w, x, rfl, h3, h4⟩ := lang_seq h2
    obtain ⟨c, rfl, hc⟩ := lang_cls h3
    rw [lang_ch h1]
    exact .mk c x hc ((lang_groups _).mp h4)
  · rintro ⟨c, s, h1, h2⟩
    exact Lang.seq (s := ['.']) (.ch _) (Lang.seq (s := [c]) (.cls h1) ((lang_groups _).mpr h2))

theorem lang_exponent (s : Str) : Lang Rx.expPart s ↔ Exponent s := by
  constructor
  · intro h
    obtain ⟨u, v, rfl, h1, h2⟩ := lang_seq h
    have h3 := (lang_integer v).mp h2
    rcases lang_alt h1 with h1 | h1 <;> rw [lang_ch h1]
    · exact .mk _ _ (.inl rfl) h3
    · exact .mk _ _ (.inr rfl) h3
  · rintro ⟨e, s, h1, h2⟩
    refine Lang.seq (s := [e]) ?_ ((lang_integer s).mpr h2)
    rcases h1 with rfl | rfl
    · exact .altl (.ch _)
    · exact .altr (.ch _)

theorem lang_float_iff (s : Str) : Lang Rx.float s ↔ FloatText s := by
  constructor
  · intro h
    obtain ⟨u, v, rfl, h1, h2⟩ := lang_seq (lang_float h)
    obtain ⟨a, b, rfl, h3, h4⟩ := lang_seq h2
    have hi : IntegerText (u ++ a) := (lang_integer _).mp (.seq h1 h3)
    rcases lang_alt h4 with h4 | h4
    · obtain ⟨f, e, rfl, h5, h6⟩ := lang_seq h4
      have := FloatText.both hi ((lang_fraction _).mp h5) ((lang_exponent _).mp h6)
      simpa using this
    · rcases lang_alt h4 with h4 | h4
      · have := FloatText.frac hi ((lang_fraction _).mp h4)
        simpa using this
      · have := FloatText.exp hi ((lang_exponent _).mp h4)
        simpa using this
  · intro h
    have key : ∀ {i t : Str}, IntegerText i → Lang Rx.floatTail t → Lang Rx.float (i ++ t) := by
      intro i t hi ht
      obtain ⟨u, v, rfl, h1, h2⟩ := lang_seq ((lang_integer i).mpr hi)
      have : Lang (.seq (Re.opt Rx.sign) (.seq Rx.intPart Rx.floatTail)) (u ++ (v ++ t)) := .seq h1 (.seq h2 ht)
      rw [List.append_assoc]
      exact this
    cases h with
    | both h1 h2 h3 =>
      have := key h1 (.altl (.seq ((lang_fraction _).mpr h2) ((lang_exponent _).mpr h3)))
      simpa using this
    | frac h1 h2 => exact key h1 (.altr (.altl ((lang_fraction _).mpr h2)))
    | exp h1 h2 => exact key h1 (.altr (.altr ((lang_exponent _).mpr h2)))

/-! ## Blanks and line breaks -/

theorem lang_spacePiece (s : Str) : Lang (Re.alts [Re.ch ' ', Re.ch '\t', Re.ch '\n', Re.lit ['\r', '\n']]) s ↔ SpacePiece s := by
  constructor
  · intro h
    obtain ⟨r, hr, h⟩ := lang_alts h
    simp only [List.mem_cons, List.not_mem_nil, or_false] at hr
    rcases hr with rfl | rfl | rfl | rfl
    · rw [lang_ch h]; exact .blank
    · rw [lang_ch h]; exact .tab
    · rw [lang_ch h]; exact .lf
    · rw [lang_lit h]; exact .crlf
  · rintro (_ | _ | _ | _)
    · exact Lang.alts (r := Re.ch ' ') (by simp) (.ch _)
    · exact Lang.alts (r := Re.ch '\t') (by simp) (.ch _)
    · exact Lang.alts (r := Re.ch '\n') (by simp) (.ch _)
    · exact Lang.alts (r := Re.lit ['\r', '\n']) (by simp) (.lit _)

theorem SpacePiece.ne_nil {s : Str} (h : SpacePiece s) : s ≠ [] := by cases h <;> simp

theorem lang_wsNewline (s : Str) : Lang Rx.wsNewline s ↔ Spaces s := lang_star_iff lang_spacePiece (fun _ => SpacePiece.ne_nil) s

theorem lang_quotedKey (k : Str) : Lang Rx.quotedKey k ↔ ∃ s, s ≠ [] ∧ Pieces BasicPiece s ∧ k = lit% "\"" ++ s ++ lit% "\"" := by
  constructor
  · intro h
    obtain ⟨u, v, rfl, h1, h2⟩ := lang_seq h
    obtain ⟨v, w, rfl, h2, h3⟩ := lang_seq h2
    obtain ⟨v1, v2, rfl, h4, h5⟩ := lang_seq h2
    rw [lang_ch h1, lang_ch h3]
    have h4 := (lang_basicItem _).mp h4
    exact ⟨v1 ++ v2, by simp [h4.ne_nil], .cons h4 ((lang_basics _).mp h5), by simp⟩
  · rintro ⟨s, h1, h2, rfl⟩
    cases h2 with
    | nil => simp at h1
    | @cons u v hu hv =>
      have : Lang Rx.quotedKey (['"'] ++ ((u ++ v) ++ ['"'])) :=
        Lang.seq (.ch _) (Lang.seq (Lang.seq ((lang_basicItem u).mpr hu) ((lang_basics v).mpr hv)) (.ch _))
      simpa using this

/-- The characters of comments. -/
theorem notEol_iff (c : Char) : notEol c = true ↔ c = '\t' ∨ (0x20 ≤ c.toNat ∧ c.toNat ≤ 0x10FFF) := by
  have : c = '\t' ↔ c.toNat = 9 := ⟨fun h => h ▸ rfl, fun h => char_eq_of_toNat (d := '\t') h⟩
  rw [this]
  simp [notEol]

theorem notEol_text (s : Str) : (∀ c ∈ s, notEol c = true) ↔ CommentText s := by
  simp only [notEol_iff]; rfl

end Tomllib
