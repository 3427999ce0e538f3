import Verif.Lemmas.Spell
import Verif.Spec.Path
import Verif.Lemmas.Lex
import Verif.Lemmas.Num
/-!
# Keys of paths determine the paths
-/

namespace Tomllib

/-! ## Quoted text -/

/-- Skip a quoted text up to and including the closing quote. -/
def unq : Str → Option Str
  | [] => none
  | '"' :: t => some t
  | ['\\'] => none
  | '\\' :: _ :: t => unq t
  | _ :: t => unq t

theorem unq_plain {c : Char} (h1 : c ≠ '"') (h2 : c ≠ '\\') (t : Str) : unq (c :: t) = unq t := by
  cases t with
  | nil => rw [unq.eq_5] <;> simp_all
  | cons d t => rw [unq.eq_5] <;> simp_all

theorem unq_esc (c : Char) (t : Str) : unq ('\\' :: c :: t) = unq t := by rw [unq.eq_4]

theorem unq_quote (t : Str) : unq ('"' :: t) = some t := by rw [unq.eq_2]

theorem inCls_one {a b : Nat} {c : Char} : inCls [(a, b)] c = true ↔ a ≤ c.toNat ∧ c.toNat ≤ b := by
  simp [inCls]

theorem hexish_plain {c : Char} {s : Str} (h : Lang Rx.hexish s) (hs : s = [c]) : c ≠ '"' ∧ c ≠ '\\' := by
  obtain ⟨d, e, hd⟩ := lang_cls h
  rw [hs] at e
  simp at e; subst e
  simp only [inCls, List.any_cons, List.any_nil, Bool.or_false, Bool.or_eq_true, Bool.and_eq_true, Nat.ble_eq] at hd
  constructor <;> (rintro rfl; revert hd; decide)

theorem rep_hexish : ∀ (n : Nat) {s : Str}, Lang (Re.rep Rx.hexish n) s → ∀ t, unq (s ++ t) = unq t
  | 0, s, h, t => by
    rw [Re.rep] at h
    rw [lang_eps h]; rfl
  | 1, s, h, t => by
    rw [Re.rep] at h
    obtain ⟨c, rfl, _⟩ := lang_cls h
    obtain ⟨p1, p2⟩ := hexish_plain h rfl
    exact unq_plain p1 p2 t
  | n + 2, s, h, t => by
    obtain ⟨u, v, rfl, h1, h2⟩ := lang_seq (a := Rx.hexish) (b := Re.rep Rx.hexish (n + 1)) h
    obtain ⟨c, rfl, _⟩ := lang_cls h1
    obtain ⟨p1, p2⟩ := hexish_plain h1 rfl
    show unq (c :: (v ++ t)) = _
    rw [unq_plain p1 p2, rep_hexish (n + 1) h2]

theorem basicItem_unq {s : Str} (h : Lang Rx.basicItem s) (t : Str) : unq (s ++ t) = unq t := by
  obtain ⟨r, hr, hl⟩ := lang_alts h
  simp only [Rx.escs, Rx.uEscs, List.cons_append, List.nil_append, List.mem_cons, List.not_mem_nil, or_false] at hr
  rcases hr with rfl | rfl | rfl | rfl | rfl | rfl | rfl | rfl | rfl | rfl | rfl | rfl | rfl | rfl
  · rw [lang_ch hl]; exact unq_plain (by decide) (by decide) t
  · rw [lang_ch hl]; exact unq_plain (by decide) (by decide) t
  · obtain ⟨c, rfl, hc⟩ := lang_cls hl
    rw [inCls_one] at hc
    refine unq_plain ?_ ?_ t <;> (rintro rfl; revert hc; decide)
  · obtain ⟨c, rfl, hc⟩ := lang_cls hl
    rw [inCls_one] at hc
    refine unq_plain ?_ ?_ t <;> (rintro rfl; revert hc; decide)
  all_goals first
    | (rw [lang_lit hl]; exact unq_esc _ _)
    | (obtain ⟨u, v, rfl, h1, h2⟩ := lang_seq hl
       rw [lang_lit h1]
       show unq ('\\' :: _ :: (v ++ t)) = _
       rw [unq_esc, rep_hexish _ h2])

theorem basicItems_unq {g : Bool} {s : Str} (h : Lang (.star g Rx.basicItem) s) (t : Str) : unq (s ++ t) = unq t :=
  lang_star (Q := fun s => unq (s ++ t) = unq t) h rfl (fun u v _ h1 _ ih => by
    rw [List.append_assoc, basicItem_unq h1, ih])

theorem quotedKey_unq {k : Str} (h : ∃ s, s ≠ [] ∧ Pieces BasicPiece s ∧ k = lit% "\"" ++ s ++ lit% "\"") (t : Str) :
    ∃ b, k = '"' :: b ∧ unq (b ++ t) = some t := by
  obtain ⟨s, _, hs, rfl⟩ := h
  refine ⟨_, rfl, ?_⟩
  show unq ((s ++ ['"']) ++ t) = _
  rw [List.append_assoc, basicItems_unq (g := true) ((lang_basics s).mpr hs)]
  exact unq_quote t

/-! ## Keys -/

/-- Printable ASCII characters between quotes are a key. -/
theorem KeyWf.quoted {s : Str} (h : s ≠ []) (hs : ∀ c ∈ s, 0x20 ≤ c.toNat ∧ c.toNat ≤ 0x7E ∧ c ≠ '"' ∧ c ≠ '\\') :
    KeyWf (lit% "\"" ++ s ++ lit% "\"") := by
  refine .inr ⟨s, h, ?_, rfl⟩
  clear h
  induction s with
  | nil => exact .nil
  | cons c s ih =>
    obtain ⟨h1, h2, h3, h4⟩ := hs c (by simp)
    exact Pieces.cons (u := [c]) (.char c ⟨h1, by omega⟩ h3 h4) (ih fun d hd => hs d (by simp [hd]))

/-- What may follow a name in a key. -/
def Ends (r : Str) : Prop := r = [] ∨ (∃ t, r = '.' :: t) ∨ ∃ t, r = '[' :: t

theorem Ends.head {c : Char} {t : Str} (h : Ends (c :: t)) : isBareChar c = false := by
  rcases h with h | ⟨t, h⟩ | ⟨t, h⟩
  · simp at h
  · simp at h; rw [h.1]; decide
  · simp at h; rw [h.1]; decide

theorem bare_split {k1 k2 r1 r2 : Str} (h1 : ∀ c ∈ k1, isBareChar c = true) (h2 : ∀ c ∈ k2, isBareChar c = true) (e1 : Ends r1) (e2 : Ends r2)
    (h : k1 ++ r1 = k2 ++ r2) : k1 = k2 ∧ r1 = r2 := by
  induction k1 generalizing k2 with
  | nil =>
    cases k2 with
    | nil => exact ⟨rfl, h⟩
    | cons c k2 =>
      simp at h; subst h
      have := e1.head
      rw [h2 c (by simp)] at this
      simp at this
  | cons c k1 ih =>
    cases k2 with
    | nil =>
      simp at h; subst h
      have := e2.head
      rw [h1 c (by simp)] at this
      simp at this
    | cons d k2 =>
      simp at h
      obtain ⟨rfl, h⟩ := h
      obtain ⟨rfl, rfl⟩ := ih (fun c hc => h1 c (by simp [hc])) (fun c hc => h2 c (by simp [hc])) h
      exact ⟨rfl, rfl⟩

theorem KeyWf.ne {k : Str} (h : KeyWf k) : k ≠ [] := by
  rcases h with h | h
  · exact h.1
  · obtain ⟨b, rfl, _⟩ := quotedKey_unq h []
    simp

/-- A name and what follows it can be told apart. -/
theorem KeyWf.split {k1 k2 r1 r2 : Str} (h1 : KeyWf k1) (h2 : KeyWf k2) (e1 : Ends r1) (e2 : Ends r2) (h : k1 ++ r1 = k2 ++ r2) :
    k1 = k2 ∧ r1 = r2 := by
  have hq : isBareChar '"' = false := by decide
  rcases h1 with ⟨n1, h1⟩ | h1 <;> rcases h2 with ⟨n2, h2⟩ | h2
  · exact bare_split h1 h2 e1 e2 h
  · exfalso
    obtain ⟨b, rfl, _⟩ := quotedKey_unq h2 []
    cases k1 with
    | nil => exact n1 rfl
    | cons c k1 =>
      simp at h
      have := h1 c (by simp)
      rw [h.1, hq] at this
      simp at this
  · exfalso
    obtain ⟨b, rfl, _⟩ := quotedKey_unq h1 []
    cases k2 with
    | nil => exact n2 rfl
    | cons c k1 =>
      simp at h
      have := h2 c (by simp)
      rw [← h.1, hq] at this
      simp at this
  · obtain ⟨b1, rfl, u1⟩ := quotedKey_unq h1 r1
    obtain ⟨b2, rfl, u2⟩ := quotedKey_unq h2 r2
    simp at h
    rw [h, u2] at u1
    simp at u1
    subst u1
    exact ⟨by rw [List.append_cancel_right h], rfl⟩

theorem KeyWf.ne_root {k : Str} (h : KeyWf k) : k ≠ root := by
  rintro rfl
  rcases h with h | h
  · have := h.2 '$' (by decide)
    revert this; decide
  · obtain ⟨b, e, _⟩ := quotedKey_unq h []
    revert e
    simp [root]

/-! ## Paths -/

/-- The key after its first name. -/
def restStr : List Key → Str
  | [] => []
  | .str s :: r => '.' :: (s ++ restStr r)
  | .idx i :: r => idxStr i ++ restStr r

theorem restStr_ends (p : List Key) : Ends (restStr p) := by
  cases p with
  | nil => exact .inl rfl
  | cons k p =>
    cases k with
    | str s => exact .inr (.inl ⟨_, rfl⟩)
    | idx i => exact .inr (.inr ⟨natStr i ++ lit% "]" ++ restStr p, by simp [restStr, idxStr]⟩)

theorem keyOf_rest : ∀ (p : List Key) {b : Str}, b ≠ [] → keyOf b p = b ++ restStr p
  | [], b, _ => by simp [keyOf, restStr]
  | .str s :: p, b, h => by
    have := keyOf_rest p (b := b ++ lit% "." ++ s) (by simp)
    simp only [keyOf, List.foldl_cons, Key.add, dotted, if_pos h] at this ⊢
    rw [this]
    simp [restStr]
  | .idx i :: p, b, h => by
    have := keyOf_rest p (b := b ++ lit% "[" ++ natStr i ++ lit% "]") (by simp)
    simp only [keyOf, List.foldl_cons, Key.add, indexed, decimal_eq] at this ⊢
    rw [this]
    simp [restStr, idxStr]

theorem keyOf_nil_cons {k : Str} (h : k ≠ []) (p : List Key) : keyOf [] (.str k :: p) = k ++ restStr p := by
  rw [← keyOf_rest p h]
  rfl

theorem idxStr_split {i j : Nat} {r1 r2 : Str} (h : idxStr i ++ r1 = idxStr j ++ r2) : i = j ∧ r1 = r2 := by
  have hd : ∀ {s1 s2 r1 r2 : Str}, (∀ c ∈ s1, IsDigit c) → (∀ c ∈ s2, IsDigit c) → s1 ++ ']' :: r1 = s2 ++ ']' :: r2 → s1 = s2 ∧ r1 = r2 := by
    intro s1
    induction s1 with
    | nil =>
      intro s2 r1 r2 _ h2 h
      cases s2 with
      | nil => simp at h; exact ⟨rfl, h⟩
      | cons c s2 =>
        simp at h
        have := h2 c (by simp)
        rw [← h.1] at this
        exact absurd this (by unfold IsDigit; decide)
    | cons c s1 ih =>
      intro s2 r1 r2 h1 h2 h
      cases s2 with
      | nil =>
        simp at h
        have := h1 c (by simp)
        rw [h.1] at this
        exact absurd this (by unfold IsDigit; decide)
      | cons d s2 =>
        simp at h
        obtain ⟨rfl, h⟩ := h
        obtain ⟨rfl, rfl⟩ := ih (fun c hc => h1 c (by simp [hc])) (fun c hc => h2 c (by simp [hc])) h
        exact ⟨rfl, rfl⟩
  simp [idxStr] at h
  obtain ⟨h1, h2⟩ := hd (natStr_digits i) (natStr_digits j) h
  exact ⟨natStr_inj h1, h2⟩

theorem restStr_inj : ∀ {p q : List Key}, (∀ s, .str s ∈ p → KeyWf s) → (∀ s, .str s ∈ q → KeyWf s) → restStr p = restStr q → p = q
  | [], [], _, _, _ => rfl
  | [], .str s :: q, _, _, h => by simp [restStr] at h
  | [], .idx i :: q, _, _, h => by simp [restStr, idxStr] at h
  | .str s :: p, [], _, _, h => by simp [restStr] at h
  | .idx i :: p, [], _, _, h => by simp [restStr, idxStr] at h
  | .str s :: p, .idx i :: q, _, _, h => by simp [restStr, idxStr] at h
  | .idx i :: p, .str s :: q, _, _, h => by simp [restStr, idxStr] at h
  | .str s :: p, .str t :: q, h1, h2, h => by
    simp only [restStr, List.cons.injEq, true_and] at h
    obtain ⟨rfl, h'⟩ := (h1 s (by simp)).split (h2 t (by simp)) (restStr_ends p) (restStr_ends q) h
    rw [restStr_inj (fun s hs => h1 s (by simp [hs])) (fun s hs => h2 s (by simp [hs])) h']
  | .idx i :: p, .idx j :: q, h1, h2, h => by
    simp only [restStr] at h
    obtain ⟨rfl, h'⟩ := idxStr_split h
    rw [restStr_inj (fun s hs => h1 s (by simp [hs])) (fun s hs => h2 s (by simp [hs])) h']

/-- Different paths have different keys. -/
theorem keyOf_inj {p q : List Key} (hp : PathWf p) (hq : PathWf q) (h : keyOf [] p = keyOf [] q) : p = q := by
  cases p with
  | nil =>
    cases q with
    | nil => rfl
    | cons k q =>
      cases k with
      | idx => exact hq.elim
      | str s =>
        rw [keyOf_nil_cons hq.1.ne] at h
        have := hq.1.ne
        simp [keyOf] at h
        exact absurd h.1 this
  | cons k p =>
    cases k with
    | idx => exact hp.elim
    | str s =>
      rw [keyOf_nil_cons hp.1.ne] at h
      cases q with
      | nil =>
        have := hp.1.ne
        simp [keyOf] at h
        exact absurd h.1 this
      | cons k q =>
        cases k with
        | idx => exact hq.elim
        | str t =>
          rw [keyOf_nil_cons hq.1.ne] at h
          obtain ⟨rfl, h'⟩ := hp.1.split hq.1 (restStr_ends p) (restStr_ends q) h
          rw [restStr_inj hp.2 hq.2 h']

theorem keyOf_append (b : Str) (p q : List Key) : keyOf b (p ++ q) = keyOf (keyOf b p) q := by simp [keyOf]

end Tomllib
