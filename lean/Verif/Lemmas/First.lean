import Verif.Lemmas.Lex
/-!
# First characters
-/

namespace Tomllib
open P

namespace Re

/-- Can it match the empty text? -/
def nullable : Re → Bool
  | eps => true
  | cls _ => false
  | seq a b => nullable a && nullable b
  | alt a b => nullable a || nullable b
  | star _ _ => true

/-- Can a match begin with this character? -/
def starts (c : Char) : Re → Bool
  | eps => false
  | cls rs => inCls rs c
  | seq a b => starts c a || (nullable a && starts c b)
  | alt a b => starts c a || starts c b
  | star _ r => starts c r

end Re

theorem Lang.nullable {r : Re} {s : Str} (h : Lang r s) : s = [] → r.nullable = true := by
  induction h with
  | eps => simp [Re.nullable]
  | cls _ => simp
  | seq _ _ ih1 ih2 => intro h; simp at h; simp [Re.nullable, ih1 h.1, ih2 h.2]
  | altl _ ih => intro h; simp [Re.nullable, ih h]
  | altr _ ih => intro h; simp [Re.nullable, ih h]
  | nil => simp [Re.nullable]
  | cons _ _ _ _ _ => simp [Re.nullable]

theorem Lang.starts {r : Re} {s : Str} (h : Lang r s) : ∀ c t, s = c :: t → r.starts c = true := by
  induction h with
  | eps => simp
  | cls h => intro c t e; simp at e; obtain ⟨rfl, _⟩ := e; simpa [Re.starts] using h
  | @seq a b u v h1 h2 ih1 ih2 =>
    intro c t e
    cases u with
    | nil => simp [Re.starts, h1.nullable rfl, ih2 c t e]
    | cons d u => simp at e; simp [Re.starts, ih1 c u (by rw [e.1])]
  | altl _ ih => intro c t e; simp [Re.starts, ih c t e]
  | altr _ ih => intro c t e; simp [Re.starts, ih c t e]
  | nil => simp
  | @cons g r u v h1 _ _ ih1 _ =>
    intro c t e
    cases u with
    | nil => simp at h1
    | cons d u => simp at e; simpa [Re.starts, e.1] using ih1 d u rfl

theorem re_err {r : Re} {c : Char} {st : PState} {i : Str} (hn : r.nullable = false) (hc : r.starts c = false) :
    P.re r st (c :: i) = .ok (st, .err) := by
  unfold P.re
  split
  next m rest h =>
    obtain ⟨h1, h2⟩ := Re.find_some h
    cases m with
    | nil => have := h2.nullable rfl; simp [hn] at this
    | cons d m => simp at h1; have := h2.starts d m rfl; simp [← h1.1, hc] at this
  next => rfl

theorem re_nil {r : Re} {st : PState} (hn : r.nullable = false) : P.re r st [] = .ok (st, .err) := by
  unfold P.re
  split
  next m rest h =>
    obtain ⟨h1, h2⟩ := Re.find_some h
    simp at h1
    have := h2.nullable h1.1; simp [hn] at this
  next => rfl

/-- A starred pattern that cannot start with the character takes nothing. -/
theorem re_star_none {g : Bool} {r : Re} {c : Char} {st : PState} {i : Str} (hc : r.starts c = false) :
    P.re (.star g r) st (c :: i) = .ok (st, .done (c :: i) []) := by
  unfold P.re
  split
  next m rest h =>
    obtain ⟨h1, h2⟩ := Re.find_some h
    cases m with
    | nil => simp at h1; subst h1; rfl
    | cons d m => simp at h1; have := h2.starts d m rfl; simp [← h1.1, Re.starts, hc] at this
  next h => exact absurd .nil (Re.find_none h [] (c :: i) rfl)

theorem re_star_nil {g : Bool} {r : Re} {st : PState} : P.re (.star g r) st [] = .ok (st, .done [] []) := by
  obtain ⟨a, m, rest, h1, h2, rfl, _⟩ := LexT.reStar g r st []
  simp at h2
  rw [h1, h2.1, h2.2]

theorem tag_ne {t : Str} {c d : Char} {i : Str} {st : PState} (h : c ≠ d) :
    P.tag (d :: t) st (c :: i) = .ok (st, .err) ∨ P.tag (d :: t) st (c :: i) = .ok (st, .inc) := by
  unfold P.tag
  split
  · exact .inr rfl
  · have : (d :: t).isPrefixOf (c :: i) = false := by
      simp [List.isPrefixOf, Ne.symm h]
    simp [this]

theorem utf8Size_pos (c : Char) : 0 < c.utf8Size := Char.utf8Size_pos c

theorem tag_nil {t : Str} {d : Char} {st : PState} : P.tag (d :: t) st [] = .ok (st, .inc) := by
  have := utf8Size_pos d
  simp [P.tag, blen]; omega

theorem tag1_ne {c d : Char} {i : Str} {st : PState} (h : c ≠ d) (hd : d.utf8Size = 1) :
    P.tag [d] st (c :: i) = .ok (st, .err) := by
  have := utf8Size_pos c
  unfold P.tag
  rw [if_neg (by simp [blen, hd]; omega)]
  simp [List.isPrefixOf, Ne.symm h]

theorem complete_err {α : Type} {p : P α} {st st' : PState} {i : Str} (h : p st i = .ok (st', .err)) :
    P.complete p st i = .ok (st', .err) := by simp [P.complete, h]
theorem complete_inc {α : Type} {p : P α} {st st' : PState} {i : Str} (h : p st i = .ok (st', .inc)) :
    P.complete p st i = .ok (st', .err) := by simp [P.complete, h]
theorem complete_done {α : Type} {p : P α} {st st' : PState} {i r : Str} {a : α} (h : p st i = .ok (st', .done r a)) :
    P.complete p st i = .ok (st', .done r a) := by simp [P.complete, h]
theorem complete_panic {α : Type} {p : P α} {st : PState} {i : Str} {x : Panic} (h : p st i = .panic x) :
    P.complete p st i = .panic x := by simp [P.complete, h]
theorem complete_fuel {α : Type} {p : P α} {st : PState} {i : Str} (h : p st i = .fuel) :
    P.complete p st i = .fuel := by simp [P.complete, h]
theorem alt_err {α : Type} {p q : P α} {st st' : PState} {i : Str} (h : p st i = .ok (st', .err)) :
    P.alt p q st i = q st' i := by simp [P.alt, h]
theorem alt_done {α : Type} {p q : P α} {st st' : PState} {i r : Str} {a : α} (h : p st i = .ok (st', .done r a)) :
    P.alt p q st i = .ok (st', .done r a) := by simp [P.alt, h]
theorem alt_panic {α : Type} {p q : P α} {st : PState} {i : Str} {x : Panic} (h : p st i = .panic x) :
    P.alt p q st i = .panic x := by simp [P.alt, h]
theorem alt_fuel {α : Type} {p q : P α} {st : PState} {i : Str} (h : p st i = .fuel) :
    P.alt p q st i = .fuel := by simp [P.alt, h]

theorem complete_tag_ne {t : Str} {c d : Char} {i : Str} {st : PState} (h : c ≠ d) :
    P.complete (P.tag (d :: t)) st (c :: i) = .ok (st, .err) := by
  rcases tag_ne (t := t) (i := i) (st := st) h with h | h
  · exact complete_err h
  · exact complete_inc h

theorem complete_tag_nil {t : Str} {d : Char} {st : PState} :
    P.complete (P.tag (d :: t)) st [] = .ok (st, .err) := complete_inc tag_nil

theorem tag_append (t : Str) {i : Str} {st : PState} : P.tag t st (t ++ i) = .ok (st, .done i t) := by
  have hb : ∀ a b : Str, blen (a ++ b) = blen a + blen b := by
    intro a b; induction a with
    | nil => simp [blen]
    | cons c a ih => simp [blen, ih]; omega
  have h : t.isPrefixOf (t ++ i) = true := by simp
  unfold P.tag
  rw [if_neg (by rw [hb]; omega), if_pos h]; simp

end Tomllib
