import Verif.Lemmas.Census
import Verif.Lemmas.Read
import Verif.Lemmas.ForDoc
/-!
# Lemmas for Props/Bad
-/

namespace Tomllib

/-- The lines of `[t]`, `a = 1`, `[t]`, `a = 2`, `b = 3`, `b = 4`, `[u]`, `b = 5`. -/
def twice : List (Str × ET) :=
  let hd (k : Str) : ET := .table [] (.std ⟨[⟨⟨[], []⟩, k⟩]⟩) [] none
  let kv (k v : Str) : ET := .kv [] k ⟨lit% " ", lit% " "⟩ (.leaf (.int v)) [] none
  [([], hd (lit% "t")), (lit% "\n", kv (lit% "a") (lit% "1")), (lit% "\n", hd (lit% "t")), (lit% "\n", kv (lit% "a") (lit% "2")),
    (lit% "\n", kv (lit% "b") (lit% "3")), (lit% "\n", kv (lit% "b") (lit% "4")), (lit% "\n", hd (lit% "u")), (lit% "\n", kv (lit% "b") (lit% "5"))]

/-- The lines of `[t]`, `[t]`, `b = {c = 1, d = 2000-13-01}`, `e = 2`. -/
def odd : List (Str × ET) :=
  let hd : ET := .table [] (.std ⟨[⟨⟨[], []⟩, lit% "t"⟩]⟩) [] none
  let eq : WSSep := ⟨lit% " ", lit% " "⟩
  let none' : WSSep := ⟨[], []⟩
  [([], hd), (lit% "\n", hd),
    (lit% "\n", .kv [] (lit% "b") eq (.itab (.cons (lit% "c") eq (.leaf (.int (lit% "1"))) (some ⟨[], lit% " "⟩) [] (.cons (lit% "d") eq (.leaf (.dt ⟨⟨lit% "2000", lit% "13", lit% "01"⟩, none⟩)) none [] .nil)) none') [] none),
    (lit% "\n", .kv [] (lit% "e") eq (.leaf (.int (lit% "2"))) [] none)]

theorem headerOk_one {E : List (Str × Entry)} {k : Str} (h : lookup (joinKey [k]) E = none) : HeaderOk E [k] := by
  refine ⟨fun a b ha e => ?_, h, fun hn => absurd rfl hn⟩
  cases a with
  | nil => exact absurd rfl ha
  | cons x a =>
    simp at e
    obtain ⟨rfl, rfl, _⟩ := e
    rintro ⟨t, ht⟩
    rw [h] at ht; cases ht

/-- There is an array in the text of a value: it is the value, or it comes after an equals sign. -/
def ArrayAt (s : Str) : Prop := ∃ a w b, s = a ++ lit% "=" ++ w ++ lit% "[" ++ b ∧ Blank w

theorem ArrayAt.wrap {s : Str} (h : ArrayAt s) (x y : Str) : ArrayAt (x ++ s ++ y) := by
  obtain ⟨a, w, b, rfl, hw⟩ := h
  exact ⟨x ++ a, w, b ++ y, by simp, hw⟩

mutual
theorem VT.array_text : ∀ (t : VT), t.arrayless = false → t.wf → (∃ b, t.text = lit% "[" ++ b) ∨ ArrayAt t.text
  | .leaf _, h, _ => by simp [VT.arrayless] at h
  | .arr es c1 c2, _, _ => .inl ⟨gapText c1 ++ es.text ++ gapText c2 ++ lit% "]", by simp [VT.text]⟩
  | .itab kvs ws, h, hw => by
    rw [VT.wf] at hw
    rw [VT.arrayless] at h
    right
    have := (Pairs.array_text kvs h hw.2).wrap (lit% "{" ++ ws.ws1) (ws.ws2 ++ lit% "}")
    rw [VT.text]
    simpa using this
theorem Pairs.array_text : ∀ (t : Pairs), t.arrayless = false → t.wf → ArrayAt t.text
  | .nil, h, _ => by simp [Pairs.arrayless] at h
  | .cons k ws v sep cn r, h, hw => by
    rw [Pairs.wf] at hw
    rw [Pairs.text]
    cases hv : v.arrayless with
    | false =>
      rcases VT.array_text v hv hw.2.2.1 with ⟨b, e⟩ | e
      · exact ⟨k ++ ws.ws1, ws.ws2, b ++ commaText sep ++ gapText cn ++ r.text, by rw [e]; simp, hw.2.1.2⟩
      · have := e.wrap (k ++ ws.ws1 ++ lit% "=" ++ ws.ws2) (commaText sep ++ gapText cn ++ r.text)
        simpa using this
    | true =>
      rw [Pairs.arrayless, hv, Bool.true_and] at h
      have := (Pairs.array_text r h hw.2.2.2.2.2).wrap (k ++ ws.ws1 ++ lit% "=" ++ ws.ws2 ++ v.text ++ commaText sep ++ gapText cn) []
      simpa using this
end

theorem ArrayLost.line : ∀ {ls : List (Str × ET)} {T : Option Str} {E : List (Str × Entry)}, ArrayLost T E ls →
    ∃ nl w1 k s v w2 c, (nl, ET.kv w1 k s v w2 c) ∈ ls ∧ v.arrayless = false
  | [], T, E, h => by cases T <;> exact h.elim
  | (nl, e) :: ls, T, E, h => by
    have up : ∀ {T' : Option Str} {E' : List (Str × Entry)}, ArrayLost T' E' ls → ∃ nl' w1 k s v w2 c, (nl', ET.kv w1 k s v w2 c) ∈ (nl, e) :: ls ∧ v.arrayless = false := by
      intro T' E' h
      obtain ⟨nl', w1, k, s, v, w2, c, hm, hv⟩ := ArrayLost.line h
      exact ⟨nl', w1, k, s, v, w2, c, by simp [hm], hv⟩
    cases e with
    | blank w => cases T <;> exact up h
    | comment w c => cases T <;> exact up h
    | kv w1 k s v w2 c =>
      cases T with
      | some T => exact up h
      | none =>
        rcases h with h | h
        · exact ⟨nl, w1, k, s, v, w2, c, by simp, h⟩
        · exact up h
    | table w1 t w2 c =>
      cases t with
      | arr t => cases T <;> exact up h
      | std t => cases T <;> rcases h with ⟨_, h⟩ | ⟨_, h⟩ <;> exact up h

theorem ArrayLost.text {ls : List (Str × ET)} (hw : DocWf ls) {T : Option Str} {E : List (Str × Entry)} (h : ArrayLost T E ls) : ArrayAt (linesText ls) := by
  obtain ⟨nl, w1, k, s, v, w2, c, hm, hv⟩ := h.line
  have hl := hw.lines _ hm
  obtain ⟨l1, l2, rfl⟩ := List.append_of_mem hm
  have e : linesText (l1 ++ (nl, ET.kv w1 k s v w2 c) :: l2) =
      (linesText l1 ++ nl ++ w1 ++ k ++ s.ws1 ++ lit% "=" ++ s.ws2) ++ v.text ++ (w2 ++ optComment c ++ linesText l2) := by
    simp [linesText_append, linesText, ET.text]
  rw [e]
  rcases v.array_text hv hl.2.2.2.1 with ⟨b, hb⟩ | hb
  · exact ⟨linesText l1 ++ nl ++ w1 ++ k ++ s.ws1, s.ws2, b ++ (w2 ++ optComment c ++ linesText l2), by rw [hb]; simp, hl.2.2.1.2⟩
  · exact hb.wrap _ _

theorem ArrayLost.headers : ∀ {ls : List (Str × ET)} {T : Str} {E : List (Str × Entry)}, ArrayLost (some T) E ls → ¬ HeadersOk T E ls
  | [], T, E, h => h.elim
  | (nl, e) :: ls, T, E, h => by
    cases e with
    | blank w => exact ArrayLost.headers (ls := ls) h
    | comment w c => exact ArrayLost.headers (ls := ls) h
    | kv w1 k s v w2 c => exact ArrayLost.headers (ls := ls) h
    | table w1 t w2 c =>
      cases t with
      | arr t => exact ArrayLost.headers (ls := ls) h
      | std t =>
        rcases h with ⟨_, h⟩ | ⟨h, _⟩
        · exact fun hh => ArrayLost.headers (ls := ls) h hh.2
        · exact fun hh => h hh.1

theorem blank_end {w w' a' : Str} (hw : Blank w) (hw' : Blank w') {a : Str} {c : Char} (hc : c ≠ ' ' ∧ c ≠ '\t') (e : a ++ [c] ++ w = a' ++ w') :
    ∃ v, a' = a ++ [c] ++ v ∧ Blank v := by
  rcases List.append_eq_append_iff.mp e with ⟨v, h1, h2⟩ | ⟨v, h1, h2⟩
  · exact ⟨v, h1, fun x hx => hw x (by rw [h2]; simp [hx])⟩
  · cases hv : v.reverse with
    | nil =>
      simp at hv; subst hv
      exact ⟨[], by simpa using h1.symm, by simp [Blank]⟩
    | cons x l =>
      have hv' : v = l.reverse ++ [x] := by rw [← List.reverse_reverse v, hv]; simp
      rw [hv', ← List.append_assoc] at h1
      have := List.append_inj_right' h1 rfl
      simp at this; subst this
      have := hw' c (by rw [h2, hv']; simp)
      rcases this with h | h
      · exact absurd h hc.1
      · exact absurd h hc.2

end Tomllib
