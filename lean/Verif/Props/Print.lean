import Verif.Lemmas.Print
import Verif.Props.Tables
/-!
# Printed values: C44
-/

namespace Tomllib

/-- C44. What `Display` prints for a proper value can be written after any key, and is read as exactly that value: nothing is reported, nothing is left over, and
the elements and pairs of the value have their own keys. -/
theorem C44_printed_value_is_read {k s : Str} {v : Value} (hk : KeyWf k) (hv : v.proper) (hd : v.disp = .ok s) :
    ∃ p, Parser.new.parse (k ++ lit% " = " ++ s) = .ok (p, .full) ∧ p.leftover = [] ∧ p.getValue k = .ok (some v) := by
  rw [v.disp_laid] at hd
  split at hd
  next hne =>
    cases hd
    have h : DocStrict [([], .kv [] k ⟨lit% " ", lit% " "⟩ v.laid [] none)] :=
      ⟨rfl, ⟨by simp [Blank], hk, by simp [WSSep.wf, Blank], v.laid_strict hv, by simp [Blank], by simp [CommentWf]⟩, by simp [LinesStrict]⟩
    have ht : linesText [([], .kv [] k ⟨lit% " ", lit% " "⟩ v.laid [] none)] = k ++ lit% " = " ++ v.laid.text := by
      simp [linesText, ET.text, optComment]
    obtain ⟨p, h1, h2, h3⟩ := C47_meaning h.taken ⟨⟨by simp, v.laid_sound hv⟩, trivial⟩
    rw [ht] at h1
    refine ⟨p, h1, h2, ?_⟩
    have hkw : KeyWf k := (h.wf.lines ([], .kv [] k ⟨lit% " ", lit% " "⟩ v.laid [] none) (by simp)).2.1
    have := h3.value [.str k] ⟨hkw, by simp⟩ (by simp)
    rw [show keyOf [] [Key.str k] = k from rfl] at this
    rw [this]
    simp [Sections.valueAt, Sections.read, Sections.step, show v.laid.part [] = some v.laid by cases v.laid <;> rfl, v.laid_value]
  · simp at hd

/-- C44. Printing a value panics exactly when an array or inline table in it is empty. -/
theorem C44_printing_panics_iff (v : Value) : (∃ x, v.disp = .panic x) ↔ v.noEmpty = false := by
  rw [v.disp_laid]
  cases v.noEmpty <;> simp

/-- C44. Proper values that are printed alike are equal. -/
theorem C44_printing_is_injective {v w : Value} (hv : v.proper) (hw : w.proper) {s : Str} (h1 : v.disp = .ok s) (h2 : w.disp = .ok s) : v = w := by
  have hk : KeyWf (lit% "k") := .inl ⟨by simp, by decide⟩
  obtain ⟨p, e1, _, e2⟩ := C44_printed_value_is_read hk hv h1
  obtain ⟨q, e3, _, e4⟩ := C44_printed_value_is_read hk hw h2
  rw [e1] at e3
  cases e3
  rw [e2] at e4
  cases e4
  rfl

example : (Value.arr [.itab [(lit% "x", .str (lit% "a\\\"b") .basic), (lit% "\"y z\"", .arr [.bool true, .bool false])]]).disp =
    .ok (lit% "[{x = \"a\\\"b\", \"y z\" = [true, false]}]") := by decide +kernel
example : (Value.arr [.itab [(lit% "x", .bool true), (lit% "y-z", .arr [.bool true, .bool false])], .itab [(lit% "x", .bool true)]]).proper := by
  refine ⟨⟨⟨⟨.inl ⟨by simp, by decide⟩, trivial, .inl ⟨by simp, by decide⟩, ⟨⟨trivial, trivial, trivial⟩, by simp [Value.kind]⟩, trivial⟩, by simp⟩,
    ⟨⟨.inl ⟨by simp, by decide⟩, trivial, trivial⟩, by simp⟩, trivial⟩, by simp [Value.kind]⟩
example : ∃ p, Parser.new.parse (lit% "k = [{x = \"a\\\"b\", \"y z\" = [true, false]}]") = .ok (p, .full) ∧ p.getValue (lit% "k") =
    .ok (some (.arr [.itab [(lit% "x", .str (lit% "a\\\"b") .basic), (lit% "\"y z\"", .arr [.bool true, .bool false])]])) := Out.wit (by decide +kernel)

end Tomllib
