import Verif.Lemmas.Reread
import Verif.Lemmas.Witness
/-!
# Reading again what was printed after edits: C51
-/

namespace Tomllib

/-- C51. A properly written document that is accepted without complaint, whose values are then replaced by properly written values of the same structure, is printed
as a text that is read to its end into the same document: every key has the same value and the same children, also after further assignments. All that may be
reported are arrays of mixed kinds. -/
theorem C51_edited_is_read_again {ls : List (Str × ET)} (hs : DocStrict ls) {p p' : Parser} (hp : Parser.new.parse (linesText ls) = .ok (p, .full))
    (he : Edits (fun w v => w.sameShape v = true) p p') {s : Str} (hd : p'.display = .ok s) :
    ∃ p2 r, Parser.new.parse s = .ok (p2, r) ∧ r.whole ∧ (∀ e ∈ r.errs, e.mixed?.isSome = true) ∧ SameAnswers p2 p' := by
  have hA : ∃ ls fp, Anchored p ls fp := (Session.start hp (.inl rfl)).anchored
  obtain ⟨p2, r, h1, h2, h3, _, h5, h6, h7⟩ := reread (K := False) hs hp (he.edited (fun _ _ h => h) (fun h => h.elim) hA) hd
  exact ⟨p2, r, h1, h2, h3, .of h5 h6 h7⟩

/-- C51. If each scalar is replaced by a scalar of its kind, the text is accepted without complaint. -/
theorem C51_same_kinds {ls : List (Str × ET)} (hs : DocStrict ls) {p p' : Parser} (hp : Parser.new.parse (linesText ls) = .ok (p, .full))
    (he : Edits Value.sameKinds p p') {s : Str} (hd : p'.display = .ok s) :
    ∃ p2, Parser.new.parse s = .ok (p2, .full) ∧ SameAnswers p2 p' := by
  have hA : ∃ ls fp, Anchored p ls fp := (Session.start hp (.inl rfl)).anchored
  obtain ⟨p2, r, h1, _, _, h4, h5, h6, h7⟩ := reread (K := True) hs hp (he.edited (fun _ _ h => h.shape) (fun _ _ _ h => h) hA) hd
  rw [h4 trivial] at h1
  exact ⟨p2, h1, .of h5 h6 h7⟩

/-- A document of two lines. -/
private def exLines : List (Str × ET) :=
  [([], .table [] (.std ⟨[⟨⟨[], []⟩, lit% "t"⟩]⟩) [] none),
   (lit% "\n", .kv [] (lit% "a") ⟨lit% " ", lit% " "⟩
     (.arr (.cons (.leaf (.int (lit% "1"))) (some ⟨[], lit% " "⟩) [.newlines []] (.cons (.leaf (.int (lit% "2"))) none [.newlines []] .nil)) [.newlines []] [.newlines []]) [] none)]

example : linesText exLines = lit% "[t]\na = [1, 2]" := by decide +kernel

/-- Two edits of it, the first of which keeps the kinds; the second makes an array of mixed kinds of it. -/
example : DocStrict exLines ∧ ∃ p, Parser.new.parse (linesText exLines) = .ok (p, .full) ∧
    ∃ p1, Edits Value.sameKinds p p1 ∧ Edits (fun w v => w.sameShape v = true) p p1 ∧ p1.display = .ok (lit% "[t]\na = [1, 7]") ∧
    ∃ p2, Edits (fun w v => w.sameShape v = true) p p2 ∧ p2.display = .ok (lit% "[t]\na = [5, \"x\"]") ∧
    (Parser.new.parse (lit% "[t]\na = [5, \"x\"]")).map' (·.2) = .ok (.fullError [.mixedArray (lit% "t.a") 2 0]) := by
  have it : ∀ i, Re.find Rx.integer i = some (i, []) → IntegerText i := fun i h => (lang_integer _).mp (Re.find_some h).2
  have i1 := it (lit% "1") (by decide +kernel)
  have i2 := it (lit% "2") (by decide +kernel)
  have i5 := it (lit% "5") (by decide +kernel)
  have i7 := it (lit% "7") (by decide +kernel)
  constructor
  · have ks : ∀ k ∈ [lit% "a", lit% "t"], KeyWf k := by
      intro k hk
      left
      simp at hk
      rcases hk with rfl | rfl <;> exact ⟨by simp, by decide⟩
    have s0 : Spaces [] := .nil
    have s1 : Spaces (lit% " ") := Pieces.one SpacePiece.blank
    simp [exLines, DocStrict, LinesStrict, ET.strict, TableType.strict, TableType.table, VT.strict, Elems.strict, Scalar.strict, Apart, SepWf, Gap, MoreComments, CommentText,
      CommentWf, WSSep.wf, Blank, NoBlank, gapText, CNL.text, remark, i1, i2, s0, s1, ks]
  · have h : ∃ p, Parser.new.parse (linesText exLines) = .ok (p, .full) ∧
        p.getValue (lit% "t.a[1]") = .ok (some (.int (lit% "2"))) ∧
        ∃ p1, p.setValue (lit% "t.a[1]") (.int (lit% "7")) = .ok (p1, true) ∧ p1.display = .ok (lit% "[t]\na = [1, 7]") ∧
        p1.getValue (lit% "t.a") = .ok (some (.arr [.int (lit% "1"), .int (lit% "7")])) ∧
        ∃ p2, p1.setValue (lit% "t.a") (.arr [.int (lit% "5"), .str (lit% "x") .basic]) = .ok (p2, true) ∧ p2.display = .ok (lit% "[t]\na = [5, \"x\"]") := by
      decide +kernel
    obtain ⟨p, h1, h2, p1, h3, h4, h5, p2, h6, h7⟩ := h
    have w7 : Value.written (.int (lit% "7")) := i7
    have e1 : Edits (fun w v => w.sameShape v = true) p p1 := .edit .none h2 rfl w7 h3
    refine ⟨p, h1, p1, .edit (v := .int (lit% "7")) .none h2 ⟨rfl, rfl, rfl⟩ w7 h3, e1, h4, p2, .edit e1 h5 rfl ?_ h6, h7, by decide +kernel⟩
    simp [Value.written, writtenAll, Scalar.strict, i5]
    have hx : Pieces StrType.basic.Piece (lit% "x") := Pieces.one (BasicPiece.char _ (by unfold plain; decide) (by decide) (by decide))
    exact ⟨hx, StrType.noEarlyEnd (.inl rfl) hx⟩

/-- Why the values must be properly written: `set_value` takes any text that begins with an integer for one. What is printed then reads as another document;
here it has a key more. -/
theorem C51_written_needed : ∃ p p', Parser.new.parse (lit% "a = 1") = .ok (p, .full) ∧ p.setValue (lit% "a") (.int (lit% "2\nb = 3")) = .ok (p', true) ∧
    p'.getValue (lit% "b") = .ok none ∧ p'.display = .ok (lit% "a = 2\nb = 3") ∧
    ∃ p2, Parser.new.parse (lit% "a = 2\nb = 3") = .ok (p2, .full) ∧ p2.getValue (lit% "b") = .ok (some (.int (lit% "3"))) := by
  have h : ∃ p, Parser.new.parse (lit% "a = 1") = .ok (p, .full) ∧ ∃ p', p.setValue (lit% "a") (.int (lit% "2\nb = 3")) = .ok (p', true) ∧
      p'.getValue (lit% "b") = .ok none ∧ p'.display = .ok (lit% "a = 2\nb = 3") ∧
      ∃ p2, Parser.new.parse (lit% "a = 2\nb = 3") = .ok (p2, .full) ∧ p2.getValue (lit% "b") = .ok (some (.int (lit% "3"))) := by
    decide +kernel
  obtain ⟨p, h1, p', h2⟩ := h
  exact ⟨p, p', h1, h2⟩

end Tomllib
