import Verif.Lemmas.Read
import Verif.Lemmas.ForDoc
import Verif.Lemmas.ForValues
/-!
# Lemmas for Props/Read
-/

namespace Tomllib

/-- What can be asked of a parser does not depend on the layout. -/
theorem norm_reads {p p' : Parser} (h : p.st.norm = p'.st.norm) (k : Str) : p.getValue k = p'.getValue k ∧ p.getChildren k = p'.getChildren k := by
  have hm : p.st.norm.map = p'.st.norm.map := by rw [h]
  replace hm : p.st.map = p'.st.map := hm
  have hh : p.st.heap.map TVal.bare = p'.st.heap.map TVal.bare := congrArg (fun s : PState => s.heap) h
  have ht : ∀ a, toVal p.st.heap a = toVal p'.st.heap a := fun a => by rw [← toVal_bare, hh, toVal_bare]
  constructor
  · unfold Parser.getValue
    rw [hm]
    split
    · rw [ht]
    · rfl
  · unfold Parser.getChildren
    rw [hm]

/-- Two layouts of the same document. -/
def layoutA : List (Str × ET) :=
  [([], .kv [] (lit% "a") ⟨[], []⟩ (.arr (.cons (.leaf (.int (lit% "1"))) (some ⟨[], []⟩) [.newlines []] (.cons (.leaf (.int (lit% "2"))) none [.newlines []] .nil))
      [.newlines []] [.newlines []]) [] none),
   (lit% "\n", .table [] (.arr ⟨[⟨⟨[], []⟩, lit% "t"⟩]⟩) [] none)]

def layoutB : List (Str × ET) :=
  [([], .comment [] (lit% " first")), (lit% "\r\n", .blank []),
   (lit% "\n", .kv (lit% "  ") (lit% "a") ⟨lit% " ", lit% " "⟩ (.arr (.cons (.leaf (.int (lit% "1"))) (some ⟨[], lit% " "⟩) [.comment [] (lit% " one") (lit% "\n")]
      (.cons (.leaf (.int (lit% "2"))) none [.newlines (lit% " ")] .nil)) [.newlines (lit% " ")] [.newlines []]) [] none),
   (lit% "\n", .table [] (.arr ⟨[⟨⟨lit% " ", lit% " "⟩, lit% "t"⟩]⟩) (lit% " ") (some (lit% " t"))), (lit% "\n", .blank [])]

end Tomllib
