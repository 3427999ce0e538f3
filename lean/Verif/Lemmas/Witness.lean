import Verif.Api
/-!
# Running the model on concrete inputs inside the kernel
-/

namespace Tomllib

/-- The run ends with result `b` and a parser of which `Q` holds. -/
def Out.test {β : Type} [DecidableEq β] (x : Out (Parser × β)) (b : β) (Q : Parser → Prop) [DecidablePred Q] : Bool :=
  match x with
  | .ok (p, b') => decide (b' = b) && decide (Q p)
  | _ => false

theorem Out.wit {β : Type} [DecidableEq β] {x : Out (Parser × β)} {b : β} {Q : Parser → Prop} [DecidablePred Q] (h : x.test b Q = true) :
    ∃ p, x = .ok (p, b) ∧ Q p := by
  unfold Out.test at h
  split at h
  · simp at h
    obtain ⟨rfl, h⟩ := h
    exact ⟨_, rfl, h⟩
  · simp at h

theorem Out.wit' {β : Type} [DecidableEq β] {x : Out (Parser × β)} {b : β} (h : x.test b (fun _ => True) = true) :
    ∃ p, x = .ok (p, b) := by
  obtain ⟨p, h, _⟩ := Out.wit h
  exact ⟨p, h⟩

instance {β : Type} [DecidableEq β] (x : Out (Parser × β)) (b : β) (Q : Parser → Prop) [DecidablePred Q] : Decidable (∃ p, x = .ok (p, b) ∧ Q p) :=
  decidable_of_iff (x.test b Q = true) ⟨Out.wit, fun ⟨p, h1, h2⟩ => by subst h1; simp [Out.test, h2]⟩

end Tomllib
