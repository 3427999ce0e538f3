import Verif.Api
import Verif.Spec.Results
/-!
# When two errors and two results say the same

A table of pairs is a map: what counts is the value under each key, not an order.
-/

namespace Tomllib

/-- Two errors that say the same. -/
inductive ParseError.Agree : ParseError → ParseError → Prop
  | same (e : ParseError) : Agree e e
  | tables (key : Str) (line col : Nat) {m m' : SMap Value} (h : ∀ k, m.get? k = m'.get? k) : Agree (.invalidTable key line col m) (.invalidTable key line col m')

/-- Two lists of errors that say the same, one by one. -/
def ErrorsAgree (es es' : List ParseError) : Prop :=
  es.length = es'.length ∧ ∀ (i : Nat) (e e' : ParseError), es[i]? = some e → es'[i]? = some e' → e.Agree e'

/-- Two results that say the same: they differ at most in the tables of pairs of their errors, and there only in the order. -/
def ParseResult.Agree (r r' : ParseResult) : Prop :=
  (∃ es es', r = .fullError es ∧ r' = .fullError es' ∧ ErrorsAgree es es') ∨
  (∃ s l c es es', r = .partialError s l c es ∧ r' = .partialError s l c es' ∧ ErrorsAgree es es') ∨
  r = r'

end Tomllib
