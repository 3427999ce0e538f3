import Verif.Shared
import Verif.Spec.Results
import Verif.Spec.Lines
/-!
# Results that are kept
-/

namespace Tomllib

/-- The program does not change the list of errors itself. -/
def Call.leavesErrors : Call → Prop
  | .errors _ => False
  | _ => True

end Tomllib
