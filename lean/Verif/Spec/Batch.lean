import Verif.Main
import Verif.Spec.Tool
/-!
# Several files, and what is printed
-/

namespace Tomllib.Cli

/-- The file system at the end. -/
def Batch.final (b : Batch) (fs : FS) : FS := b.states.getLastD fs

/-- The file system at the end of work on one file. -/
def Run.final (r : Run) (fs : FS) : FS := r.states.getLastD fs

/-- The text printed, if its wording is known. -/
def textOf : List Piece → Option Str
  | [] => some []
  | .text s :: ps => (textOf ps).map (s ++ ·)
  | _ :: _ => none

end Tomllib.Cli
