import Verif.Disk
import Verif.Spec.Tool
/-!
# Files with bytes, and an operating system that can fail
-/

namespace Tomllib.Cli

/-- The file to which changes are written. -/
def outFile (c : Commands) (path : Str) : Str := c.outputFile.getD path

/-- The document in the file is read without an error, all assignments that are asked for succeed, and the document is then `doc'`. -/
def Edited (c : Commands) (path : Str) (d : Disk) (doc' : Parser) : Prop :=
  ∃ text doc fields, d.get? path = some (encode text) ∧ Parser.new.parse text = .ok (doc, .full) ∧ c.setValue = some (some fields) ∧ fields ≠ [] ∧
    Applied fields doc doc'

/-- Only the output file is different. -/
def SameElsewhere (c : Commands) (path : Str) (d d' : Disk) : Prop := ∀ q, q ≠ outFile c path → d'.get? q = d.get? q

/-- A moment of saving: in the output file there is nothing, or a beginning of the bytes of the printed document. -/
def Saving (c : Commands) (path : Str) (d d' : Disk) : Prop :=
  ∃ doc', Edited c path d doc' ∧ SameElsewhere c path d d' ∧
    (d'.get? (outFile c path) = some [] ∨ ∃ s b, doc'.display = .ok s ∧ b <+: encode s ∧ d'.get? (outFile c path) = some b)

/-- All of the bytes of the printed document are in the output file. -/
def Saved (c : Commands) (path : Str) (d d' : Disk) : Prop :=
  ∃ doc' s, Edited c path d doc' ∧ SameElsewhere c path d d' ∧ doc'.display = .ok s ∧ d'.get? (outFile c path) = some (encode s)

/-- The operating system does what it is asked for. -/
def Luck.good (l : Luck) : Prop := l.opened = true ∧ l.created = true ∧ l.written = true ∧ l.synced = true

/-- The files with their texts as bytes. -/
def onDisk (fs : FS) : Disk := fs.map fun x => (x.1, encode x.2)

/-- The files at the end. -/
def DiskRun.final (r : DiskRun) (d : Disk) : Disk := r.states.getLastD d

/-- The files at the end. -/
def DiskBatch.final (b : DiskBatch) (d : Disk) : Disk := b.states.getLastD d

/-- The process went through all that was asked for; failed commands are among the results. -/
def Stop.finished : Stop → Option (List CmdRes)
  | .ended (.finished rs _) => some rs
  | _ => none

/-- The characters with the property White_Space of Unicode. -/
def whiteSpace : List Char :=
  ['\t', '\n', '\u000b', '\u000c', '\r', ' ', '\u0085', '\u00a0', '\u1680', '\u2000', '\u2001', '\u2002', '\u2003', '\u2004', '\u2005', '\u2006', '\u2007',
   '\u2008', '\u2009', '\u200a', '\u2028', '\u2029', '\u202f', '\u205f', '\u3000']

/-- A name as it may stand on a line: no newline in it, and no whitespace at its ends. -/
def PlainName (n : Str) : Prop := '\n' ∉ n ∧ ∀ c x, n = c :: x ∨ n = x ++ [c] → c ∉ whiteSpace

/-- What may stand around a name. -/
def Around (w : Str) : Prop := ∀ c ∈ w, c ∈ whiteSpace ∧ c ≠ '\n'

end Tomllib.Cli
