import Verif.Main
/-!
# The command-line tool with files that can fail: src/bin/tomlkit.rs:99-130, 208-346 and 348-359

`Verif/Cli.lean` and `Verif/Main.lean` have files of characters that can always be written. Here files have bytes, and the operating system decides whether
a file can be opened, created, written and flushed. The names of the files are read from the bytes of the standard input.
Not modelled: other programs that change the files at the same time; two names for the same file.
-/

namespace Tomllib.Cli

/-- The files with their bytes. -/
abbrev Disk := SMap (List UInt8)

/-- The bytes of a text (`str::as_bytes`): UTF-8. -/
def encode (s : Str) : List UInt8 := s.flatMap String.utf8EncodeChar

/-- The text with these bytes, if there is one (`read_to_string` and `read_line` fail if there is none). -/
def decode (b : List UInt8) : Option Str := (ByteArray.mk b.toArray).utf8Decode?.map Array.toList

/-- What the operating system does during the work on one document. -/
structure Luck where
  /-- `File::open` and the reading that follows succeed if the file is there. -/
  opened : Bool
  /-- `File::create` succeeds. -/
  created : Bool
  /-- How many bytes are written at a time by `write_all`. -/
  writes : List Nat
  /-- `write_all` succeeds in the end. -/
  written : Bool
  /-- `sync_all` succeeds. -/
  synced : Bool
  deriving DecidableEq, Repr

/-- How work on a document ends. -/
inductive Stop where
  | ended (e : End)
  /-- `std::process::exit(-1)` because this file could not be written -/
  | notWritten (out : Str)

/-- Work on one document: the successive states of the files (a crash can leave any of them behind) and the end. -/
structure DiskRun where
  states : List Disk
  last : Stop

/-- `get_file`, src/bin/tomlkit.rs:355-359 -/
def getFile (l : Luck) (d : Disk) (path : Str) : Option Str :=
  if l.opened then (d.get? path).bind decode else none

/-- Continue with the value, or end by a panic. -/
def attempt {α : Type} (x : Out α) (states : List Disk) (k : α → DiskRun) : DiskRun :=
  match x with
  | .ok a => k a
  | .panic p => ⟨states, .ended (.panicked p)⟩
  | .fuel => ⟨states, .ended .outOfFuel⟩

/-- Run a command if it is given and the last result is not an error, as in `command`. -/
def commandOn (results : List CmdRes) (given : Option (Option (List Str))) (d : Disk)
    (f : Option (List Str) → Out CmdRes) (k : List CmdRes → DiskRun) : DiskRun :=
  match results.getLast?, given with
  | some (.error _), _ => k results
  | _, some fields => attempt (f fields) [d] fun r => k (results ++ [r])
  | _, none => k results

/-- The end of `process_document`, src/bin/tomlkit.rs:316-346, which touches no file. -/
def finishOn (o : Options) (c : Commands) (results : List CmdRes) (doc : Parser) (states : List Disk) : DiskRun :=
  ⟨states, .ended (finish o c results doc []).last⟩

/-- What is in the file during `write_all`: the first `n` bytes, then more and more of them. -/
def growing (b : List UInt8) : Nat → List Nat → List (List UInt8)
  | _, [] => []
  | n, k :: ks => b.take (n + k) :: growing b (n + k) ks

/-- The part of `process_document` from the set-value command on, src/bin/tomlkit.rs:288-346, and `write_to_file`, 348-353:
the file is created (emptied), the document is printed, its bytes are written, the file is flushed. -/
def saveOn (o : Options) (c : Commands) (path : Str) (results : List CmdRes) (doc : Parser) (l : Luck) (d : Disk) : DiskRun :=
  match results.getLast?, c.setValue with
  | some (.error _), _ => finishOn o c results doc [d]
  | _, none => finishOn o c results doc [d]
  | _, some fields =>
    attempt (setValue o fields doc) [d] fun (doc, r) =>
      match r with
      | .error _ => finishOn o c (results ++ [r]) doc [d]
      | .ok _ =>
        let out := c.outputFile.getD path
        if l.created then
          let d1 := d.insert out []
          attempt doc.display [d, d1] fun s =>
            let states := [d, d1] ++ (growing (encode s) 0 l.writes).map (d1.insert out)
            if l.written then
              let states := states ++ [d1.insert out (encode s)]
              if l.synced then finishOn o c (results ++ [r]) doc states
              else ⟨states, .notWritten out⟩
            else ⟨states, .notWritten out⟩
        else ⟨[d], .notWritten out⟩

/-- `process_document`, src/bin/tomlkit.rs:208-346. -/
def processOn (o : Options) (c : Commands) (path : Str) (l : Luck) (d : Disk) : DiskRun :=
  match getFile l d path with
  | none => ⟨[d], .ended (.exited .noFile)⟩
  | some text =>
    attempt (Parser.new.parse text) [d] fun (doc, res) =>
      match res with
      | .full =>
        commandOn [] c.getValue d (fun k => getValue o k doc) fun r =>
        let keycount := match r.getLast?, c.hasValue with
          | some (.error _), _ => 0
          | _, some (some ks) => ks.length
          | _, _ => 0
        commandOn r c.hasValue d (fun k => Out.bind (hasValue o k doc) fun x => .ok x.1) fun r =>
        commandOn r c.getChildren d (fun k => .ok (getChildren o k doc)) fun r =>
        commandOn r c.hasChildren d (fun k => hasChildren o k keycount doc) fun r =>
        saveOn o c path r doc l d
      | r => ⟨[d], .ended (.exited (.notRead r))⟩

/-- Several files: the successive states of the files, how the work on each of them ended, and whether the standard input could not be read further. -/
structure DiskBatch where
  states : List Disk
  ends : List (Str × Stop)
  noNames : Bool

/-- The loop over the lines of the standard input, src/bin/tomlkit.rs:112-128: each is the name of a file, or it is not a text. `luck` says for each document
what the operating system does. -/
def batchOn (o : Options) (c : Commands) : List (Option Str) → (Nat → Luck) → Disk → DiskBatch
  | [], _, d => ⟨[d], [], false⟩
  | none :: _, _, d => ⟨[d], [], true⟩
  | some p :: ps, luck, d =>
    let r := processOn o c p (luck 0) d
    match r.last with
    | .ended (.finished _ _) =>
      let b := batchOn o c ps (fun n => luck (n + 1)) (r.states.getLastD d)
      ⟨r.states ++ b.states, (p, r.last) :: b.ends, b.noNames⟩
    | _ => ⟨r.states, [(p, r.last)], false⟩

/-- The lines as `read_line` gives them: up to and with the newline, the last perhaps without. -/
def readLines : List UInt8 → List (List UInt8)
  | [] => []
  | x :: b =>
    if x = 10 then [x] :: readLines b
    else match readLines b with
      | [] => [[x]]
      | l :: ls => (x :: l) :: ls

/-- `char::is_whitespace`: the property White_Space of Unicode. -/
def isWhite (c : Char) : Bool :=
  (9 ≤ c.toNat ∧ c.toNat ≤ 13) || c.toNat = 0x20 || c.toNat = 0x85 || c.toNat = 0xA0 || c.toNat = 0x1680 || (0x2000 ≤ c.toNat ∧ c.toNat ≤ 0x200A) ||
  c.toNat = 0x2028 || c.toNat = 0x2029 || c.toNat = 0x202F || c.toNat = 0x205F || c.toNat = 0x3000

/-- `str::trim` -/
def trim (s : Str) : Str := ((s.dropWhile isWhite).reverse.dropWhile isWhite).reverse

/-- The names on the standard input, src/bin/tomlkit.rs:114-119. -/
def namesOn (stdin : List UInt8) : List (Option Str) := (readLines stdin).map fun l => (decode l).map trim

/-- `main`, src/bin/tomlkit.rs:99-130, after the options have been parsed. -/
def mainOn (csv : Str → Option (List Str)) (m : Matches) (stdin : List UInt8) (luck : Nat → Luck) (d : Disk) : DiskBatch :=
  if m.contains (lit% "help") then ⟨[d], [], false⟩
  else batchOn (Options.new csv m) (Commands.new csv m) (match m.get? (lit% "input-file") with
    | some f => [some f]
    | none => namesOn stdin) luck d

/-- The exit status. -/
def Stop.status : Stop → Nat
  | .ended e => e.status
  | .notWritten _ => 255

/-- The exit status of the program, src/bin/tomlkit.rs:122-125 for a standard input that cannot be read. -/
def DiskBatch.status (b : DiskBatch) : Nat :=
  if b.noNames then 255
  else match b.ends.getLast? with
    | some (_, e) => e.status
    | none => 0

/-- What the work on a document prints, src/bin/tomlkit.rs:213-241, 305-308 and 316-345. -/
def Stop.output (o : Options) (m : Matches) (path : Str) : Stop → List Piece
  | .ended (.finished rs d) => printed o m path rs d
  | .ended (.exited why) => why.message path
  | .ended _ => []
  | .notWritten out =>
    [.text (errorIn path ++ lit% "Unable to write to file: \"" ++ out ++ lit% "\". Reason: "), .os, .text (lit% "\n")]

/-- What the program prints, src/bin/tomlkit.rs:123 for a standard input that cannot be read. -/
def DiskBatch.output (o : Options) (m : Matches) (b : DiskBatch) : List Piece :=
  b.ends.flatMap (fun x => x.2.output o m x.1) ++
  if b.noNames then [.text (lit% "Unable to read input file names from stdin: "), .os, .text (lit% "\n")] else []

end Tomllib.Cli
