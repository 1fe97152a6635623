import Verif.Output

/-!
# Names and files of the results

How the experimenter names what it writes, and what happens to files that are there already: `save_output_json`,
`save_ucr2018_json`, `save_embedding_json`, `write_output_json`, `create_saved_file_at`, the numbered directories and the
output file of `compress_command` (experimenter/src/main.rs), `save_json_safely` (experimenter/src/lib.rs). One directory at
a time; a file name is a list of characters without `/`. Values are written as they are: JSON is not modelled.
-/

namespace Ebi.Saving

open Ebi

abbrev Name := List Char

/-- Around the last dot (`rsplitn(2, '.')`, std). -/
def lastDot : Name → Option (Name × Name)
  | [] => none
  | c :: cs =>
    match lastDot cs with
    | some (a, b) => some (c :: a, b)
    | none => if c = '.' then some ([], cs) else none

/-- `rsplit_file_at_dot` (std/src/path.rs): a dot in front does not count. The name `..`, which no entry of a directory
has, is left out. -/
def splitName (n : Name) : Name × Option Name :=
  match lastDot n with
  | some (c :: a, b) => (c :: a, some b)
  | _ => (n, none)

/-- `Path::file_stem`. -/
def fileStem (n : Name) : Name := (splitName n).1

/-- `Path::extension`. -/
def extension (n : Name) : Option Name := (splitName n).2

/-- `Path::with_extension`, for an extension that is not empty. -/
def withExtension (n e : Name) : Name := fileStem n ++ '.' :: e

/-- A directory. -/
abbrev Dir (V : Type) := List (Name × V)

variable {V : Type}

/-- The contents of a file. -/
def Dir.get (d : Dir V) (n : Name) : Option V := (d.find? fun f => f.1 == n).map Prod.snd

/-- `File::create` and writing: an old file is replaced. -/
def Dir.put (d : Dir V) (n : Name) (v : V) : Dir V := (n, v) :: d.filter fun f => f.1 != n

/-- `exists`. -/
def Dir.has (d : Dir V) (n : Name) : Bool := (d.get n).isSome

/-- `format!("{:03}", n)`. -/
def numbered (n : Nat) : Name := List.replicate (3 - (Nat.toDigits 10 n).length) '0' ++ Nat.toDigits 10 n

/-- The loop for a free number (main.rs:741-748, 384-391, 483-490, 572-579, 606-613); `none` when the fuel is used up. -/
def nextFree (used : Name → Bool) (suffix : Name) : Nat → Nat → Option Nat
  | 0, _ => none
  | fuel + 1, n => if used (numbered n ++ suffix) then nextFree used suffix fuel (n + 1) else some n

/-- `save_output_json` (main.rs:736-754). -/
def saveOutput (fuel : Nat) (d : Dir V) (v : V) : Option (Dir V) :=
  (nextFree d.has ".json".toList fuel 0).map fun n => d.put (numbered n ++ ".json".toList) v

/-- `save_output_json` for one result after the other. -/
def saveOutputs (fuel : Nat) : Dir V → List V → Option (Dir V)
  | d, [] => some d
  | d, v :: vs => (saveOutput fuel d v).bind fun d => saveOutputs fuel d vs

/-- `save_json_safely` (lib.rs:599-634): the directory, and whether the value went to standard output instead. -/
def saveSafely (d : Dir V) (n : Name) (v : V) : Dir V × Bool :=
  if d.has n then (d, true) else (d.put n v, false)

/-- The name of a UCR2018 result (main.rs:765-768). -/
def ucrName (dataset : Name) : Option Nat → Name
  | some p => dataset ++ '_' :: (Nat.toDigits 10 p ++ ".json".toList)
  | none => dataset ++ ".json".toList

/-- `save_ucr2018_json` (main.rs:756-775); the results in any order. -/
def saveUcr (precision : Option Nat) : Dir V → List (Name × V) → Dir V
  | d, [] => d
  | d, (n, v) :: rs => saveUcr precision (d.put (ucrName n precision) v) rs

/-- `save_embedding_json` (main.rs:777-789). -/
def saveEmbedding (d : Dir V) (v : V) : Dir V := d.put "embedding_result.json".toList v

/-- The name `create_saved_file_at` gives to the results of a binary file (main.rs:829-832, 880-883). -/
def savedName (binary : Name) : Name := withExtension (fileStem binary) "json".toList

/-- `create_saved_file_at` for one binary file after the other. -/
def saveBinaries : Dir V → List (Name × V) → Dir V
  | d, [] => d
  | d, (n, v) :: rs => saveBinaries (d.put (savedName n) v) rs

/-- The output of `compress_command` (main.rs:1533, 1553). -/
def compressedName (n : Name) : Name := withExtension n "ebi".toList

/-- `compress_command` (main.rs:1507-1590) as far as the directory goes. In memory the input is read before the output is
created; otherwise the output is created, empty, before the input is read. When both are one file, what is written there
grows out of itself; `self` stands for it, `none` if it never ends. -/
def compressIn (inMemory : Bool) (encode : V → V) (self : Option V) (d : Dir V) (n : Name) : Option (Dir V) :=
  match d.get n with
  | none => none
  | some v =>
    if inMemory || compressedName n != n then some (d.put (compressedName n) (encode v))
    else self.map fun w => d.put n w

/-- `write_output_json` (main.rs:791-822) on a device: one `write_all` through a `BufWriter` that is dropped, not flushed. -/
def writeBuffered (json : List Byte) (ev : List WriteEvent) : Res Unit × List Byte :=
  let r := Buffered.writeAll json (.new 8192 ⟨[], 0, ev⟩)
  (r.1, r.2.drop.inner.file)

/-- The same in `save_json_safely` (lib.rs:618-622): one `write_all` on the file. -/
def writeDirect (json : List Byte) (ev : List WriteEvent) : Res Unit × List Byte :=
  let r := Output.writeAll json ⟨[], 0, ev⟩
  (r.1, r.2.file)

end Ebi.Saving
