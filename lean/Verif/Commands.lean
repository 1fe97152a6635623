import Verif.QueryOutput
import Verif.Saving

/-!
# The single commands of the experimenter

`filter_command`, `filter_materialize_command`, `materialize_command`, `max_command`, `sum_command` and `process_file`
(experimenter/src/main.rs): one query on one file, in memory or from the file. Not modelled: JSON, clocks, dropping the
page cache and the text of the result. A result is the bitmap, the number, or the number of bytes of the output.
-/

namespace Ebi.Commands

open Ebi Saving

/-- The command. -/
inductive Command where
  | filter (p : Predicate B64)
  | filterMaterialize (p : Predicate B64)
  | materialize
  | max
  | sum

/-- What every configuration has (lib.rs:39-90): chunk and `Vec<u32>` of records. -/
structure Request where
  chunk : Option Nat
  records : Option (List Nat)

/-- `RoaringBitmap::from_iter` (main.rs:1622, 1713, 1810, 1909, 1997). -/
def fromIter (xs : List Nat) : Bitmap := xs.foldl (fun b x => Bitmap.insert x b) []

/-- The bitmask of a request. -/
def Request.mask (r : Request) : Option Bitmap := r.records.map fromIter

/-- The result: for the two commands that write values their bytes are counted (`output.len()`, the length in the
metadata of the file). -/
inductive Outcome where
  | positions (b : Bitmap)
  | number (v : B64)
  | bytes (n : Nat)
  deriving DecidableEq

/-- `OutputWrapper` as far as it depends on the file: the compression configuration and the result. -/
structure Report where
  option : ChunkOption
  config : Config
  outcome : Outcome

/-- `CompressionConfig { .. }` (e.g. main.rs:1644-1647) around a result. -/
def report (d : Decoder) (o : Outcome) : Report := ⟨d.info.header.option, d.info.footer.config, o⟩

/-- `Decoder::new` without `with_precision`. -/
def openDecoder (file : List Byte) : Res Decoder := (openFile file).map fun m => ⟨file, m, none⟩

/-- The query on an open decoder with the output in a `Vec`. -/
def query (E : Env) (c : Command) (r : Request) (d : Decoder) : Res Outcome :=
  match c with
  | .filter p => (d.filter E p r.mask r.chunk).map .positions
  | .filterMaterialize p => (d.filterMaterialize E p r.mask r.chunk).map fun vs => .bytes (outputBytes vs).length
  | .materialize => (d.materialize E r.mask r.chunk).map fun vs => .bytes (outputBytes vs).length
  | .max => (d.max E r.mask r.chunk).map .number
  | .sum => (d.sum E r.mask r.chunk).map .number

/-- A command in memory (main.rs:1625-1657, 1716-1751, 1813-1849, 1912-1946, 2000-2034): the file is read as a whole. -/
def inMemory (E : Env) (c : Command) (r : Request) (dir : Dir (List Byte)) (n : Name) : Res Report :=
  match dir.get n with
  | none => .err
  | some file => (openDecoder file).bind fun d => (query E c r d).map (report d)

/-- The extension of the output (main.rs:1757, 1855). -/
def outputExtension : Command → Option Name
  | .filterMaterialize _ => some "filter_materialized".toList
  | .materialize => some "materialized".toList
  | _ => none

/-- The query on an open decoder with a buffered file as output. -/
def queryTo (E : Env) (c : Command) (r : Request) (d : Decoder) (k : Buffered) : Res Unit × Buffered :=
  match c with
  | .filterMaterialize p => d.filterMaterializeTo Buffered.device E p r.mask r.chunk k
  | _ => d.materializeTo Buffered.device E r.mask r.chunk k

/-- `decoder_output.into_writer().into_inner()?.metadata()?` (main.rs:1776, 1875): the buffer is flushed. -/
def intoInner (k : Buffered) : Res Nat × Buffered :=
  andThen k.flushBuf fun k => (.ok k.inner.file.length, k)

/-- A command that writes a file (main.rs:1751-1785, 1849-1884) once the decoder is open: the output is created, the query
run, the buffer flushed; when something fails the writer is dropped. If the output is the input, the input is empty from
then on (simplified: what the query itself writes there is not read back; the first chunk cannot be read). -/
def writeTo (E : Env) (c : Command) (r : Request) (dir : Dir (List Byte)) (n out : Name) (d : Decoder)
    (ev : List WriteEvent) : Res Report × Dir (List Byte) :=
  let d' : Decoder := if out = n then { d with file := [] } else d
  let x := andThen (queryTo E c r d' (.new 8192 ⟨[], 0, ev⟩)) intoInner
  (x.1.map fun len => report d (.bytes len), dir.put out x.2.drop.inner.file)

/-- A command on the file itself. -/
def onDisk (E : Env) (c : Command) (r : Request) (dir : Dir (List Byte)) (n : Name) (ev : List WriteEvent) :
    Res Report × Dir (List Byte) :=
  match dir.get n with
  | none => (.err, dir)
  | some file =>
    match openDecoder file with
    | .err => (.err, dir)
    | .panic => (.panic, dir)
    | .ok d =>
      match outputExtension c with
      | some e => writeTo E c r dir n (withExtension n e) d ev
      | none => ((query E c r d).map (report d), dir)

/-- A path: its components; relative or not makes no difference for `parent`. -/
abbrev Path := List Name

/-- `Path::parent`. -/
def parent (p : Path) : Option Path := if p = [] then none else some p.dropLast

/-- `dir_name` (main.rs:314-331). -/
def Command.dirName : Command → Name
  | .filter _ => "filter".toList
  | .filterMaterialize _ => "filter_materialize".toList
  | .materialize => "materialize".toList
  | .max => "max".toList
  | .sum => "sum".toList

/-- The directory of the results (main.rs:719-730): both `parent`s and the stem are unwrapped, after the command has run. -/
def saveDir (p : Path) (c : Command) : Res Path :=
  match (parent p).bind parent, p.getLast? with
  | some q, some n => .ok (q ++ ["result".toList, fileStem n, c.dirName])
  | _, _ => .panic

end Ebi.Commands
