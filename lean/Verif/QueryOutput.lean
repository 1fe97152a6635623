import Verif.Output
import Verif.Api

/-!
# Query output

`Decoder::materialize` and `Decoder::filter_materialize` (`ebi/src/api/decoder.rs`) onto a writer that may
fail. The writers are those of `Output`; a query neither seeks nor flushes.
-/

namespace Ebi

section
variable {K : Type} (D : Device K)

/-- The values of one chunk (query.rs:24-30, 77-83): one `write_all` of eight bytes per value. Every reader
computes all of them first. -/
def writeValues (vs : List B64) (k : K) : Res Unit × K := D.writeParts (vs.map f64Bytes) k

/-- The loop of `chunkLoop` with an output instead of a result; `body` is what one chunk writes. -/
def chunkLoopTo (m : Metadata) (bm : Option Bitmap) (cid : Option Nat) (body : Nat → Res (List B64)) :
    List Nat → K → Res Unit × K
  | [], k => (.ok (), k)
  | i :: is, k =>
    if cid.all (· == i) then
      match m.recordRangeU32 i with
      | .ok range =>
        if rangeDisjoint bm range then chunkLoopTo m bm cid body is k
        else
          match body i with
          | .ok vs => andThen (writeValues D vs k) (chunkLoopTo m bm cid body is)
          | .err => (.err, k)
          | .panic => (.panic, k)
      | .err => (.err, k)
      | .panic => (.panic, k)
    else chunkLoopTo m bm cid body is k

namespace Decoder

/-- `Decoder::materialize` (api/decoder.rs:202-237) with its output. -/
def materializeTo (E : Env) (d : Decoder) (bm : Option Bitmap) (cid : Option Nat) (k : K) : Res Unit × K :=
  chunkLoopTo D d.info bm cid (fun i => do
    let (n, bs, off) ← loadChunk (E.scheme d.info.footer.config) d.file d.info i
    (d.ops E).materialize n bs bm off) (Query.handles d.info) k

/-- `Decoder::filter_materialize` (283-319) with its output. -/
def filterMaterializeTo (E : Env) (d : Decoder) (p : Predicate B64) (bm : Option Bitmap) (cid : Option Nat) (k : K) :
    Res Unit × K :=
  chunkLoopTo D d.info bm cid (fun i => do
    let (n, bs, off) ← loadChunk (E.scheme d.info.footer.config) d.file d.info i
    (d.ops E).filterMaterialize n bs p bm off) (Query.handles d.info) k

end Decoder

end

end Ebi
