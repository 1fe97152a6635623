import Verif.Ucr
import Verif.Table

/-!
# The embedding experiment

`embedding_command` (experimenter/src/main.rs:2542-2700) and `get_compress_statistics` (experimenter/src/lib.rs:568-590):
every data set is written and read back ten times with every configuration, the scale coming from a file of precisions.
Not modelled: the directory walk (the data sets are a list), clocks and progress output. A data set is taken to hold whole
records. The strings of the result are the bytes they print.
-/

namespace Ebi.Embedding

open Ebi Ebi.Ucr

/-- `v.round() as u64` (main.rs:2562-2565). -/
def precisionOf (v : B64) : Nat := Soft.toUsize (Soft.round v)

/-- `10u64.checked_pow(v as u32)` (main.rs:2566-2570). -/
def scaleOf (p : Nat) : Option Nat := if 10 ^ (p % 2 ^ 32) < 2 ^ 64 then some (10 ^ (p % 2 ^ 32)) else none

/-- `configs` (main.rs:2572-2586) with the defaults of the builders. -/
def configs : List Config :=
  [.buff 0#64, .uncompressed 8192#64, .chimp128 8192#64, .chimp 8192#64, .elfOnChimp 8192#64, .elf 8192#64,
   .gorilla 8192#64, .rle 8192#64, .zstd 3#32, .gzip 6#32, .snappy, .ffiAlp, .deltaSprintz 8192#64 0#64]

/-- The configuration of one run, `none` when it is left out (main.rs:2604-2634). -/
def configFor (scale : Option Nat) (cfg : Config) : Option Config :=
  if cfg.scheme = .deltaSprintz ∨ cfg.scheme = .buff then
    match scale with
    | none => none
    | some s => if 10 ^ 12 < s then none else some (setScale cfg (BitVec.ofNat 64 s))
  else some cfg

/-- `CompressStatistics` without the elapsed time (lib.rs). -/
structure Statistics where
  uncompressedSize : Nat
  compressedSize : Nat
  chunkOnly : Nat
  ratio : B64
  ratioChunkOnly : B64
  deriving DecidableEq

/-- `get_compress_statistics` (lib.rs:568-590). -/
def statistics (o : FloatOps) (m : Metadata) : Statistics :=
  let u := m.footer.records * 8 % 2 ^ 64
  ⟨u, m.totalFileSize, m.totalChunkSize, o.div (o.ofNat m.totalFileSize) (o.ofNat u),
    o.div (o.ofNat m.totalChunkSize) (o.ofNat u)⟩

/-- What one repetition adds to the result (main.rs:2644-2690). -/
structure Repetition where
  encoded : List Byte
  statistics : Statistics
  decoded : List Byte

/-- `&decoded[..5.min(encoded.len())]` (main.rs:2683-2686): the length is that of the other buffer. -/
def shorten (decoded encoded : List Byte) : Res (List Byte) :=
  let n := min 5 encoded.length
  if decoded.length < n then .panic else .ok (decoded.take n)

/-- The body of `for _ in 0..n` (main.rs:2644-2688). -/
def repetition (E : Env) (cfg : Config) (values : List B64) (s : Tpch.Stamp) : Option (Res Repetition) :=
  andThen ((Tpch.encoderArgs cfg s values).encode (E.scheme cfg)) fun file =>
  andThen (some (openTrain file none)) fun d =>
  andThen (some (d.materialize E none none)) fun vs =>
  andThen (some (shorten (ofF64s vs) file)) fun out =>
    some (.ok ⟨file.take (min 5 file.length), statistics E.o d.info, out⟩)

/-- The repetitions (main.rs:2644); one stamp each. -/
def repetitions (E : Env) (cfg : Config) (values : List B64) : List Tpch.Stamp → Option (Res (List Repetition))
  | [] => some (.ok [])
  | s :: ss =>
    andThen (repetition E cfg values s) fun r =>
    andThen (repetitions E cfg values ss) fun rs => some (.ok (r :: rs))

/-- `SimpleCompressionPerformanceForOneDataset` without times. -/
structure Performance where
  config : Config
  precision : Nat
  runs : List Repetition

/-- The loop over the configurations (main.rs:2602-2708); the map is by name of the scheme. -/
def forConfigs (E : Env) (stamps : List Tpch.Stamp) (precision : Nat) (values : List B64) (m : SchemeId → Option Performance) :
    List Config → Option (Res (SchemeId → Option Performance))
  | [] => some (.ok m)
  | c :: cs =>
    match configFor (scaleOf precision) c with
    | none => forConfigs E stamps precision values m cs
    | some cfg =>
      andThen (repetitions E cfg values stamps) fun rs =>
        forConfigs E stamps precision values
          (fun k => if k = cfg.scheme then some ⟨cfg, precision, rs⟩ else m k) cs

/-- The loop over the data sets (main.rs:2588-2711): `scale_map[&dataset_key]` panics on a missing key. -/
def forDatasets (E : Env) (stamps : List Tpch.Stamp) (precisions : Table.Map B64)
    (m : Table.Map (SchemeId → Option Performance)) :
    List (String × List B64) → Option (Res (Table.Map (SchemeId → Option Performance)))
  | [] => some (.ok m)
  | (key, values) :: ds =>
    match precisions key with
    | none => some .panic
    | some p =>
      andThen (forConfigs E stamps (precisionOf p) values (fun _ => none) configs) fun r =>
        forDatasets E stamps precisions (m.set key r) ds

/-- `embedding_command` after the directory is listed and `precision_data.json` is read. -/
def command (E : Env) (stamps : List Tpch.Stamp) (precisions : Table.Map B64) (ds : List (String × List B64)) :
    Option (Res (Table.Map (SchemeId → Option Performance))) := forDatasets E stamps precisions Table.Map.empty ds

end Ebi.Embedding
