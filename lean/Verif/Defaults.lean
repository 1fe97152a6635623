import Verif.Decimal
import Verif.Driver
import Verif.Saving
import Verif.Format

/-!
# The compressor configurations the experimenter makes

`create_default_compressor_config` (experimenter/src/main.rs:1265-1348) and the loop that makes the configurations of all
data sets (`all_patch_command`, main.rs:1068-1122). A directory per data set, as in `Saving`. A configuration file is the
value that is written and read: all its fields are integers, and the JSON around them is not modelled. Writing does not
fail.
-/

namespace Ebi.Defaults

open Ebi Saving Decimal Driver

/-- `CompressionConfig` (experimenter/src/lib.rs): what a configuration file holds. -/
structure Setup where
  opt : ChunkOption
  cfg : Config
deriving DecidableEq

/-- `DEFAULT_CHUNK_OPTION` (lib.rs:592). -/
def defaultOption : ChunkOption := .recordCount (128 * 1024 * 1024 / 8)

/-- The list at the start (main.rs:1276-1295), with the defaults of the builders (ebi/src/compressor.rs:465,
compressor/zstd.rs:31, compressor/gzip.rs:34). -/
def unscaled : List (String × Config) :=
  [("uncompressed", .uncompressed 8192#64), ("chimp128", .chimp128 8192#64), ("chimp", .chimp 8192#64),
   ("elf_on_chimp", .elfOnChimp 8192#64), ("elf", .elf 8192#64), ("gorilla", .gorilla 8192#64), ("rle", .rle 8192#64),
   ("zstd", .zstd 3#32), ("gzip", .gzip 6#32), ("snappy", .snappy), ("ffi_alp", .ffiAlp)]

/-- What is pushed if `10u64.checked_pow(prec)` is some scale (main.rs:1296-1311). -/
def scaled (prec : Nat) : List (String × Config) :=
  if 10 ^ prec < 2 ^ 64 then
    [("delta_sprintz", .deltaSprintz 8192#64 (BitVec.ofNat 64 (10 ^ prec))), ("buff", .buff (BitVec.ofNat 64 (10 ^ prec)))]
  else []

/-- `format!("{name}.json")` (main.rs:1338). -/
def fileName (name : String) : Name := name.toList ++ ".json".toList

/-- The loop that writes (main.rs:1337-1345). -/
def writeAll : Dir Setup → List (String × Config) → Dir Setup
  | d, [] => d
  | d, (name, cfg) :: rest => writeAll (d.put (fileName name) ⟨defaultOption, cfg⟩) rest

/-- `create_default_compressor_config` (main.rs:1265-1348) on the text of the CSV file and the output directory; the
precision comes before the first write. -/
def createDefault (o : FloatOps) (exact : Bool) (text : List Char) (d : Dir Setup) : Res (Dir Setup) :=
  (appropriatePrecision o exact ',' text).map fun prec => writeAll d (unscaled ++ scaled prec)

/-- `csv_entries` (main.rs:223-230): extension `csv` or `txt`, or none. -/
def isCsv (n : Name) : Bool :=
  match extension n with
  | none => true
  | some e => e == "csv".toList || e == "txt".toList

/-- `stem_to_csv_entry.get(stem)` (main.rs:1079-1084, 1105): of several files with the stem the one that is collected
last, in the order of the directory. -/
def csvOf (csvs : Dir (List Char)) (stem : Name) : Option (List Char) :=
  (csvs.reverse.find? fun f => isCsv f.1 && fileStem f.1 == stem).map Prod.snd

/-- `skip_files`, and the directories below `compressor_config_dir`. -/
structure State where
  skip : List Name
  dirs : Name → Dir Setup

/-- `compressor_config_dir.join(stem)` after a change. -/
def State.setDir (st : State) (stem : Name) (d : Dir Setup) : State :=
  { st with dirs := fun s => if s = stem then d else st.dirs s }

/-- The loop over the binary files (main.rs:1088-1122), stem and contents each. Of `create_config_command` only its end
matters here (`Driver.filterConfigs`, C67). -/
def createConfigs (o : FloatOps) (json : B64 → B64) (exact : Bool) (csvs : Dir (List Char)) :
    List (Name × List Byte) → State → Res State
  | [], st => .ok st
  | (stem, buf) :: rest, st =>
    match filterConfigs json buf with
    | .panic => .panic
    | .err => createConfigs o json exact csvs rest { st with skip := stem :: st.skip }
    | .ok _ =>
      match csvOf csvs stem with
      | none => .err
      | some text =>
        match createDefault o exact text (st.dirs stem) with
        | .panic => .panic
        | .err => createConfigs o json exact csvs rest { st with skip := stem :: st.skip }
        | .ok d => createConfigs o json exact csvs rest (st.setDir stem d)

end Ebi.Defaults
