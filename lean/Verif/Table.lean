import Verif.SoftFloat

/-!
# The table of results of the experiments

`all_patch_command` and what it calls, as far as the table of results goes: which runs end up under which data set
and compression method. The runs themselves (compress, filter, ...) are given, with their outcome: a run that fails
ends the whole command. Not modelled: creation of configurations (`Driver`, `Decimal`), progress output, times.
-/

namespace Ebi.Table

open Ebi

/-- `HashMap`. -/
abbrev Map (V : Type) := String → Option V

def Map.empty {V : Type} : Map V := fun _ => none

/-- `insert`. -/
def Map.set {V : Type} (m : Map V) (k : String) (v : V) : Map V := fun x => if x = k then some v else m x

/-- `FilterFamilyOutput` (lib.rs:192-196). -/
structure Family (R : Type) where
  filter : List R
  filterMaterialize : List R

/-- `AllOutputInner` (lib.rs:198-205). All kinds of results in one type `R`. -/
structure Inner (R : Type) where
  compress : List R
  filters : Map (Family R)
  materialize : List R
  max : List R
  sum : List R

variable {R : Type}

/-- `AllOutputInner::clear` (lib.rs:208-212). -/
def Inner.clear (i : Inner R) : Inner R := { i with compress := [], filters := Map.empty, materialize := [] }

/-- The value inserted for a new compression method (main.rs:1015-1022). -/
def Inner.new : Inner R := ⟨[], Map.empty, [], [], []⟩

/-- The results of the commands run for one configuration (main.rs:884-989): `filters` in the order of the
directory. -/
structure Results (R : Type) where
  compress : List R
  filters : List (String × Family R)
  materialize : List R
  max : List R
  sum : List R

/-- `entry(name).or_insert(..)` and the pushes (main.rs:903-945). -/
def addFilters (m : Map (Family R)) : List (String × Family R) → Map (Family R)
  | [] => m
  | (name, f) :: fs =>
    let old := (m name).getD ⟨[], []⟩
    addFilters (m.set name ⟨old.filter ++ f.filter, old.filterMaterialize ++ f.filterMaterialize⟩) fs

/-- All pushes of `process_experiment_for_compressor` (main.rs:884-988). -/
def Inner.add (i : Inner R) (r : Results R) : Inner R where
  compress := i.compress ++ r.compress
  filters := addFilters i.filters r.filters
  materialize := i.materialize ++ r.materialize
  max := i.max ++ r.max
  sum := i.sum ++ r.sum

/-- A compressor configuration file: its stem, the name of the scheme it holds, and how its commands end in the
first and second pass of `all_patch_command`; `none` when the check leaves it out (main.rs:852-878). -/
structure Job (R : Type) where
  stem : String
  key : String
  run : Nat → Option (Res (Results R))

/-- What is in a file of the save directory: one `AllOutputInner` (`create_saved_file_at`, main.rs:824-838) or
something that reads as a map of them. -/
inductive Saved (R : Type) where
  | inner (i : Inner R)
  | table (t : Map (Inner R))

/-- The body of the loop of `process_experiment_for_dataset` (main.rs:1003-1050): the entry is cleared or made, then
filled; the file of the data set is written after a run. The save directory is by stem here; the name of the file is
that of `Saving.savedName`, which is the same for some stems with dots (C76). -/
def processJob (pass : Nat) (stem : String) (st : Map (Inner R) × Map (Saved R)) (j : Job R) :
    Res (Map (Inner R) × Map (Saved R)) :=
  let inner := match st.1 j.key with
    | some i => i.clear
    | none => .new
  match j.run pass with
  | none => .ok (st.1.set j.key inner, st.2)
  | some (.ok r) => .ok (st.1.set j.key (inner.add r), st.2.set stem (.inner (inner.add r)))
  | some .err => .err
  | some .panic => .panic

/-- `process_experiment_for_dataset` (main.rs:994-1053). -/
def processDataset (pass : Nat) (stem : String) (st : Map (Inner R) × Map (Saved R)) :
    List (Job R) → Res (Map (Inner R) × Map (Saved R))
  | [] => .ok st
  | j :: js =>
    match processJob pass stem st j with
    | .ok st => processDataset pass stem st js
    | .err => .err
    | .panic => .panic

/-- A binary file: directory (as components), stem, whether its configurations could not be made, its compressor
configurations. -/
structure Dataset (R : Type) where
  dir : List String
  stem : String
  skip : Bool
  jobs : List (Job R)

/-- The path of the binary file, as components (main.rs:232-235: extension `bin`). -/
def Dataset.path (d : Dataset R) : List String := d.dir ++ [d.stem ++ ".bin"]

/-- `check_result_already_exist` (main.rs:1132-1154): the file is read as a map, see `Json` below. -/
def check (saved : Map (Saved R)) (stem : String) : Option (Map (Inner R)) :=
  match saved stem with
  | some (.table t) => some t
  | _ => none

/-- Table, and save directory. -/
abbrev State (R : Type) := Map (Map (Inner R)) × Map (Saved R)

/-- Take the result of an earlier run, or do the runs (main.rs:1189-1212, 1230-1258). -/
def visit (pass : Nat) (jobs : List (Job R)) (st : State R) (d : Dataset R) : Res (State R) :=
  match check st.2 d.stem with
  | some t => .ok (st.1.set d.stem t, st.2)
  | none =>
    match processDataset pass d.stem ((st.1 d.stem).getD Map.empty, st.2) jobs with
    | .ok (out, saved) => .ok (st.1.set d.stem out, saved)
    | .err => .err
    | .panic => .panic

/-- The first loop (main.rs:1157-1213). `patching` holds paths; it is asked for the stem. -/
def patchCompressors (patching : List (List String)) (patchCompressor : List String) (st : State R) :
    List (Dataset R) → Res (State R)
  | [] => .ok st
  | d :: ds =>
    if d.skip then patchCompressors patching patchCompressor st ds
    else if patching.contains [d.stem] then patchCompressors patching patchCompressor st ds
    else
      match visit 0 (d.jobs.filter fun j => patchCompressor.contains j.stem) st d with
      | .ok st => patchCompressors patching patchCompressor st ds
      | .err => .err
      | .panic => .panic

/-- The second loop (main.rs:1216-1259). -/
def patchDatasets (st : State R) : List (Dataset R) → Res (State R)
  | [] => .ok st
  | d :: ds =>
    if d.skip then patchDatasets st ds
    else
      match visit 1 d.jobs st d with
      | .ok st => patchDatasets st ds
      | .err => .err
      | .panic => .panic

/-- `all_patch_command` (main.rs:1055-1249) after the configurations are made. `order` is the order in which the
`HashSet` of patched data sets is walked. -/
def allPatch (datasets order : List (Dataset R)) (patchDataset patchCompressor : List String) (st : State R) :
    Res (State R) :=
  let patching := datasets.filter fun d => patchDataset.contains d.stem
  match patchCompressors (patching.map Dataset.path) patchCompressor st datasets with
  | .ok st => patchDatasets st order
  | .err => .err
  | .panic => .panic

/-! ## The file in the save directory -/

/-- JSON, without the scalars. -/
inductive Json where
  | arr (xs : List Json)
  | obj (fs : List (String × Json))
  | scalar

/-- `Serialize` of `AllOutputInner` with results as given; the derive writes fields in order. -/
def toJson (wrapper : R → Json) (family : String → Family R → Json) (i : Inner R) (names : List String) : Json :=
  .obj [("compress", .arr (i.compress.map wrapper)),
    ("filters", .obj (names.filterMap fun n => (i.filters n).map fun f => (n, family n f))),
    ("materialize", .arr (i.materialize.map wrapper)), ("max", .arr (i.max.map wrapper)),
    ("sum", .arr (i.sum.map wrapper))]

/-- Whether `Deserialize` can take a value for `Vec<..>`, looking at the outside only. -/
def isArr : Json → Bool
  | .arr _ => true
  | _ => false

/-- Whether `Deserialize` can take a value for `AllOutputInner`, looking at most one level down: the derive takes an
object with all fields, or an array of the fields in order. Accepts more than the derive does. -/
def mayBeInner : Json → Bool
  | .obj fs => (["compress", "filters", "materialize", "max", "sum"].all fun n => fs.any fun f => f.1 == n)
  | .arr (c :: _ :: m :: x :: s :: _) => isArr c && isArr m && isArr x && isArr s
  | _ => false

/-- Whether `Deserialize` can take a value for `HashMap<String, AllOutputInner>`. -/
def mayBeTable : Json → Bool
  | .obj fs => fs.all fun f => mayBeInner f.2
  | _ => false

/-! ## Averages -/

/-- A compression run, as far as the averages look: sizes as `f64`, elapsed time as `f64`. -/
structure Run where
  ratio : B64
  size : B64
  elapsed : B64

/-- `iter().sum::<f64>()`. -/
def total (o : FloatOps) (vs : List B64) : B64 := vs.foldl o.add o.sumInit

/-- `AllOutput::average_compression_ratio` (lib.rs:265-279) on the runs of each data set, in the order of the map. -/
def averageRatio (o : FloatOps) (ds : List (List Run)) : B64 :=
  o.div (total o (ds.map fun rs => o.div (total o (rs.map Run.ratio)) (o.ofNat rs.length))) (o.ofNat ds.length)

/-- `AllOutput::average_compression_throughput` (lib.rs:281-303). -/
def averageThroughput (o : FloatOps) (ds : List (List Run)) : B64 :=
  o.div (total o (ds.map fun rs =>
    o.div (o.div (total o (rs.map Run.size)) (total o (rs.map Run.elapsed))) (o.ofNat rs.length))) (o.ofNat ds.length)

end Ebi.Table
