import Verif.Api
import Verif.FileLemmas

/-!
# The TPC-H driver

`experimenter/src/tpch.rs`. Reading the Parquet file is left to the library: a file is the list of its record
batches. Progress bars, elapsed times and the compression statistics are not modelled.
-/

namespace Ebi.Tpch

/-- Column names. Rust compares strings by their bytes, which orders them like their characters. -/
abbrev Name := List Char

def lDiscount : Name := ['l', '_', 'd', 'i', 's', 'c', 'o', 'u', 'n', 't']
def lExtendedprice : Name := ['l', '_', 'e', 'x', 't', 'e', 'n', 'd', 'e', 'd', 'p', 'r', 'i', 'c', 'e']
def lLinestatus : Name := ['l', '_', 'l', 'i', 'n', 'e', 's', 't', 'a', 't', 'u', 's']
def lQuantity : Name := ['l', '_', 'q', 'u', 'a', 'n', 't', 'i', 't', 'y']
def lReturnflag : Name := ['l', '_', 'r', 'e', 't', 'u', 'r', 'n', 'f', 'l', 'a', 'g']
def lTax : Name := ['l', '_', 't', 'a', 'x']

/-! ## Reading the columns -/

/-- A column of a record batch: decimals of some scale, or anything else. -/
inductive Field where
  | decimal (scale : Int) (values : List (Option Int))
  | other
deriving DecidableEq

abbrev Batch := List (Name × Field)

/-- `extract_decimal_as_f64` (tpch.rs:54-75): a null becomes `f64::NAN`. `conv scale v` is
`v as f64 / 10f64.powi(scale)`. The array has the type its field announces, so the downcast never fails. -/
def extractDecimal (conv : Int → Int → B64) (scale : Int) (values : List (Option Int)) : List B64 :=
  values.map fun
    | none => 0x7ff8000000000000#64
    | some v => conv scale v

/-- `BTreeMap<String, Vec<f64>>`, in key order. -/
abbrev Table := List (Name × List B64)

/-- `columns.entry(name).or_insert_with(Vec::new).extend(values)` (99-102). -/
def Table.extend : Table → Name → List B64 → Table
  | [], n, vs => [(n, vs)]
  | (m, ws) :: t, n, vs =>
    if n = m then (m, ws ++ vs) :: t
    else if n < m then (n, vs) :: (m, ws) :: t
    else (m, ws) :: Table.extend t n vs

/-- The loop over the fields of a batch (84-103). -/
def extractBatch (conv : Int → Int → B64) : Batch → Table → Res Table
  | [], t => .ok t
  | (name, .other) :: fs, t =>
    if name = lReturnflag ∨ name = lLinestatus then extractBatch conv fs t else .err
  | (name, .decimal scale values) :: fs, t => extractBatch conv fs (t.extend name (extractDecimal conv scale values))

/-- The loop over the batches (81-104). -/
def extractFrom (conv : Int → Int → B64) : List Batch → Table → Res Table
  | [], t => .ok t
  | b :: bs, t => do
    let t ← extractBatch conv b t
    extractFrom conv bs t

/-- `extract_columns` (77-107). -/
def extractColumns (conv : Int → Int → B64) (batches : List Batch) : Res Table := extractFrom conv batches []

/-- `column_to_index[name]` (233-237, 190-222): the position of the column in key order; a missing name panics. -/
def Table.index (t : Table) (name : Name) : Res Nat :=
  match t.findIdx? (fun c => c.1 = name) with
  | some i => .ok i
  | none => .panic

/-! ## Writing and opening the columns -/

/-- What differs between two runs of the encoder on the same input. -/
structure Stamp where
  version : Nat × Nat × Nat
  times : Times
  elapsed : Duration

/-- The run of the encoder in `decoder` (150-167) with `DEFAULT_CHUNK_OPTION` (lib.rs:592). -/
def encoderArgs (cfg : Config) (s : Stamp) (values : List B64) : Args where
  cfg := cfg
  opt := .recordCount (128 * 1024 * 1024 / 8)
  version := s.version
  times := s.times
  elapsed := s.elapsed
  src := if values = [] then [] else [.bytes (ofF64s values)]

/-- `decoder` (150-167). -/
def openColumn (E : Env) (cfg : Config) (s : Stamp) (values : List B64) : Res Decoder :=
  match (encoderArgs cfg s values).encode (E.scheme cfg) with
  | some (.ok file) => (openFile file).map fun m => ⟨file, m, none⟩
  | some .err => .err
  | _ => .panic

/-- The loop over the columns (243-247, 381-385). `clock i` is the stamp of column `i`. -/
def openColumns (E : Env) (cfg : Config) (clock : Nat → Stamp) : Nat → Table → Res (List Decoder)
  | _, [] => .ok []
  | i, (_, values) :: t => do
    let d ← openColumn E cfg (clock i) values
    let ds ← openColumns E cfg clock (i + 1) t
    .ok (d :: ds)

/-- `all_configs` (169-188), with the defaults of the builders (compressor.rs:465, zstd.rs:31, gzip.rs:34). -/
def allConfigs (scale : BitVec 64) : List Config :=
  [.uncompressed 8192#64, .chimp128 8192#64, .chimp 8192#64, .elfOnChimp 8192#64, .elf 8192#64, .gorilla 8192#64,
   .rle 8192#64, .zstd 3#32, .gzip 6#32, .snappy, .ffiAlp, .deltaSprintz 8192#64 scale, .buff scale]

/-! ## Query 6 -/

/-- `get_h06_predicate("l_discount")` (332-335): from 0.05 to 0.07. -/
def discountRange : Predicate B64 := .range ⟨.inclusive 0x3fa999999999999a#64, .inclusive 0x3fb1eb851eb851ec#64⟩

/-- `get_h06_predicate("l_quantity")` (336-339): below 24. -/
def quantityBelow : Predicate B64 := .range ⟨.none, .exclusive 0x4038000000000000#64⟩

/-- `h06_aggregations` (344-359). -/
def h06Aggregations (price discount : Nat) : List Aggregation := [⟨.sum, .binary .mul (.index price) (.index discount)⟩]

/-- One round of the loop of `process_h06` (361-451). -/
def h06 (E : Env) (cfg : Config) (clock : Nat → Stamp) (t : Table) : Res (List AggResult) := do
  let ds ← openColumns E cfg clock 0 t
  let discount ← t.index lDiscount
  let quantity ← t.index lQuantity
  let price ← t.index lExtendedprice
  let d ← decoderAt ds discount
  let bm ← d.filter E discountRange none none
  let d ← decoderAt ds quantity
  let bm ← d.filter E quantityBelow (some bm) none
  Aggregation.computeMultiple E (h06Aggregations price discount) ds (some bm)

/-! ## Query 1 -/

/-- `l_extendedprice * (1 - l_discount)`. -/
def discPrice (price discount : Nat) : Expr :=
  .binary .mul (.index price) (.binary .sub (.literal 0x3ff0000000000000#64) (.index discount))

/-- `l_extendedprice * (1 - l_discount) * (1 + l_tax)`. -/
def charge (price discount tax : Nat) : Expr :=
  .binary .mul (discPrice price discount) (.binary .add (.literal 0x3ff0000000000000#64) (.index tax))

/-- `h01_aggregations` (190-222). -/
def h01Aggregations (quantity price discount tax : Nat) : List Aggregation :=
  [⟨.sum, .index quantity⟩, ⟨.sum, .index price⟩, ⟨.sum, discPrice price discount⟩,
   ⟨.sum, charge price discount tax⟩, ⟨.sum, .index discount⟩]

/-- An entry of the result: `AggregationResult` with its third constructor. -/
inductive Cell where
  | result (r : AggResult)
  | integer (n : Nat)
deriving DecidableEq

/-- `AggregationResult::Scalar(result[i].scalar().unwrap() / number_of_records as f64)` (280-281). -/
def average (o : FloatOps) (n : Nat) (cells : List Cell) (i : Nat) : Res Cell :=
  match cells[i]? with
  | some (.result (.scalar v)) => .ok (.result (.scalar (o.div v (o.ofNat n))))
  | _ => .panic

/-- `slice::swap`. -/
def swapAt {A : Type} (l : List A) (i j : Nat) : Res (List A) :=
  match l[i]?, l[j]? with
  | some x, some y => .ok ((l.set i y).set j x)
  | _, _ => .panic

/-- The averages, the count and the final exchange (277-312). -/
def h01Arrange (o : FloatOps) (n : Nat) (sums : List AggResult) : Res (List Cell) := do
  let r := sums.map Cell.result
  let v ← average o n r 0
  let r := r ++ [v]
  let v ← average o n r 1
  let r := r ++ [v]
  let v ← average o n r 4
  let r := r.set 4 v
  let r := r ++ [.integer n]
  swapAt r 4 6

/-- What the strings of `query_names` say. -/
inductive Label where
  | sumQuantity | sumPrice | sumDiscPrice | sumCharge | sumDiscount | avgQuantity | avgPrice | avgDiscount
deriving DecidableEq

/-- `query_names` of `process_h01` (262-272, 285, 295, 304, 313); the first string lists five queries. -/
def h01Names : Res (List (List Label)) :=
  let names : List (List Label) := [[.sumQuantity, .sumPrice, .sumDiscPrice, .sumCharge, .sumDiscount]]
  let names := names ++ [[Label.avgQuantity]]
  let names := names ++ [[Label.avgPrice]]
  let names := names ++ [[Label.avgDiscount]]
  swapAt names (4 - 3) (6 - 3)

/-- One round of the loop of `process_h01` (224-328). -/
def h01 (E : Env) (cfg : Config) (clock : Nat → Stamp) (t : Table) : Res (List Cell) := do
  let ds ← openColumns E cfg clock 0 t
  let quantity ← t.index lQuantity
  let price ← t.index lExtendedprice
  let discount ← t.index lDiscount
  let tax ← t.index lTax
  let d ← decoderAt ds 0
  let sums ← Aggregation.computeMultiple E (h01Aggregations quantity price discount tax) ds none
  h01Arrange E.o d.info.footer.records sums

/-- `h01_simplified_aggregations` (453-459). -/
def simplifiedAggregations (quantity price discount : Nat) : List Aggregation :=
  [⟨.sum, .index quantity⟩, ⟨.sum, .index price⟩, ⟨.sum, .index discount⟩]

/-- The averages and the count of the simplified query (514-544). -/
def simplifiedArrange (o : FloatOps) (n : Nat) (sums : List AggResult) : Res (List Cell) := do
  let r := sums.map Cell.result
  let v ← average o n r 0
  let r := r ++ [v]
  let v ← average o n r 1
  let r := r ++ [v]
  let v ← average o n r 2
  let r := r.set 2 v
  .ok (r ++ [.integer n])

/-- One round of the loop of `process_h01_simplified` (461-562). -/
def h01Simplified (E : Env) (cfg : Config) (clock : Nat → Stamp) (t : Table) : Res (List Cell) := do
  let ds ← openColumns E cfg clock 0 t
  let quantity ← t.index lQuantity
  let price ← t.index lExtendedprice
  let discount ← t.index lDiscount
  let d ← decoderAt ds 0
  let sums ← Aggregation.computeMultiple E (simplifiedAggregations quantity price discount) ds none
  simplifiedArrange E.o d.info.footer.records sums

end Ebi.Tpch
