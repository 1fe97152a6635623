import Verif.Table

/-!
# The table of results, by compression method

`AllOutput` (`experimenter/src/lib.rs`:215-328). A `HashMap` is a list of entries with distinct keys, in the order in
which it is walked; which order that is, the standard library leaves open, so all statements are for any order.
-/

namespace Ebi.Table

open Ebi

/-- `HashMap`, with the order of its iterator. -/
abbrev HMap (V : Type) := List (String × V)

def HMap.get {V : Type} (t : HMap V) (k : String) : Option V := (t.find? fun e => e.1 == k).map Prod.snd

/-- `insert`: the value of a key is replaced. A new entry is put at the end; the place is arbitrary. -/
def HMap.insert {V : Type} : HMap V → String → V → HMap V
  | [], k, v => [(k, v)]
  | (k', v') :: t, k, v => if k' = k then (k, v) :: t else (k', v') :: HMap.insert t k v

def HMap.keys {V : Type} (t : HMap V) : List String := t.map Prod.fst

/-- `result.entry(method).or_insert_with(HashMap::new).insert(dataset, output)` (lib.rs:245-248). -/
def putCell {V : Type} (r : HMap (HMap V)) (method dataset : String) (output : V) : HMap (HMap V) :=
  r.insert method (((r.get method).getD []).insert dataset output)

/-- The inner loop of `transpose` (lib.rs:244-249). -/
def transposeRow {V : Type} (dataset : String) (r : HMap (HMap V)) : HMap V → HMap (HMap V)
  | [] => r
  | (method, output) :: es => transposeRow dataset (putCell r method dataset output) es

/-- The outer loop of `transpose` (lib.rs:243-250). -/
def transposeFrom {V : Type} (r : HMap (HMap V)) : HMap (HMap V) → HMap (HMap V)
  | [] => r
  | (dataset, row) :: t => transposeFrom (transposeRow dataset r row) t

/-- `AllOutput::transpose` (lib.rs:241-252). -/
def transpose {V : Type} (t : HMap (HMap V)) : HMap (HMap V) := transposeFrom [] t

/-- `AllOutput::map` (lib.rs:220-232). -/
def mapCells {V W : Type} (f : V → W) (t : HMap (HMap V)) : HMap (HMap W) :=
  t.map fun e => (e.1, e.2.map fun c => (c.1, f c.2))

/-- `AllOutput::compression_methods` (lib.rs:234-236), before it is made a set. -/
def methods {V : Type} (t : HMap (HMap V)) : List String := t.flatMap fun e => HMap.keys e.2

/-- `AllOutput::dataset_names` (lib.rs:238-240). -/
def datasetNames {V : Type} (t : HMap (HMap V)) : List String := HMap.keys t

/-- `AllOutput::aggregate_per_compression_method` (lib.rs:254-263). -/
def aggregate {V W : Type} (f : HMap V → W) (t : HMap (HMap V)) : HMap W := (transpose t).map fun e => (e.1, f e.2)

/-- The runs of a data set, as far as `average_decompression_throughput` looks: sizes of the compression runs, elapsed
times of the `materialize` runs. -/
structure Decompression where
  sizes : List B64
  elapsed : List B64

/-- `AllOutput::average_decompression_throughput` (lib.rs:305-328). The runs are counted by the compressions. -/
def averageDecompression (o : FloatOps) (ds : List Decompression) : B64 :=
  o.div (total o (ds.map fun d => o.div (o.div (total o d.sizes) (total o d.elapsed)) (o.ofNat d.sizes.length)))
    (o.ofNat ds.length)

end Ebi.Table
