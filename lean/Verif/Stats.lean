import Verif.Decimal
import Verif.Word
import Verif.Table

/-!
# The statistics tool (tools/src/collect-stats.rs)

What the tool computes from the text of a CSV file, and which files appear in `stats.json`. Not modelled: the messages on
the terminal and the text of the JSON. The square root is a parameter. A release build is assumed, so sums of integers
wrap around.
-/

namespace Ebi.Stats

open Ebi Ebi.Decimal

/-- The items of a line (collect-stats.rs:126-133): trimmed first, empty ones skipped afterwards. -/
def items (line : List Char) : List (List Char) := ((splitOn ',' line).map trim).filter (fun s => s != [])

/-- All items of a file in the order of the loops (collect-stats.rs:124-135). -/
def allItems (text : List Char) : List (List Char) := (lines text).flatMap items

/-- `get_exponent_bits` (collect-stats.rs:288-293). -/
def exponentBits (v : B64) : Int := (((v >>> 52) &&& 0x7ff#64).toNat : Int) - 1023

/-- The two vectors filled for each item (collect-stats.rs:135-149); `none`: an item is no number. The third one holds the
exponents of the values. -/
def parse : List (List Char) → Option (List Nat × List B64)
  | [] => some ([], [])
  | s :: ss =>
    match parseF64 s with
    | none => none
    | some v => (parse ss).map (fun r => (decimalPrecision s :: r.1, v :: r.2))

/-- `Iterator::max_by` with `partial_cmp().unwrap()` after the first element (collect-stats.rs:182-185): the later of two
equal elements wins, an incomparable pair panics. -/
def maxFrom (m : B64) : List B64 → Res B64
  | [] => .ok m
  | v :: vs =>
    if isNaN m || isNaN v then .panic
    else if flt v m then maxFrom m vs
    else maxFrom v vs

/-- `Iterator::min_by` (collect-stats.rs:186-189): the earlier of two equal elements wins. -/
def minFrom (m : B64) : List B64 → Res B64
  | [] => .ok m
  | v :: vs =>
    if isNaN m || isNaN v then .panic
    else if flt v m then minFrom v vs
    else minFrom m vs

/-- `usize` and `u64` sums (collect-stats.rs:228, 273-283). -/
def sumWrap (l : List Nat) : Nat := l.foldl (fun s x => (s + x) % 2 ^ 64) 0

/-- `mean_usize` (collect-stats.rs:224-231). -/
def meanNat (o : FloatOps) (l : List Nat) : B64 := o.div (o.ofNat (sumWrap l)) (o.ofNat l.length)

/-- `iter().sum::<i32>()` (collect-stats.rs:299). -/
def sumWrap32 (l : List Int) : Int := l.foldl (fun s x => wrap32 (s + x)) 0

/-- `x as f64` for an `i32` (exact, as is the `i64` cast). -/
def ofI32 (o : FloatOps) (x : Int) : B64 := o.ofI64 (BitVec.ofInt 64 x)

/-- `mean_i32` (collect-stats.rs:295-302). -/
def meanInt (o : FloatOps) (l : List Int) : B64 := o.div (ofI32 o (sumWrap32 l)) (o.ofNat l.length)

/-- `mean_f64` (collect-stats.rs:247-254), for a list that is not empty. -/
def meanF64 (o : FloatOps) (l : List B64) : B64 := o.div (l.foldl o.add o.sumInit) (o.ofNat l.length)

/-- `diff * diff` (collect-stats.rs:239-242, 262-263, 310-313). -/
def square (o : FloatOps) (m v : B64) : B64 := o.mul (o.sub v m) (o.sub v m)

/-- `std_dev_usize`, `std_dev_i32` (collect-stats.rs:233-245, 304-316) and `std_dev_f64` (collect-stats.rs:256-266): the
first two start the sum as `Iterator::sum` does, the last with `0.0`. -/
def stdDev (o : FloatOps) (sqrt : B64 → B64) (init : B64) (m : B64) (l : List B64) : B64 :=
  if l.length ≤ 1 then 0#64
  else sqrt (o.div (l.foldl (fun s v => o.add s (square o m v)) init) (o.ofNat l.length))

/-- `windows(2)`, XOR of the bits (collect-stats.rs:275-280). -/
def xors (l : List B64) : List Nat := (l.zip l.tail).map (fun p => (p.1 ^^^ p.2).toNat)

/-- `xor_front_trail_stats` (collect-stats.rs:268-286). -/
def xorStats (o : FloatOps) (l : List B64) : B64 × B64 :=
  if l.length < 2 then (0x4050000000000000#64, 0x4050000000000000#64)
  else
    (o.div (o.ofNat (sumWrap ((xors l).map lz64))) (o.ofNat (l.length - 1)),
     o.div (o.ofNat (sumWrap ((xors l).map tz64))) (o.ofNat (l.length - 1)))

/-- The elements of the `HashSet` of bits (collect-stats.rs:322), in some order. -/
def distinct : List B64 → List B64
  | [] => []
  | v :: vs => if vs.contains v then distinct vs else v :: distinct vs

/-- `get_non_unique_value_ratio` (collect-stats.rs:318-330), for a list that is not empty. -/
def nonUnique (o : FloatOps) (l : List B64) : B64 :=
  o.div (o.sub (o.ofNat l.length) (o.ofNat (distinct l).length)) (o.ofNat l.length)

/-- `Stats` (collect-stats.rs:34-60). -/
structure Stats where
  precisionMax : Nat
  precisionMin : Nat
  precisionAvg : B64
  precisionStd : B64
  valueMax : B64
  valueMin : B64
  valueAvg : B64
  valueStd : B64
  exponentMax : Int
  exponentMin : Int
  exponentAvg : B64
  exponentStd : B64
  leadingAvg : B64
  trailingAvg : B64
  nonUniqueRatio : B64
  numValues : Nat
  deriving DecidableEq

/-- `compute_stats` on no values (collect-stats.rs:156-175). -/
def empty : Stats := ⟨0, 0, 0, 0, 0, 0, 0, 0, 0, 0, 0, 0, 0x4050000000000000#64, 0x4050000000000000#64, 0, 0⟩

/-- `compute_stats` (collect-stats.rs:155-222) on precisions and values; the exponents are those of the values. -/
def compute (o : FloatOps) (sqrt : B64 → B64) (precs : List Nat) (values : List B64) : Res Stats :=
  match values, precs with
  | [], _ => .ok empty
  | _ :: _, [] => .panic
  | v :: vs, p :: ps =>
    (maxFrom v vs).bind fun hi => (minFrom v vs).bind fun lo =>
      let es := (v :: vs).map exponentBits
      let dm := meanNat o (p :: ps)
      let vm := meanF64 o (v :: vs)
      let em := meanInt o es
      let x := xorStats o (v :: vs)
      .ok {
        precisionMax := ps.foldl max p
        precisionMin := ps.foldl min p
        precisionAvg := dm
        precisionStd := stdDev o sqrt o.sumInit dm ((p :: ps).map o.ofNat)
        valueMax := hi
        valueMin := lo
        valueAvg := vm
        valueStd := stdDev o sqrt 0#64 vm (v :: vs)
        exponentMax := (vs.map exponentBits).foldl max (exponentBits v)
        exponentMin := (vs.map exponentBits).foldl min (exponentBits v)
        exponentAvg := em
        exponentStd := stdDev o sqrt o.sumInit em (es.map (ofI32 o))
        leadingAvg := x.1
        trailingAvg := x.2
        nonUniqueRatio := nonUnique o (v :: vs)
        numValues := (v :: vs).length }

/-- `collect_stats_from_csv` (collect-stats.rs:114-153) on the text of the file. -/
def collect (o : FloatOps) (sqrt : B64 → B64) (text : List Char) : Res Stats :=
  match parse (allItems text) with
  | none => .err
  | some r => compute o sqrt r.1 r.2

/-- An entry of the glob (collect-stats.rs:73-104): `unreadable` is an entry that cannot be listed or has no file stem;
`file stem none` cannot be opened or is not UTF-8. -/
inductive Entry where
  | unreadable
  | file (stem : String) (text : Option (List Char))

/-- The loop over the files (collect-stats.rs:75-105): a file that gives an error is left out, a panic ends the program
before `stats.json` is written. -/
def report (o : FloatOps) (sqrt : B64 → B64) (m : Table.Map Stats) : List Entry → Res (Table.Map Stats)
  | [] => .ok m
  | .unreadable :: es => report o sqrt m es
  | .file _ none :: es => report o sqrt m es
  | .file stem (some text) :: es =>
    match collect o sqrt text with
    | .ok s => report o sqrt (m.set stem s) es
    | .err => report o sqrt m es
    | .panic => .panic

/-- `stats.json` (collect-stats.rs:68, 107-109). -/
def statsJson (o : FloatOps) (sqrt : B64 → B64) (es : List Entry) : Res (Table.Map Stats) := report o sqrt Table.Map.empty es

end Ebi.Stats
