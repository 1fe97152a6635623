import Verif.Decimal
import Verif.Tpch

/-!
# The UCR2018 driver

`experimenter/src/main.rs:2078-2415`: loading the series of a dataset and the accuracy of nearest neighbour
classification. Text is as in `Decimal.lean`. Not modelled: directories, progress output, elapsed times, the
compression statistics.
-/

namespace Ebi.Ucr

open Ebi Ebi.Decimal

/-- `LabelPixel` (2078-2081); the label is an `isize`. -/
structure Series where
  label : BitVec 64
  values : List B64
deriving DecidableEq

/-- `n as i32` of a `u64`. -/
def asI32 (n : Nat) : Int := (BitVec.ofNat 32 n).toInt

/-- `nan_to_zero` (2083-2089). -/
def nanToZero (v : B64) : B64 := if isNaN v then 0#64 else v

/-- A value of a series (2101-2106); `prec` is what the caller passes, a scale as `i32`. -/
def pixel (o : FloatOps) (prec : Int) (v : B64) : B64 :=
  if prec < 0 then nanToZero v else roundByScale o (nanToZero v) prec.toNat

/-- One line (2094-2108). Every field is parsed with `unwrap`; `toI64` is `as isize`. -/
def series (o : FloatOps) (prec : Int) (line : List Char) : Res Series :=
  match parseAll (splitOn '\t' (trim line)) with
  | some (l :: vs) => .ok ⟨o.toI64 l, vs.map (pixel o prec)⟩
  | _ => .panic

/-- The lines in order (2094-2110). -/
def seriesOf (o : FloatOps) (prec : Int) : List (List Char) → Res (List Series)
  | [] => .ok []
  | l :: ls => do
    let s ← series o prec l
    let r ← seriesOf o prec ls
    .ok (s :: r)

/-- `slurp_file` (2082-2111), with its `skip(1)`. -/
def slurp (o : FloatOps) (prec : Int) (text : List Char) : Res (List Series) := seriesOf o prec ((lines text).drop 1)

/-- The scale of a dataset (2156-2168), from its training file. -/
def datasetScale (o : FloatOps) (train : List Char) : Res Nat :=
  match appropriatePrecision o false '\t' train with
  | .ok p => if 10 ^ p < 2 ^ 64 then .ok (10 ^ p) else .err
  | .err => .err
  | .panic => .panic

/-- `CompressorConfig::set_scale` (ebi/src/compressor.rs:292-308). -/
def setScale (cfg : Config) (scale : BitVec 64) : Config :=
  match cfg with
  | .buff _ => .buff scale
  | .deltaSprintz n _ => .deltaSprintz n scale
  | c => c

/-- Sequencing of runs that may need more fuel. -/
def andThen {A B : Type} (x : Option (Res A)) (f : A → Option (Res B)) : Option (Res B) :=
  match x with
  | some (.ok a) => f a
  | some .err => some .err
  | some .panic => some .panic
  | none => none

/-- The file of the training vectors (2245-2256), made with `DEFAULT_CHUNK_OPTION` as in `Tpch.encoderArgs`. -/
def encodeTrain (E : Env) (cfg : Config) (s : Tpch.Stamp) (train : List Series) : Option (Res (List Byte)) :=
  (Tpch.encoderArgs cfg s (train.flatMap Series.values)).encode (E.scheme cfg)

/-- A decoder on it (2338-2349); `prec` is the argument of `with_precision` if it is called. -/
def openTrain (file : List Byte) (prec : Option Nat) : Res Decoder := (openFile file).map fun m => ⟨file, m, prec⟩

/-- One search (2338-2361): is the label of the series found that of the test series? An index beyond the
labels panics. -/
def trial (E : Env) (file : List Byte) (prec : Option Nat) (train : List Series) (fuel : Nat) (x : Series) :
    Option (Res Bool) :=
  andThen (some (openTrain file prec)) fun d =>
  andThen (d.knn1 E x.values fuel) fun r =>
    match train[r.index]? with
    | some s => some (.ok (x.label == s.label))
    | none => some .panic

/-- The `n` repetitions for one test series (2334-2362): the last one counts. -/
def trials (E : Env) (file : List Byte) (prec : Option Nat) (train : List Series) (fuel : Nat) (x : Series) :
    Nat → Bool → Option (Res Bool)
  | 0, b => some (.ok b)
  | n + 1, _ => andThen (trial E file prec train fuel x) (trials E file prec train fuel x n)

/-- The loop over the test series (2333-2369), `n_correct` being an `i32` in Rust. -/
def countCorrect (E : Env) (file : List Byte) (prec : Option Nat) (train : List Series) (fuel n : Nat) :
    List Series → Nat → Option (Res Nat)
  | [], k => some (.ok k)
  | x :: xs, k =>
    andThen (trials E file prec train fuel x n false) fun b =>
      countCorrect E file prec train fuel n xs (if b then k + 1 else k)

/-- The accuracy of one dataset with one configuration (2140-2370). The five decompressions (2259-2305) are one
here; the test file is read twice, the first time for `test_vectors[0].len()` (2206-2212). -/
def accuracy (E : Env) (cfg : Config) (s : Tpch.Stamp) (prec : Option Nat) (fuel n : Nat) (train test : List Char) :
    Option (Res B64) :=
  andThen (some (datasetScale E.o train)) fun scale =>
  andThen (some (slurp E.o (asI32 scale) test)) fun xs =>
  if xs = [] then some .panic
  else
    andThen (some (slurp E.o (asI32 scale) train)) fun ys =>
    andThen (encodeTrain E (setScale cfg (BitVec.ofNat 64 scale)) s ys) fun file =>
    andThen (some (openTrain file prec)) fun d =>
    andThen (some (d.materialize E none none)) fun _ =>
    andThen (countCorrect E file prec ys fuel n xs 0) fun k =>
      some (.ok (E.o.div (E.o.ofNat k) (E.o.ofNat xs.length)))

end Ebi.Ucr
