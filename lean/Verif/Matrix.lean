import Verif.Ucr

/-!
# The matrix experiment

`matrix_command` (experimenter/src/main.rs:2420-2540): random matrices, written with every configuration and multiplied
in the file. The random numbers are arguments. Not modelled: times, the compression statistics, the text of the result
(its first five numbers) and the map of results by scheme.
-/

namespace Ebi.Matrix

open Ebi Ebi.Decimal Ebi.Ucr

/-- `N_DATA_MATRIX` (2429). -/
def nMatrices : Nat := 40

/-- `scale` (2425-2426). -/
def scale : Nat := 10 ^ 8

/-- `map_value` (2440-2443). -/
def mapValue (o : FloatOps) (x : B64) : B64 := o.mul (o.sub x 0x3fe0000000000000#64) 0x4020000000000000#64

/-- The matrices made of random numbers (2445-2450). -/
def generate (o : FloatOps) (xs : List B64) : List B64 := xs.map fun x => roundByScale o (mapValue o x) scale

/-- The assertion on the chunk option (2452-2461); the product wraps, a remainder by zero panics. -/
def checkSize (m : Nat) : Res Unit :=
  let s := m * m % 2 ^ 64
  if s = 0 then .panic else if 128 * 1024 * 1024 / 8 % s = 0 then .ok () else .panic

/-- `configs` (2464-2485); `reduced` is the flag for controlled precision only. -/
def configs (reduced : Bool) : List Config :=
  .buff (BitVec.ofNat 64 scale) :: if reduced then [] else
    [.uncompressed 8192#64, .chimp128 8192#64, .chimp 8192#64, .elfOnChimp 8192#64, .elf 8192#64, .gorilla 8192#64,
     .rle 8192#64, .zstd 3#32, .gzip 6#32, .snappy, .ffiAlp, .deltaSprintz 8192#64 (BitVec.ofNat 64 scale)]

/-- The result of one configuration (2452-2513): `m` is the size, `prec` the precision, `xs` and `ys` the random
numbers of the data (40 matrices) and of the target. -/
def run (E : Env) (cfg : Config) (s : Tpch.Stamp) (prec m : Nat) (xs ys : List B64) : Option (Res (List B64)) :=
  andThen (some (checkSize m)) fun _ =>
  andThen ((Tpch.encoderArgs cfg s (generate E.o xs)).encode (E.scheme cfg)) fun file =>
  andThen (some (openTrain file (some prec))) fun d =>
    some (d.matmul E (generate E.o ys) (m, m) (m, m))

end Ebi.Matrix
