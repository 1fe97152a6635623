import Verif.Query
import Verif.Bytes

/-!
# The experiment driver

`experimenter/src/main.rs` and `experimenter/src/lib.rs`: the predicates of the filter experiments, the check before
a lossy configuration is run, and the table of results. Not modelled: directories, clocks, progress output, and the
JSON files except for what is said below.
-/

namespace Ebi.Driver

open Ebi

/-! ## Filter configurations -/

/-- One step of the sort below. -/
def insertSorted (v : B64) : List B64 → List B64
  | [] => [v]
  | w :: ws => if fle v w then v :: w :: ws else w :: insertSorted v ws

/-- `floats.sort_by(partial_cmp)` (main.rs:1399-1402): a stable sort; there is only one result, whatever the
algorithm. -/
def sortFloats (vs : List B64) : List B64 := vs.foldr insertSorted []

/-- `floats[i]`. -/
def at? (vs : List B64) (i : Nat) : Res B64 :=
  match vs[i]? with
  | some v => .ok v
  | none => .panic

/-- A constant after `to_writer_pretty` and `from_reader` (main.rs:1447-1475, lib.rs `ConfigPath::read`). `json` is
what serde_json makes of a finite number; infinities are written as `null`, which is no number. -/
def reread (json : B64 → B64) (v : B64) : Option B64 := if isFinite v then some (json v) else none

/-- `Predicate::Range(Range::new(Exclusive(v), None))`, read back. -/
def greater (json : B64 → B64) (v : B64) : Option (Predicate B64) :=
  (reread json v).map fun c => .range ⟨.exclusive c, .none⟩

/-- All of the list, if there is all of it: the first file that cannot be read back ends the loop with an error
(main.rs:1436-1490). -/
def collect : List (String × Option (Predicate B64)) → Res (List (String × Predicate B64))
  | [] => .ok []
  | (_, none) :: _ => .err
  | (name, some p) :: rest =>
    match collect rest with
    | .ok ps => .ok ((name, p) :: ps)
    | .err => .err
    | .panic => .panic

/-- `create_config_command` (main.rs:1350-1492) on the contents of a binary file: name and predicate of each file
written, as they are read later. Products are `u64`. -/
def filterConfigs (json : B64 → B64) (buf : List Byte) : Res (List (String × Predicate B64)) := do
  let floats := toF64s buf
  let n := floats.length
  if floats.any isNaN then .err
  else do
    let sorted := sortFloats floats
    let ten ← at? sorted (n * 10 % 2 ^ 64 / 100)
    let half ← at? sorted (n / 2)
    let ninety ← at? sorted (n * 90 % 2 ^ 64 / 100)
    collect [("greater_10th_percentile", greater json ten), ("greater_50th_percentile", greater json half),
      ("greater_90th_percentile", greater json ninety), ("eq", (reread json half).map .eq),
      ("ne", (reread json half).map .ne)]

/-! ## The check before lossy configurations -/

/-- The loop that looks for the largest value (main.rs:1030-1042), with `read` into an 8-byte buffer that keeps what
it held. A regular file is assumed to deliver whole records except at its end. -/
def maxLoop (o : FloatOps) (buffer : List Byte) (acc : B64) : List Byte → B64
  | a :: b :: c :: d :: e :: f :: g :: h :: rest =>
    maxLoop o [a, b, c, d, e, f, g, h] (o.fmax acc (f64Of [a, b, c, d, e, f, g, h])) rest
  | [] => acc
  | rest => o.fmax acc (f64Of (rest ++ buffer.drop rest.length))

/-- `max_value` (main.rs:1028-1043). -/
def maxValue (o : FloatOps) (buf : List Byte) : B64 := maxLoop o (List.replicate 8 0#8) 0#64 buf

/-- The precision the check works with (main.rs:857-861); `log10` is `(scale as f64).log10() as usize`. -/
def precisionOf (log10 : Nat → Nat) (scale : Nat) : Nat := if scale = 0 then 0 else log10 scale

/-- Whether the experiment is run for BUFF or DeltaSprintz with this scale (main.rs:852-878). `i64::MAX as f64` is
2^63. -/
def admitted (o : FloatOps) (log10 : Nat → Nat) (isBuff : Bool) (scale : Nat) (maxV : B64) : Bool :=
  let quantized := o.mul maxV (o.ofNat scale)
  if !isFinite quantized || flt 0x43e0000000000000#64 (quantized &&& 0x7fffffffffffffff#64) then false
  else !(isBuff && decide (12 < precisionOf log10 scale))

end Ebi.Driver
