import Verif.SoftFloat
import Verif.Word

/-!
# Elf: the numeric part

`ebi/src/compression_common/elf.rs` and the arithmetic of `ElfEncoderWrapper::add_value`
(compressor/elf.rs:92-148) and `recover_v_by_beta_star` (decoder/chunk_reader/elf.rs:65-81), on the
concrete `f64` arithmetic of `SoftFloat`.

`f64::log10` is not specified bit for bit by Rust (it is the platform's `libm`), so it is a parameter
`lg : B64 → B64` of the model, never assumed to be accurate.

Integer arithmetic is the release profile's: `u32` / `i32` casts wrap. `i32` sums are modelled on `Int`
(they can only overflow if `lg` returns something absurd).
-/

namespace Ebi.Soft

open Ebi

/-- `f64::abs`. -/
def abs (v : B64) : B64 := mk false (mag v)

/-- `f64::floor`; the sign of a zero result is the sign of the argument. -/
def floor (v : B64) : B64 :=
  if isFinite v then
    if sgn v then rnd true ((absVal v + (2 ^ 1074 - 1)) / 2 ^ 1074 * 2 ^ 1074) 1
    else rnd false (absVal v / 2 ^ 1074 * 2 ^ 1074) 1
  else v

/-- `as i32`: truncation, saturation, NaN to 0. -/
def toI32 (v : B64) : Int :=
  if isNaN v then 0
  else
    let t := absVal v / 2 ^ 1074
    if sgn v then -((min t (2 ^ 31) : Nat) : Int) else ((min t (2 ^ 31 - 1) : Nat) : Int)

/-- `as u32`: truncation, saturation, NaN and negative to 0. -/
def toU32 (v : B64) : Nat :=
  if isNaN v || sgn v then 0 else min (absVal v / 2 ^ 1074) (2 ^ 32 - 1)

end Ebi.Soft

namespace Ebi.Elf

open Ebi Ebi.Soft

/-- `x as u32` for `x : i32`. -/
def asU32 (x : Int) : Nat := (x % 2 ^ 32).toNat

/-- `x as i32` for `x : u32`. -/
def asI32 (x : Nat) : Int := if x < 2 ^ 31 then (x : Int) else (x : Int) - 2 ^ 32

/-- The bit pattern of `1.0`. -/
def one : B64 := 0x3ff0000000000000#64

/-- `get_10i_p`, compression_common/elf.rs:95-101, with the table `MAP_10I_P` (6-9): both the literals
and `format!("1.0E{i}").parse::<f64>()` give the `f64` nearest to `10^i`, infinity from `10^309` on. -/
def p10 (i : Nat) : B64 := if 308 < i then posInf else rnd false (10 ^ i * 2 ^ 1074) 1

/-- `get_10i_n`, compression_common/elf.rs:103-109, with the table `MAP_10I_N` (11-14): the `f64`
nearest to `10^-i`, zero well before `10^-400`. The table `MAP_SP_LESS_1` (20-32) holds the same
values for `i ≤ 10`. -/
def n10 (i : Nat) : B64 := if 400 < i then 0#64 else rnd false (2 ^ 1074) (10 ^ i)

/-- The table `F`, compression_common/elf.rs:2-4. -/
def fTable : List Nat := [0, 4, 7, 10, 14, 17, 20, 24, 27, 30, 34, 37, 40, 44, 47, 50, 54, 57, 60, 64, 67]

/-- `get_f_alpha`, compression_common/elf.rs:34-40; the constant is `std::f64::consts::LOG2_10`. -/
def fAlpha (a : Nat) : Nat :=
  if 21 ≤ a then toU32 (ceil (mul (ofInt a) 0x400A934F0979A371#64)) else fTable.getD a 0

/-- The first loop of `get_sp` and `get_sp_and_10i_n_flag` (compression_common/elf.rs:112-119, 133-140):
`MAP_SP_GREATER_1[i + 1] as f64` is `10^(i+1)`. `none` when the loop runs out. -/
def spAbove (v : B64) : Option Nat := (List.range 9).find? fun i => flt v (p10 (i + 1))

/-- The second loop (compression_common/elf.rs:120-128, 141-148): the first `i` in `1..=10` with
`v >= MAP_SP_LESS_1[i]`. -/
def spBelow (v : B64) : Option Nat := (List.range' 1 10).find? fun i => fle (n10 i) v

/-- `get_sp_and_10i_n_flag`, compression_common/elf.rs:132-155. -/
def getSpFlag (lg : B64 → B64) (v : B64) : Int × Bool :=
  let r : Option (Int × Bool) :=
    if fle one v then (spAbove v).map fun (i : Nat) => ((i : Int), false)
    else (spBelow v).map fun (i : Nat) => (-(i : Int), feq v (n10 i))
  match r with
  | some r => r
  | none => (toI32 (floor (lg v)), feq (lg v) (floor (lg v)))

/-- `get_sp`, compression_common/elf.rs:111-130. -/
def getSp (lg : B64 → B64) (v : B64) : Int :=
  let r : Option Int :=
    if fle one v then (spAbove v).map fun (i : Nat) => (i : Int)
    else (spBelow v).map fun (i : Nat) => -(i : Int)
  match r with
  | some r => r
  | none => toI32 (floor (lg v))

/-- `i32::MAX`, the initial `last_beta_star`. -/
def i32Max : Int := 2 ^ 31 - 1

/-- Start of the search, compression_common/elf.rs:61-69. -/
def sigStart (sp last : Int) : Int :=
  if last ≠ i32Max ∧ last ≠ 0 then max (last - sp - 1) 1
  else if last = i32Max then 17 - sp - 1
  else if 0 ≤ sp then 1
  else -sp

/-- The loop `while (temp_i64 as f64) != temp`, compression_common/elf.rs:71-80, entered with
`temp = v * 10^i`. `none` is the `return 17` on overflow. The fuel is never exhausted: `10^i` is
infinite for `i ≥ 309`. -/
def sigLoop (v : B64) : Nat → Int → Option Int
  | 0, _ => none
  | fuel + 1, i =>
    let temp := mul v (p10 (asU32 i))
    if feq (ofInt (toI64 temp).toInt) temp then some i
    else if isInf (mul v (p10 (asU32 (i + 1)))) then none
    else sigLoop v fuel (i + 1)

/-- The trailing-zero loop, compression_common/elf.rs:87-90. `i` bounds the recursion. -/
def sigStrip : Nat → Int → Int → Int
  | 0, i, _ => i
  | fuel + 1, i, t => if 0 < i ∧ t.tmod 10 = 0 then sigStrip fuel (i - 1) (t.tdiv 10) else i

/-- After the search, compression_common/elf.rs:82-92 (`none` is the early `return 17`). -/
def sigFinish (v : B64) (sp : Int) : Option Int → Int
  | none => 17
  | some i =>
    let temp := mul v (p10 (asU32 i))
    if feq (div temp (p10 (asU32 i))) v then
      sp + sigStrip i.toNat i (toI64 temp).toInt + 1
    else 17

/-- `get_significant_count`, compression_common/elf.rs:60-93. -/
def sigCount (v : B64) (sp last : Int) : Int := sigFinish v sp (sigLoop v 400 (sigStart sp last))

/-- `get_alpha_and_beta_star`, compression_common/elf.rs:42-49. -/
def alphaBetaStar (lg : B64 → B64) (v : B64) (last : Int) : Nat × Int :=
  let a := abs v
  let (sp, flag) := getSpFlag lg a
  let beta := sigCount a sp last
  (asU32 (beta - sp - 1), if flag then 0 else beta)

/-- What `add_value` does with one value: pass it on as is (`case 10`) or erase its low bits and
remember `beta_star` (`case 0` / `case 11`). -/
inductive Plan where
  | raw (v : B64)
  | erase (beta : Int) (v : B64)
deriving DecidableEq

/-- `erase_bits`, compressor/elf.rs:113-115: `u32` arithmetic wrapping, then `as i32`. -/
def eraseBits (alpha e : Nat) : Int :=
  52 - asI32 ((fAlpha alpha + e + (2 ^ 32 - 1023)) % 2 ^ 32)

/-- The decision of `add_value`, compressor/elf.rs:92-147, without the bit output. `u64::MAX << n` masks
the shift amount in release builds. -/
def plan (lg : B64 → B64) (last : Int) (v : B64) : Plan :=
  if feq v 0#64 || isInf v then .raw v
  else if isNaN v then .raw nanBits
  else
    let (alpha, beta) := alphaBetaStar lg v last
    if beta < 16 then
      let er := eraseBits alpha (v.toNat / 2 ^ 52 % 2 ^ 11)
      if 4 < er then
        let mask : B64 := BitVec.allOnes 64 <<< (er % 64).toNat
        if ~~~mask &&& v ≠ 0#64 then .erase beta (mask &&& v) else .raw v
      else .raw v
    else .raw v

/-- `round_up`, compression_common/elf.rs:51-58. -/
def roundUp (v : B64) (alpha : Nat) : B64 :=
  let s := p10 alpha
  if flt v 0#64 then div (floor (mul v s)) s else div (ceil (mul v s)) s

/-- `recover_v_by_beta_star`, decoder/chunk_reader/elf.rs:65-81, on the value `v'` the XOR decoder
returned. -/
def recover (lg : B64 → B64) (last : Int) (v' : B64) : B64 :=
  let sp := getSp lg (abs v')
  if last = 0 then
    let v := n10 (asU32 (-sp - 1))
    if flt v' 0#64 then neg v else v
  else roundUp v' (asU32 (last - sp - 1))

end Ebi.Elf
