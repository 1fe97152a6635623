import Verif.Query

/-!
# A concrete `f64` arithmetic

IEEE-754 binary64 with round-to-nearest-even, computed on exact integers in units of `2^-1074`. It is
one interpretation of `FloatOps` (the one Rust promises for `+ - * /`, casts, `round`, `min`, `max`);
most theorems do not use it, concrete counterexamples and the Elf / BUFF theorems do. Simplified:
every NaN result is the canonical `0x7ff8000000000000` (hardware may keep a payload).
-/

namespace Ebi.Soft

open Ebi

/-- Assemble sign and magnitude. -/
def mk (s : Bool) (m : Nat) : B64 := BitVec.ofNat 64 ((if s then 2 ^ 63 else 0) + m)

/-- Round-half-even quotient. -/
def divRne (n d : Nat) : Nat :=
  let q := n / d
  let r := n % d
  if 2 * r < d then q else if d < 2 * r then q + 1 else if q % 2 = 0 then q else q + 1

/-- Magnitude pattern nearest to `n / d` (units of `2^-1074`), ties to even, overflow to infinity. -/
def roundMag (n d : Nat) : Nat :=
  let e := Nat.log2 (n / d) - 52
  min (e * 2 ^ 52 + divRne n (d * 2 ^ e)) 0x7ff0000000000000

/-- Round the exact value `n / d` with sign `s`. -/
def rnd (s : Bool) (n d : Nat) : B64 := mk s (roundMag n d)

/-- Canonical NaN. -/
def nan : B64 := 0x7ff8000000000000#64

/-- Exact magnitude in units of `2^-1074`. -/
def absVal (v : B64) : Nat := magVal (mag v)

def neg (a : B64) : B64 := mk (!sgn a) (mag a)

def add (a b : B64) : B64 :=
  if isNaN a || isNaN b then nan
  else if isInf a then (if isInf b && sgn a != sgn b then nan else a)
  else if isInf b then b
  else
    let x := exactVal a + exactVal b
    if x = 0 then (if sgn a && sgn b then mk true 0 else mk false 0)
    else rnd (decide (x < 0)) x.natAbs 1

def sub (a b : B64) : B64 := add a (neg b)

def mul (a b : B64) : B64 :=
  let s := sgn a != sgn b
  if isNaN a || isNaN b then nan
  else if isInf a || isInf b then
    (if mag a = 0 || mag b = 0 then nan else mk s 0x7ff0000000000000)
  else rnd s (absVal a * absVal b) (2 ^ 1074)

def div (a b : B64) : B64 :=
  let s := sgn a != sgn b
  if isNaN a || isNaN b then nan
  else if isInf a then (if isInf b then nan else mk s 0x7ff0000000000000)
  else if isInf b then mk s 0
  else if mag b = 0 then (if mag a = 0 then nan else mk s 0x7ff0000000000000)
  else rnd s (absVal a * 2 ^ 1074) (absVal b)

/-- `f64::min`: a NaN operand is ignored. -/
def fmin (a b : B64) : B64 :=
  if isNaN a then b else if isNaN b then a else if flt b a then b else a

/-- `f64::max`: a NaN operand is ignored. -/
def fmax (a b : B64) : B64 :=
  if isNaN a then b else if isNaN b then a else if flt a b then b else a

def ofInt (x : Int) : B64 := rnd (decide (x < 0)) (x.natAbs * 2 ^ 1074) 1

/-- `as i64`: truncation, saturation, NaN to 0. -/
def toI64 (v : B64) : BitVec 64 :=
  if isNaN v then 0#64
  else
    let t := absVal v / 2 ^ 1074
    if sgn v then BitVec.ofInt 64 (-(min t (2 ^ 63) : Nat)) else BitVec.ofNat 64 (min t (2 ^ 63 - 1))

/-- `f64::round`: half away from zero. -/
def round (v : B64) : B64 :=
  if isFinite v then
    rnd (sgn v) ((absVal v + 2 ^ 1073) / 2 ^ 1074 * 2 ^ 1074) 1
  else v

/-- `f64::ceil`; the sign of a zero result is the sign of the argument. -/
def ceil (v : B64) : B64 :=
  if isFinite v then
    if sgn v then rnd true (absVal v / 2 ^ 1074 * 2 ^ 1074) 1
    else rnd false ((absVal v + (2 ^ 1074 - 1)) / 2 ^ 1074 * 2 ^ 1074) 1
  else v

/-- `as usize` (64 bit): truncation, saturation, NaN and negative to 0. -/
def toUsize (v : B64) : Nat :=
  if isNaN v || sgn v then 0 else min (absVal v / 2 ^ 1074) (2 ^ 64 - 1)

/-- The interpretation. -/
def ops : FloatOps where
  add := add
  sub := sub
  mul := mul
  div := div
  fmin := fmin
  fmax := fmax
  sumInit := 0x8000000000000000#64
  ofI64 := fun q => ofInt q.toInt
  toI64 := toI64
  round := round
  ofNat := fun n => ofInt n

end Ebi.Soft
