import Verif.SoftFloat

/-!
# From decimal text to a scale

The helpers that read a comma separated text file: the number of decimals of a field, the precision chosen
for the file, the scale of the default DeltaSprintz and BUFF configurations, and the conversion to binary.
Text is a list of characters; lengths are UTF-8 byte lengths as in Rust. Not modelled: I/O errors, lines that
are not UTF-8, progress output.
-/

namespace Ebi.Decimal

open Ebi

/-- `str::len`: bytes in UTF-8. -/
def byteLen (s : List Char) : Nat := (s.map Char.utf8Size).sum

/-- `s.find(c)` with the text before the first `c` and the text after it. -/
def cut (c : Char) : List Char → Option (List Char × List Char)
  | [] => none
  | x :: xs => if x = c then some ([], xs) else (cut c xs).map (fun y => (x :: y.1, y.2))

/-- Digit value, base ten. -/
def digit? (c : Char) : Option Nat := if 48 ≤ c.toNat ∧ c.toNat ≤ 57 then some (c.toNat - 48) else none

/-- Value of a string of digits after `acc`; `none` on any other character. -/
def digits (acc : Nat) : List Char → Option Nat
  | [] => some acc
  | c :: cs =>
    match digit? c with
    | none => none
    | some d => digits (10 * acc + d) cs

/-- At least one digit, only digits. -/
def digits1 (s : List Char) : Option Nat := if s = [] then none else digits 0 s

/-- `i32` wrap-around (release build). -/
def wrap32 (x : Int) : Int := x.bmod (2 ^ 32)

/-- `str::parse::<i32>`: optional sign, digits, range check. -/
def parseI32 (s : List Char) : Option Int :=
  match s with
  | '-' :: t => (digits1 t).bind (fun n => if n ≤ 2 ^ 31 then some (-(n : Int)) else none)
  | '+' :: t => (digits1 t).bind (fun n => if n < 2 ^ 31 then some (n : Int) else none)
  | t => (digits1 t).bind (fun n => if n < 2 ^ 31 then some (n : Int) else none)

/-- `get_decimal_precision` (experimenter/src/lib.rs:367-386; the same function is in
tools/src/collect-stats.rs:13-32). Casts and subtraction wrap as in a release build. -/
def decimalPrecision (s : List Char) : Nat :=
  match cut 'e' s with
  | some (base, ex) =>
    let x := (parseI32 ex).getD 0
    match cut '.' base with
    | some (_, f) => (max (wrap32 (wrap32 (byteLen f) - x)) 0).toNat
    | none => if x < 0 then (wrap32 (-x) % 2 ^ 64).toNat else 0
  | none =>
    match cut '.' s with
    | some (_, f) => byteLen f
    | none => 0

/-- Unicode `White_Space`. -/
def isSpace (c : Char) : Bool :=
  let n := c.toNat
  (decide (9 ≤ n) && decide (n ≤ 13)) || n == 32 || n == 0x85 || n == 0xa0 || n == 0x1680 ||
    (decide (0x2000 ≤ n) && decide (n ≤ 0x200a)) || n == 0x2028 || n == 0x2029 || n == 0x202f ||
    n == 0x205f || n == 0x3000

/-- `str::trim`. -/
def trim (s : List Char) : List Char := ((s.dropWhile isSpace).reverse.dropWhile isSpace).reverse

/-- `str::split(c)`. -/
def splitOn (c : Char) : List Char → List (List Char)
  | [] => [[]]
  | x :: xs =>
    if x = c then [] :: splitOn c xs
    else
      match splitOn c xs with
      | [] => [[x]]
      | y :: ys => (x :: y) :: ys

/-- Drop one carriage return at the end. -/
def dropCr (s : List Char) : List Char :=
  match s.reverse with
  | '\r' :: t => t.reverse
  | _ => s

/-- `BufRead::lines`: split at line feeds, drop the empty rest after the last one, drop the `\r` of `\r\n`. -/
def lines (s : List Char) : List (List Char) :=
  match (splitOn '\n' s).reverse with
  | [] => []
  | last :: init => init.reverse.map dropCr ++ (if last = [] then [] else [last])

/-- The fields of a line (lib.rs:412-418 and 504-510, tools/src/csv2bin.rs:77-89): empty ones are skipped
before trimming. -/
def fields (sep : Char) (line : List Char) : List (List Char) :=
  ((splitOn sep line).filter (fun s => s != [])).map trim

/-- All fields of a text, in order. -/
def allFields (sep : Char) (s : List Char) : List (List Char) := (lines s).flatMap (fields sep)

/-! ## The precision of a file -/

/-- `float_strs.entry(precision).or_insert_with(Vec::new).push(s)` (lib.rs:419-420, 511-512) on a map kept as
a list ordered by key. Simplified: the vector of texts, only printed, is its length. -/
def bump (p : Nat) : List (Nat × Nat) → List (Nat × Nat)
  | [] => [(p, 1)]
  | (q, c) :: r =>
    if p < q then (p, 1) :: (q, c) :: r
    else if p = q then (q, c + 1) :: r
    else (q, c) :: bump p r

/-- The map after all fields. -/
def tally (precs : List Nat) : List (Nat × Nat) := precs.foldl (fun m p => bump p m) []

/-- The loop over the map from the largest precision down (lib.rs:432-462, 522-555). Simplified: the table
`number_of_records_so_far` is the running count `acc`. -/
def choose (o : FloatOps) (thr : B64) (total : Nat) : Nat → List (Nat × Nat) → Option Nat
  | _, [] => none
  | acc, (p, c) :: r =>
    if flt (o.div (o.ofNat (acc + c)) (o.ofNat total)) thr then choose o thr total (acc + c) r
    else some p

/-- `0.01`. -/
def onePercent : B64 := 0x3f847ae147ae147b#64

/-- `number_of_records` (lib.rs:424, 516). -/
def total (m : List (Nat × Nat)) : Nat := (m.map Prod.snd).sum

/-- The chosen precision before conversion. -/
def chosen (o : FloatOps) (exact : Bool) (precs : List Nat) : Option Nat :=
  choose o (if exact then 0#64 else onePercent) (total (tally precs)) 0 (tally precs).reverse

/-- `get_appropriate_precision` (lib.rs:492-561): `try_into` to `u32`, error when nothing was chosen. -/
def appropriatePrecision (o : FloatOps) (exact : Bool) (sep : Char) (text : List Char) : Res Nat :=
  match chosen o exact ((allFields sep text).map decimalPrecision) with
  | some p => if p < 2 ^ 32 then .ok p else .err
  | none => .err

/-- `get_appropriate_scale` (lib.rs:404-469): `10u32.checked_pow(precision as u32)`. -/
def appropriateScale (o : FloatOps) (sep : Char) (text : List Char) : Res Nat :=
  match chosen o false ((allFields sep text).map decimalPrecision) with
  | some p => if 10 ^ (p % 2 ^ 32) < 2 ^ 32 then .ok (10 ^ (p % 2 ^ 32)) else .err
  | none => .err

/-- The scale of the default DeltaSprintz and BUFF configurations
(`create_default_compressor_config`, experimenter/src/main.rs:1275, 1295-1309): `10u64.checked_pow(prec)`;
`none` when the two configurations are left out. -/
def defaultScale (o : FloatOps) (exact : Bool) (text : List Char) : Res (Option Nat) :=
  (appropriatePrecision o exact ',' text).map (fun p => if 10 ^ p < 2 ^ 64 then some (10 ^ p) else none)

/-! ## Conversion to binary -/

/-- The double nearest to `±n * 10^k` (ties to even, overflow to infinity), which is what `f64::from_str`
documents. -/
def decimalToF64 (neg : Bool) (n : Nat) (k : Int) : B64 :=
  if 0 ≤ k then Soft.rnd neg (n * 10 ^ k.toNat * 2 ^ 1074) 1 else Soft.rnd neg (n * 2 ^ 1074) (10 ^ (-k).toNat)

/-- ASCII lower case. -/
def lower (c : Char) : Char := if 65 ≤ c.toNat ∧ c.toNat ≤ 90 then Char.ofNat (c.toNat + 32) else c

/-- Leading digits and the rest. -/
def spanDigits : List Char → List Char × List Char
  | [] => ([], [])
  | c :: cs => if (digit? c).isSome then (c :: (spanDigits cs).1, (spanDigits cs).2) else ([], c :: cs)

/-- An optional sign. -/
def takeSign : List Char → Bool × List Char
  | '-' :: t => (true, t)
  | '+' :: t => (false, t)
  | t => (false, t)

/-- The exponent part: nothing, or `e`/`E`, optional sign and digits up to the end. -/
def parseExp : List Char → Option Int
  | [] => some 0
  | c :: t =>
    if c = 'e' ∨ c = 'E' then
      (digits1 (takeSign t).2).map (fun n : Nat => if (takeSign t).1 then -(n : Int) else (n : Int))
    else none

/-- The digits after a point, if there is one, and the rest. -/
def takeFraction : List Char → List Char × List Char
  | '.' :: t => spanDigits t
  | t => ([], t)

/-- A number without sign: digits, optional fraction, at least one digit, optional exponent. -/
def parseNumber (neg : Bool) (s : List Char) : Option B64 :=
  let i := (spanDigits s).1
  let f := (takeFraction (spanDigits s).2).1
  match digits1 (i ++ f), parseExp (takeFraction (spanDigits s).2).2 with
  | some n, some x => some (decimalToF64 neg n (x - f.length))
  | _, _ => none

/-- `str::parse::<f64>` (csv2bin.rs:84-86): optional sign, then `inf`, `infinity`, `nan` in any case or a
number. -/
def parseF64 (s : List Char) : Option B64 :=
  let neg := (takeSign s).1
  let t := (takeSign s).2
  let w := t.map lower
  if w = ['i', 'n', 'f'] ∨ w = ['i', 'n', 'f', 'i', 'n', 'i', 't', 'y'] then some (Soft.mk neg 0x7ff0000000000000)
  else if w = ['n', 'a', 'n'] then some (Soft.mk neg 0x7ff8000000000000)
  else parseNumber neg t

/-- Every element converted, or nothing. -/
def parseAll : List (List Char) → Option (List B64)
  | [] => some []
  | s :: r =>
    match parseF64 s, parseAll r with
    | some v, some vs => some (v :: vs)
    | _, _ => none

/-- `process_file` of csv2bin (tools/src/csv2bin.rs:45-122): all fields in order, or an error and no output
file. The binary file is the doubles in little-endian order. -/
def csv2bin (text : List Char) : Res (List B64) :=
  match parseAll (allFields ',' text) with
  | some vs => .ok vs
  | none => .err

/-- `round_by_scale` (lib.rs:563-566). -/
def roundByScale (o : FloatOps) (v : B64) (scale : Nat) : B64 :=
  o.div (o.round (o.mul v (o.ofNat scale))) (o.ofNat scale)

end Ebi.Decimal
