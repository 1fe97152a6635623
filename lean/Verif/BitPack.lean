import Verif.Bytes

/-!
# `BitPack`: least-significant-bit-first bit packing

`ebi/src/compression_common/buff.rs:54-371` (module `bit_packing`). The bits of a packed buffer are
the binary digits of the buffer read as one little-endian number, which is how the lemmas state what
is written and read.
-/

namespace Ebi.BitPack

open Ebi

/-! ## Writer: `BitPack<Vec<u8>>` -/

/-- `BitPack<Vec<u8>>` (58-62). -/
structure Pack where
  buff : List Byte
  cursor : Nat
  bits : Nat
deriving DecidableEq, Repr

/-- `new` / `with_capacity` (66-72, 292-294). -/
def Pack.new : Pack := ⟨[], 0, 0⟩

/-- `sum_bits` (75-77). -/
def Pack.sumBits (p : Pack) : Nat := p.cursor * 8 + p.bits

/-- The loop of `write` (92-113) and `write_bits` (126-147). `fuel` bounds the iterations (at most one
per bit). `value` is a `u32`. -/
def writeLoop : Nat → List Byte → Nat → Nat → Nat → Nat → List Byte × Nat × Nat
  | 0, buff, cursor, bits, _, _ => (buff, cursor, bits)
  | fuel + 1, buff, cursor, bits, value, n =>
    if n ≤ 8 - bits then
      let buff := buff.modify cursor (· ||| (BitVec.ofNat 8 value <<< bits))
      if 8 ≤ bits + n then (buff, cursor + 1, 0) else (buff, cursor, bits + n)
    else
      let bb := value % 2 ^ (8 - bits)
      let buff := buff.modify cursor (· ||| (BitVec.ofNat 8 bb <<< bits))
      writeLoop fuel buff (cursor + 1) 0 (value / 2 ^ (8 - bits)) (n - (8 - bits))

/-- `write` (299-320, slice version 84-115). `none` is `Err(bits)`; the space check of the slice version
(85) cannot fail after the `resize`. -/
def Pack.write (p : Pack) (value n : Nat) : Option Pack :=
  let len := p.buff.length
  let buff := if len * 8 ≤ p.sumBits + n
    then p.buff ++ List.replicate ((p.sumBits + n - len * 8 + 7) / 8) 0#8 else p.buff
  if 32 < n ∨ buff.length * 8 < p.sumBits + n then none
  else
    let value := if n < 32 then value % 2 ^ n else value
    let (buff, cursor, bits) := writeLoop (n + 1) buff p.cursor p.bits value n
    some ⟨buff, cursor, bits⟩

/-- `write_bits` (325-346, slice version 120-149). -/
def Pack.writeBits (p : Pack) (value n : Nat) : Option Pack :=
  let len := p.buff.length
  let buff := if len * 8 ≤ p.sumBits + n
    then p.buff ++ List.replicate ((p.sumBits + n - len * 8 + 7) / 8) 0#8 else p.buff
  if buff.length * 8 < p.sumBits + n then none
  else
    let (buff, cursor, bits) := writeLoop (n + 1) buff p.cursor p.bits (value % 2 ^ n) n
    some ⟨buff, cursor, bits⟩

/-- `write_byte` (348-351): the cursor does not move. -/
def Pack.writeByte (p : Pack) (b : Byte) : Pack := { p with buff := p.buff ++ [b] }

/-- `finish_write_byte` (356-362). -/
def Pack.finishWriteByte (p : Pack) : Pack := ⟨p.buff ++ [0#8], p.buff.length, 0⟩

/-! ## Reader: `BitPack<&[u8]>` -/

/-- `BitPack<&[u8]>`: the buffer is kept apart, this is `cursor` and `bits`. After a read ending on a
byte boundary `bits` may be 8. -/
structure Pos where
  cursor : Nat
  bits : Nat
deriving DecidableEq, Repr

/-- `sum_bits` (75-77). -/
def Pos.sumBits (p : Pos) : Nat := p.cursor * 8 + p.bits

/-- `read_u32` (190-199). `none` is `Err`. -/
def readU32 (buff : List Byte) (p : Pos) : Option (Nat × Pos) :=
  if buff.length * 8 < p.sumBits + 32 then none
  else some (leNat ((buff.drop p.cursor).take 4), { p with cursor := p.cursor + 4 })

/-- The loop of `read_bits` (216-239); indexing the buffer out of bounds would panic. -/
def readLoop (buff : List Byte) : Nat → Nat → Nat → Nat → Nat → Nat → Res (Nat × Pos)
  | 0, _, _, _, _, _ => .panic
  | fuel + 1, cursor, bits, n, bitsLeft, output =>
    match buff[cursor]? with
    | none => .panic
    | some byte =>
      if n ≤ 8 - bits then
        .ok (output ||| ((byte.toNat / 2 ^ bits % 2 ^ n) <<< bitsLeft), ⟨cursor, bits + n⟩)
      else
        let output := output ||| ((byte.toNat / 2 ^ bits % 2 ^ (8 - bits)) <<< bitsLeft)
        let bits' := bits + (8 - bits)
        if 8 ≤ bits' then
          readLoop buff fuel (cursor + 1) (bits' - 8) (n - (8 - bits)) (bitsLeft + (8 - bits)) output
        else readLoop buff fuel cursor bits' (n - (8 - bits)) (bitsLeft + (8 - bits)) output

/-- `read_bits` (203-241). -/
def readBits (buff : List Byte) (p : Pos) (n : Nat) : Res (Nat × Pos) :=
  if buff.length * 8 < p.sumBits + n then .err
  else
    match readLoop buff (n + 2) p.cursor p.bits n 0 0 with
    | .ok (x, p) => .ok (x % 256, p)
    | .err => .err
    | .panic => .panic

/-- `read_byte` (243-247). -/
def readByte (buff : List Byte) (p : Pos) : Res (Byte × Pos) :=
  match buff[p.cursor]? with
  | none => .panic
  | some b => .ok (b, { p with cursor := p.cursor + 1 })

/-- `read_n_byte` (250-255). -/
def readNByte (buff : List Byte) (p : Pos) (n : Nat) : Res (List Byte × Pos) :=
  if buff.length < p.cursor + n then .panic
  else .ok ((buff.drop p.cursor).take n, { p with cursor := p.cursor + n })

/-- `skip_n_byte` (258-262). -/
def skipNByte (p : Pos) (n : Nat) : Pos := { p with cursor := p.cursor + n }

/-- `skip` (264-284). `none` is `Err`. -/
def skip (buff : List Byte) (p : Pos) (n : Nat) : Option Pos :=
  if n = 0 then some p
  else if buff.length * 8 < p.sumBits + n then none
  else some ⟨p.cursor + n / 8 + (p.bits + n % 8) / 8, (p.bits + n % 8) % 8⟩

/-! ## The buffer as a number -/

theorem leNat_append (a b : List Byte) : leNat (a ++ b) = leNat a + 256 ^ a.length * leNat b := by
  induction a with
  | nil => simp [leNat]
  | cons x xs ih =>
    simp only [List.cons_append, leNat, ih, List.length_cons, Nat.pow_succ]
    rw [Nat.mul_add, ← Nat.mul_assoc, Nat.mul_comm 256 (256 ^ xs.length)]
    omega

theorem leNat_replicate_zero (n : Nat) : leNat (List.replicate n 0#8) = 0 := by
  induction n with
  | zero => rfl
  | succ n ih => rw [List.replicate_succ, leNat, ih]; rfl

/-- Equal length and equal number: equal bytes. -/
theorem leNat_inj {a b : List Byte} (hl : a.length = b.length) (h : leNat a = leNat b) : a = b := by
  rw [← leBytes_leNat a, ← leBytes_leNat b, hl, h]

theorem pow256 (c : Nat) : 256 ^ c = 2 ^ (8 * c) := by rw [Nat.pow_mul]

/-- Or-ing a byte into the buffer. -/
theorem leNat_modify {buff : List Byte} {c : Nat} {y z : Byte} (h : buff[c]? = some y)
    (f : Byte → Byte) (hz : f y = z) :
    leNat (buff.modify c f) + 256 ^ c * y.toNat = leNat buff + 256 ^ c * z.toNat := by
  induction c generalizing buff with
  | zero =>
    cases buff with
    | nil => simp at h
    | cons a as =>
      simp only [List.getElem?_cons_zero, Option.some.injEq] at h
      subst h
      simp only [List.modify_zero_cons, leNat, hz]
      omega
  | succ c ih =>
    cases buff with
    | nil => simp at h
    | cons a as =>
      simp only [List.getElem?_cons_succ] at h
      have := ih h
      simp only [List.modify_succ_cons, leNat, Nat.pow_succ]
      rw [Nat.mul_comm (256 ^ c) 256, Nat.mul_assoc, Nat.mul_assoc]
      omega

/-- One byte of the buffer from its number. -/
theorem getElem?_leNat {buff : List Byte} {c : Nat} (h : c < buff.length) :
    ∃ y, buff[c]? = some y ∧ y.toNat = leNat buff / 256 ^ c % 256 := by
  induction c generalizing buff with
  | zero =>
    cases buff with
    | nil => simp at h
    | cons a as =>
      refine ⟨a, rfl, ?_⟩
      have := a.isLt
      simp only [leNat]
      omega
  | succ c ih =>
    cases buff with
    | nil => simp at h
    | cons a as =>
      obtain ⟨y, h1, h2⟩ := ih (buff := as) (by simpa using h)
      refine ⟨y, by simpa using h1, ?_⟩
      have := a.isLt
      rw [h2, leNat, Nat.pow_succ, Nat.mul_comm (256 ^ c) 256, ← Nat.div_div_eq_div_mul,
        show (a.toNat + 256 * leNat as) / 256 = leNat as by omega]

/-- Dropping low bits of a mod, then taking a few: as taken from the whole. -/
theorem div_mod_div_mod (X b n : Nat) (h : b + n ≤ 8) : X % 256 / 2 ^ b % 2 ^ n = X / 2 ^ b % 2 ^ n := by
  rw [show (256 : Nat) = 2 ^ 8 from rfl, show 8 = b + (8 - b) by omega, Nat.pow_add, Nat.mod_mul_right_div_self,
    Nat.mod_mod_of_dvd]
  exact Nat.pow_dvd_pow 2 (by omega)

theorem mod_split (X a n : Nat) (h : a ≤ n) : X % 2 ^ n = X % 2 ^ a + 2 ^ a * (X / 2 ^ a % 2 ^ (n - a)) := by
  rw [show n = a + (n - a) by omega, Nat.pow_add, Nat.mod_mul]
  simp

theorem or_shift {y b x : Nat} (h : y < 2 ^ b) : y ||| (x <<< b) = y + 2 ^ b * x := by
  rw [Nat.shiftLeft_eq, Nat.mul_comm x, Nat.or_comm, ← Nat.two_pow_add_eq_or_of_lt h, Nat.add_comm]

/-- Or-ing `x` at bit `8c+b` when everything from there on is zero. -/
theorem leNat_or {buff : List Byte} {c b x : Nat} (hc : c < buff.length) (hb : b ≤ 8)
    (hX : leNat buff < 2 ^ (8 * c + b)) (hx : x < 2 ^ (8 - b)) :
    leNat (buff.modify c (· ||| (BitVec.ofNat 8 x <<< b))) = leNat buff + 2 ^ (8 * c + b) * x := by
  obtain ⟨y, h1, h2⟩ := getElem?_leNat hc
  have hy : y.toNat < 2 ^ b := by
    rw [h2, pow256]
    refine Nat.lt_of_le_of_lt (Nat.mod_le _ _) ?_
    rw [Nat.div_lt_iff_lt_mul (Nat.two_pow_pos _), ← Nat.pow_add, Nat.add_comm]
    exact hX
  have h3 := leNat_modify h1 (· ||| (BitVec.ofNat 8 x <<< b)) rfl
  have h8 : (2 : Nat) ^ (8 - b) * 2 ^ b = 256 := by
    rw [← Nat.pow_add, show 8 - b + b = 8 by omega]
  have hx8 : x * 2 ^ b < 256 := by
    rw [← h8]; exact Nat.mul_lt_mul_of_pos_right hx (Nat.two_pow_pos _)
  have hxl : x < 256 := by
    have := Nat.two_pow_pos b
    have : x * 1 ≤ x * 2 ^ b := Nat.mul_le_mul_left x this
    omega
  have hz : (y ||| (BitVec.ofNat 8 x <<< b)).toNat = y.toNat + 2 ^ b * x := by
    rw [BitVec.toNat_or, BitVec.toNat_shiftLeft, BitVec.toNat_ofNat,
      show x % 2 ^ 8 = x from Nat.mod_eq_of_lt hxl,
      show (x <<< b) % 2 ^ 8 = x <<< b from Nat.mod_eq_of_lt (by rw [Nat.shiftLeft_eq]; exact hx8),
      or_shift hy]
  rw [hz, Nat.mul_add] at h3
  rw [Nat.pow_add, Nat.mul_assoc, ← pow256]
  omega

/-- The writer's state: the number written so far, nothing beyond the write position. -/
structure Rep (p : Pack) (X : Nat) : Prop where
  bits_lt : p.bits < 8
  num : leNat p.buff = X
  lt : X < 2 ^ p.sumBits

theorem writeLoop_spec : ∀ (fuel : Nat) (buff : List Byte) (c b v n : Nat), n < fuel → b < 8 →
    8 * c + b + n ≤ 8 * buff.length → c < buff.length → leNat buff < 2 ^ (8 * c + b) → v < 2 ^ n →
    ∃ buff' c' b', writeLoop fuel buff c b v n = (buff', c', b') ∧ b' < 8 ∧
      buff'.length = buff.length ∧ 8 * c' + b' = 8 * c + b + n ∧
      leNat buff' = leNat buff + 2 ^ (8 * c + b) * v := by
  intro fuel
  induction fuel with
  | zero => intro _ _ _ _ _ h; omega
  | succ fuel ih =>
    intro buff c b v n hf hb hlen hc hX hv
    rw [writeLoop]
    split
    · rename_i hn
      have hv8 : v < 2 ^ (8 - b) := Nat.lt_of_lt_of_le hv (Nat.pow_le_pow_right (by decide) hn)
      have h1 := leNat_or hc (by omega) hX hv8
      simp only
      split
      · exact ⟨_, _, _, rfl, by omega, by simp, by omega, h1⟩
      · exact ⟨_, _, _, rfl, by omega, by simp, by omega, h1⟩
    · rename_i hn
      have h1 := leNat_or (x := v % 2 ^ (8 - b)) hc (by omega) hX (Nat.mod_lt _ (Nat.two_pow_pos _))
      have hlt : leNat buff + 2 ^ (8 * c + b) * (v % 2 ^ (8 - b)) < 2 ^ (8 * (c + 1) + 0) := by
        have h2 : v % 2 ^ (8 - b) + 1 ≤ 2 ^ (8 - b) := Nat.mod_lt _ (Nat.two_pow_pos _)
        have h3 : 2 ^ (8 * c + b) * (v % 2 ^ (8 - b) + 1) ≤ 2 ^ (8 * c + b) * 2 ^ (8 - b) :=
          Nat.mul_le_mul_left _ h2
        rw [← Nat.pow_add, Nat.mul_add] at h3
        rw [show 8 * (c + 1) + 0 = 8 * c + b + (8 - b) by omega]
        omega
      have hv' : v / 2 ^ (8 - b) < 2 ^ (n - (8 - b)) := by
        rw [Nat.div_lt_iff_lt_mul (Nat.two_pow_pos _), ← Nat.pow_add,
          show n - (8 - b) + (8 - b) = n by omega]
        exact hv
      obtain ⟨buff', c', b', e1, e2, e3, e4, e5⟩ :=
        ih (buff.modify c (· ||| (BitVec.ofNat 8 (v % 2 ^ (8 - b)) <<< b))) (c + 1) 0
          (v / 2 ^ (8 - b)) (n - (8 - b)) (by omega) (by omega) (by simp; omega) (by simp; omega)
          (by rw [h1]; exact hlt) hv'
      refine ⟨buff', c', b', e1, e2, by simpa using e3, by omega, ?_⟩
      rw [e5, h1, show 8 * (c + 1) + 0 = 8 * c + b + (8 - b) by omega, Nat.pow_add 2 (8 * c + b) (8 - b),
        Nat.mul_assoc (2 ^ (8 * c + b)), Nat.add_assoc, ← Nat.mul_add]
      congr 2
      have := Nat.mod_add_div v (2 ^ (8 - b))
      omega

/-- `resize` before a write. -/
def grow (buff : List Byte) (total : Nat) : List Byte :=
  if buff.length * 8 ≤ total then buff ++ List.replicate ((total - buff.length * 8 + 7) / 8) 0#8 else buff

theorem grow_num (buff : List Byte) (total : Nat) : leNat (grow buff total) = leNat buff := by
  unfold grow
  split
  · rw [leNat_append, leNat_replicate_zero]; simp
  · rfl

theorem grow_length (buff : List Byte) (total : Nat) :
    (grow buff total).length = max buff.length ((total + 7) / 8) := by
  unfold grow
  split
  · simp; omega
  · omega

theorem Rep.step {p : Pack} {X v n : Nat} (h : Rep p X) (hn : 0 < n) (hv : v < 2 ^ n) :
    ∃ q : Pack, writeLoop (n + 1) (grow p.buff (p.sumBits + n)) p.cursor p.bits v n
        = (q.buff, q.cursor, q.bits) ∧
      Rep q (X + 2 ^ p.sumBits * v) ∧ q.sumBits = p.sumBits + n ∧
      q.buff.length = max p.buff.length ((p.sumBits + n + 7) / 8) := by
  obtain ⟨hb, hX, hlt⟩ := h
  have hl := grow_length p.buff (p.sumBits + n)
  have hs : p.sumBits = 8 * p.cursor + p.bits := by unfold Pack.sumBits; omega
  obtain ⟨buff', c', b', e1, e2, e3, e4, e5⟩ :=
    writeLoop_spec (n + 1) (grow p.buff (p.sumBits + n)) p.cursor p.bits v n (by omega) hb
      (by omega) (by omega) (by rw [grow_num, hX, ← hs]; exact hlt) hv
  rw [grow_num, ← hs, hX] at e5
  refine ⟨⟨buff', c', b'⟩, e1, ⟨e2, e5, ?_⟩, ?_, ?_⟩
  · have hs' : (⟨buff', c', b'⟩ : Pack).sumBits = p.sumBits + n := by
      change c' * 8 + b' = p.sumBits + n
      omega
    rw [hs', Nat.pow_add]
    have : 2 ^ p.sumBits * (v + 1) ≤ 2 ^ p.sumBits * 2 ^ n := Nat.mul_le_mul_left _ hv
    rw [Nat.mul_add] at this
    omega
  · change c' * 8 + b' = p.sumBits + n
    omega
  · rw [e3, hl]

theorem Rep.write {p : Pack} {X v n : Nat} (h : Rep p X) (hn : 0 < n) (hn' : n ≤ 32) (hv : v < 2 ^ n) :
    ∃ q : Pack, p.write v n = some q ∧ Rep q (X + 2 ^ p.sumBits * v) ∧ q.sumBits = p.sumBits + n ∧
      q.buff.length = max p.buff.length ((p.sumBits + n + 7) / 8) := by
  obtain ⟨q, e1, e2, e3, e4⟩ := h.step hn hv
  refine ⟨q, ?_, e2, e3, e4⟩
  unfold Pack.write
  simp only
  change (if 32 < n ∨ (grow p.buff (p.sumBits + n)).length * 8 < p.sumBits + n then none else _) = _
  have hl := grow_length p.buff (p.sumBits + n)
  rw [if_neg (by omega)]
  have hval : (if n < 32 then v % 2 ^ n else v) = v := by
    split
    · exact Nat.mod_eq_of_lt hv
    · rfl
  rw [hval]
  change (match writeLoop (n + 1) (grow p.buff (p.sumBits + n)) p.cursor p.bits v n with
    | (buff, cursor, bits) => some (⟨buff, cursor, bits⟩ : Pack)) = some q
  rw [e1]

theorem Rep.writeBits {p : Pack} {X n : Nat} (v : Nat) (h : Rep p X) (hn : 0 < n) :
    ∃ q : Pack, p.writeBits v n = some q ∧ Rep q (X + 2 ^ p.sumBits * (v % 2 ^ n)) ∧
      q.sumBits = p.sumBits + n ∧
      q.buff.length = max p.buff.length ((p.sumBits + n + 7) / 8) := by
  obtain ⟨q, e1, e2, e3, e4⟩ := h.step (v := v % 2 ^ n) hn (Nat.mod_lt _ (Nat.two_pow_pos _))
  refine ⟨q, ?_, e2, e3, e4⟩
  unfold Pack.writeBits
  simp only
  change (if (grow p.buff (p.sumBits + n)).length * 8 < p.sumBits + n then none else _) = _
  have hl := grow_length p.buff (p.sumBits + n)
  rw [if_neg (by omega)]
  change (match writeLoop (n + 1) (grow p.buff (p.sumBits + n)) p.cursor p.bits (v % 2 ^ n) n with
    | (buff, cursor, bits) => some (⟨buff, cursor, bits⟩ : Pack)) = some q
  rw [e1]

/-! ## A column of `r`-bit values -/

/-- `r`-bit values packed from bit 0 upwards. -/
def packN (r : Nat) : List Nat → Nat
  | [] => 0
  | d :: ds => d % 2 ^ r + 2 ^ r * packN r ds

theorem packN_lt (r : Nat) (ds : List Nat) : packN r ds < 2 ^ (r * ds.length) := by
  induction ds with
  | nil => simp [packN]
  | cons d ds ih =>
    have h1 : d % 2 ^ r < 2 ^ r := Nat.mod_lt _ (Nat.two_pow_pos _)
    have h2 : 2 ^ r * (packN r ds + 1) ≤ 2 ^ r * 2 ^ (r * ds.length) := Nat.mul_le_mul_left _ ih
    rw [packN, List.length_cons, Nat.mul_add, Nat.mul_one, Nat.add_comm (r * _), Nat.pow_add]
    rw [Nat.mul_add] at h2
    omega

/-- The `i`-th packed value. -/
theorem packN_get (r : Nat) (ds : List Nat) (i d : Nat) (h : ds[i]? = some d) :
    packN r ds / 2 ^ (r * i) % 2 ^ r = d % 2 ^ r := by
  induction ds generalizing i with
  | nil => simp at h
  | cons a as ih =>
    cases i with
    | zero =>
      simp only [List.getElem?_cons_zero, Option.some.injEq] at h
      subst h
      simp [packN]
    | succ i =>
      simp only [List.getElem?_cons_succ] at h
      rw [packN, Nat.mul_add, Nat.mul_one, Nat.add_comm (r * i), Nat.pow_add, ← Nat.div_div_eq_div_mul,
        Nat.add_mul_div_left _ _ (Nat.two_pow_pos _),
        Nat.div_eq_of_lt (Nat.mod_lt _ (Nat.two_pow_pos _)), Nat.zero_add]
      exact ih i h

/-- Writing a whole column. -/
def writeColumn (r : Nat) : List Nat → Pack → Option Pack
  | [], p => some p
  | d :: ds, p =>
    match p.writeBits d r with
    | some p => writeColumn r ds p
    | none => none

theorem writeColumn_spec (r : Nat) (hr : 0 < r) (ds : List Nat) {p : Pack} {X : Nat} (h : Rep p X) :
    ∃ q, writeColumn r ds p = some q ∧ Rep q (X + 2 ^ p.sumBits * packN r ds) ∧
      q.sumBits = p.sumBits + r * ds.length ∧
      q.buff.length = if ds = [] then p.buff.length
        else max p.buff.length ((p.sumBits + r * ds.length + 7) / 8) := by
  induction ds generalizing p X with
  | nil => exact ⟨p, rfl, by simpa [packN] using h, by simp, by simp⟩
  | cons d ds ih =>
    obtain ⟨q, e1, e2, e3, e4⟩ := h.writeBits d hr
    obtain ⟨q', f1, f2, f3, f4⟩ := ih e2
    refine ⟨q', ?_, ?_, ?_, ?_⟩
    · rw [writeColumn, e1]; exact f1
    · rw [packN, Nat.mul_add, ← Nat.add_assoc, ← Nat.mul_assoc, ← Nat.pow_add, ← e3]
      exact f2
    · rw [f3, e3, List.length_cons, Nat.mul_add]; omega
    · rw [if_neg (by simp)]
      rw [f4, e3, List.length_cons, Nat.mul_add]
      split
      · rename_i hd; subst hd; simp [e4]
      · rw [e4]; omega

/-- A byte-aligned 32-bit write appends four bytes. -/
theorem write_aligned (a : List Byte) (v : Nat) (hv : v < 2 ^ 32) :
    (⟨a, a.length, 0⟩ : Pack).write v 32 = some ⟨a ++ leBytes 4 v, a.length + 4, 0⟩ := by
  have hr : Rep ⟨a, a.length, 0⟩ (leNat a) := by
    refine ⟨Nat.zero_lt_succ 7, rfl, ?_⟩
    have := leNat_lt a
    rw [pow256] at this
    simpa [Pack.sumBits, Nat.mul_comm] using this
  obtain ⟨⟨qb, qc, qn⟩, e1, ⟨e2, e3, -⟩, e4, e5⟩ := hr.write (by decide) (Nat.le_refl 32) hv
  rw [e1]
  simp only [Pack.sumBits] at e2 e3 e4 e5
  have h1 : qc = a.length + 4 := by omega
  have h2 : qn = 0 := by omega
  have h3 : qb = a ++ leBytes 4 v := by
    apply leNat_inj
    · simp; omega
    · rw [e3, leNat_append, leNat_leBytes, pow256, Nat.mod_eq_of_lt hv, Nat.mul_comm 8, Nat.add_zero]
  rw [h1, h2, h3]

/-- A column written from a byte boundary, over buffer space that is empty or one zero byte. -/
theorem writeColumn_aligned (a : List Byte) (z : Nat) (hz : z ≤ 1) (r : Nat) (hr : 0 < r) (ds : List Nat)
    (hd : ds ≠ []) :
    ∃ q, writeColumn r ds ⟨a ++ List.replicate z 0#8, a.length, 0⟩ = some q ∧
      q.buff = a ++ leBytes ((r * ds.length + 7) / 8) (packN r ds) := by
  have hrep : Rep ⟨a ++ List.replicate z 0#8, a.length, 0⟩ (leNat a) := by
    refine ⟨Nat.zero_lt_succ 7, ?_, ?_⟩
    · simp only [leNat_append, leNat_replicate_zero]; simp
    · have := leNat_lt a
      rw [pow256] at this
      simpa [Pack.sumBits, Nat.mul_comm] using this
  obtain ⟨q, e1, ⟨-, e3, -⟩, -, e5⟩ := writeColumn_spec r hr ds hrep
  refine ⟨q, e1, ?_⟩
  rw [if_neg hd] at e5
  have hn : 0 < ds.length := List.length_pos_iff.2 hd
  have hpos : 0 < r * ds.length := Nat.mul_pos hr hn
  simp only [Pack.sumBits, List.length_append, List.length_replicate] at e3 e5
  apply leNat_inj
  · rw [e5]; simp; omega
  · rw [e3, leNat_append, leNat_leBytes, pow256, pow256, Nat.mod_eq_of_lt, Nat.mul_comm 8 a.length,
      Nat.add_zero]
    refine Nat.lt_of_lt_of_le (packN_lt r ds) (Nat.pow_le_pow_right (by decide) (by omega))

/-! ## Reading -/

theorem readLoop_spec : ∀ (fuel : Nat) (buff : List Byte) (c b n k out : Nat),
    b ≤ 8 → n + (if b = 8 then 1 else 0) < fuel → 0 < n → 8 * c + b + n ≤ 8 * buff.length →
    out < 2 ^ k →
    ∃ p : Pos, readLoop buff fuel c b n k out
        = .ok (out + 2 ^ k * (leNat buff / 2 ^ (8 * c + b) % 2 ^ n), p) ∧
      p.bits ≤ 8 ∧ p.sumBits = 8 * c + b + n := by
  intro fuel
  induction fuel with
  | zero => intro _ _ _ _ _ _ _ h; omega
  | succ fuel ih =>
    intro buff c b n k out hb hf hn hlen hout
    have hc : c < buff.length := by omega
    obtain ⟨y, h1, h2⟩ := getElem?_leNat hc
    have hsub : ∀ m, b + m ≤ 8 → y.toNat / 2 ^ b % 2 ^ m = leNat buff / 2 ^ (8 * c + b) % 2 ^ m := by
      intro m hm
      rw [h2, div_mod_div_mod _ _ _ hm, pow256, Nat.div_div_eq_div_mul, ← Nat.pow_add]
    rw [readLoop, h1]
    simp only
    split
    · rename_i hle
      refine ⟨⟨c, b + n⟩, ?_, by simp only; omega, by simp only [Pos.sumBits]; omega⟩
      rw [or_shift hout, hsub n (by omega)]
    · rename_i hle
      rw [if_pos (by omega), or_shift hout, hsub (8 - b) (by omega)]
      have hlt : leNat buff / 2 ^ (8 * c + b) % 2 ^ (8 - b) < 2 ^ (8 - b) :=
        Nat.mod_lt _ (Nat.two_pow_pos _)
      have hout' : out + 2 ^ k * (leNat buff / 2 ^ (8 * c + b) % 2 ^ (8 - b)) < 2 ^ (k + (8 - b)) := by
        have : 2 ^ k * (leNat buff / 2 ^ (8 * c + b) % 2 ^ (8 - b) + 1) ≤ 2 ^ k * 2 ^ (8 - b) :=
          Nat.mul_le_mul_left _ hlt
        rw [← Nat.pow_add, Nat.mul_add] at this
        omega
      obtain ⟨p, e1, e2, e3⟩ := ih buff (c + 1) (b + (8 - b) - 8) (n - (8 - b)) (k + (8 - b)) _
        (by omega) (by rw [if_neg (by omega)]; split at hf <;> omega) (by omega) (by omega) hout'
      refine ⟨p, ?_, e2, by omega⟩
      rw [e1]
      congr 2
      rw [show 8 * (c + 1) + (b + (8 - b) - 8) = 8 * c + b + (8 - b) by omega,
        mod_split _ (8 - b) n (by omega), Nat.mul_add (2 ^ k), ← Nat.add_assoc, Nat.pow_add 2 k,
        Nat.mul_assoc (2 ^ k), Nat.div_div_eq_div_mul, ← Nat.pow_add]

theorem readBits_spec {buff : List Byte} {p : Pos} {n : Nat} (hb : p.bits ≤ 8) (hn : 0 < n)
    (hn8 : n ≤ 8) (hlen : p.sumBits + n ≤ 8 * buff.length) :
    ∃ q : Pos, readBits buff p n = .ok (leNat buff / 2 ^ p.sumBits % 2 ^ n, q) ∧ q.bits ≤ 8 ∧
      q.sumBits = p.sumBits + n := by
  have hs : p.sumBits = 8 * p.cursor + p.bits := by unfold Pos.sumBits; omega
  obtain ⟨q, e1, e2, e3⟩ := readLoop_spec (n + 2) buff p.cursor p.bits n 0 0 hb
    (by split <;> omega) hn (by omega) (by decide)
  refine ⟨q, ?_, e2, by omega⟩
  unfold readBits
  rw [if_neg (by omega), e1, ← hs]
  simp only [Nat.pow_zero, Nat.one_mul, Nat.zero_add]
  have h2 : (2 : Nat) ^ n ≤ 2 ^ 8 := Nat.pow_le_pow_right (by decide) hn8
  have : leNat buff / 2 ^ p.sumBits % 2 ^ n < 2 ^ n := Nat.mod_lt _ (Nat.two_pow_pos _)
  rw [Nat.mod_eq_of_lt (by omega : leNat buff / 2 ^ p.sumBits % 2 ^ n < 256)]

theorem skip_spec {buff : List Byte} {p : Pos} {n : Nat} (hb : p.bits ≤ 8)
    (hlen : p.sumBits + n ≤ 8 * buff.length) :
    ∃ q : Pos, skip buff p n = some q ∧ q.bits ≤ 8 ∧ q.sumBits = p.sumBits + n := by
  unfold skip
  split
  · rename_i h
    exact ⟨p, rfl, hb, by omega⟩
  · rw [if_neg (by omega)]
    refine ⟨_, rfl, by simp only; omega, ?_⟩
    simp only [Pos.sumBits]
    omega

theorem readU32_append (a : List Byte) (x : Nat) (t : List Byte) (hx : x < 2 ^ 32) :
    readU32 (a ++ (leBytes 4 x ++ t)) ⟨a.length, 0⟩ = some (x, ⟨a.length + 4, 0⟩) := by
  unfold readU32
  rw [if_neg (by simp [Pos.sumBits]; omega)]
  simp only [List.drop_left]
  rw [List.take_append_of_le_length (by simp), List.take_of_length_le (by simp), leNat_leBytes,
    Nat.mod_eq_of_lt (by exact hx)]

theorem readNByte_append (a b t : List Byte) (n : Nat) (h : b.length = n) :
    readNByte (a ++ (b ++ t)) ⟨a.length, 0⟩ n = .ok (b, ⟨a.length + n, 0⟩) := by
  subst h
  unfold readNByte
  rw [if_neg (by simp)]
  simp

end Ebi.BitPack
