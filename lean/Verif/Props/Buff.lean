import Verif.Buff
import Verif.SoftRound

/-!
# C13, C14, C15 and the BUFF part of C18, C21
-/

namespace Ebi.Props

open Ebi

/-! ## C13 -/

/-- The double a stored integer stands for: `q / 2^F`. -/
def fixedValue (o : FloatOps) (F : Nat) (q : BitVec 64) : B64 := o.div (o.ofI64 q) (o.ofNat (2 ^ F))

theorem fixedValue_soft (F : Nat) (q : BitVec 64) :
    fixedValue Soft.ops F q = Soft.div (Soft.ofInt q.toInt) (Soft.ofInt (2 ^ F : Nat)) := by
  unfold fixedValue Soft.ops
  rfl

/-- BUFF: every non-empty list of fixed-point integers decodes to these integers divided by `2^F`, in
order, for every arithmetic. No hypothesis on the range of the integers. -/
theorem c13_fixed_round_trip (o : FloatOps) (qs : List (BitVec 64)) (F : Nat) (hne : qs ≠ [])
    (hn : qs.length < 2 ^ 32) (hF : F < 2 ^ 32) :
    ∃ bytes, Buff.encode qs F = .ok bytes ∧ Buff.decode o bytes = .ok (qs.map (fixedValue o F)) := by
  obtain ⟨base, bits, h1, -, h3, h4⟩ := Buff.encode_eq qs F hne hn hF
  refine ⟨_, h1, ?_⟩
  have hst : Buff.Stored (Buff.layout base F bits (qs.map fun x => (x - base).toNat)) base F bits
      (qs.map fun x => (x - base).toNat) :=
    ⟨rfl, by simpa using hn, hF, h3, by simpa using h4⟩
  obtain ⟨R, hR, h5⟩ := hst.decodeTo o (fun _ => some 0) rfl
  unfold Buff.decode
  rw [h5, Nat.le_zero.1 hR, List.map_map]
  refine congrArg _ (List.map_congr_left fun q _ => ?_)
  simp only [Function.comp_apply, Buff.high_at_zero, BitVec.ofNat_toNat, BitVec.setWidth_eq]
  rw [BitVec.add_comm, BitVec.sub_add_cancel]
  rfl

/-- The same through the compressor: whatever it compressed before, the chunk decodes to the
fixed-point integers of the values. -/
theorem c13_buff_round_trip (o : FloatOps) (lg : Nat → Nat) (c : Buff.Comp) (vs : List B64) (F : Nat)
    (hF : Buff.fractionBits lg c.scale = some F) (hne : vs ≠ []) (hn : vs.length < 2 ^ 32) :
    ∃ c', c.compress lg vs = .ok c' ∧
      Buff.decode o c'.prepare.buffers = .ok (vs.map (fun v => fixedValue o F (Buff.intoFixed v F))) := by
  have hF2 : F < 2 ^ 32 := by
    have hm : F ∈ Buff.precisionMap := List.mem_of_getElem? hF
    have : ∀ x ∈ Buff.precisionMap, x < 2 ^ 32 := by decide
    exact this F hm
  obtain ⟨bytes, h1, h2⟩ := c13_fixed_round_trip o (vs.map fun v => Buff.intoFixed v F) F (by simpa using hne)
    (by simpa using hn) hF2
  unfold Buff.Comp.compress
  rw [hF]
  simp only [h1]
  refine ⟨_, rfl, ?_⟩
  simp only [Buff.Comp.prepare, Buff.Comp.buffers, Option.getD_some, h2, List.map_map]
  rfl

/-- The empty chunk panics. -/
theorem c13_empty_panics (F : Nat) : Buff.encode [] F = .panic := rfl

/-- Non-trivial instance: 1.5, -2.25, 1000 with 5 fraction bits (17-bit deltas: two byte columns and
one bit). -/
example : ((Buff.Comp.new 10).compress (fun _ => 1)
      [0x3ff8000000000000#64, 0xc002000000000000#64, 0x408f400000000000#64]).bind
      (fun c' => Buff.decode Soft.ops c'.prepare.buffers)
      = .ok [0x3ff8000000000000#64, 0xc002000000000000#64, 0x408f400000000000#64] := by
  decide +kernel

/-! ## C14 -/

theorem trunc_bounds (x F k : Nat) : x * 2 ^ F / (2 ^ F * 2 ^ k) * 2 ^ k ≤ x ∧
    x < x * 2 ^ F / (2 ^ F * 2 ^ k) * 2 ^ k + 2 ^ k := by
  have e : x * 2 ^ F / (2 ^ F * 2 ^ k) = x / 2 ^ k := by
    rw [Nat.mul_comm x]; exact Nat.mul_div_mul_left _ _ (Nat.two_pow_pos F)
  rw [e]
  have h1 := Nat.div_add_mod x (2 ^ k)
  have h2 : x % 2 ^ k < 2 ^ k := Nat.mod_lt _ (Nat.two_pow_pos k)
  rw [Nat.mul_comm] at h1
  omega

/-- The stored integer is `v * 2^F` truncated toward zero (`exactVal` is the exact value in units of
`2^-1074`). -/
theorem c14_truncation (v : B64) (F : Nat) (hF : F ≤ 1022)
    (hr : (exactVal v).natAbs * 2 ^ F < 2 ^ 63 * 2 ^ 1074) :
    (Buff.intoFixed v F).toInt = (exactVal v * (2 ^ F : Nat)).tdiv (2 ^ 1074 : Nat) := by
  have ht : Buff.truncMag v F < 2 ^ 63 := by
    unfold Buff.truncMag
    apply Nat.div_lt_of_lt_mul
    rw [Soft.exactVal_natAbs] at hr
    rwa [Nat.mul_comm (2 ^ 1074)]
  rw [Buff.intoFixed_toInt hF ht]
  unfold Buff.truncMag exactVal
  generalize (2 : Nat) ^ 1074 = D
  generalize (2 : Nat) ^ F = E
  split
  · rw [Int.neg_mul, Int.neg_tdiv, Int.tdiv_eq_ediv_of_nonneg
      (Int.mul_nonneg (Int.natCast_nonneg _) (Int.natCast_nonneg _))]
    simp
  · rw [Int.tdiv_eq_ediv_of_nonneg
      (Int.mul_nonneg (Int.natCast_nonneg _) (Int.natCast_nonneg _))]
    simp

/-- The decoded value is finite, not larger in magnitude, not of the opposite sign, and differs from `v`
by less than `2^-F` — also when the integer does not fit in 53 bits. -/
theorem c14_error_bound (v : B64) (F : Nat) (hF : F ≤ 1022)
    (hr : (exactVal v).natAbs * 2 ^ F < 2 ^ 63 * 2 ^ 1074) :
    let d := fixedValue Soft.ops F (Buff.intoFixed v F)
    isFinite d = true ∧
      (exactVal v - exactVal d).natAbs < 2 ^ (1074 - F) ∧
      (exactVal d).natAbs ≤ (exactVal v).natAbs ∧
      (exactVal d = 0 ∨ sgn d = sgn v) := by
  have ht : Buff.truncMag v F < 2 ^ 63 := by
    unfold Buff.truncMag
    apply Nat.div_lt_of_lt_mul
    rw [Soft.exactVal_natAbs] at hr
    rwa [Nat.mul_comm (2 ^ 1074)]
  have hi := Buff.intoFixed_toInt hF ht
  obtain ⟨A, s, h1, h2⟩ := Buff.truncMag_dyadic hF ht
  have habs : (Buff.intoFixed v F).toInt.natAbs = Buff.truncMag v F := by rw [hi]; split <;> omega
  obtain ⟨f1, f2⟩ := Buff.dequant_exact (q := (Buff.intoFixed v F).toInt) (habs.trans h1) h2
    (by rw [← h1]; omega) hF
  have hd : fixedValue Soft.ops F (Buff.intoFixed v F)
      = Soft.div (Soft.ofInt (Buff.intoFixed v F).toInt) (Soft.ofInt (2 ^ F : Nat)) := fixedValue_soft _ _
  have hb := trunc_bounds (magVal (mag v)) F (1074 - F)
  rw [← Nat.pow_add, show F + (1074 - F) = 1074 by omega] at hb
  have hT : Buff.truncMag v F = magVal (mag v) * 2 ^ F / 2 ^ 1074 := rfl
  rw [← hT] at hb
  simp only [hd]
  rw [show (2 : Int) ^ (1074 - F) = ((2 ^ (1074 - F) : Nat) : Int) by simp] at f2
  generalize (2 : Nat) ^ (1074 - F) = K at *
  generalize Soft.div (Soft.ofInt (Buff.intoFixed v F).toInt) (Soft.ofInt (2 ^ F : Nat)) = d at *
  generalize Buff.truncMag v F = T at *
  have hv := Soft.exactVal_natAbs v
  have hvs : exactVal v = if sgn v then -(magVal (mag v) : Int) else magVal (mag v) := rfl
  generalize magVal (mag v) = X at *
  rw [hi] at f2
  have hTK : ((T * K : Nat) : Int) = (T : Int) * K := by simp
  refine ⟨f1, ?_⟩
  rw [hvs]
  cases hs : sgn v <;> simp only [hs, if_true, if_false, Bool.false_eq_true, Int.neg_mul] at *
  · rw [f2]
    refine ⟨by omega, by omega, ?_⟩
    by_cases hz : mag d = 0
    · left; rw [← f2]; exact Soft.exactVal_eq_zero.2 hz
    · right
      have := Soft.exactVal_neg_iff hz
      cases hsd : sgn d
      · rfl
      · rw [hsd] at this; have := this.2 rfl; omega
  · rw [f2]
    refine ⟨by omega, by omega, ?_⟩
    by_cases hz : mag d = 0
    · left; rw [← f2]; exact Soft.exactVal_eq_zero.2 hz
    · right
      have h0 : exactVal d ≠ 0 := fun hc => hz (Soft.exactVal_eq_zero.1 hc)
      have := Soft.exactVal_neg_iff hz
      cases hsd : sgn d
      · rw [hsd] at this; simp at this; omega
      · rfl

/-- Non-trivial instance: -2.3 with 5 fraction bits is stored as -73, that is -2.28125. -/
example : (Buff.intoFixed 0xc002666666666666#64 5).toInt = -73 ∧
    fixedValue Soft.ops 5 (Buff.intoFixed 0xc002666666666666#64 5) = 0xc002400000000000#64 := by
  decide +kernel

example : (exactVal 0xc002666666666666#64).natAbs * 2 ^ 5 < 2 ^ 63 * 2 ^ 1074 := by decide +kernel

/-! ## C15 -/

/-- Controlled precision, on the stored integers and for every arithmetic: each record is decoded from
an integer that is at most the stored one and smaller by less than `2^(F - b)`, `b` the bits of the precision
(`2^-b` in the value); with `F ≤ b` it is the stored one. -/
theorem c15_controlled_precision (o : FloatOps) (qs : List (BitVec 64)) (F p b : Nat) (hne : qs ≠ [])
    (hn : qs.length < 2 ^ 32) (hF : F < 2 ^ 32) (hp : Buff.precisionMap[p]? = some b) :
    ∃ (bytes : List Byte) (t : BitVec 64 → BitVec 64), Buff.encode qs F = .ok bytes ∧
      Buff.decodeWithPrecision o bytes p = .ok (qs.map (fun q => fixedValue o F (t q))) ∧
      ∀ q ∈ qs, (t q).toInt ≤ q.toInt ∧ q.toInt - (t q).toInt < (2 ^ (F - b) : Nat) ∧ (F ≤ b → t q = q) ∧
        ∃ m ∈ qs, m.toInt ≤ (t q).toInt := by
  obtain ⟨base, bits, h1, hmin, h3, h4⟩ := Buff.encode_eq qs F hne hn hF
  have hst : Buff.Stored (Buff.layout base F bits (qs.map fun x => (x - base).toNat)) base F bits
      (qs.map fun x => (x - base).toNat) :=
    ⟨rfl, by simpa using hn, hF, h3, by simpa using h4⟩
  obtain ⟨R, hR, h5⟩ := hst.decodeTo o (Buff.bitsUnnecessary p) (s := F - b)
    (by simp [Buff.bitsUnnecessary, hp])
  refine ⟨_, fun q => base + BitVec.ofNat 64 (Buff.high R (q - base).toNat), h1, ?_, ?_⟩
  · unfold Buff.decodeWithPrecision
    rw [h5, List.map_map]
    rfl
  · intro q hq
    have hle := hmin.2 q hq
    have hd := Buff.sub_toNat hle
    have h6 := Buff.high_le R (q - base).toNat
    have h7 := Buff.lt_high R (q - base).toNat
    have h8 : 2 ^ R ≤ 2 ^ (F - b) := Nat.pow_le_pow_right (by decide) hR
    have ht : (base + BitVec.ofNat 64 (Buff.high R (q - base).toNat)).toInt
        = base.toInt + Buff.high R (q - base).toNat := by
      have b1 := BitVec.le_toInt base
      have b2 := BitVec.toInt_lt (x := q)
      simp only [Nat.add_one_sub_one] at b1 b2
      have hlt := (q - base).isLt
      rw [BitVec.toInt_add, BitVec.toInt_ofNat']
      rw [Int.add_bmod_bmod]
      rw [Int.bmod_eq_of_le (by omega) (by omega)]
    refine ⟨by rw [ht]; omega, by rw [ht]; omega, ?_, base, hmin.1, by rw [ht]; omega⟩
    intro hFb
    have hR0 : R = 0 := by omega
    subst hR0
    show base + BitVec.ofNat 64 (Buff.high 0 (q - base).toNat) = q
    rw [Buff.high_at_zero, BitVec.ofNat_toNat, BitVec.setWidth_eq, BitVec.add_comm, BitVec.sub_add_cancel]

/-- In doubles: never above the fully decoded value. -/
theorem c15_not_above (qs : List (BitVec 64)) (F p b : Nat) (hne : qs ≠ []) (hn : qs.length < 2 ^ 32)
    (hF : F ≤ 1022) (hp : Buff.precisionMap[p]? = some b) :
    ∃ (bytes : List Byte) (t : BitVec 64 → BitVec 64), Buff.encode qs F = .ok bytes ∧
      Buff.decode Soft.ops bytes = .ok (qs.map (fixedValue Soft.ops F)) ∧
      Buff.decodeWithPrecision Soft.ops bytes p = .ok (qs.map (fun q => fixedValue Soft.ops F (t q))) ∧
      ∀ q ∈ qs, fle (fixedValue Soft.ops F (t q)) (fixedValue Soft.ops F q) = true := by
  obtain ⟨bytes, t, h1, h2, h3⟩ := c15_controlled_precision Soft.ops qs F p b hne hn (by omega) hp
  obtain ⟨bytes', h4, h5⟩ := c13_fixed_round_trip Soft.ops qs F hne hn (by omega)
  rw [h1] at h4
  injection h4 with h4
  subst h4
  refine ⟨bytes, t, h1, h5, h2, fun q hq => ?_⟩
  have hb : ∀ x : BitVec 64, x.toInt.natAbs ≤ 2 ^ 63 := by
    intro x
    have b1 := BitVec.le_toInt x
    have b2 := BitVec.toInt_lt (x := x)
    simp only [Nat.add_one_sub_one] at b1 b2
    omega
  rw [fixedValue_soft, fixedValue_soft]
  exact Soft.dequant_mono (hb _) (hb _) hF (h3 q hq).1

/-- In doubles, with all stored integers below `2^53` in magnitude: below the fully decoded value by less
than `2^-b`. Missing: larger integers, where rounding can make the difference exactly `2^-b`
(`c15_bound_attained`). -/
theorem c15_error_bound_partial (qs : List (BitVec 64)) (F p b : Nat) (hne : qs ≠ [])
    (hn : qs.length < 2 ^ 32) (hF : F ≤ 1022) (hp : Buff.precisionMap[p]? = some b)
    (hsmall : ∀ q ∈ qs, q.toInt.natAbs < 2 ^ 53) :
    ∃ (bytes : List Byte) (t : BitVec 64 → BitVec 64), Buff.encode qs F = .ok bytes ∧
      Buff.decode Soft.ops bytes = .ok (qs.map (fixedValue Soft.ops F)) ∧
      Buff.decodeWithPrecision Soft.ops bytes p = .ok (qs.map (fun q => fixedValue Soft.ops F (t q))) ∧
      ∀ q ∈ qs,
        isFinite (fixedValue Soft.ops F (t q)) = true ∧
        exactVal (fixedValue Soft.ops F (t q)) ≤ exactVal (fixedValue Soft.ops F q) ∧
        exactVal (fixedValue Soft.ops F q) - exactVal (fixedValue Soft.ops F (t q)) < (2 ^ (1074 - b) : Nat) ∧
        (F ≤ b → fixedValue Soft.ops F (t q) = fixedValue Soft.ops F q) := by
  obtain ⟨bytes, t, h1, h2, h3⟩ := c15_controlled_precision Soft.ops qs F p b hne hn (by omega) hp
  obtain ⟨bytes', h4, h5⟩ := c13_fixed_round_trip Soft.ops qs F hne hn (by omega)
  rw [h1] at h4
  injection h4 with h4
  subst h4
  refine ⟨bytes, t, h1, h5, h2, fun q hq => ?_⟩
  obtain ⟨k1, k2, k3, m, hm, k4⟩ := h3 q hq
  have hb50 : b ≤ 50 := by
    have hm : b ∈ Buff.precisionMap := List.mem_of_getElem? hp
    have : ∀ x ∈ Buff.precisionMap, x ≤ 50 := by decide
    exact this b hm
  have ex : ∀ x : BitVec 64, x.toInt.natAbs < 2 ^ 53 →
      isFinite (fixedValue Soft.ops F x) = true ∧
        exactVal (fixedValue Soft.ops F x) = x.toInt * (2 ^ (1074 - F) : Nat) := by
    intro x hx
    have := Buff.dequant_exact (q := x.toInt) (A := x.toInt.natAbs) (s := 0) (F := F) (by simp) hx
      (by omega) hF
    rw [show (2 : Int) ^ (1074 - F) = ((2 ^ (1074 - F) : Nat) : Int) by simp] at this
    exact this
  have s1 := hsmall q hq
  have s2 := hsmall m hm
  obtain ⟨e1, e2⟩ := ex q s1
  obtain ⟨e3, e4⟩ := ex (t q) (by omega)
  have hK : 2 ^ (F - b) * 2 ^ (1074 - F) = 2 ^ (F - b + (1074 - F)) := (Nat.pow_add _ _ _).symm
  refine ⟨e3, ?_, ?_, fun hFb => by rw [k3 hFb]⟩
  · rw [e2, e4]
    exact Int.mul_le_mul_of_nonneg_right k1 (Int.natCast_nonneg _)
  · rw [e2, e4, ← Int.sub_mul]
    by_cases hFb : F ≤ b
    · rw [k3 hFb, Int.sub_self, Int.zero_mul]
      have := Nat.two_pow_pos (1074 - b)
      omega
    · rw [show 1074 - b = F - b + (1074 - F) by omega, ← hK]
      have hpos : (0 : Int) < (2 ^ (1074 - F) : Nat) := Int.natCast_pos.2 (Nat.two_pow_pos _)
      have := Int.mul_lt_mul_of_pos_right k2 hpos
      rwa [Int.natCast_mul]

/-- Non-trivial instance: 1.5, -2.25 and 9.96875 stored with 5 fraction bits (9-bit deltas), read back with
precision 0: the last one comes back as 9.9375. -/
example : (Buff.encode [48#64, -72#64, 319#64] 5).bind
      (fun bytes => Buff.decodeWithPrecision Soft.ops bytes 0)
      = .ok [0x3ff8000000000000#64, 0xc002000000000000#64, 0x4023e00000000000#64] := by
  decide +kernel

/-- The strict bound is not kept by large values: `2^47 + 1` stored with 8 fraction bits next to `2^-8`
and read with precision 0 comes back as `2^47`, smaller by exactly `2^-0`. -/
theorem c15_bound_attained :
    ((Buff.encode [1#64, 0x80000000000100#64] 8).bind
      (fun bytes => Buff.decodeWithPrecision Soft.ops bytes 0)
      = .ok [0x3f70000000000000#64, 0x42e0000000000000#64]) ∧
    ((Buff.encode [1#64, 0x80000000000100#64] 8).bind (fun bytes => Buff.decode Soft.ops bytes)
      = .ok [0x3f70000000000000#64, 0x42e0000000000020#64]) ∧
    exactVal 0x42e0000000000020#64 - exactVal 0x42e0000000000000#64 = (2 ^ 1074 : Nat) ∧
    Buff.intoFixed 0x42e0000000000020#64 8 = 0x80000000000100#64 ∧
    Buff.intoFixed 0x3f70000000000000#64 8 = 1#64 := by
  decide +kernel

/-! ## C18, C21 for BUFF -/

/-- The announced size is the size of the buffers. -/
theorem c18_buff (c : Buff.Comp) : c.totalBytesBuffered = c.prepare.buffers.length := by
  unfold Buff.Comp.totalBytesBuffered Buff.Comp.prepare Buff.Comp.buffers
  cases c.compressed <;> rfl

/-- A used compressor produces the bytes a fresh one produces; after `reset` (the encoder resets before
each chunk) also the same statistics. -/
theorem c21_buff_reuse (lg : Nat → Nat) (c : Buff.Comp) (vs : List B64) :
    (c.compress lg vs).map (fun c' => c'.prepare.buffers)
        = ((Buff.Comp.new c.scale).compress lg vs).map (fun c' => c'.prepare.buffers) ∧
      c.reset.compress lg vs = (Buff.Comp.new c.scale).compress lg vs := by
  refine ⟨?_, rfl⟩
  unfold Buff.Comp.compress
  simp only [Buff.Comp.new]
  cases Buff.fractionBits lg c.scale with
  | none => rfl
  | some F =>
    simp only
    cases Buff.encode (vs.map fun v => Buff.intoFixed v F) F <;> rfl

/-- Without `reset` the input-size statistic accumulates: a second one-value chunk reports 16 bytes. -/
theorem c21_buff_total_in_leaks :
    ((((Buff.Comp.new 1).compress (fun _ => 0) [0x3ff8000000000000#64]).bind
      (fun c => c.compress (fun _ => 0) [0x3ff8000000000000#64])).map (fun c => c.totalBytesIn)) = .ok 16 ∧
    (((Buff.Comp.new 1).compress (fun _ => 0) [0x3ff8000000000000#64]).map (fun c => c.totalBytesIn))
      = .ok 8 := by
  decide +kernel

end Ebi.Props
