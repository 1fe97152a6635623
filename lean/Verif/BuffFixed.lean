import Verif.SoftLemmas

/-!
# BUFF fixed-point conversion

`ebi/src/compression_common/buff.rs:1-52`. Shifts follow a release build: an out-of-range shift amount is
taken modulo 64 (a debug build panics there).
-/

namespace Ebi.Buff

open Ebi

/-- `flip` (2-5). -/
def flip (x : Byte) : Byte := x ^^^ 0x80#8

/-- Unbiased exponent, `((v_bits & EXP_MASK) >> 52) as i32 - 1023` (13, 45). -/
def expOf (v : B64) : Int := (v.toNat / 2 ^ 52 % 2048 : Nat) - 1023

/-- `into_fixed_representation` (11-31). -/
def intoFixedRaw (v : B64) (F : Nat) : BitVec 64 :=
  let sh : Int := 63 - expOf v - F
  let fixed : BitVec 64 :=
    if 64 ≤ sh then 0#64
    else ((v <<< 11) ||| 0x8000000000000000#64) >>> (sh % 64).toNat
  if v.toNat / 2 ^ 63 % 2 ≠ 0 then ~~~(fixed - 1#64) else fixed

/-- `into_fixed_representation_with_fractional_part_bits_length` (40-51). -/
def intoFixed (v : B64) (F : Nat) : BitVec 64 :=
  if expOf v < -F then 0#64 else intoFixedRaw v F

/-- `PRECISION_MAP` (36). -/
def precisionMap : List Nat := [0, 5, 8, 11, 15, 18, 21, 25, 28, 31, 35, 38, 50]

theorem flip_flip (x : Byte) : flip (flip x) = x := by
  unfold flip; rw [BitVec.xor_assoc, BitVec.xor_self, BitVec.xor_zero]

/-! ## Truncation -/

theorem or_top {x f : Nat} (hx : x = f * 2 ^ 11 ∨ x = 2 ^ 63 + f * 2 ^ 11) (hf : f < 2 ^ 52) :
    x ||| 2 ^ 63 = (2 ^ 52 + f) * 2 ^ 11 := by
  have hg : f * 2 ^ 11 < 2 ^ 63 := by omega
  have h1 : 2 ^ 63 ||| f * 2 ^ 11 = 2 ^ 63 + f * 2 ^ 11 := by
    have := Nat.two_pow_add_eq_or_of_lt hg 1
    rw [Nat.mul_one] at this
    rw [this]
  rcases hx with rfl | rfl
  · rw [Nat.or_comm, h1]; omega
  · rw [← h1, Nat.or_comm, ← Nat.or_assoc, Nat.or_self, h1]; omega

theorem shifted_toNat (v : B64) :
    ((v <<< 11) ||| 0x8000000000000000#64).toNat = (2 ^ 52 + mag v % 2 ^ 52) * 2 ^ 11 := by
  rw [BitVec.toNat_or, BitVec.toNat_shiftLeft, Nat.shiftLeft_eq]
  have hv := v.isLt
  apply or_top
  · unfold mag
    by_cases h : v.toNat / 2 ^ 52 % 2 = 0
    · left; omega
    · right; omega
  · exact Nat.mod_lt _ (by decide)

theorem mag_div (v : B64) : mag v / 2 ^ 52 = v.toNat / 2 ^ 52 % 2048 := by
  unfold mag
  omega

theorem sgn_eq (v : B64) : (v.toNat / 2 ^ 63 % 2 ≠ 0) ↔ sgn v = true := by
  have := v.isLt
  unfold sgn
  rw [decide_eq_true_eq]
  omega

/-- The magnitude of the fixed-point integer. -/
def truncMag (v : B64) (F : Nat) : Nat := magVal (mag v) * 2 ^ F / 2 ^ 1074

theorem truncMag_small {v : B64} {F : Nat} (h : expOf v < -F) (hF : F ≤ 1022) : truncMag v F = 0 := by
  unfold truncMag
  apply Nat.div_eq_of_lt
  unfold expOf at h
  rw [← mag_div] at h
  unfold magVal
  have hf : mag v % 2 ^ 52 < 2 ^ 52 := Nat.mod_lt _ (by decide)
  generalize mag v / 2 ^ 52 = e at *
  generalize mag v % 2 ^ 52 = f at *
  split
  · calc f * 2 ^ F < 2 ^ 52 * 2 ^ F := Nat.mul_lt_mul_of_pos_right hf (Nat.two_pow_pos _)
      _ = 2 ^ (52 + F) := (Nat.pow_add ..).symm
      _ ≤ 2 ^ 1074 := Nat.pow_le_pow_right (by decide) (by omega)
  · rename_i he
    calc (2 ^ 52 + f) * 2 ^ (e - 1) * 2 ^ F
        < 2 ^ 53 * 2 ^ (e - 1) * 2 ^ F := by
          apply Nat.mul_lt_mul_of_pos_right _ (Nat.two_pow_pos _)
          apply Nat.mul_lt_mul_of_pos_right _ (Nat.two_pow_pos _)
          omega
      _ = 2 ^ (53 + (e - 1) + F) := by rw [Nat.pow_add, Nat.pow_add]
      _ ≤ 2 ^ 1074 := Nat.pow_le_pow_right (by decide) (by omega)

/-- In range: the shift amount is proper and the shifted mantissa is the truncated magnitude. -/
theorem truncMag_big {v : B64} {F : Nat} (h : ¬ expOf v < -F) (hF : F ≤ 1022)
    (hr : truncMag v F < 2 ^ 63) :
    ∃ s : Nat, 63 - expOf v - F = s ∧ 1 ≤ s ∧ s ≤ 63 ∧
      truncMag v F = (2 ^ 52 + mag v % 2 ^ 52) * 2 ^ 11 / 2 ^ s := by
  unfold expOf at *
  rw [← mag_div] at *
  have hf : mag v % 2 ^ 52 < 2 ^ 52 := Nat.mod_lt _ (by decide)
  have he : ¬ mag v / 2 ^ 52 = 0 := by omega
  unfold truncMag magVal at *
  rw [if_neg he] at *
  generalize mag v / 2 ^ 52 = e at *
  generalize mag v % 2 ^ 52 = f at *
  have hs : e + F ≤ 1085 := by
    rcases Nat.lt_or_ge 1085 (e + F) with hc | hc
    · exfalso
      have h1 : 2 ^ 63 ≤ (2 ^ 52 + f) * 2 ^ (e - 1) * 2 ^ F / 2 ^ 1074 := by
        rw [Nat.le_div_iff_mul_le (Nat.two_pow_pos _)]
        calc 2 ^ 63 * 2 ^ 1074 = 2 ^ (52 + 1085) := by rw [← Nat.pow_add]
          _ ≤ 2 ^ (52 + (e - 1) + F) := Nat.pow_le_pow_right (by decide) (by omega)
          _ = 2 ^ 52 * 2 ^ (e - 1) * 2 ^ F := by rw [Nat.pow_add, Nat.pow_add]
          _ ≤ (2 ^ 52 + f) * 2 ^ (e - 1) * 2 ^ F := by
            apply Nat.mul_le_mul_right
            apply Nat.mul_le_mul_right
            omega
      omega
    · exact hc
  refine ⟨1086 - e - F, by omega, by omega, by omega, ?_⟩
  have h2 : (2 : Nat) ^ 1074 = 2 ^ (1086 - e - F) * 2 ^ (e + F - 12) := by
    rw [← Nat.pow_add, show 1086 - e - F + (e + F - 12) = 1074 by omega]
  have h3 : (2 ^ 52 + f) * 2 ^ (e - 1) * 2 ^ F = (2 ^ 52 + f) * 2 ^ 11 * 2 ^ (e + F - 12) := by
    rw [Nat.mul_assoc, Nat.mul_assoc, ← Nat.pow_add, ← Nat.pow_add,
      show e - 1 + F = 11 + (e + F - 12) by omega]
  rw [h3, h2, Nat.mul_div_mul_right _ _ (Nat.two_pow_pos _)]

theorem neg_not_sub (x : BitVec 64) : ~~~(x - 1#64) = -x := by
  rw [BitVec.not_eq_neg_add, BitVec.neg_sub]
  apply BitVec.eq_of_toNat_eq
  simp
  have := x.isLt
  omega

/-- The stored integer is the scaled value truncated toward zero. -/
theorem intoFixed_toInt {v : B64} {F : Nat} (hF : F ≤ 1022) (hr : truncMag v F < 2 ^ 63) :
    (intoFixed v F).toInt = if sgn v then -(truncMag v F : Int) else truncMag v F := by
  unfold intoFixed
  split
  · rename_i h
    rw [truncMag_small h hF]
    simp
  · rename_i h
    obtain ⟨s, h1, h2, h3, h4⟩ := truncMag_big h hF hr
    unfold intoFixedRaw
    simp only [h1]
    have hsh : ¬ ((64 : Int) ≤ s) := by omega
    rw [if_neg hsh, show ((s : Int) % 64).toNat = s by omega]
    have hfix : (((v <<< 11) ||| 0x8000000000000000#64) >>> s).toNat = truncMag v F := by
      rw [BitVec.toNat_ushiftRight, shifted_toNat, Nat.shiftRight_eq_div_pow, h4]
    generalize (((v <<< 11) ||| 0x8000000000000000#64) >>> s) = x at hfix
    have hx : x.toInt = truncMag v F := by
      rw [BitVec.toInt_eq_toNat_cond, if_pos (by omega), hfix]
    by_cases hs : sgn v = true
    · rw [if_pos ((sgn_eq v).2 hs), if_pos hs, neg_not_sub, BitVec.toInt_neg, hx]
      apply Int.bmod_eq_of_le <;> omega
    · rw [if_neg (fun hc => hs ((sgn_eq v).1 hc)), if_neg hs, hx]

/-! ## Decoding the integer -/

open Soft in
/-- Every `A * 2^s` with `A < 2^53` below the overflow threshold is a double. -/
theorem exists_magVal (s : Nat) : ∀ A, A < 2 ^ 53 → A * 2 ^ s < 2 ^ 2098 →
    ∃ m, m < 0x7ff0000000000000 ∧ magVal m = A * 2 ^ s := by
  have done : ∀ A s, 2 ^ 52 ≤ A → A < 2 ^ 53 → A * 2 ^ s < 2 ^ 2098 →
      ∃ m, m < 0x7ff0000000000000 ∧ magVal m = A * 2 ^ s := by
    intro A s h1 h2 h3
    have hs : s < 2046 := by
      rcases Nat.lt_or_ge s 2046 with h | h
      · exact h
      · exfalso
        have : 2 ^ 52 * 2 ^ s ≤ A * 2 ^ s := Nat.mul_le_mul_right _ h1
        rw [← Nat.pow_add] at this
        have h4 : (2 : Nat) ^ 2098 ≤ 2 ^ (52 + s) := Nat.pow_le_pow_right (by decide) (by omega)
        omega
    refine ⟨(s + 1) * 2 ^ 52 + (A - 2 ^ 52), by omega, ?_⟩
    unfold magVal
    have e1 : ((s + 1) * 2 ^ 52 + (A - 2 ^ 52)) / 2 ^ 52 = s + 1 := by omega
    have e2 : ((s + 1) * 2 ^ 52 + (A - 2 ^ 52)) % 2 ^ 52 = A - 2 ^ 52 := by omega
    rw [e1, e2, if_neg (by omega), show 2 ^ 52 + (A - 2 ^ 52) = A by omega]
    rfl
  induction s with
  | zero =>
    intro A h1 h2
    by_cases h : 2 ^ 52 ≤ A
    · exact done A 0 h h1 h2
    · refine ⟨A, by omega, ?_⟩
      unfold magVal
      rw [if_pos (by omega)]
      omega
  | succ s ih =>
    intro A h1 h2
    by_cases h : 2 ^ 52 ≤ A
    · exact done A (s + 1) h h1 h2
    · rw [Nat.pow_succ, Nat.mul_comm (2 ^ s), ← Nat.mul_assoc] at h2 ⊢
      exact ih (A * 2) (by omega) h2

open Soft in
theorem roundMag_exact {A s : Nat} (h1 : A < 2 ^ 53) (h2 : A * 2 ^ s < 2 ^ 2098) :
    magVal (roundMag (A * 2 ^ s) 1) = A * 2 ^ s ∧ roundMag (A * 2 ^ s) 1 < 0x7ff0000000000000 := by
  obtain ⟨m, h3, h4⟩ := exists_magVal s A h1 h2
  rw [← h4, roundMag_magVal (Nat.le_of_lt h3)]
  exact ⟨rfl, h3⟩

open Soft in
theorem divRne_scale (n d : Nat) {k : Nat} (hk : 0 < k) : divRne (n * k) (d * k) = divRne n d := by
  unfold divRne
  simp only
  rw [Nat.mul_div_mul_right _ _ hk, Nat.mul_mod_mul_right, ← Nat.mul_assoc]
  have e1 : 2 * (n % d) * k < d * k ↔ 2 * (n % d) < d :=
    ⟨fun h => Nat.lt_of_mul_lt_mul_right h, fun h => Nat.mul_lt_mul_of_pos_right h hk⟩
  have e2 : d * k < 2 * (n % d) * k ↔ d < 2 * (n % d) :=
    ⟨fun h => Nat.lt_of_mul_lt_mul_right h, fun h => Nat.mul_lt_mul_of_pos_right h hk⟩
  simp only [e1, e2]

open Soft in
theorem roundMag_scale (n d : Nat) {k : Nat} (hk : 0 < k) : roundMag (n * k) (d * k) = roundMag n d := by
  unfold roundMag
  simp only
  rw [Nat.mul_div_mul_right _ _ hk, Nat.mul_right_comm d k, divRne_scale _ _ hk]

open Soft in
/-- A dyadic integer converted and divided by `2^F`, exactly. -/
theorem dequant_exact {q : Int} {A s F : Nat} (hq : q.natAbs = A * 2 ^ s) (hA : A < 2 ^ 53)
    (hlt : A * 2 ^ s ≤ 2 ^ 63) (hF : F ≤ 1022) :
    isFinite (div (ofInt q) (ofInt (2 ^ F : Nat))) = true ∧
      exactVal (div (ofInt q) (ofInt (2 ^ F : Nat))) = q * 2 ^ (1074 - F) := by
  have hp : (2 : Nat) ^ 63 < 2 ^ (2098 - 1074) := Nat.pow_lt_pow_right (by decide) (by decide)
  have hbig : A * 2 ^ (s + 1074) < 2 ^ 2098 := by
    rw [Nat.pow_add, ← Nat.mul_assoc, show (2098 : Nat) = 1024 + 1074 from rfl, Nat.pow_add]
    exact Nat.mul_lt_mul_of_pos_right (Nat.lt_of_le_of_lt hlt hp) (Nat.two_pow_pos _)
  have hb2 : 1 * 2 ^ (F + 1074) < 2 ^ 2098 := by
    rw [Nat.one_mul]; exact Nat.pow_lt_pow_right (by decide) (by omega)
  obtain ⟨m1, m2⟩ := roundMag_exact hA hbig
  obtain ⟨n1, n2⟩ := roundMag_exact (by decide : 1 < 2 ^ 53) hb2
  have hqa : q.natAbs * 2 ^ 1074 = A * 2 ^ (s + 1074) := by rw [hq, Nat.pow_add, Nat.mul_assoc]
  have hba : ((2 ^ F : Nat) : Int).natAbs * 2 ^ 1074 = 1 * 2 ^ (F + 1074) := by
    rw [Int.natAbs_natCast, Nat.pow_add, Nat.one_mul]
  have ha : ofInt q = mk (decide (q < 0)) (roundMag (A * 2 ^ (s + 1074)) 1) := by
    unfold ofInt rnd; rw [hqa]
  have hb : ofInt (2 ^ F : Nat) = mk false (roundMag (1 * 2 ^ (F + 1074)) 1) := by
    unfold ofInt rnd
    rw [hba]
    congr 1
  rw [ha, hb]
  generalize roundMag (A * 2 ^ (s + 1074)) 1 = ma at *
  generalize roundMag (1 * 2 ^ (F + 1074)) 1 = mb at *
  have hmb : mb ≠ 0 := by
    intro hc
    rw [hc, magVal_zero] at n1
    have := Nat.two_pow_pos (F + 1074)
    omega
  have g1 : mag (mk (decide (q < 0)) ma) = ma := mag_mk _ (by omega)
  have g2 : mag (mk false mb) = mb := mag_mk _ (by omega)
  have g3 : sgn (mk (decide (q < 0)) ma) = decide (q < 0) := sgn_mk _ (by omega)
  have g4 : sgn (mk false mb) = false := sgn_mk _ (by omega)
  have hdiv : div (mk (decide (q < 0)) ma) (mk false mb)
      = mk (decide (q < 0)) (roundMag (A * 2 ^ (s + (1074 - F))) 1) := by
    unfold div
    simp only [isNaN, isInf, g1, g2, g3, g4, absVal, m1, n1]
    rw [if_neg (by simp; omega), if_neg (by simp; omega), if_neg (by simp; omega), if_neg hmb]
    unfold rnd
    have : A * 2 ^ (s + 1074) * 2 ^ 1074 = A * 2 ^ (s + (1074 - F)) * (1 * 2 ^ (F + 1074)) := by
      rw [Nat.one_mul, Nat.mul_assoc, Nat.mul_assoc, ← Nat.pow_add, ← Nat.pow_add,
        show s + 1074 + 1074 = s + (1074 - F) + (F + 1074) by omega]
    rw [this]
    have h3 := roundMag_scale (A * 2 ^ (s + (1074 - F))) 1 (Nat.two_pow_pos (F + 1074))
    rw [Nat.one_mul] at h3
    rw [Nat.one_mul, h3, Bool.bne_false]
  rw [hdiv]
  have hfin : A * 2 ^ (s + (1074 - F)) < 2 ^ 2098 := by
    refine Nat.lt_of_le_of_lt (Nat.mul_le_mul_left A (Nat.pow_le_pow_right (by decide) ?_)) hbig
    omega
  obtain ⟨k1, k2⟩ := roundMag_exact hA hfin
  generalize roundMag (A * 2 ^ (s + (1074 - F))) 1 = mc at *
  have g5 : mag (mk (decide (q < 0)) mc) = mc := mag_mk _ (by omega)
  have g6 : sgn (mk (decide (q < 0)) mc) = decide (q < 0) := sgn_mk _ (by omega)
  refine ⟨by unfold isFinite; rw [g5]; simpa using k2, ?_⟩
  unfold exactVal
  rw [g5, g6, k1, Nat.pow_add, ← Nat.mul_assoc, ← hq]
  have hcast : ((q.natAbs * 2 ^ (1074 - F) : Nat) : Int) = (q.natAbs : Int) * 2 ^ (1074 - F) := by
    rw [Int.natCast_mul]; congr 1
  rw [hcast]
  by_cases hneg : q < 0
  · rw [if_pos (by simpa using hneg), ← Int.neg_mul, show -(q.natAbs : Int) = q by omega]
  · rw [if_neg (by simpa using hneg), show (q.natAbs : Int) = q by omega]

/-- The truncated magnitude has at most 53 significant bits. -/
theorem truncMag_dyadic {v : B64} {F : Nat} (hF : F ≤ 1022) (hr : truncMag v F < 2 ^ 63) :
    ∃ A s, truncMag v F = A * 2 ^ s ∧ A < 2 ^ 53 := by
  by_cases h : expOf v < -F
  · exact ⟨0, 0, by rw [truncMag_small h hF], by decide⟩
  · obtain ⟨s, -, h2, h3, h4⟩ := truncMag_big h hF hr
    have hf : mag v % 2 ^ 52 < 2 ^ 52 := Nat.mod_lt _ (by decide)
    generalize mag v % 2 ^ 52 = f at *
    by_cases hs : s ≤ 11
    · refine ⟨2 ^ 52 + f, 11 - s, ?_, by omega⟩
      rw [h4, show (2 : Nat) ^ 11 = 2 ^ (11 - s) * 2 ^ s by rw [← Nat.pow_add]; congr 1; omega,
        ← Nat.mul_assoc, Nat.mul_div_cancel _ (Nat.two_pow_pos _)]
    · refine ⟨truncMag v F, 0, by simp, ?_⟩
      rw [h4]
      refine Nat.lt_of_le_of_lt (Nat.div_le_div_left (c := 2 ^ 11) ?_ (by decide)) ?_
      · exact Nat.pow_le_pow_right (by decide) (by omega)
      · rw [Nat.mul_div_cancel _ (by decide)]; omega

end Ebi.Buff
