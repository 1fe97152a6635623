import Verif.ElfDomain

/-!
# Elf: from the rounding facts to `Carries`
-/

namespace Ebi.Elf

open Ebi Ebi.Soft

/-- Units per `1.0`. -/
def U : Nat := 2 ^ 1074

theorem U_eq : 2 ^ 1074 = U := rfl

theorem U_pos : 0 < U := Nat.two_pow_pos _

theorem exact_U {A s : Nat} (h1 : A < 2 ^ 53) (h2 : s < 900) :
    magVal (roundMag (A * 2 ^ s * U) 1) = A * 2 ^ s * U ∧
      roundMag (A * 2 ^ s * U) 1 < 0x7ff0000000000000 := by
  have he : A * 2 ^ s * U = A * 2 ^ (s + 1074) := by
    rw [← U_eq, Nat.pow_add, Nat.mul_assoc]
  rw [he]
  refine Buff.roundMag_exact h1 (Nat.lt_of_lt_of_le (Nat.mul_lt_mul_of_pos_right h1 (Nat.two_pow_pos _)) ?_)
  rw [← Nat.pow_add]
  exact Nat.pow_le_pow_right (by decide) (by omega)

attribute [local irreducible] roundMag magVal U

/-! ## The operations on assembled magnitudes -/

theorem mul_mk {s1 s2 : Bool} {m1 m2 : Nat} (h1 : m1 < 0x7ff0000000000000) (h2 : m2 < 0x7ff0000000000000) :
    mul (mk s1 m1) (mk s2 m2) = mk (s1 != s2) (roundMag (magVal m1 * magVal m2) (U)) := by
  have g1 : mag (mk s1 m1) = m1 := mag_mk _ (by omega)
  have g2 : mag (mk s2 m2) = m2 := mag_mk _ (by omega)
  have g3 : sgn (mk s1 m1) = s1 := sgn_mk _ (by omega)
  have g4 : sgn (mk s2 m2) = s2 := sgn_mk _ (by omega)
  unfold mul
  simp only [isNaN, isInf, g1, g2, g3, g4, absVal]
  rw [if_neg (by simp; omega), if_neg (by simp; omega), U_eq]
  rfl

theorem div_mk {s1 s2 : Bool} {m1 m2 : Nat} (h1 : m1 < 0x7ff0000000000000) (h2 : m2 < 0x7ff0000000000000)
    (h0 : m2 ≠ 0) :
    div (mk s1 m1) (mk s2 m2) = mk (s1 != s2) (roundMag (magVal m1 * U) (magVal m2)) := by
  have g1 : mag (mk s1 m1) = m1 := mag_mk _ (by omega)
  have g2 : mag (mk s2 m2) = m2 := mag_mk _ (by omega)
  have g3 : sgn (mk s1 m1) = s1 := sgn_mk _ (by omega)
  have g4 : sgn (mk s2 m2) = s2 := sgn_mk _ (by omega)
  unfold div
  simp only [isNaN, isInf, g1, g2, g3, g4, absVal]
  rw [if_neg (by simp; omega), if_neg (by simp; omega), if_neg (by simp; omega), if_neg h0, U_eq]
  rfl

/-- `10^i` is exact up to `10^22`. -/
theorem p10_exact {i : Nat} (h : i ≤ 22) :
    p10 i = mk false (roundMag (10 ^ i * U) 1) ∧
    magVal (roundMag (10 ^ i * U) 1) = 10 ^ i * U ∧
    roundMag (10 ^ i * U) 1 < 0x7ff0000000000000 ∧ roundMag (10 ^ i * U) 1 ≠ 0 := by
  have h5 : (5 : Nat) ^ i < 2 ^ 53 := by
    refine Nat.lt_of_le_of_lt (Nat.pow_le_pow_right (by decide) h) (by decide)
  have he : (10 : Nat) ^ i = 5 ^ i * 2 ^ i := by
    rw [show (10 : Nat) = 5 * 2 from rfl, Nat.mul_pow]
  have hx := exact_U (A := 5 ^ i) (s := i) h5 (by omega)
  rw [← he] at hx
  refine ⟨?_, hx.1, hx.2, ?_⟩
  · unfold p10
    rw [if_neg (by omega), U_eq]
    rfl
  · intro h0
    have h1 := hx.1
    rw [h0, magVal_zero] at h1
    have : 0 < 10 ^ i * U := Nat.mul_pos (Nat.pow_pos (by decide)) U_pos
    omega

theorem mul_p10 {s : Bool} {m i : Nat} (hm : m < 0x7ff0000000000000) (h : i ≤ 22) :
    mul (mk s m) (p10 i) = mk s (roundMag (magVal m * 10 ^ i) 1) := by
  obtain ⟨h1, h2, h3, -⟩ := p10_exact h
  rw [h1, mul_mk hm h3, h2]
  have := Buff.roundMag_scale (magVal m * 10 ^ i) 1 (k := U) U_pos
  rw [Nat.one_mul, Nat.mul_assoc] at this
  rw [this]
  cases s <;> rfl

theorem div_p10 {s : Bool} {m i : Nat} (hm : m < 0x7ff0000000000000) (h : i ≤ 22) :
    div (mk s m) (p10 i) = mk s (roundMag (magVal m) (10 ^ i)) := by
  obtain ⟨h1, h2, h3, h4⟩ := p10_exact h
  rw [h1, div_mk hm h3 h4, h2, Buff.roundMag_scale _ _ U_pos]
  cases s <;> rfl

theorem isNaN_mk {s : Bool} {m : Nat} (h : m ≤ 0x7ff0000000000000) : isNaN (mk s m) = false :=
  not_isNaN_mk s h

theorem key_mk {m : Nat} (h : m ≤ 0x7ff0000000000000) : key (mk false m) = m := by
  unfold key
  rw [sgn_mk _ (by omega), mag_mk _ (by omega)]
  rfl

theorem flt_mk {a b : Nat} (ha : a ≤ 0x7ff0000000000000) (hb : b ≤ 0x7ff0000000000000) :
    flt (mk false a) (mk false b) = decide (a < b) := by
  unfold flt
  rw [isNaN_mk ha, isNaN_mk hb, key_mk ha, key_mk hb]
  simp

theorem fle_mk {a b : Nat} (ha : a ≤ 0x7ff0000000000000) (hb : b ≤ 0x7ff0000000000000) :
    fle (mk false a) (mk false b) = decide (a ≤ b) := by
  unfold fle
  rw [isNaN_mk ha, isNaN_mk hb, key_mk ha, key_mk hb]
  simp

theorem feq_mk {a b : Nat} (ha : a ≤ 0x7ff0000000000000) (hb : b ≤ 0x7ff0000000000000) :
    feq (mk false a) (mk false b) = decide (a = b) := by
  unfold feq
  rw [isNaN_mk ha, isNaN_mk hb, key_mk ha, key_mk hb]
  simp [Int.ofNat_inj]

/-! ## The decimal exponent -/

/-- Specification of `sp`: `10^sp ≤ v < 10^(sp+1)`, with `10^sp` rounded when `sp` is negative. -/
def Sp (m : Nat) (sp : Int) : Prop :=
  (∃ i : Nat, sp = i ∧ i < 9 ∧ 10 ^ i * U ≤ magVal m ∧ magVal m < 10 ^ (i + 1) * U) ∨
  (∃ k : Nat, sp = -(k : Int) ∧ 1 ≤ k ∧ k ≤ 10 ∧ roundMag (U) (10 ^ k) ≤ m ∧
    m < roundMag (U) (10 ^ (k - 1)))

theorem one_eq : one = mk false (roundMag (U) 1) ∧ roundMag (U) 1 = 0x3ff0000000000000 := by
  constructor <;> decide +kernel

theorem flt_p10 {m i : Nat} (hm : m ≤ 0x7ff0000000000000) (h : i ≤ 22) :
    flt (mk false m) (p10 i) = decide (magVal m < 10 ^ i * U) := by
  obtain ⟨h1, h2, h3, -⟩ := p10_exact h
  rw [h1, flt_mk hm (Nat.le_of_lt h3)]
  congr 1
  rw [← magVal_lt_iff, h2]

theorem fle_one {m : Nat} (hm : m ≤ 0x7ff0000000000000) :
    fle one (mk false m) = decide (U ≤ magVal m) := by
  obtain ⟨-, h2, h3, -⟩ := p10_exact (i := 0) (by decide)
  rw [Nat.pow_zero, Nat.one_mul] at h2 h3
  rw [one_eq.1, fle_mk (Nat.le_of_lt h3) hm]
  congr 1
  rw [← Nat.not_lt, ← magVal_lt_iff, h2, Nat.not_lt]

theorem n10_eq {k : Nat} (h : k ≤ 400) : n10 k = mk false (roundMag (U) (10 ^ k)) := by
  unfold n10
  rw [if_neg (by omega), U_eq]
  rfl

theorem spAbove_eq {m i : Nat} (hm : m ≤ 0x7ff0000000000000) (hi : i < 9)
    (h1 : 10 ^ i * U ≤ magVal m) (h2 : magVal m < 10 ^ (i + 1) * U) :
    spAbove (mk false m) = some i := by
  unfold spAbove
  rw [List.find?_range_eq_some]
  refine ⟨?_, by simpa using hi, ?_⟩
  · rw [flt_p10 hm (by omega)]; simpa using h2
  · intro j hj
    rw [flt_p10 hm (by omega)]
    simp only [Bool.not_eq_true', decide_eq_false_iff_not, Nat.not_lt]
    exact Nat.le_trans (Nat.mul_le_mul_right _ (Nat.pow_le_pow_right (by decide) (by omega))) h1

theorem n10_anti {a b : Nat} (h : a ≤ b) :
    roundMag (U) (10 ^ b) ≤ roundMag (U) (10 ^ a) :=
  roundMag_mono_cross (Nat.pow_pos (by decide)) (Nat.pow_pos (by decide))
    (Nat.mul_le_mul_left _ (Nat.pow_le_pow_right (by decide) h))

theorem spBelow_eq {m k : Nat} (hm : m ≤ 0x7ff0000000000000) (hk1 : 1 ≤ k) (hk : k ≤ 10)
    (h1 : roundMag (U) (10 ^ k) ≤ m) (h2 : m < roundMag (U) (10 ^ (k - 1))) :
    spBelow (mk false m) = some k := by
  unfold spBelow
  rw [List.find?_range'_eq_some]
  refine ⟨?_, by simp; omega, ?_⟩
  · rw [n10_eq (by omega), fle_mk (roundMag_le _ _) hm]; simpa using h1
  · intro j hj1 hj
    rw [n10_eq (by omega), fle_mk (roundMag_le _ _) hm]
    simp only [Bool.not_eq_true', decide_eq_false_iff_not, Nat.not_le]
    exact Nat.lt_of_lt_of_le h2 (n10_anti (by omega))

/-- `get_sp` and `get_sp_and_10i_n_flag` compute `Sp`. -/
theorem getSp_eq (lg : B64 → B64) {m : Nat} {sp : Int} (hm : m ≤ 0x7ff0000000000000) (h : Sp m sp) :
    getSp lg (mk false m) = sp ∧ getSpFlag lg (mk false m) =
      (sp, decide (sp < 0 ∧ m = roundMag (U) (10 ^ (-sp).toNat))) := by
  rcases h with ⟨i, rfl, hi, h1, h2⟩ | ⟨k, rfl, hk1, hk, h1, h2⟩
  · have hone : fle one (mk false m) = true := by
      rw [fle_one hm]
      have : U ≤ 10 ^ i * U := Nat.le_mul_of_pos_left _ (Nat.pow_pos (by decide))
      simpa using Nat.le_trans this h1
    constructor
    · simp only [getSp, hone, if_true, spAbove_eq hm hi h1 h2, Option.map_some]
    · simp only [getSpFlag, hone, if_true, spAbove_eq hm hi h1 h2, Option.map_some]
      have : ¬ ((i : Int) < 0) := by omega
      simp [this]
  · have hone : fle one (mk false m) = false := by
      rw [one_eq.1, fle_mk (roundMag_le _ _) hm]
      simp only [decide_eq_false_iff_not, Nat.not_le]
      have := n10_anti (Nat.zero_le (k - 1))
      rw [Nat.pow_zero] at this
      omega
    have hf : feq (mk false m) (n10 k) = decide (m = roundMag (U) (10 ^ k)) := by
      rw [n10_eq (by omega), feq_mk hm (roundMag_le _ _)]
    constructor
    · simp only [getSp, hone, spBelow_eq hm hk1 hk h1 h2, Option.map_some]
      rfl
    · simp only [getSpFlag, hone, spBelow_eq hm hk1 hk h1 h2, Option.map_some, hf]
      have : (-(k : Int)) < 0 := by omega
      simp only [this, true_and, Int.neg_neg, Int.toNat_natCast, Bool.false_eq_true, if_false]

theorem exists_above {V : Nat} (h1 : U ≤ V) (n : Nat) (h : V < 10 ^ (n + 1) * U) :
    ∃ i, i ≤ n ∧ 10 ^ i * U ≤ V ∧ V < 10 ^ (i + 1) * U := by
  induction n with
  | zero => exact ⟨0, Nat.le_refl _, by rw [Nat.pow_zero, Nat.one_mul]; exact h1, h⟩
  | succ n ih =>
    by_cases hc : 10 ^ (n + 1) * U ≤ V
    · exact ⟨n + 1, Nat.le_refl _, hc, h⟩
    · obtain ⟨i, hi, hr⟩ := ih (Nat.lt_of_not_le hc)
      exact ⟨i, Nat.le_succ_of_le hi, hr⟩

theorem exists_below {m : Nat} (h1 : m < roundMag U (10 ^ 0)) (n : Nat) (h : roundMag U (10 ^ n) ≤ m) :
    ∃ k, 1 ≤ k ∧ k ≤ n ∧ roundMag U (10 ^ k) ≤ m ∧ m < roundMag U (10 ^ (k - 1)) := by
  induction n with
  | zero => omega
  | succ n ih =>
    by_cases hc : roundMag U (10 ^ n) ≤ m
    · obtain ⟨k, hk1, hk, hr⟩ := ih hc
      exact ⟨k, hk1, Nat.le_succ_of_le hk, hr⟩
    · exact ⟨n + 1, Nat.succ_le_succ (Nat.zero_le _), Nat.le_refl _, h, Nat.lt_of_not_le hc⟩

/-- `1e-6` and `1e9`. -/
theorem limits : roundMag (U) (10 ^ 6) = 0x3eb0c6f7a0b5ed8d ∧
    roundMag (10 ^ 9 * U) 1 = 0x41cdcd6500000000 := by
  constructor <;> decide +kernel

theorem lo_scaled : 2 ^ 53 * U ≤ magVal 0x3eb0c6f7a0b5ed8d * 10 ^ 22 := by decide +kernel

/-- Every value of the domain has an `sp` between `-6` and `8`. -/
theorem exists_sp {m : Nat} (h1 : 0x3eb0c6f7a0b5ed8d ≤ m) (h2 : m < 0x41cdcd6500000000) :
    ∃ sp : Int, Sp m sp ∧ -6 ≤ sp ∧ sp ≤ 8 := by
  by_cases hc : U ≤ magVal m
  · have hlt : magVal m < 10 ^ (8 + 1) * U := by
      have := magVal_lt h2
      rw [← limits.2, (p10_exact (i := 9) (by decide)).2.1] at this
      exact this
    obtain ⟨i, hi, h3, h4⟩ := exists_above hc 8 hlt
    exact ⟨i, Or.inl ⟨i, rfl, by omega, h3, h4⟩, by omega, by omega⟩
  · have h3 : m < roundMag (U) (10 ^ 0) := by
      obtain ⟨-, h2, h3, -⟩ := p10_exact (i := 0) (by decide)
      rw [Nat.pow_zero, Nat.one_mul] at h2
      rw [Nat.pow_zero, ← magVal_lt_iff, h2]
      exact Nat.lt_of_not_le hc
    obtain ⟨k, hk1, hk, h4, h5⟩ := exists_below h3 6 (by rw [limits.1]; exact h1)
    exact ⟨-(k : Int), Or.inr ⟨k, rfl, hk1, by omega, h4, h5⟩, by omega, by omega⟩

end Ebi.Elf
