import Verif.ElfCarries

/-!
# Elf: significant digits, erasing and recovering, for `1e-6 ≤ |v| < 1e9`
-/

namespace Ebi.Elf

open Ebi Ebi.Soft

theorem U_pow (k : Nat) : 2 ^ k * U = 2 ^ (k + 1074) := by rw [← U_eq, Nat.pow_add]

attribute [local irreducible] roundMag magVal U

/-! ## The search loop -/

theorem big_int {n : Nat} (h : 2 ^ 53 * U ≤ n) (hfin : roundMag n 1 < 0x7ff0000000000000) :
    ∃ t, magVal (roundMag n 1) = t * U := by
  obtain ⟨e, q, h1, -, -, -, -, h6⟩ := roundMag_spec (by decide : 0 < 1) hfin
  rw [Nat.div_one] at h6
  have hn : n ≠ 0 := by
    intro hc
    have : 0 < 2 ^ 53 * U := Nat.mul_pos (by decide) U_pos
    omega
  rw [U_pow] at h
  have := (Nat.le_log2 hn).2 h
  refine ⟨q * 2 ^ (e - 1074), ?_⟩
  rw [h1, Nat.mul_assoc, U_pow, Nat.sub_add_cancel (by omega)]

theorem round_le_pow {n k : Nat} (hk : k < 900) (h : n ≤ 2 ^ k * U) :
    roundMag n 1 < 0x7ff0000000000000 ∧ magVal (roundMag n 1) ≤ 2 ^ k * U := by
  have hx := exact_U (A := 1) (s := k) (by decide) hk
  rw [Nat.one_mul] at hx
  have hm := roundMag_mono (d := 1) h
  exact ⟨Nat.lt_of_le_of_lt hm hx.2, by rw [← hx.1]; exact magVal_mono hm⟩

theorem toI64_mk {r : Nat} (hr : r < 0x7ff0000000000000) (h : magVal r ≤ 2 ^ 58 * U) :
    (toI64 (mk false r)).toInt = ((magVal r / U : Nat) : Int) := by
  have g1 : mag (mk false r) = r := mag_mk _ (by omega)
  have g2 : sgn (mk false r) = false := sgn_mk _ (by omega)
  have hle : magVal r / U ≤ 2 ^ 58 := (Nat.div_le_iff_le_mul_add_pred U_pos).2
    (Nat.le_trans h (by rw [Nat.mul_comm]; exact Nat.le_add_right _ _))
  unfold toI64
  rw [isNaN_mk (by omega)]
  simp only [g2, absVal, g1, U_eq, Bool.false_eq_true, if_false]
  rw [Nat.min_eq_left (by omega), BitVec.toInt_eq_toNat_of_lt]
  · rw [BitVec.toNat_ofNat, Nat.mod_eq_of_lt (by omega)]
  · rw [BitVec.toNat_ofNat, Nat.mod_eq_of_lt (by omega)]; omega

theorem ofInt_nat (t : Nat) : ofInt (t : Int) = mk false (roundMag (t * U) 1) := by
  unfold ofInt rnd
  rw [U_eq, Int.natAbs_natCast]
  congr 1

/-- The loop test on `temp = round(n)`. -/
theorem loop_test {n : Nat} (h : n < 2 ^ 58 * U) :
    roundMag n 1 < 0x7ff0000000000000 ∧ magVal (roundMag n 1) ≤ 2 ^ 58 * U ∧
    (feq (ofInt (toI64 (mk false (roundMag n 1))).toInt) (mk false (roundMag n 1)) = true →
      magVal (roundMag n 1) = magVal (roundMag n 1) / U * U) ∧
    (2 ^ 53 * U ≤ n →
      feq (ofInt (toI64 (mk false (roundMag n 1))).toInt) (mk false (roundMag n 1)) = true) := by
  obtain ⟨h1, h2⟩ := round_le_pow (by decide : 58 < 900) (Nat.le_of_lt h)
  have hx := fun hb => big_int (n := n) hb h1
  rw [toI64_mk h1 h2, ofInt_nat, feq_mk (roundMag_le _ _) (Nat.le_of_lt h1)]
  refine ⟨h1, h2, fun hd => ?_, fun hb => ?_⟩
  · by_cases hb : 2 ^ 53 * U ≤ n
    · obtain ⟨t, ht⟩ := hx hb
      rw [ht, Nat.mul_div_cancel _ U_pos]
    · have h3 := (round_le_pow (by decide : 53 < 900) (Nat.le_of_lt (Nat.lt_of_not_le hb))).2
      have h4 : magVal (roundMag n 1) / U ≤ 2 ^ 53 := (Nat.div_le_iff_le_mul_add_pred U_pos).2
        (Nat.le_trans h3 (by rw [Nat.mul_comm]; exact Nat.le_add_right _ _))
      rcases Nat.lt_or_eq_of_le h4 with h5 | h5
      · have hd' := of_decide_eq_true hd
        have hx := (exact_U (s := 0) h5 (by decide)).1
        rw [Nat.pow_zero, Nat.mul_one, hd'] at hx
        exact hx
      · have h6 := Nat.div_mul_le_self (magVal (roundMag n 1)) U
        rw [h5] at h6 ⊢
        exact Nat.le_antisymm h3 h6
  · obtain ⟨t, ht⟩ := hx hb
    have h6 : magVal (roundMag n 1) / U * U = magVal (roundMag n 1) := by
      rw [ht, Nat.mul_div_cancel _ U_pos]
    rw [h6, roundMag_magVal (Nat.le_of_lt h1)]
    simp

theorem asU32_nat {i : Nat} (h : i < 2 ^ 32) : asU32 (i : Int) = i := by
  unfold asU32; omega

/-- Where the loop stops, in the domain: the scaled value is an integer. -/
theorem sigLoop_spec {m : Nat} (hfin : m < 0x7ff0000000000000) (hlo : 0x3eb0c6f7a0b5ed8d ≤ m) :
    ∀ (fuel i : Nat) (j : Int), 1 ≤ i → i ≤ 22 → magVal m * 10 ^ i < 2 ^ 58 * U →
      sigLoop (mk false m) fuel i = some j →
      ∃ i' : Nat, j = i' ∧ i' ≤ 22 ∧ magVal m * 10 ^ i' < 2 ^ 58 * U ∧
        magVal (roundMag (magVal m * 10 ^ i') 1) = magVal (roundMag (magVal m * 10 ^ i') 1) / U * U := by
  intro fuel
  induction fuel with
  | zero => intro i j _ _ _ h; cases h
  | succ fuel ih =>
    intro i j h1 h2 h3 h
    obtain ⟨-, -, t3, t4⟩ := loop_test h3
    unfold sigLoop at h
    simp only [asU32_nat (show i < 2 ^ 32 by omega), mul_p10 hfin h2] at h
    by_cases hc : feq (ofInt (toI64 (mk false (roundMag (magVal m * 10 ^ i) 1))).toInt)
        (mk false (roundMag (magVal m * 10 ^ i) 1)) = true
    · rw [if_pos hc] at h
      cases h
      exact ⟨i, rfl, h2, h3, t3 hc⟩
    · rw [if_neg hc] at h
      split at h
      · cases h
      · have hlt : magVal m * 10 ^ i < 2 ^ 53 * U := by
          rcases Nat.lt_or_ge (magVal m * 10 ^ i) (2 ^ 53 * U) with hl | hl
          · exact hl
          · exact absurd (t4 hl) hc
        have hi : i ≠ 22 := by
          intro he
          subst he
          have hs := lo_scaled
          have := Nat.mul_le_mul_right (10 ^ 22) (magVal_mono hlo)
          exact absurd (Nat.lt_of_le_of_lt (Nat.le_trans hs this) hlt) (Nat.lt_irrefl _)
        refine ih (i + 1) j (by omega) (by omega) ?_ h
        rw [Nat.pow_succ, ← Nat.mul_assoc]
        generalize magVal m * 10 ^ i = x at *
        generalize U = y at *
        omega

theorem sigStrip_spec (fuel : Nat) : ∀ (i t : Nat),
    ∃ a D k : Nat, sigStrip fuel (i : Int) (t : Int) = (a : Int) ∧ i = a + k ∧ t = D * 10 ^ k := by
  induction fuel with
  | zero => intro i t; exact ⟨i, t, 0, rfl, rfl, by rw [Nat.pow_zero, Nat.mul_one]⟩
  | succ fuel ih =>
    intro i t
    unfold sigStrip
    by_cases hc : 0 < (i : Int) ∧ (t : Int).tmod 10 = 0
    · rw [if_pos hc]
      obtain ⟨i', rfl⟩ : ∃ i', i = i' + 1 := ⟨i - 1, by omega⟩
      have hm : t % 10 = 0 := by
        have := hc.2
        rw [Int.tmod_eq_emod_of_nonneg (Int.natCast_nonneg t)] at this
        omega
      have e1 : ((i' + 1 : Nat) : Int) - 1 = (i' : Int) := by omega
      have e2 : (t : Int).tdiv 10 = ((t / 10 : Nat) : Int) := by
        rw [Int.tdiv_eq_ediv_of_nonneg (Int.natCast_nonneg t)]
        omega
      rw [e1, e2]
      obtain ⟨a, D, k, h1, h2, h3⟩ := ih i' (t / 10)
      refine ⟨a, D, k + 1, h1, by omega, ?_⟩
      rw [Nat.pow_succ, ← Nat.mul_assoc, ← h3]
      omega
    · rw [if_neg hc]
      exact ⟨i, t, 0, rfl, rfl, by rw [Nat.pow_zero, Nat.mul_one]⟩

theorem n10_upper {j : Nat} (h : j ≤ 5) : magVal (roundMag U (10 ^ j)) * 10 ^ j ≤ 2 * U := by
  have : ∀ j : Fin 6, magVal (roundMag U (10 ^ j.1)) * 10 ^ j.1 ≤ 2 * U := by decide +kernel
  exact this ⟨j, by omega⟩

theorem start_bound {m : Nat} {sp : Int} (hs : Sp m sp) (h1 : -6 ≤ sp) :
    magVal m * 10 ^ (16 - sp).toNat < 2 ^ 58 * U := by
  have hU := U_pos
  rcases hs with ⟨i, rfl, hi, -, h3⟩ | ⟨k, rfl, hk1, hk, -, h3⟩
  · have e : (16 - (i : Int)).toNat = 16 - i := by omega
    rw [e]
    have h4 := Nat.mul_lt_mul_of_pos_right h3 (Nat.pow_pos (n := 16 - i) (by decide : 0 < 10))
    have e2 : 10 ^ (i + 1) * U * 10 ^ (16 - i) = 10 ^ 17 * U := by
      rw [Nat.mul_right_comm, ← Nat.pow_add]
      congr 2
      omega
    rw [e2] at h4
    refine Nat.lt_trans h4 (Nat.mul_lt_mul_of_pos_right (by decide) hU)
  · have e : (16 - -(k : Int)).toNat = (k - 1) + 17 := by omega
    rw [e, Nat.pow_add, ← Nat.mul_assoc]
    have h4 := n10_upper (j := k - 1) (by omega)
    have h5 := Nat.mul_le_mul_right (10 ^ (k - 1)) (Nat.le_of_lt (magVal_lt h3))
    have h6 := Nat.mul_le_mul_right (10 ^ 17) (Nat.le_trans h5 h4)
    refine Nat.lt_of_le_of_lt h6 ?_
    rw [Nat.mul_right_comm]
    exact Nat.mul_lt_mul_of_pos_right (by decide) hU

theorem sigStart_bounds {sp last : Int} (hl : LastOk last) (h1 : -6 ≤ sp) (h2 : sp ≤ 8) :
    1 ≤ sigStart sp last ∧ sigStart sp last ≤ 16 - sp := by
  unfold sigStart
  unfold LastOk i32Max at *
  split
  · omega
  · split
    · omega
    · split <;> omega

/-- `get_significant_count` started where the scaled value is moderate: 17, or a count `sp + a + 1` such that the
value is the double nearest to `D / 10^a`. -/
theorem sigCount_core {m i : Nat} {sp last : Int} (hfin : m < 0x7ff0000000000000)
    (hlo : 0x3eb0c6f7a0b5ed8d ≤ m) (hi : sigStart sp last = i) (hi1 : 1 ≤ i) (hi2 : i ≤ 22)
    (hb : magVal m * 10 ^ i < 2 ^ 58 * U) :
    sigCount (mk false m) sp last = 17 ∨
    ∃ a D : Nat, sigCount (mk false m) sp last = sp + a + 1 ∧ a ≤ 22 ∧ m = roundMag (D * U) (10 ^ a) := by
  unfold sigCount
  rw [hi]
  have hspec := fun j => sigLoop_spec hfin hlo 400 i j hi1 hi2 hb
  generalize sigLoop (mk false m) 400 i = r at *
  cases r with
  | none => exact Or.inl rfl
  | some j =>
    obtain ⟨i', rfl, h22, h58, hint⟩ := hspec j rfl
    unfold sigFinish
    obtain ⟨t1, t2, -, -⟩ := loop_test h58
    simp only [asU32_nat (show i' < 2 ^ 32 by omega), mul_p10 hfin h22, div_p10 t1 h22, toI64_mk t1 t2]
    rw [feq_mk (roundMag_le _ _) (Nat.le_of_lt hfin)]
    by_cases hc : roundMag (magVal (roundMag (magVal m * 10 ^ i') 1)) (10 ^ i') = m
    · right
      rw [if_pos (by simpa using hc)]
      obtain ⟨a, D, k, s1, s2, s3⟩ := sigStrip_spec (i' : Int).toNat i'
        (magVal (roundMag (magVal m * 10 ^ i') 1) / U)
      refine ⟨a, D, by rw [s1], by omega, ?_⟩
      rw [← hc, hint, s3, s2, Nat.pow_add, Nat.mul_right_comm, Buff.roundMag_scale _ _ (Nat.pow_pos (by decide))]
    · left
      rw [if_neg (by simpa using hc)]

/-- `get_significant_count` in the domain. -/
theorem sigCount_spec {m : Nat} {sp last : Int} (hfin : m < 0x7ff0000000000000)
    (hlo : 0x3eb0c6f7a0b5ed8d ≤ m) (hs : Sp m sp) (h1 : -6 ≤ sp) (h2 : sp ≤ 8) (hl : LastOk last) :
    sigCount (mk false m) sp last = 17 ∨
    ∃ a D : Nat, sigCount (mk false m) sp last = sp + a + 1 ∧ a ≤ 22 ∧ m = roundMag (D * U) (10 ^ a) := by
  obtain ⟨b1, b2⟩ := sigStart_bounds hl h1 h2
  obtain ⟨i, hi⟩ : ∃ i : Nat, sigStart sp last = i := ⟨(sigStart sp last).toNat, by omega⟩
  refine sigCount_core hfin hlo hi (by omega) (by omega) ?_
  refine Nat.lt_of_le_of_lt (Nat.mul_le_mul_left _ (Nat.pow_le_pow_right (by decide) ?_)) (start_bound hs h1)
  omega

/-! ## Masks -/

theorem mask_and (v : B64) {k : Nat} :
    (BitVec.allOnes 64 <<< k) &&& v = BitVec.ofNat 64 (v.toNat / 2 ^ k * 2 ^ k) := by
  apply BitVec.eq_of_getLsbD_eq
  intro i hi
  rw [← Nat.shiftRight_eq_div_pow, ← Nat.shiftLeft_eq]
  rw [BitVec.getLsbD_and, BitVec.getLsbD_shiftLeft, BitVec.getLsbD_ofNat, Nat.testBit_shiftLeft,
    Nat.testBit_shiftRight, BitVec.getLsbD_allOnes]
  by_cases h : i < k
  · have : ¬ i ≥ k := by omega
    simp [h, this]
  · have h2 : k + (i - k) = i := by omega
    have h3 : i - k < 64 := by omega
    have h4 : i ≥ k := by omega
    simp [h, hi, h2, h3, h4, BitVec.getLsbD]

theorem notMask_and (v : B64) {k : Nat} :
    ~~~(BitVec.allOnes 64 <<< k) &&& v = BitVec.ofNat 64 (v.toNat % 2 ^ k) := by
  apply BitVec.eq_of_getLsbD_eq
  intro i hi
  rw [BitVec.getLsbD_and, BitVec.getLsbD_not, BitVec.getLsbD_shiftLeft, BitVec.getLsbD_ofNat,
    BitVec.getLsbD_allOnes, Nat.testBit_mod_two_pow]
  by_cases h : i < k
  · simp [h, hi, BitVec.getLsbD]
  · have h3 : i - k < 64 := by omega
    simp [h, hi, h3]

theorem toNat_mk {s : Bool} {m : Nat} (h : m < 2 ^ 63) :
    (mk s m).toNat = (if s then 2 ^ 63 else 0) + m := by
  unfold mk
  rw [BitVec.toNat_ofNat, Nat.mod_eq_of_lt]
  split <;> omega

theorem mask_mk {s : Bool} {m k : Nat} (h : m < 2 ^ 63) (hk : k ≤ 52) :
    (BitVec.allOnes 64 <<< k) &&& mk s m = mk s (m - m % 2 ^ k) ∧
    (~~~(BitVec.allOnes 64 <<< k) &&& mk s m ≠ 0#64 ↔ m % 2 ^ k ≠ 0) := by
  have hd : (mk s m).toNat % 2 ^ k = m % 2 ^ k := by
    rw [toNat_mk h]
    have : (2 ^ 63) % 2 ^ k = 0 := Nat.mod_eq_zero_of_dvd (Nat.pow_dvd_pow 2 (by omega))
    cases s
    · simp
    · simp only [if_true]
      rw [Nat.add_mod, this, Nat.zero_add, Nat.mod_mod]
  have hle : m % 2 ^ k ≤ m := Nat.mod_le _ _
  constructor
  · rw [mask_and, Nat.div_mul_self_eq_mod_sub_self, hd, toNat_mk h]
    unfold mk
    congr 1
    omega
  · rw [notMask_and, hd]
    have hlt : m % 2 ^ k < 2 ^ 64 := by omega
    refine not_congr ⟨?_, ?_⟩
    · intro h0
      have := congrArg BitVec.toNat h0
      rw [BitVec.toNat_ofNat, Nat.mod_eq_of_lt hlt] at this
      exact this
    · intro h0; rw [h0]

end Ebi.Elf
