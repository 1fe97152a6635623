import Verif.SoftFloat

/-!
# Lemmas about the concrete arithmetic
-/

namespace Ebi.Soft

open Ebi

theorem mag_lt (v : B64) : mag v < 2 ^ 63 := Nat.mod_lt _ (by decide)

theorem mk_sgn_mag (v : B64) : mk (sgn v) (mag v) = v := by
  apply BitVec.eq_of_toNat_eq
  have := v.isLt
  simp only [mk, mag, sgn, BitVec.toNat_ofNat]
  by_cases h : 2 ^ 63 ≤ v.toNat
  · simp only [h, decide_true, if_true]; omega
  · simp only [h, decide_false, Bool.false_eq_true, if_false]; omega

theorem mag_mk (s : Bool) {m : Nat} (h : m < 2 ^ 63) : mag (mk s m) = m := by
  simp only [mk, mag, BitVec.toNat_ofNat]
  cases s <;> simp <;> omega

theorem sgn_mk (s : Bool) {m : Nat} (h : m < 2 ^ 63) : sgn (mk s m) = s := by
  simp only [mk, sgn, BitVec.toNat_ofNat]
  cases s <;> simp <;> omega

theorem divRne_mul (q : Nat) {d : Nat} (hd : 0 < d) : divRne (q * d) d = q := by
  unfold divRne
  simp only [Nat.mul_mod_left, Nat.mul_div_cancel _ hd]
  rw [if_pos (by omega)]

theorem le_divRne (n d : Nat) : n / d ≤ divRne n d := by
  unfold divRne
  simp only
  split
  · exact Nat.le_refl _
  · split
    · omega
    · split <;> omega

/-- Exactly representable values are not changed by rounding. -/
theorem roundMag_magVal {m : Nat} (h : m ≤ 0x7ff0000000000000) : roundMag (magVal m) 1 = m := by
  unfold roundMag magVal
  simp only [Nat.div_one, Nat.one_mul]
  by_cases h0 : m / 2 ^ 52 = 0
  · have hlt : m < 2 ^ 52 := by omega
    have hm : m % 2 ^ 52 = m := Nat.mod_eq_of_lt hlt
    have hl : Nat.log2 m - 52 = 0 := by
      by_cases hz : m = 0
      · subst hz; decide
      · have := (Nat.log2_lt hz).2 hlt
        omega
    rw [if_pos h0, hm, hl]
    have := divRne_mul m (d := 1) (by omega)
    rw [Nat.mul_one] at this
    simp [this]
    omega
  · rw [if_neg h0]
    have hf : m % 2 ^ 52 < 2 ^ 52 := Nat.mod_lt _ (by decide)
    have hdm := Nat.div_add_mod m (2 ^ 52)
    generalize m / 2 ^ 52 = e at *
    generalize m % 2 ^ 52 = f at *
    have hp : 0 < 2 ^ (e - 1) := Nat.two_pow_pos _
    have hl : Nat.log2 ((2 ^ 52 + f) * 2 ^ (e - 1)) = 52 + (e - 1) := by
      have hne : (2 ^ 52 + f) * 2 ^ (e - 1) ≠ 0 := by
        have := Nat.mul_pos (show 0 < 2 ^ 52 + f by omega) hp
        omega
      have h1 : 2 ^ (52 + (e - 1)) ≤ (2 ^ 52 + f) * 2 ^ (e - 1) := by
        rw [Nat.pow_add]; exact Nat.mul_le_mul_right _ (by omega)
      have h2 : (2 ^ 52 + f) * 2 ^ (e - 1) < 2 ^ (52 + (e - 1) + 1) := by
        rw [show 52 + (e - 1) + 1 = 53 + (e - 1) by omega, Nat.pow_add]
        exact Nat.mul_lt_mul_of_pos_right (by omega) hp
      have h3 := (Nat.log2_lt hne).2 h2
      have h4 := (Nat.le_log2 hne).2 h1
      omega
    rw [hl, show 52 + (e - 1) - 52 = e - 1 by omega, divRne_mul _ hp]
    rw [Nat.min_eq_left] <;> omega

theorem roundMag_le (n d : Nat) : roundMag n d ≤ 0x7ff0000000000000 := Nat.min_le_right _ _

theorem roundMag_pos {n : Nat} (h : 0 < n) : 0 < roundMag n 1 := by
  unfold roundMag
  simp only [Nat.div_one, Nat.one_mul]
  have h1 : 2 ^ (Nat.log2 n - 52) ≤ n :=
    Nat.le_trans (Nat.pow_le_pow_right (by omega) (Nat.sub_le _ _)) (Nat.log2_self_le (by omega))
  have h2 : 0 < n / 2 ^ (Nat.log2 n - 52) := Nat.div_pos h1 (Nat.two_pow_pos _)
  have h3 := le_divRne n (2 ^ (Nat.log2 n - 52))
  rw [Nat.lt_min]
  omega

theorem exactVal_natAbs (v : B64) : (exactVal v).natAbs = magVal (mag v) := by
  unfold exactVal; split <;> simp

theorem exactVal_eq_zero {v : B64} : exactVal v = 0 ↔ mag v = 0 := by
  have h1 := exactVal_natAbs v
  have h2 := magVal_pos (m := mag v)
  omega

theorem exactVal_neg_iff {v : B64} (h : mag v ≠ 0) : exactVal v < 0 ↔ sgn v = true := by
  have h2 := magVal_pos (m := mag v)
  unfold exactVal
  cases sgn v <;> simp <;> omega

/-- Neither `-0` nor a NaN other than the canonical one. -/
def Plain (v : B64) : Prop := v ≠ 0x8000000000000000#64 ∧ (isNaN v = true → v = nan)

theorem plain_zero : Plain 0#64 := by
  refine ⟨by decide, by decide⟩

theorem not_isNaN_mk (s : Bool) {m : Nat} (h : m ≤ 0x7ff0000000000000) : isNaN (mk s m) = false := by
  simp only [isNaN, mag_mk s (show m < 2 ^ 63 by omega), decide_eq_false_iff_not]
  omega

theorem plain_add {a : B64} (ha : Plain a) (b : B64) : Plain (add a b) := by
  have hnan : Plain nan := ⟨by decide, fun _ => rfl⟩
  unfold add
  split
  · exact hnan
  rename_i h0
  simp only [Bool.or_eq_true, not_or, Bool.not_eq_true] at h0
  split
  · split
    · exact hnan
    · exact ha
  rename_i h1
  split
  · rename_i h2
    refine ⟨?_, fun h => absurd h (by simp [h0.2])⟩
    rintro rfl
    revert h2; decide
  simp only
  split
  · rename_i hx
    split
    · rename_i hs
      simp only [Bool.and_eq_true] at hs
      exfalso
      apply ha.1
      have hz : mag a = 0 := by
        have h3 : exactVal a = -(magVal (mag a) : Int) := by simp [exactVal, hs.1]
        have h4 : exactVal b = -(magVal (mag b) : Int) := by simp [exactVal, hs.2]
        have := magVal_pos (m := mag a)
        omega
      rw [← mk_sgn_mag a, hs.1, hz]
      rfl
    · refine ⟨by decide, by decide⟩
  · rename_i hx
    have hp : 0 < roundMag (exactVal a + exactVal b).natAbs 1 := roundMag_pos (by omega)
    have hl := roundMag_le (exactVal a + exactVal b).natAbs 1
    refine ⟨?_, fun h => absurd h (by simp [rnd, not_isNaN_mk _ hl])⟩
    intro h
    have := congrArg mag h
    rw [rnd, mag_mk _ (by omega)] at this
    have h0 : mag 0x8000000000000000#64 = 0 := by decide
    omega

theorem add_zero {a : B64} (ha : Plain a) : add a 0#64 = a := by
  unfold add
  have hz : isNaN 0#64 = false := by decide
  have hzi : isInf 0#64 = false := by decide
  have hze : exactVal 0#64 = 0 := by decide
  have hzs : sgn 0#64 = false := by decide
  rw [hz, hzi, hze, hzs, Bool.or_false]
  split
  · rename_i h; exact (ha.2 h).symm
  · rename_i hn
    split
    · simp
    · rename_i hi
      simp only [Bool.false_eq_true, if_false, Int.add_zero, Bool.and_false]
      split
      · rename_i hx
        have hm := exactVal_eq_zero.1 hx
        have : sgn a = false := by
          cases hs : sgn a with
          | false => rfl
          | true =>
            exfalso
            apply ha.1
            rw [← mk_sgn_mag a, hs, hm]
            rfl
        rw [← mk_sgn_mag a, this, hm]
      · rename_i hx
        have hm : mag a ≠ 0 := fun h => hx (exactVal_eq_zero.2 h)
        have hs : decide (exactVal a < 0) = sgn a := by
          rw [Bool.eq_iff_iff, decide_eq_true_eq]
          exact exactVal_neg_iff hm
        have hfin : mag a ≤ 0x7ff0000000000000 := by
          simp only [isNaN, decide_eq_true_eq] at hn
          omega
        rw [rnd, exactVal_natAbs, roundMag_magVal hfin, hs, mk_sgn_mag]

end Ebi.Soft
