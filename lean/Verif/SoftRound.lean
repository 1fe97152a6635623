import Verif.BuffFixed

/-!
# Monotonicity of rounding
-/

namespace Ebi.Soft

open Ebi

theorem divRne_le_succ (n d : Nat) : divRne n d ≤ n / d + 1 := by
  unfold divRne
  simp only
  split
  · omega
  · split
    · omega
    · split <;> omega

theorem divRne_mono {n m d : Nat} (h : n ≤ m) : divRne n d ≤ divRne m d := by
  have h1 : n / d ≤ m / d := Nat.div_le_div_right h
  by_cases he : n / d = m / d
  · have e1 := Nat.div_add_mod n d
    have e2 := Nat.div_add_mod m d
    rw [he] at e1
    have hr : n % d ≤ m % d := by omega
    unfold divRne
    simp only [he]
    clear e1 e2 h1 h he
    generalize n % d = r at *
    generalize m % d = r' at *
    generalize m / d = q at *
    repeat' split
    all_goals omega
  · have h2 := divRne_le_succ n d
    have h3 := le_divRne m d
    omega

theorem log2_mono {a b : Nat} (h : a ≤ b) : Nat.log2 a ≤ Nat.log2 b := by
  by_cases ha : a = 0
  · subst ha; simp
  · have hb : b ≠ 0 := by omega
    exact (Nat.le_log2 hb).2 (Nat.le_trans (Nat.log2_self_le ha) h)

theorem roundMag_mono {n m d : Nat} (h : n ≤ m) : roundMag n d ≤ roundMag m d := by
  have hq : n / d ≤ m / d := Nat.div_le_div_right h
  have hl := log2_mono hq
  have key : (Nat.log2 (n / d) - 52) * 2 ^ 52 + divRne n (d * 2 ^ (Nat.log2 (n / d) - 52)) ≤
      (Nat.log2 (m / d) - 52) * 2 ^ 52 + divRne m (d * 2 ^ (Nat.log2 (m / d) - 52)) := by
    by_cases he : Nat.log2 (n / d) - 52 = Nat.log2 (m / d) - 52
    · rw [he]; exact Nat.add_le_add_left (divRne_mono h) _
    · have hlt : Nat.log2 (n / d) - 52 < Nat.log2 (m / d) - 52 := by omega
      have h1 := divRne_le_succ n (d * 2 ^ (Nat.log2 (n / d) - 52))
      have h2 := le_divRne m (d * 2 ^ (Nat.log2 (m / d) - 52))
      rw [← Nat.div_div_eq_div_mul] at h1 h2
      have h3 : n / d / 2 ^ (Nat.log2 (n / d) - 52) < 2 ^ 53 := by
        apply Nat.div_lt_of_lt_mul
        rw [← Nat.pow_add]
        have : n / d < 2 ^ (Nat.log2 (n / d) + 1) := Nat.lt_log2_self
        exact Nat.lt_of_lt_of_le this (Nat.pow_le_pow_right (by decide) (by omega))
      have h4 : 2 ^ 52 ≤ m / d / 2 ^ (Nat.log2 (m / d) - 52) := by
        rw [Nat.le_div_iff_mul_le (Nat.two_pow_pos _), ← Nat.pow_add]
        have hne : m / d ≠ 0 := by
          intro hc; rw [hc] at hlt; simp at hlt
        have := Nat.log2_self_le hne
        refine Nat.le_trans (Nat.pow_le_pow_right (by decide) ?_) this
        omega
      have h5 : (Nat.log2 (n / d) - 52 + 1) * 2 ^ 52 ≤ (Nat.log2 (m / d) - 52) * 2 ^ 52 :=
        Nat.mul_le_mul_right _ hlt
      rw [Nat.add_mul] at h5
      omega
  unfold roundMag
  simp only
  exact Nat.le_min.2 ⟨Nat.le_trans (Nat.min_le_left _ _) key, Nat.min_le_right _ _⟩

attribute [local irreducible] roundMag magVal

/-- Magnitude pattern of the integer `n` converted and divided by `2^F`. -/
def dequantMag (F n : Nat) : Nat :=
  roundMag (magVal (roundMag (n * 2 ^ 1074) 1) * 2 ^ 1074) (magVal (roundMag (2 ^ F * 2 ^ 1074) 1))

theorem magVal_mono {a b : Nat} (h : a ≤ b) : magVal a ≤ magVal b := by
  induction b with
  | zero => rw [Nat.le_zero.1 h]; exact Nat.le_refl _
  | succ b ih =>
    by_cases he : a = b + 1
    · rw [he]; exact Nat.le_refl _
    · exact Nat.le_trans (ih (by omega)) (Nat.le_of_lt (magVal_lt_succ b))

theorem pow_magVal {F : Nat} (hF : F ≤ 1022) : magVal (roundMag (2 ^ F * 2 ^ 1074) 1) = 2 ^ F * 2 ^ 1074 ∧
    roundMag (2 ^ F * 2 ^ 1074) 1 < 0x7ff0000000000000 := by
  have hb2 : 1 * 2 ^ (F + 1074) < 2 ^ 2098 := by
    rw [Nat.one_mul]; exact Nat.pow_lt_pow_right (by decide) (by omega)
  have := Buff.roundMag_exact (by decide : 1 < 2 ^ 53) hb2
  rw [Nat.one_mul, Nat.pow_add] at this
  exact this

theorem dequantMag_mono {F n m : Nat} (h : n ≤ m) : dequantMag F n ≤ dequantMag F m := by
  unfold dequantMag
  apply roundMag_mono
  exact Nat.mul_le_mul_right _ (magVal_mono (roundMag_mono (Nat.mul_le_mul_right _ h)))

theorem roundMag_int {n : Nat} (h : n ≤ 2 ^ 63) : roundMag (n * 2 ^ 1074) 1 < 0x7ff0000000000000 := by
  have h1 := (pow_magVal (F := 63) (by decide)).2
  have h2 := roundMag_mono (d := 1) (Nat.mul_le_mul_right (2 ^ 1074) h)
  omega

theorem dequant_mk {q : Int} {F : Nat} (hq : q.natAbs ≤ 2 ^ 63) (hF : F ≤ 1022) :
    div (ofInt q) (ofInt (2 ^ F : Nat)) = mk (decide (q < 0)) (dequantMag F q.natAbs) := by
  obtain ⟨n1, n2⟩ := pow_magVal hF
  have m2 := roundMag_int hq
  have hb : ofInt (2 ^ F : Nat) = mk false (roundMag (2 ^ F * 2 ^ 1074) 1) := by
    unfold ofInt rnd
    rw [Int.natAbs_natCast]
    congr 1
  rw [hb]
  unfold ofInt rnd dequantMag
  generalize roundMag (q.natAbs * 2 ^ 1074) 1 = ma at *
  generalize roundMag (2 ^ F * 2 ^ 1074) 1 = mb at *
  have hmb : mb ≠ 0 := by
    intro hc
    rw [hc, magVal_zero] at n1
    have := Nat.mul_pos (Nat.two_pow_pos F) (Nat.two_pow_pos 1074)
    omega
  have g1 : mag (mk (decide (q < 0)) ma) = ma := mag_mk _ (by omega)
  have g2 : mag (mk false mb) = mb := mag_mk _ (by omega)
  have g3 : sgn (mk (decide (q < 0)) ma) = decide (q < 0) := sgn_mk _ (by omega)
  have g4 : sgn (mk false mb) = false := sgn_mk _ (by omega)
  unfold div
  simp only [isNaN, isInf, g1, g2, g3, g4, absVal]
  rw [if_neg (by simp; omega), if_neg (by simp; omega), if_neg (by simp; omega), if_neg hmb]
  unfold rnd
  rw [Bool.bne_false]

/-- Converting and dividing by `2^F` is monotone and never gives a NaN. -/
theorem dequant_mono {p q : Int} {F : Nat} (hp : p.natAbs ≤ 2 ^ 63) (hq : q.natAbs ≤ 2 ^ 63) (hF : F ≤ 1022)
    (h : p ≤ q) :
    fle (div (ofInt p) (ofInt (2 ^ F : Nat))) (div (ofInt q) (ofInt (2 ^ F : Nat))) = true := by
  rw [dequant_mk hp hF, dequant_mk hq hF]
  have b1 : dequantMag F p.natAbs ≤ 0x7ff0000000000000 := roundMag_le _ _
  have b2 : dequantMag F q.natAbs ≤ 0x7ff0000000000000 := roundMag_le _ _
  have c1 : 0 ≤ p → dequantMag F p.natAbs ≤ dequantMag F q.natAbs := fun h0 =>
    dequantMag_mono (by omega)
  have c2 : q < 0 → dequantMag F q.natAbs ≤ dequantMag F p.natAbs := fun h0 =>
    dequantMag_mono (by omega)
  unfold fle key
  rw [not_isNaN_mk _ b1, not_isNaN_mk _ b2, mag_mk _ (by omega), mag_mk _ (by omega), sgn_mk _ (by omega),
    sgn_mk _ (by omega)]
  simp
  split <;> split <;> omega

end Ebi.Soft
