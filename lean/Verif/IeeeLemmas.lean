import Verif.SumLemmas

/-!
# `Soft.roundMag` is round to nearest, ties to even
-/

namespace Ebi.Soft

open Ebi

/-- The rounded quotient is nearest among all integers, and even if another one is as near. -/
theorem divRne_best (n : Nat) {G : Nat} (hG : 0 < G) (t : Nat) :
    ((divRne n G * G : Int) - n).natAbs ≤ ((t * G : Int) - n).natAbs ∧
      (((divRne n G * G : Int) - n).natAbs = ((t * G : Int) - n).natAbs → t = divRne n G ∨ divRne n G % 2 = 0) := by
  have h1 : G * (n / G) + n % G = n := Nat.div_add_mod n G
  have h2 : n % G < G := Nat.mod_lt _ hG
  unfold divRne
  simp only
  generalize n / G = k at *
  generalize n % G = r at *
  have ek : (k * G : Int) = (G * k : Nat) := by rw [Nat.mul_comm]; exact (Int.natCast_mul k G).symm
  have ek1 : ((k + 1 : Nat) * G : Int) = (G * k : Nat) + G := by
    rw [Int.natCast_add, Int.add_mul, ek]; omega
  have ht : ((t * G : Int) - n).natAbs = (if t ≤ k then r + (k - t) * G else (t - k) * G - r) := by
    split
    · obtain ⟨j, rfl⟩ := Nat.exists_eq_add_of_le (show t ≤ k by assumption)
      rw [show t + j - t = j by omega]
      have : G * (t + j) = t * G + j * G := by rw [Nat.mul_comm, Nat.add_mul]
      rw [this] at h1
      rw [← Int.natCast_mul]
      omega
    · obtain ⟨j, rfl⟩ := Nat.exists_eq_add_of_le (show k + 1 ≤ t by omega)
      rw [show k + 1 + j - k = 1 + j by omega]
      have e1 : (k + 1 + j) * G = G * k + G + j * G := by rw [Nat.add_mul, Nat.add_mul, Nat.mul_comm k]; omega
      have e2 : (1 + j) * G = G + j * G := by rw [Nat.add_mul]; omega
      rw [← Int.natCast_mul, e1, e2]
      omega
  rw [ht]
  have hlo : ((k * G : Int) - n).natAbs = r := by rw [ek]; omega
  have hhi : (((k + 1 : Nat) * G : Int) - n).natAbs = G - r := by rw [ek1]; omega
  have c1 : ∀ j, j ≠ 0 → G ≤ j * G := fun j hj => by
    have := Nat.mul_le_mul_right G (show 1 ≤ j by omega)
    omega
  by_cases htk : t ≤ k
  · rw [if_pos htk]
    have hj := c1 (k - t)
    generalize hx : (k - t) * G = x at *
    have hx0 : k - t = 0 → t = k := by omega
    repeat' split
    all_goals (try rw [hlo]); (try rw [hhi])
    all_goals (constructor; omega; intro h; by_cases h0 : k - t = 0)
    all_goals first
      | exact Or.inl (hx0 h0)
      | (have := hj h0; omega)
      | (right; omega)
      | (exfalso; rw [h0, Nat.zero_mul] at hx; omega)
  · rw [if_neg htk]
    have hj := c1 (t - (k + 1))
    have e2 : (t - k) * G = G + (t - (k + 1)) * G := by
      rw [show t - k = 1 + (t - (k + 1)) by omega, Nat.add_mul]; omega
    rw [e2]
    generalize hx : (t - (k + 1)) * G = x at *
    have hx0 : t - (k + 1) = 0 → t = k + 1 := by omega
    repeat' split
    all_goals (try rw [hlo]); (try rw [hhi])
    all_goals (constructor; omega; intro h; by_cases h0 : t - (k + 1) = 0)
    all_goals first
      | exact Or.inl (hx0 h0)
      | (have := hj h0; omega)
      | (right; omega)
      | (exfalso; rw [h0, Nat.zero_mul] at hx; omega)

/-- A double of at least `2^(52 + e)` units is a multiple of `2^e`. -/
theorem magVal_grid {m e : Nat} (h : 2 ^ (52 + e) ≤ magVal m) : ∃ t, magVal m = t * 2 ^ e := by
  unfold magVal at *
  split at h
  · rename_i h0
    have : m % 2 ^ 52 < 2 ^ 52 := Nat.mod_lt _ (by decide)
    have h1 : 2 ^ 52 ≤ 2 ^ (52 + e) := Nat.pow_le_pow_right (by decide) (by omega)
    omega
  · rename_i h0
    rw [if_neg h0]
    have hf : m % 2 ^ 52 < 2 ^ 52 := Nat.mod_lt _ (by decide)
    generalize m % 2 ^ 52 = f at *
    generalize m / 2 ^ 52 - 1 = E at *
    by_cases hE : e ≤ E
    · obtain ⟨j, rfl⟩ := Nat.exists_eq_add_of_le hE
      exact ⟨(2 ^ 52 + f) * 2 ^ j, by rw [Nat.pow_add, Nat.mul_assoc, Nat.mul_comm (2 ^ j)]⟩
    · exfalso
      have h1 : (2 ^ 52 + f) * 2 ^ E < 2 ^ 53 * 2 ^ E := Nat.mul_lt_mul_of_pos_right (by omega) (Nat.two_pow_pos _)
      rw [← Nat.pow_add] at h1
      have h2 : 2 ^ (53 + E) ≤ 2 ^ (52 + e) := Nat.pow_le_pow_right (by decide) (by omega)
      omega

/-- No double is nearer to `n / d`, and if another one is as near the last bit of the result is zero. -/
theorem roundMag_best {n d : Nat} (hd : 0 < d) (hfin : roundMag n d < 0x7ff0000000000000) (m : Nat) :
    (((magVal (roundMag n d) * d : Nat) : Int) - n).natAbs ≤ (((magVal m * d : Nat) : Int) - n).natAbs ∧
      ((((magVal (roundMag n d) * d : Nat) : Int) - n).natAbs = (((magVal m * d : Nat) : Int) - n).natAbs →
        magVal m = magVal (roundMag n d) ∨ roundMag n d % 2 = 0) := by
  have hr : roundMag n d = (Nat.log2 (n / d) - 52) * 2 ^ 52 + divRne n (d * 2 ^ (Nat.log2 (n / d) - 52)) := by
    unfold roundMag at hfin ⊢
    simp only at hfin ⊢
    generalize (Nat.log2 (n / d) - 52) * 2 ^ 52 + divRne n (d * 2 ^ (Nat.log2 (n / d) - 52)) = x at *
    omega
  obtain ⟨e, q, h1, h2, h3, h4, h5, h6⟩ := roundMag_spec hd hfin
  rw [← h6] at hr
  have hG : 0 < d * 2 ^ e := Nat.mul_pos hd (Nat.two_pow_pos _)
  have hq : magVal (roundMag n d) = divRne n (d * 2 ^ e) * 2 ^ e := by
    have hx : divRne n (d * 2 ^ e) ≤ 2 ^ 53 ∧ (e = 0 ∨ 2 ^ 52 ≤ divRne n (d * 2 ^ e)) := by
      have hb := divRne_bound n hG
      constructor
      · have h3 : n / d / 2 ^ e < 2 ^ 53 := by
          apply Nat.div_lt_of_lt_mul
          rw [← Nat.pow_add, h6]
          have : n / d < 2 ^ (Nat.log2 (n / d) + 1) := Nat.lt_log2_self
          exact Nat.lt_of_lt_of_le this (Nat.pow_le_pow_right (by decide) (by omega))
        have := divRne_le_succ n (d * 2 ^ e)
        rw [← Nat.div_div_eq_div_mul] at this
        omega
      · rcases h4 with h4 | h4
        · exact Or.inl h4
        · right
          have h7 := le_divRne n (d * 2 ^ e)
          refine Nat.le_trans ?_ h7
          rw [Nat.le_div_iff_mul_le hG]
          refine Nat.le_trans (Nat.le_of_eq ?_) h4.1
          rw [Nat.pow_add, Nat.mul_comm d, ← Nat.mul_assoc]
    rw [hr]
    exact magVal_carry hx.1 hx.2
  have hpar : roundMag n d % 2 = divRne n (d * 2 ^ e) % 2 := by rw [hr]; omega
  have best := divRne_best n hG
  have conv : ∀ t : Nat, ((t * 2 ^ e * d : Nat) : Int) = (t : Int) * ((d * 2 ^ e : Nat) : Int) := by
    intro t
    rw [← Int.natCast_mul, Nat.mul_assoc, Nat.mul_comm (2 ^ e)]
  rw [hpar, hq, conv]
  by_cases hm : e = 0 ∨ 2 ^ (52 + e) ≤ magVal m
  · obtain ⟨t, ht⟩ : ∃ t, magVal m = t * 2 ^ e := by
      rcases hm with rfl | hm
      · exact ⟨magVal m, by simp⟩
      · exact magVal_grid hm
    rw [ht, conv]
    obtain ⟨b1, b2⟩ := best t
    exact ⟨b1, fun h => (b2 h).imp (fun h => by rw [h]) id⟩
  · rw [not_or] at hm
    rcases h4 with h4 | h4
    · exact absurd h4 hm.1
    · have hlt : magVal m * d < 2 ^ (52 + e) * d := Nat.mul_lt_mul_of_pos_right (by omega) hd
      obtain ⟨b1, -⟩ := best (2 ^ 52)
      have e1 : (2 ^ 52 : Nat) * ((d * 2 ^ e : Nat) : Int) = ((2 ^ (52 + e) * d : Nat) : Int) := by
        rw [← conv, Nat.pow_add]
      rw [e1] at b1
      have h41 := h4.1
      generalize (divRne n (d * 2 ^ e) : Int) * ((d * 2 ^ e : Nat) : Int) = X at *
      generalize magVal m * d = Y at *
      generalize 2 ^ (52 + e) * d = Z at *
      refine ⟨by omega, fun h => ?_⟩
      exfalso; omega

/-- The first number that is rounded to infinity: half a unit beyond the largest double. -/
theorem roundMag_overflow {n d : Nat} (hd : 0 < d) :
    roundMag n d = 0x7ff0000000000000 ↔ (2 ^ 54 - 1) * 2 ^ 2044 * d ≤ n := by
  constructor
  · intro h
    apply Nat.le_of_not_lt
    intro hlt
    have hnd : n / d < (2 ^ 54 - 1) * 2 ^ 2044 := Nat.div_lt_of_lt_mul (by rw [Nat.mul_comm]; exact hlt)
    have hlog : Nat.log2 (n / d) ≤ 2097 := by
      by_cases h0 : n / d = 0
      · rw [h0]; decide
      · have h2 : n / d < 2 ^ 2098 := by
          refine Nat.lt_of_lt_of_le hnd ?_
          rw [show (2098 : Nat) = 54 + 2044 from rfl, Nat.pow_add]
          exact Nat.mul_le_mul_right _ (by decide)
        have := (Nat.log2_lt h0).2 h2
        omega
    unfold roundMag at h
    simp only at h
    have hq : Nat.log2 (n / d) - 52 < 2045 → divRne n (d * 2 ^ (Nat.log2 (n / d) - 52)) ≤ 2 ^ 53 := by
      intro _
      have h3 : n / d / 2 ^ (Nat.log2 (n / d) - 52) < 2 ^ 53 := by
        apply Nat.div_lt_of_lt_mul
        rw [← Nat.pow_add]
        have : n / d < 2 ^ (Nat.log2 (n / d) + 1) := Nat.lt_log2_self
        exact Nat.lt_of_lt_of_le this (Nat.pow_le_pow_right (by decide) (by omega))
      have := divRne_le_succ n (d * 2 ^ (Nat.log2 (n / d) - 52))
      rw [← Nat.div_div_eq_div_mul] at this
      omega
    by_cases he : Nat.log2 (n / d) - 52 < 2045
    · have := hq he
      generalize divRne n (d * 2 ^ (Nat.log2 (n / d) - 52)) = q at *
      omega
    · have he : Nat.log2 (n / d) - 52 = 2045 := by omega
      rw [he] at h
      have hG : 0 < d * 2 ^ 2045 := Nat.mul_pos hd (Nat.two_pow_pos _)
      have hb := (divRne_bound n hG).2
      have hlt2 : 2 * n < (2 ^ 54 - 1) * (d * 2 ^ 2045) := by
        have e1 : (2 ^ 54 - 1) * (d * 2 ^ 2045) = 2 * ((2 ^ 54 - 1) * 2 ^ 2044 * d) := by
          have e0 : (2 : Nat) ^ 2045 = 2 * 2 ^ 2044 := Nat.pow_succ'
          rw [e0]
          generalize (2 : Nat) ^ 2044 = w
          generalize (2 : Nat) ^ 54 - 1 = c
          rw [Nat.mul_comm d, Nat.mul_assoc 2, Nat.mul_left_comm c, Nat.mul_assoc c]
        omega
      have : divRne n (d * 2 ^ 2045) < 2 ^ 53 := by
        generalize divRne n (d * 2 ^ 2045) = q at *
        generalize d * 2 ^ 2045 = G at *
        apply Nat.lt_of_not_le
        intro hge
        have := Nat.mul_le_mul_right G (show 2 * 2 ^ 53 ≤ 2 * q by omega)
        omega
      generalize divRne n (d * 2 ^ 2045) = q at *
      omega
  · intro h
    have h1 : roundMag ((2 ^ 54 - 1) * 2 ^ 2044) 1 ≤ roundMag n d :=
      roundMag_mono_cross (by decide) hd (by rw [Nat.mul_one]; exact h)
    rw [show roundMag ((2 ^ 54 - 1) * 2 ^ 2044) 1 = 0x7ff0000000000000 by decide +kernel] at h1
    have := roundMag_le n d
    omega

end Ebi.Soft
