import Verif.ElfRange

/-!
# Elf: `Carries` for `1e9 ≤ |v|`

Here `get_sp` asks the platform's `log10`. What is needed of it is `Log10Close`.
-/

namespace Ebi.Elf

open Ebi Ebi.Soft

/-- What is asked of `log10` from `1e9` on, for a value between `10^n` and `10^(n+1)`: the result is between
`n - 1` and `n + 2`, above `n` if the value is at least `10^n (1 + 6e-15)`, and below `n + 1` if it is at most
`10^(n+1) (1 - 6e-15)`. An absolute error of less than `2.6e-15` (1.46 units in the last place of the results
below 16) gives the two sharp bounds, since `log10 (1 + 6e-15) > 2.6e-15`. -/
def Log10Close (lg : B64 → B64) : Prop :=
  ∀ (v : B64) (n : Nat), 9 ≤ n → isFinite v = true → ((10 ^ n * 2 ^ 1074 : Nat) : Int) ≤ exactVal v →
    exactVal v < ((10 ^ (n + 1) * 2 ^ 1074 : Nat) : Int) →
    isFinite (lg v) = true ∧ (((n - 1) * 2 ^ 1074 : Nat) : Int) ≤ exactVal (lg v) ∧
    exactVal (lg v) < (((n + 2) * 2 ^ 1074 : Nat) : Int) ∧
    (((10 ^ n * (10 ^ 15 + 6) * 2 ^ 1074 : Nat) : Int) ≤ exactVal v * 10 ^ 15 →
      ((n * 2 ^ 1074 : Nat) : Int) < exactVal (lg v)) ∧
    (exactVal v * 10 ^ 15 ≤ ((10 ^ (n + 1) * (10 ^ 15 - 6) * 2 ^ 1074 : Nat) : Int) →
      exactVal (lg v) < (((n + 1) * 2 ^ 1074 : Nat) : Int))

attribute [local irreducible] roundMag magVal U

/-! ## `floor` -/

theorem floor_eq {x : B64} {k : Nat} (hf : isFinite x = true) (h0 : 1 ≤ k) (hk : k < 2 ^ 31)
    (h1 : ((k * U : Nat) : Int) ≤ exactVal x) (h2 : exactVal x < (((k + 1) * U : Nat) : Int)) :
    toI32 (floor x) = k ∧ (feq x (floor x) = true → exactVal x = ((k * U : Nat) : Int)) := by
  have hU : 0 < k * U := Nat.mul_pos h0 U_pos
  have hs : sgn x = false := by
    unfold exactVal at h1
    cases h : sgn x with
    | false => rfl
    | true => rw [h] at h1; simp only [if_true] at h1; omega
  have hv : exactVal x = (magVal (mag x) : Int) := by unfold exactVal; rw [hs]; rfl
  rw [hv] at h1 h2
  have hq : magVal (mag x) / U = k := by
    rw [Nat.div_eq_iff U_pos]
    rw [Nat.succ_mul] at h2
    omega
  have hx := exact_U (A := k) (s := 0) (by omega) (by decide)
  rw [Nat.pow_zero, Nat.mul_one] at hx
  have hfl : floor x = mk false (roundMag (k * U) 1) := by
    unfold floor rnd
    rw [if_pos hf, hs, if_neg Bool.false_ne_true, U_eq]
    unfold absVal
    rw [hq]
  have g1 : mag (mk false (roundMag (k * U) 1)) = roundMag (k * U) 1 := mag_mk _ (by omega)
  have g2 : sgn (mk false (roundMag (k * U) 1)) = false := sgn_mk _ (by omega)
  refine ⟨?_, fun he => ?_⟩
  · rw [hfl]
    unfold toI32
    rw [isNaN_mk (by omega), g2, U_eq]
    unfold absVal
    rw [g1, hx.1, Nat.mul_div_cancel _ U_pos]
    simp only [Bool.false_eq_true, if_false]
    omega
  · rw [hfl] at he
    unfold feq at he
    simp only [Bool.and_eq_true, decide_eq_true_eq] at he
    rw [(exactVal_eq_iff _ _).2 he.2]
    unfold exactVal
    rw [g2, g1, hx.1]
    rfl

/-! ## `sp` -/

theorem spAbove_none {m : Nat} (hm : m ≤ 0x7ff0000000000000) (h : 10 ^ 9 * U ≤ magVal m) :
    spAbove (mk false m) = none := by
  unfold spAbove
  rw [List.find?_eq_none]
  intro i hi
  rw [List.mem_range] at hi
  rw [flt_p10 hm (by omega)]
  have h1 : 10 ^ (i + 1) * U ≤ 10 ^ 9 * U := Nat.mul_le_mul_right _ (Nat.pow_le_pow_right (by decide) (by omega))
  simp only [decide_eq_true_eq]
  omega

theorem big_sp {lg : B64 → B64} (hl : Log10Close lg) {m n : Nat} (hfin : m < 0x7ff0000000000000) (h9 : 9 ≤ n)
    (hn : n ≤ 400) (h1 : 10 ^ n * U ≤ magVal m) (h2 : magVal m < 10 ^ (n + 1) * U) :
    ∃ (k : Nat) (flag : Bool), getSpFlag lg (mk false m) = ((k : Int), flag) ∧ getSp lg (mk false m) = k ∧
      n - 1 ≤ k ∧ k ≤ n + 1 ∧
      (10 ^ n * (10 ^ 15 + 6) * U ≤ magVal m * 10 ^ 15 → n ≤ k) ∧
      (magVal m * 10 ^ 15 ≤ 10 ^ (n + 1) * (10 ^ 15 - 6) * U → k ≤ n) ∧
      (10 ^ n * (10 ^ 15 + 6) * U ≤ magVal m * 10 ^ 15 → magVal m * 10 ^ 15 ≤ 10 ^ (n + 1) * (10 ^ 15 - 6) * U →
        flag = false) := by
  have g1 : mag (mk false m) = m := mag_mk _ (by omega)
  have g2 : sgn (mk false m) = false := sgn_mk _ (by omega)
  have hv : exactVal (mk false m) = (magVal m : Int) := by unfold exactVal; rw [g2, g1]; rfl
  have hff : isFinite (mk false m) = true := by unfold isFinite; rw [g1]; simpa using hfin
  have hspec := hl (mk false m) n h9 hff
  rw [hv, U_eq] at hspec
  obtain ⟨k1, k2, k3, k4, k5⟩ := hspec (by exact_mod_cast h1) (by exact_mod_cast h2)
  have hone : fle one (mk false m) = true := by
    rw [fle_one (by omega)]
    have : U ≤ 10 ^ n * U := Nat.le_mul_of_pos_left _ (Nat.pow_pos (by decide))
    simpa using Nat.le_trans this h1
  have hnone := spAbove_none (m := m) (by omega)
    (Nat.le_trans (Nat.mul_le_mul_right _ (Nat.pow_le_pow_right (by decide) h9)) h1)
  have hsp : getSp lg (mk false m) = toI32 (floor (lg (mk false m))) := by
    unfold getSp
    simp only [hone, if_true, hnone, Option.map_none]
  have hfl : getSpFlag lg (mk false m) = (toI32 (floor (lg (mk false m))),
      feq (lg (mk false m)) (floor (lg (mk false m)))) := by
    unfold getSpFlag
    simp only [hone, if_true, hnone, Option.map_none]
  rw [hsp, hfl]
  generalize lg (mk false m) = x at *
  -- which integer part
  have hk : ∃ k : Nat, n - 1 ≤ k ∧ k ≤ n + 1 ∧ ((k * U : Nat) : Int) ≤ exactVal x ∧
      exactVal x < (((k + 1) * U : Nat) : Int) := by
    by_cases c1 : exactVal x < ((n * U : Nat) : Int)
    · exact ⟨n - 1, Nat.le_refl _, by omega, k2, by rw [Nat.sub_add_cancel (by omega)]; exact c1⟩
    · by_cases c2 : exactVal x < (((n + 1) * U : Nat) : Int)
      · exact ⟨n, by omega, by omega, by omega, c2⟩
      · exact ⟨n + 1, by omega, Nat.le_refl _, by omega, k3⟩
  obtain ⟨k, hk1, hk2, hk3, hk4⟩ := hk
  obtain ⟨f1, f2⟩ := floor_eq k1 (by omega) (by omega) hk3 hk4
  have hmono : ∀ a b : Nat, a ≤ b → a * U ≤ b * U := fun a b h => Nat.mul_le_mul_right _ h
  have hge : 10 ^ n * (10 ^ 15 + 6) * U ≤ magVal m * 10 ^ 15 → n ≤ k := by
    intro h
    have h' := k4 (by exact_mod_cast h)
    rcases Nat.lt_or_ge k n with hc | hc
    · have := hmono (k + 1) n hc
      omega
    · exact hc
  have hle : magVal m * 10 ^ 15 ≤ 10 ^ (n + 1) * (10 ^ 15 - 6) * U → k ≤ n := by
    intro h
    have h' := k5 (by exact_mod_cast h)
    rcases Nat.lt_or_ge n k with hc | hc
    · have := hmono (n + 1) k hc
      omega
    · exact hc
  refine ⟨k, _, by rw [f1], f1, hk1, hk2, hge, hle, fun a b => ?_⟩
  have e : k = n := Nat.le_antisymm (hle b) (hge a)
  cases hc : feq x (floor x) with
  | false => rfl
  | true =>
    have := f2 hc
    have h' := k4 (by exact_mod_cast a)
    rw [e] at this
    omega

/-! ## Values that are erased are away from the powers of ten -/

/-- A lower bound on the exponent. -/
theorem exp_lower {m e : Nat} (hE : 1 ≤ m / 2 ^ 52) (h : 2 ^ e * U ≤ magVal m) : e + 1023 ≤ m / 2 ^ 52 := by
  have h2 := (magVal_bounds hE).2
  rw [U_pow] at h
  have := (Nat.pow_lt_pow_iff_right (by decide : 1 < 2)).1 (Nat.lt_of_le_of_lt h h2)
  omega

/-- Finite facts about the table `F` and the powers of ten: if `a` decimals of a number of the size of `10^n`
(of half the size of `10^(n+1)`) leave more than four bits to erase, then one unit of the last decimal is far more than
`6e-15` of it. -/
theorem zone_table {n a : Nat} (h9 : 9 ≤ n) (hn : n ≤ 14) (ha1 : 1 ≤ a) (ha : a ≤ 20) :
    (fAlpha a + Nat.log2 (10 ^ n) < 48 → 6 * (10 ^ n * 2 ^ fAlpha a) ≤ 10 ^ 15) ∧
    (fAlpha a + Nat.log2 (5 * 10 ^ n) < 48 → n + 1 + a ≤ 14) := by
  have : ∀ (n : Fin 6) (a : Fin 20),
      (fAlpha (a.1 + 1) + Nat.log2 (10 ^ (n.1 + 9)) < 48 → 6 * (10 ^ (n.1 + 9) * 2 ^ fAlpha (a.1 + 1)) ≤ 10 ^ 15) ∧
      (fAlpha (a.1 + 1) + Nat.log2 (5 * 10 ^ (n.1 + 9)) < 48 → n.1 + 9 + 1 + (a.1 + 1) ≤ 14) := by decide +kernel
  have := this ⟨n - 9, by omega⟩ ⟨a - 1, by omega⟩
  simp only [Nat.sub_add_cancel h9, Nat.sub_add_cancel ha1] at this
  exact this

theorem zone_upper {P V z u d : Nat} (hp : P ≤ 10 ^ 14 * u) (hz : 32 * z ≤ u) (hd : d + u ≤ P)
    (hr : 2 * V ≤ 2 * d + z) : V * 10 ^ 15 ≤ P * (10 ^ 15 - 6) := by
  omega

theorem half_ulp {a F e U' : Nat} (hP : 10 ^ a ≤ 2 ^ F) (he : e + 5 ≤ 1074 - F) (hGU : 2 ^ (1074 - F) * 2 ^ F = U') :
    32 * (10 ^ a * 2 ^ e) ≤ U' := by
  rw [← hGU, Nat.mul_comm (2 ^ (1074 - F))]
  have h7 : (2 : Nat) ^ e * 32 ≤ 2 ^ (1074 - F) := by
    rw [show (32 : Nat) = 2 ^ 5 from rfl, ← Nat.pow_add]
    exact Nat.pow_le_pow_right (by decide) he
  calc 32 * (10 ^ a * 2 ^ e) = 10 ^ a * (2 ^ e * 32) := by ac_rfl
    _ ≤ 2 ^ F * 2 ^ (1074 - F) := Nat.mul_le_mul hP h7

theorem zone {m n a D : Nat} (hfin : m < 0x7ff0000000000000) (h9 : 9 ≤ n) (hn : n ≤ 14)
    (h1 : 10 ^ n * U ≤ magVal m) (h2 : magVal m < 10 ^ (n + 1) * U) (ha : a ≤ 20)
    (hE : 1 ≤ m / 2 ^ 52) (hm : m = roundMag (D * U) (10 ^ a)) (her : fAlpha a + m / 2 ^ 52 + 4 < 1075)
    (hne : m % 2 ^ (1075 - fAlpha a - m / 2 ^ 52) ≠ 0) :
    let m' := m - m % 2 ^ (1075 - fAlpha a - m / 2 ^ 52)
    10 ^ n * (10 ^ 15 + 6) * U ≤ magVal m' * 10 ^ 15 ∧ magVal m * 10 ^ 15 ≤ 10 ^ (n + 1) * (10 ^ 15 - 6) * U := by
  have hpos : 0 < m := by
    rcases Nat.eq_zero_or_pos m with h | h
    · subst h; omega
    · exact h
  have hU := U_pos
  have hA : 0 < 10 ^ a := Nat.pow_pos (by decide)
  obtain ⟨hF, hP, -, -⟩ := fTable_le ha
  obtain ⟨hc1, hc2⟩ := erase_core ha (by rw [U_eq]; exact hm) hfin hE hpos
  obtain ⟨ha1, hD, hV, hlt, hge, hE'⟩ := hc2 her hne
  rw [U_eq] at hlt hge
  have htab := zone_table h9 hn ha1 ha
  have hround := round_err hA hm hfin hE
  generalize hm'' : m - m % 2 ^ (1075 - fAlpha a - m / 2 ^ 52) = m' at *
  have hle : magVal m' ≤ magVal m := magVal_mono (by omega)
  have hGU : 2 ^ (1074 - fAlpha a) * 2 ^ fAlpha a = U := by
    rw [← U_eq, ← Nat.pow_add]; congr 1; omega
  have hW : U = 1024 * 2 ^ 1064 := by
    rw [← U_eq, show (1074 : Nat) = 10 + 1064 from rfl, Nat.pow_add]
  have hlogn : ∀ x : Nat, x ≠ 0 → x * U ≤ magVal m → fAlpha a + Nat.log2 x < 48 := by
    intro x hx hxm
    have h3 : 2 ^ Nat.log2 x * U ≤ magVal m := Nat.le_trans (Nat.mul_le_mul_right _ (Nat.log2_self_le hx)) hxm
    have := exp_lower hE h3
    omega
  have hWpos : 0 < 2 ^ 1064 := Nat.two_pow_pos _
  simp only
  constructor
  · have ht := htab.1 (hlogn _ (Nat.pos_iff_ne_zero.1 (Nat.pow_pos (by decide))) h1)
    -- `m'` is a multiple of `G`, at least `10^n`, and not equal to it
    have hdvd : 10 ^ n * U = 10 ^ n * 2 ^ fAlpha a * 2 ^ (1074 - fAlpha a) := by
      rw [← hGU]; ac_rfl
    have hq : magVal m' = magVal m / 2 ^ (1074 - fAlpha a) * 2 ^ (1074 - fAlpha a) := by
      have := Nat.div_add_mod (magVal m) (2 ^ (1074 - fAlpha a))
      rw [Nat.mul_comm] at this
      omega
    have hqle : 10 ^ n * 2 ^ fAlpha a ≤ magVal m / 2 ^ (1074 - fAlpha a) :=
      (Nat.le_div_iff_mul_le (Nat.two_pow_pos _)).2 (by rw [← hdvd]; exact h1)
    have hstrict : 10 ^ n * 2 ^ fAlpha a + 1 ≤ magVal m / 2 ^ (1074 - fAlpha a) := by
      rcases Nat.lt_or_eq_of_le hqle with h | h
      · exact h
      · exfalso
        rw [← h, ← hdvd] at hq
        rw [hq] at hlt hge
        have h5 : 10 ^ n * U * 10 ^ a = 10 ^ n * 10 ^ a * U := by ac_rfl
        rw [h5] at hlt hge
        have h6 : 10 ^ n * 10 ^ a + 1 ≤ D := Nat.lt_of_mul_lt_mul_right hlt
        have h7 := Nat.mul_le_mul_right U h6
        rw [Nat.add_mul, Nat.one_mul] at h7
        generalize 10 ^ n * 10 ^ a * U = x at *
        generalize D * U = y at *
        generalize 2 ^ 1064 = w at *
        omega
    have h8 := Nat.mul_le_mul_right (2 ^ (1074 - fAlpha a)) hstrict
    rw [← hq, Nat.add_mul, ← hdvd, Nat.one_mul] at h8
    have h9' : 6 * (10 ^ n * U) ≤ 10 ^ 15 * 2 ^ (1074 - fAlpha a) := by
      rw [hdvd]
      have := Nat.mul_le_mul_right (2 ^ (1074 - fAlpha a)) ht
      rw [Nat.mul_assoc] at this
      exact this
    have e1 : 10 ^ n * (10 ^ 15 + 6) * U = (10 ^ 15 + 6) * (10 ^ n * U) := by ac_rfl
    rw [e1]
    generalize 10 ^ n * U = x at *
    generalize 2 ^ (1074 - fAlpha a) = g at *
    generalize magVal m' = y at *
    omega
  · by_cases hhalf : magVal m * 10 ^ 15 ≤ 10 ^ (n + 1) * (10 ^ 15 - 6) * U
    · exact hhalf
    · exfalso
      have e1 : 10 ^ (n + 1) * (10 ^ 15 - 6) * U = (10 ^ 15 - 6) * (10 * (10 ^ n * U)) := by
        rw [Nat.pow_succ]; ac_rfl
      have h5 : 5 * 10 ^ n * U ≤ magVal m := by
        rw [e1] at hhalf
        rw [Nat.mul_assoc]
        generalize 10 ^ n * U = x at *
        generalize magVal m = y at *
        omega
      have ht := htab.2 (hlogn _ (Nat.mul_ne_zero (by decide) (Nat.pos_iff_ne_zero.1 (Nat.pow_pos (by decide)))) h5)
      -- `D` is below `10^(n+1+a)`
      have e2 : 10 ^ (n + 1) * U * 10 ^ a = 10 ^ (n + 1 + a) * U := by rw [Nat.pow_add _ (n + 1)]; ac_rfl
      have h6 := Nat.mul_lt_mul_of_pos_right h2 hA
      have h6' := Nat.mul_le_mul_right (10 ^ a) hle
      rw [e2] at h6
      have hDlt : D < 10 ^ (n + 1 + a) := by
        rcases Nat.lt_or_ge D (10 ^ (n + 1 + a)) with h | h
        · exact h
        · exfalso
          have h7 : roundMag (10 ^ (n + 1) * U) 1 ≤ m := by
            rw [hm]
            refine roundMag_mono_cross (by decide) hA ?_
            rw [Nat.mul_one, e2]
            exact Nat.mul_le_mul_right _ h
          have h8 := magVal_mono h7
          rw [(p10_exact (i := n + 1) (by omega)).2.1] at h8
          omega
      have hpow : 10 ^ (n + 1 + a) ≤ 10 ^ 14 := Nat.pow_le_pow_right (by decide) ht
      have hr := hround.2
      -- half a unit in the last place
      have hulp := half_ulp hP (e := m / 2 ^ 52 - 1) (by omega) hGU
      have h10 := Nat.mul_le_mul_right U (show D + 1 ≤ 10 ^ (n + 1 + a) from hDlt)
      rw [Nat.add_mul, Nat.one_mul] at h10
      have h11 : magVal m * 10 ^ a * 10 ^ 15 ≤ 10 ^ (n + 1 + a) * U * (10 ^ 15 - 6) := by
        exact zone_upper (Nat.mul_le_mul_right U hpow) hulp h10 hr
      apply hhalf
      refine Nat.le_of_mul_le_mul_right (c := 10 ^ a) ?_ hA
      calc magVal m * 10 ^ 15 * 10 ^ a = magVal m * 10 ^ a * 10 ^ 15 := by ac_rfl
        _ ≤ 10 ^ (n + 1 + a) * U * (10 ^ 15 - 6) := h11
        _ = 10 ^ (n + 1) * U * 10 ^ a * (10 ^ 15 - 6) := by rw [e2]
        _ = 10 ^ (n + 1) * (10 ^ 15 - 6) * U * 10 ^ a := by ac_rfl

/-! ## From `1e9` to `2^48` -/

theorem mid_start {m n k : Nat} {last : Int} (hl : LastOk last) (h9 : 9 ≤ n) (hn : n ≤ 14) (hk1 : n - 1 ≤ k)
    (hk2 : k ≤ n + 1) (h2 : magVal m < 10 ^ (n + 1) * U)
    (hge : 10 ^ n * (10 ^ 15 + 6) * U ≤ magVal m * 10 ^ 15 → n ≤ k) :
    ∃ i : Nat, sigStart k last = i ∧ 1 ≤ i ∧ i ≤ 22 ∧ magVal m * 10 ^ i < 2 ^ 58 * U := by
  have hst : 1 ≤ sigStart k last ∧ sigStart k last ≤ 16 - k := by
    unfold sigStart
    unfold LastOk i32Max at *
    split
    · omega
    · split
      · omega
      · split <;> omega
  refine ⟨(sigStart k last).toNat, by omega, by omega, by omega, ?_⟩
  have hle : (sigStart k last).toNat ≤ 16 - k := by omega
  refine Nat.lt_of_le_of_lt (Nat.mul_le_mul_left _ (Nat.pow_le_pow_right (by decide) hle)) ?_
  have hU := U_pos
  rcases Nat.lt_or_ge k n with hc | hc
  · have hlt : magVal m < 2 * (10 ^ n * U) := by
      rcases Nat.lt_or_ge (magVal m * 10 ^ 15) (10 ^ n * (10 ^ 15 + 6) * U) with h | h
      · have e1 : 10 ^ n * (10 ^ 15 + 6) * U = (10 ^ 15 + 6) * (10 ^ n * U) := by ac_rfl
        rw [e1] at h
        generalize 10 ^ n * U = x at *
        omega
      · have := hge h; omega
    have h3 := Nat.mul_lt_mul_of_pos_right hlt (Nat.pow_pos (n := 16 - k) (by decide : 0 < 10))
    refine Nat.lt_of_lt_of_le h3 ?_
    have e2 : 2 * (10 ^ n * U) * 10 ^ (16 - k) = 2 * 10 ^ 17 * U := by
      have : (10 : Nat) ^ 17 = 10 ^ n * 10 ^ (16 - k) := by rw [← Nat.pow_add]; congr 1; omega
      rw [this]; ac_rfl
    rw [e2]
    exact Nat.mul_le_mul_right _ (by decide)
  · have h3 := Nat.mul_lt_mul_of_pos_right h2 (Nat.pow_pos (n := 16 - k) (by decide : 0 < 10))
    refine Nat.lt_of_lt_of_le h3 ?_
    have e2 : 10 ^ (n + 1) * U * 10 ^ (16 - k) = 10 ^ (n + 1) * 10 ^ (16 - k) * U := by ac_rfl
    rw [e2, ← Nat.pow_add]
    refine Nat.mul_le_mul_right _ (Nat.le_trans (Nat.pow_le_pow_right (by decide) (show n + 1 + (16 - k) ≤ 17 by omega)) (by decide))

theorem mid_table {n k : Nat} (h9 : 9 ≤ n) (hn : n ≤ 14) (hk1 : n - 1 ≤ k) (hk2 : k ≤ n + 1) :
    48 ≤ fAlpha (16 - k) + Nat.log2 (10 ^ n) := by
  have : ∀ (n : Fin 6) (d : Fin 3), 48 ≤ fAlpha (16 - (n.1 + 9 - 1 + d.1)) + Nat.log2 (10 ^ (n.1 + 9)) := by decide +kernel
  have := this ⟨n - 9, by omega⟩ ⟨k - (n - 1), by omega⟩
  simp only [Nat.sub_add_cancel h9] at this
  rwa [show n - 1 + (k - (n - 1)) = k by omega] at this

theorem fAlpha_big {a : Nat} (h1 : 20 < a) (h2 : a ≤ 500) : 67 ≤ fAlpha a ∧ fAlpha a ≤ 4000 := by
  have : ∀ a : Fin 480, 67 ≤ fAlpha (a.1 + 21) ∧ fAlpha (a.1 + 21) ≤ 4000 := by decide +kernel
  have := this ⟨a - 21, by omega⟩
  simp only [Nat.sub_add_cancel (show 21 ≤ a by omega)] at this
  exact this

theorem eraseBits_small {a e : Nat} (h1 : 1023 ≤ fAlpha a + e) (h2 : fAlpha a ≤ 4000) (h3 : e < 2048) :
    eraseBits a e = 1075 - (fAlpha a : Int) - (e : Int) := by
  unfold eraseBits
  generalize fAlpha a = F at *
  have h4 : (F + e + (2 ^ 32 - 1023)) % 2 ^ 32 = F + e - 1023 := by omega
  rw [h4, asI32_small (by omega)]
  omega

/-- Nothing is erased if at most four bits could be. -/
theorem plan_raw (lg : B64 → B64) (last : Int) {v : B64} (h0 : mag v ≠ 0) (hfin : mag v < 0x7ff0000000000000)
    (h : eraseBits (alphaBetaStar lg v last).1 (mag v / 2 ^ 52) ≤ 4) : plan lg last v = .raw v := by
  rw [plan_finite lg last h0 hfin]
  rw [if_neg (c := 4 < eraseBits _ _) (by omega)]
  split <;> rfl

theorem mid_exp {m n : Nat} (h1 : 10 ^ n * U ≤ magVal m) (hE : 1 ≤ m / 2 ^ 52) :
    Nat.log2 (10 ^ n) + 1023 ≤ m / 2 ^ 52 := by
  refine exp_lower hE (Nat.le_trans (Nat.mul_le_mul_right _ (Nat.log2_self_le ?_)) h1)
  exact Nat.pos_iff_ne_zero.1 (Nat.pow_pos (by decide))

theorem mid_mag {m : Nat} (h1 : 10 ^ 9 * U ≤ magVal m) : 0x41cdcd6500000000 ≤ m := by
  rcases Nat.lt_or_ge m 0x41cdcd6500000000 with h | h
  · have := magVal_lt h
    rw [← limits.2, (p10_exact (i := 9) (by decide)).2.1] at this
    omega
  · exact h

/-- What is left to show when the shift is the intended one. -/
theorem good_erase (lg : B64 → B64) (last : Int) {v : B64} {a : Nat} {bs : Int} (h0 : mag v ≠ 0)
    (hfin : mag v < 0x7ff0000000000000) (hab : alphaBetaStar lg v last = (a, bs))
    (hc : 1023 ≤ fAlpha a + mag v / 2 ^ 52) (hF : fAlpha a ≤ 67)
    (h : fAlpha a + mag v / 2 ^ 52 + 4 < 1075 → mag v % 2 ^ (1075 - fAlpha a - mag v / 2 ^ 52) ≠ 0 → bs < 16 →
      Good lg (· ≠ nanBits) v (.erase bs (mk (sgn v) (mag v - mag v % 2 ^ (1075 - fAlpha a - mag v / 2 ^ 52))))) :
    Good lg (· ≠ nanBits) v (plan lg last v) := by
  have hv : mk (sgn v) (mag v) = v := mk_sgn_mag v
  have hraw : v ≠ nanBits := by rw [← hv]; exact ne_nan_of_fin hfin
  have hEb : mag v / 2 ^ 52 < 2048 := by omega
  rw [plan_finite lg last h0 hfin, hab]
  simp only
  rw [eraseBits_eq hc hF hEb]
  by_cases hb : bs < 16
  · rw [if_pos hb]
    by_cases h4 : (4 : Int) < 1075 - (fAlpha a : Int) - (mag v / 2 ^ 52 : Nat)
    · rw [if_pos h4]
      have hk : ((1075 - (fAlpha a : Int) - (mag v / 2 ^ 52 : Nat)) % 64).toNat
          = 1075 - fAlpha a - mag v / 2 ^ 52 := by omega
      rw [hk]
      obtain ⟨q1, q2⟩ := mask_mk (s := sgn v) (m := mag v) (k := 1075 - fAlpha a - mag v / 2 ^ 52)
        (by omega) (by omega)
      rw [hv] at q1 q2
      by_cases hne : mag v % 2 ^ (1075 - fAlpha a - mag v / 2 ^ 52) ≠ 0
      · rw [if_pos (q2.2 hne), q1]
        exact h (by omega) hne hb
      · rw [if_neg (fun hc => hne (q2.1 hc))]
        exact ⟨rfl, hraw⟩
    · rw [if_neg h4]
      exact ⟨rfl, hraw⟩
  · rw [if_neg hb]
    exact ⟨rfl, hraw⟩

/-- The decimal exponent between `1e9` and `2^48`. -/
theorem mid_decade {V : Nat} (h9 : 10 ^ 9 * U ≤ V) (h48 : V < 2 ^ 48 * U) :
    ∃ n, 9 ≤ n ∧ n ≤ 14 ∧ 10 ^ n * U ≤ V ∧ V < 10 ^ (n + 1) * U := by
  have hU := U_pos
  obtain ⟨n, hn, h1, h2⟩ := exists_above (V := V)
    (Nat.le_trans (Nat.le_mul_of_pos_left _ (by decide)) h9) 14
    (Nat.lt_trans h48 (Nat.mul_lt_mul_of_pos_right (by decide) hU))
  refine ⟨n, ?_, hn, h1, h2⟩
  rcases Nat.lt_or_ge n 9 with h | h
  · have : 10 ^ (n + 1) * U ≤ 10 ^ 9 * U := Nat.mul_le_mul_right _ (Nat.pow_le_pow_right (by decide) (by omega))
    omega
  · exact h

theorem mid_erased {lg : B64 → B64} (hlg : Log10Close lg) {s : Bool} {m n k a D : Nat} {flag : Bool}
    (hfin : m < 0x7ff0000000000000) (h9 : 9 ≤ n) (hn : n ≤ 14)
    (h1 : 10 ^ n * U ≤ magVal m) (h2 : magVal m < 10 ^ (n + 1) * U) (ha : a ≤ 20)
    (hE : 1 ≤ m / 2 ^ 52) (hm : m = roundMag (D * U) (10 ^ a)) (her : fAlpha a + m / 2 ^ 52 + 4 < 1075)
    (hne : m % 2 ^ (1075 - fAlpha a - m / 2 ^ 52) ≠ 0)
    (hge : 10 ^ n * (10 ^ 15 + 6) * U ≤ magVal m * 10 ^ 15 → n ≤ k)
    (hle : magVal m * 10 ^ 15 ≤ 10 ^ (n + 1) * (10 ^ 15 - 6) * U → k ≤ n)
    (hfl : 10 ^ n * (10 ^ 15 + 6) * U ≤ magVal m * 10 ^ 15 → magVal m * 10 ^ 15 ≤ 10 ^ (n + 1) * (10 ^ 15 - 6) * U →
      flag = false) :
    flag = false ∧ recover lg ((k : Int) + a + 1) (mk s (m - m % 2 ^ (1075 - fAlpha a - m / 2 ^ 52))) = mk s m := by
  obtain ⟨z1, z2⟩ := zone hfin h9 hn h1 h2 ha hE hm her hne
  have hpos : 0 < m := by
    rcases Nat.eq_zero_or_pos m with h | h
    · subst h; omega
    · exact h
  obtain ⟨-, hD, -, hlt, hge', -⟩ := (erase_core ha (by rw [U_eq]; exact hm) hfin hE hpos).2 her hne
  rw [U_eq] at hlt hge'
  have hlem : m - m % 2 ^ (1075 - fAlpha a - m / 2 ^ 52) ≤ m := Nat.sub_le _ _
  generalize m - m % 2 ^ (1075 - fAlpha a - m / 2 ^ 52) = m' at *
  have hmv : magVal m' ≤ magVal m := magVal_mono hlem
  have hmv15 := Nat.mul_le_mul_right (10 ^ 15) hmv
  have a1 := Nat.le_trans z1 hmv15
  have hkn : k = n := Nat.le_antisymm (hle z2) (hge a1)
  refine ⟨hfl a1 z2, ?_⟩
  have hn' : 10 ^ n * U ≤ magVal m' := by
    have e1 : 10 ^ n * (10 ^ 15 + 6) * U = 10 ^ n * U * (10 ^ 15 + 6) := by ac_rfl
    rw [e1] at z1
    exact Nat.le_of_mul_le_mul_right (Nat.le_trans (Nat.mul_le_mul_left _ (by decide)) z1) (by decide)
  obtain ⟨k', -, -, hg, -, -, hge2, hle2, -⟩ := big_sp hlg (m := m') (Nat.lt_of_le_of_lt hlem hfin) h9 (by omega) hn'
    (Nat.lt_of_le_of_lt hmv h2)
  have hk' : k' = n := Nat.le_antisymm (hle2 (Nat.le_trans hmv15 z2)) (hge2 z1)
  subst hkn hk'
  exact recover_eq lg ha (Nat.lt_of_le_of_lt hlem hfin) hm hD hlt hge' hg (by omega)

theorem mid_alpha {k a : Nat} (ha : a ≤ 22) : asU32 ((k : Int) + (a : Int) + 1 - k - 1) = a := by
  rw [show (k : Int) + (a : Int) + 1 - k - 1 = (a : Int) by omega, asU32_nat (by omega)]

theorem mid_alpha17 {k : Nat} (h : k ≤ 16) : asU32 ((17 : Int) - k - 1) = 16 - k := by
  rw [show (17 : Int) - k - 1 = ((16 - k : Nat) : Int) by omega, asU32_nat (by omega)]

theorem eraseBits_le {a e : Nat} (h1 : 1071 ≤ fAlpha a + e) (h2 : fAlpha a ≤ 4000) (h3 : e < 2048) :
    eraseBits a e ≤ 4 := by
  rw [eraseBits_small (by omega) h2 h3]
  omega

theorem fAlpha_le {a : Nat} (h : a ≤ 500) : fAlpha a ≤ 4000 := by
  rcases Nat.lt_or_ge 20 a with h1 | h1
  · exact (fAlpha_big h1 h).2
  · have := (fTable_le h1).1
    omega

theorem carries_mid {lg : B64 → B64} (hlg : Log10Close lg) {v : B64} (h9 : 10 ^ 9 * U ≤ magVal (mag v))
    (h48 : magVal (mag v) < 2 ^ 48 * U) (hfin : mag v < 0x7ff0000000000000) : Carries lg (· ≠ nanBits) v := by
  intro last hl
  have hm9 := mid_mag h9
  obtain ⟨n, hn9, hn, h1, h2⟩ := mid_decade h9 h48
  clear h9 h48
  have hv : mk (sgn v) (mag v) = v := mk_sgn_mag v
  have h0 : mag v ≠ 0 := by omega
  have hE : 1 ≤ mag v / 2 ^ 52 := by omega
  have hEb : mag v / 2 ^ 52 < 2048 := by omega
  have hlo : 0x3eb0c6f7a0b5ed8d ≤ mag v := by omega
  have hEn := mid_exp h1 hE
  have habs : abs v = mk false (mag v) := rfl
  have hraw : v ≠ nanBits := by rw [← hv]; exact ne_nan_of_fin hfin
  obtain ⟨k, flag, hsf, -, hk1, hk2, hge, hle, hfl⟩ := big_sp hlg hfin hn9 (Nat.le_trans hn (by decide)) h1 h2
  have hab := alphaBetaStar_eq lg v last (habs ▸ hsf)
  rw [habs] at hab
  obtain ⟨i, hi, hi1, hi2, hib⟩ := mid_start hl hn9 hn hk1 hk2 h2 hge
  have hspec := sigCount_core (sp := k) (last := last) hfin hlo hi hi1 hi2 hib
  clear hib
  have htab := mid_table hn9 hn hk1 hk2
  have hk16 : k ≤ 16 := Nat.le_trans hk2 (by omega)
  generalize sigCount (mk false (mag v)) k last = cnt at *
  rcases hspec with h17 | ⟨a, D, hcnt, ha, hm⟩
  · rw [h17, mid_alpha17 hk16] at hab
    rw [plan_raw lg last h0 hfin]
    · exact ⟨rfl, hraw⟩
    · rw [hab]
      refine eraseBits_le ?_ (fAlpha_le (Nat.le_trans (Nat.sub_le _ _) (by decide))) hEb
      have : 48 + 1023 ≤ fAlpha (16 - k) + Nat.log2 (10 ^ n) + 1023 := Nat.add_le_add_right htab _
      refine Nat.le_trans this ?_
      rw [Nat.add_assoc]
      exact Nat.add_le_add_left hEn _
  · rw [hcnt, mid_alpha ha] at hab
    by_cases ha20 : a ≤ 20
    · refine good_erase lg last h0 hfin hab
        (erase_core ha20 (by rw [U_eq]; exact hm) hfin hE (Nat.pos_of_ne_zero h0)).1 (fTable_le ha20).1 fun her hne hb => ?_
      obtain ⟨e1, e2⟩ := mid_erased hlg (s := sgn v) (k := k) (flag := flag) hfin hn9 hn h1 h2 ha20 hE hm her hne hge hle hfl
      rw [e1, if_neg Bool.false_ne_true] at hb ⊢
      refine ⟨Int.le_add_one (Int.add_nonneg (Int.natCast_nonneg k) (Int.natCast_nonneg a)), hb, ne_nan_of_fin (Nat.lt_of_le_of_lt (Nat.sub_le _ _) hfin), ?_⟩
      rw [e2, hv]
    · rw [plan_raw lg last h0 hfin]
      · exact ⟨rfl, hraw⟩
      · rw [hab]
        have hb := fAlpha_big (Nat.lt_of_not_le ha20) (Nat.le_trans ha (by decide))
        refine eraseBits_le ?_ hb.2 hEb
        have : 1023 ≤ mag v / 2 ^ 52 := Nat.le_trans (Nat.le_add_left _ _) hEn
        exact Nat.le_trans (by decide : 1071 ≤ 67 + 1023) (Nat.add_le_add hb.1 this)

/-! ## From `2^48` on nothing is erased -/

theorem mul_inf {m : Nat} (h0 : m ≠ 0) (hfin : m < 0x7ff0000000000000) : mul (mk false m) posInf = posInf := by
  have g1 : mag (mk false m) = m := mag_mk _ (by omega)
  have g2 : sgn (mk false m) = false := sgn_mk _ (by omega)
  have e1 : isNaN posInf = false := by decide
  have e2 : isInf posInf = true := by decide
  have e3 : mag posInf ≠ 0 := by decide
  have e4 : sgn posInf = false := by decide
  unfold mul
  rw [isNaN_mk (by omega), e1, e2, g1, g2, e4]
  simp only [Bool.or_true, Bool.or_self, if_true, Bool.false_eq_true, if_false, decide_eq_false h0, decide_eq_false e3]
  decide

theorem p10_neg {i : Int} (h : i < 0) (h2 : -1000 ≤ i) : p10 (asU32 i) = posInf := by
  unfold p10 asU32
  rw [if_pos (by omega)]

theorem loop_inf : feq (ofInt (toI64 posInf).toInt) posInf = false := by decide +kernel

theorem sigLoop_bounds {m : Nat} (h0 : m ≠ 0) (hfin : m < 0x7ff0000000000000) :
    ∀ (fuel : Nat) (i j : Int), -1000 ≤ i → sigLoop (mk false m) fuel i = some j → 0 ≤ j ∧ j < i + fuel := by
  intro fuel
  induction fuel with
  | zero => intro i j _ h; cases h
  | succ fuel ih =>
    intro i j hi h
    unfold sigLoop at h
    simp only at h
    rcases Int.lt_or_le i 0 with hc | hc
    · rw [p10_neg hc hi, mul_inf h0 hfin, loop_inf, if_neg Bool.false_ne_true] at h
      split at h
      · cases h
      · have := ih (i + 1) j (by omega) h
        omega
    · split at h
      · cases h
        omega
      · split at h
        · cases h
        · have := ih (i + 1) j (by omega) h
          omega

theorem sigStrip_bounds : ∀ (fuel : Nat) (i t : Int), 0 ≤ i → 0 ≤ sigStrip fuel i t ∧ sigStrip fuel i t ≤ i := by
  intro fuel
  induction fuel with
  | zero => intro i t h; exact ⟨h, Int.le_refl _⟩
  | succ fuel ih =>
    intro i t h
    unfold sigStrip
    split
    · have := ih (i - 1) (t.tdiv 10) (by omega)
      omega
    · exact ⟨h, Int.le_refl _⟩

theorem sigCount_bounds {m k : Nat} {last : Int} (hl : LastOk last) (hk : k ≤ 400) (h0 : m ≠ 0)
    (hfin : m < 0x7ff0000000000000) :
    sigCount (mk false m) k last = 17 ∨ ∃ a : Nat, a ≤ 500 ∧ sigCount (mk false m) k last = (k : Int) + a + 1 := by
  have hst : -1000 ≤ sigStart k last ∧ sigStart k last ≤ 16 := by
    unfold sigStart
    unfold LastOk i32Max at *
    split
    · omega
    · split
      · omega
      · split <;> omega
  unfold sigCount
  have hb := fun j => sigLoop_bounds h0 hfin 400 (sigStart k last) j hst.1
  generalize sigLoop (mk false m) 400 (sigStart k last) = r at *
  cases r with
  | none => left; rfl
  | some j =>
    have hj := hb j rfl
    unfold sigFinish
    simp only
    split
    · right
      have h3 := sigStrip_bounds j.toNat j (toI64 (mul (mk false m) (p10 (asU32 j)))).toInt hj.1
      generalize sigStrip j.toNat j (toI64 (mul (mk false m) (p10 (asU32 j)))).toInt = t at *
      exact ⟨t.toNat, by omega, by omega⟩
    · left; rfl

/-- `beta - sp - 1` wraps around for values above `10^17`; the cast of the product saturates. -/
theorem fAlpha_wrapped {c : Nat} (h1 : 1 ≤ c) (h2 : c ≤ 400) : fAlpha (2 ^ 32 - c) = 2 ^ 32 - 1 := by
  have : ∀ c : Fin 400, fAlpha (2 ^ 32 - (c.1 + 1)) = 2 ^ 32 - 1 := by decide +kernel
  have := this ⟨c - 1, by omega⟩
  simp only [Nat.sub_add_cancel h1] at this
  exact this

theorem eraseBits_wrapped {c e : Nat} (h1 : 1 ≤ c) (h2 : c ≤ 400) (h3 : e < 2048) (h4 : 1072 ≤ e) :
    eraseBits (2 ^ 32 - c) e ≤ 4 := by
  unfold eraseBits
  rw [fAlpha_wrapped h1 h2]
  have h5 : (2 ^ 32 - 1 + e + (2 ^ 32 - 1023)) % 2 ^ 32 = e - 1024 := by omega
  rw [h5, asI32_small (by omega)]
  omega

theorem top_decade {V : Nat} (h48 : 2 ^ 48 * U ≤ V) (h : V < 2 ^ 1025 * U) :
    ∃ n, 9 ≤ n ∧ n ≤ 310 ∧ 10 ^ n * U ≤ V ∧ V < 10 ^ (n + 1) * U := by
  have hU := U_pos
  obtain ⟨n, hn, h1, h2⟩ := exists_above (V := V)
    (Nat.le_trans (Nat.le_mul_of_pos_left _ (by decide)) h48) 310
    (Nat.lt_trans h (Nat.mul_lt_mul_of_pos_right (by decide +kernel) hU))
  refine ⟨n, ?_, hn, h1, h2⟩
  rcases Nat.lt_or_ge n 9 with h | h
  · have h3 : 10 ^ (n + 1) * U ≤ 10 ^ 9 * U := Nat.mul_le_mul_right _ (Nat.pow_le_pow_right (by decide) (by omega))
    have h4 : 10 ^ 9 * U ≤ 2 ^ 48 * U := Nat.mul_le_mul_right _ (by decide)
    exact absurd (Nat.lt_of_lt_of_le h2 (Nat.le_trans h3 (Nat.le_trans h4 h48))) (Nat.lt_irrefl _)
  · exact h

theorem top_alpha {k n e : Nat} {b : Int} (hk : k ≤ n + 1) (hn : n ≤ 310) (he : 1071 ≤ e) (hn2 : 16 ≤ n → 1072 ≤ e)
    (he2 : e < 2048) (hb : b = 17 ∨ ∃ a : Nat, a ≤ 500 ∧ b = (k : Int) + a + 1) :
    eraseBits (asU32 (b - k - 1)) e ≤ 4 := by
  rcases hb with rfl | ⟨a, ha, rfl⟩
  · rcases Nat.lt_or_ge 16 k with h | h
    · have : asU32 ((17 : Int) - k - 1) = 2 ^ 32 - (k - 16) := by unfold asU32; omega
      rw [this]
      exact eraseBits_wrapped (by omega) (by omega) he2 (hn2 (by omega))
    · rw [mid_alpha17 h]
      exact eraseBits_le (Nat.le_trans he (Nat.le_add_left _ _)) (fAlpha_le (by omega)) he2
  · have : asU32 ((k : Int) + (a : Int) + 1 - k - 1) = a := by
      rw [show (k : Int) + (a : Int) + 1 - k - 1 = (a : Int) by omega, asU32_nat (by omega)]
    rw [this]
    exact eraseBits_le (Nat.le_trans he (Nat.le_add_left _ _)) (fAlpha_le ha) he2

theorem mag_top {m : Nat} (h : m < 0x7ff0000000000000) : magVal m < 2 ^ 1025 * U := by
  have h1 := magVal_mono (Nat.le_of_lt h)
  have h2 : magVal 0x7ff0000000000000 < 2 ^ 1025 * 2 ^ 1074 := by
    unfold magVal
    decide +kernel
  rw [U_eq] at h2
  exact Nat.lt_of_le_of_lt h1 h2

theorem carries_top {lg : B64 → B64} (hlg : Log10Close lg) {v : B64} (h48 : 2 ^ 48 * U ≤ magVal (mag v))
    (hfin : mag v < 0x7ff0000000000000) : Carries lg (· ≠ nanBits) v := by
  intro last hl
  have hm9 := mid_mag (Nat.le_trans (Nat.mul_le_mul_right _ (by decide)) h48)
  have h0 : mag v ≠ 0 := by omega
  have hE : 1 ≤ mag v / 2 ^ 52 := by omega
  have hEb : mag v / 2 ^ 52 < 2048 := by omega
  obtain ⟨n, hn9, hn, h1, h2⟩ := top_decade h48 (mag_top hfin)
  have hE48 : 48 + 1023 ≤ mag v / 2 ^ 52 := exp_lower hE h48
  have hE49 : 16 ≤ n → 49 + 1023 ≤ mag v / 2 ^ 52 := fun h => exp_lower hE (Nat.le_trans
    (Nat.mul_le_mul_right _ (Nat.le_trans (by decide : 2 ^ 49 ≤ 10 ^ 16) (Nat.pow_le_pow_right (by decide) h))) h1)
  have hraw : v ≠ nanBits := by rw [← mk_sgn_mag v]; exact ne_nan_of_fin hfin
  obtain ⟨k, flag, hsf, -, -, hk2, -⟩ := big_sp hlg hfin hn9 (Nat.le_trans hn (by decide)) h1 h2
  have habs : abs v = mk false (mag v) := rfl
  have hab := alphaBetaStar_eq lg v last (habs ▸ hsf)
  rw [habs] at hab
  have hk4 : k ≤ 400 := Nat.le_trans hk2 (Nat.le_trans (Nat.succ_le_succ hn) (by decide))
  rw [plan_raw lg last h0 hfin]
  · exact ⟨rfl, hraw⟩
  · rw [hab]
    exact top_alpha hk2 hn hE48 hE49 hEb (sigCount_bounds hl hk4 h0 hfin)

/-- Everything from `1e9` on. -/
theorem carries_large {lg : B64 → B64} (hlg : Log10Close lg) {v : B64} (h : 0x41cdcd6500000000 ≤ mag v)
    (hfin : mag v < 0x7ff0000000000000) : Carries lg (· ≠ nanBits) v := by
  have h9 : 10 ^ 9 * U ≤ magVal (mag v) := by
    have := magVal_mono h
    rwa [← limits.2, (p10_exact (i := 9) (by decide)).2.1] at this
  rcases Nat.lt_or_ge (magVal (mag v)) (2 ^ 48 * U) with h48 | h48
  · exact carries_mid hlg h9 h48 hfin
  · exact carries_top hlg h48 hfin

end Ebi.Elf
