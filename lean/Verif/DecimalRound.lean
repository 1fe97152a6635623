import Verif.ElfSig
import Verif.SoftDiv

/-!
# Quantising the double nearest to `M / S`

`round(v * S)` is `M` when `v` is the double nearest to `M / S`, and `M / S` computed in doubles is `v` again.
-/

namespace Ebi.Decimal

open Ebi Ebi.Soft Ebi.Elf

attribute [local irreducible] roundMag magVal U

/-- `S` as a double is exactly `S`. -/
structure ExactInt (S : Nat) : Prop where
  val : magVal (roundMag (S * U) 1) = S * U
  fin : roundMag (S * U) 1 < 0x7ff0000000000000
  pos : 0 < S

theorem exactInt_lt {S : Nat} (h0 : 0 < S) (h : S < 2 ^ 53) : ExactInt S := by
  have := exact_U (s := 0) h (by decide)
  rw [Nat.pow_zero, Nat.mul_one] at this
  exact ⟨this.1, this.2, h0⟩

theorem exactInt_pow10 {p : Nat} (h : p ≤ 22) : ExactInt (10 ^ p) :=
  ⟨(p10_exact h).2.1, (p10_exact h).2.2.1, Nat.pow_pos (by decide)⟩

theorem ExactInt.mag_ne {S : Nat} (h : ExactInt S) : roundMag (S * U) 1 ≠ 0 := by
  intro h0
  have h1 := h.val
  rw [h0, magVal_zero] at h1
  have : 0 < S * U := Nat.mul_pos h.pos U_pos
  omega

/-- Magnitude pattern of the double nearest to `M / S`. -/
def near (M S : Nat) : Nat := roundMag (M * U) S

theorem near_fin {M S : Nat} (hS : 0 < S) (hM : M < 2 ^ 53) : near M S < 0x7ff0000000000000 := by
  have h1 : near M S ≤ roundMag (M * U) 1 := roundMag_mono_cross hS (by decide)
    (Nat.mul_le_mul_left _ hS)
  have h2 := (exact_U (s := 0) hM (by decide)).2
  rw [Nat.pow_zero, Nat.mul_one] at h2
  omega

/-- A quarter of `1.0`. -/
theorem U_quarter : ∃ W, U = 4 * W ∧ W = 2 ^ 1072 := ⟨2 ^ 1072, by
  rw [← U_eq, show (1074 : Nat) = 2 + 1072 from rfl, Nat.pow_add], rfl⟩

theorem near_mul {M S W : Nat} (hS : 0 < S) (hS' : S ≤ 2 ^ 64) (hM : M < 2 ^ 51) (hW : U = 4 * W)
    (hw : W = 2 ^ 1072) :
    4 * M * W ≤ magVal (near M S) * S + W ∧ magVal (near M S) * S ≤ 4 * M * W + W := by
  obtain ⟨e, q, h1, h2, h3, h4, -, -⟩ := roundMag_spec (n := M * U) (d := S) hS (near_fin hS (by omega))
  have hT : S * 2 ^ e ≤ 2 * W := by
    rcases h4 with rfl | ⟨h4, -⟩
    · have : 2 ^ 64 ≤ W := by rw [hw]; exact Nat.pow_le_pow_right (by decide) (by decide)
      clear hw
      rw [Nat.pow_zero, Nat.mul_one]
      omega
    · have h5 : M * U ≤ 2 ^ 51 * U := Nat.mul_le_mul_right _ (by omega)
      rw [Nat.pow_add, Nat.mul_assoc, Nat.mul_comm (2 ^ e)] at h4
      generalize S * 2 ^ e = T at *
      generalize M * U = X at *
      rw [hW] at h5
      clear hw
      omega
  have hV : magVal (near M S) * S = q * (S * 2 ^ e) := by
    unfold near
    rw [h1, Nat.mul_assoc, Nat.mul_comm (2 ^ e)]
  rw [hV]
  have e1 : (2 * q + 1) * (S * 2 ^ e) = 2 * (q * (S * 2 ^ e)) + S * 2 ^ e := by
    rw [Nat.add_mul, Nat.mul_assoc, Nat.one_mul]
  have e2 : 2 * q * (S * 2 ^ e) = 2 * (q * (S * 2 ^ e)) := Nat.mul_assoc ..
  rw [e1] at h2
  rw [e2] at h3
  have e3 : 4 * M * W = M * U := by rw [hW, Nat.mul_comm 4 M, Nat.mul_assoc]
  rw [e3]
  generalize q * (S * 2 ^ e) = Q at *
  generalize S * 2 ^ e = T at *
  generalize M * U = X at *
  clear hw hW e1 e2 e3 hV h1
  omega

/-- The product rounds to within half of `M`. -/
theorem near_mul_round {M S : Nat} (hS : 0 < S) (hS' : S ≤ 2 ^ 64) (hM : M < 2 ^ 51) :
    roundMag (magVal (near M S) * S) 1 < 0x7ff0000000000000 ∧
      (magVal (roundMag (magVal (near M S) * S) 1) + 2 ^ 1073) / U = M := by
  obtain ⟨W, hW, hw⟩ := U_quarter
  obtain ⟨h1, h2⟩ := near_mul hS hS' hM hW hw
  have ex : ∀ A, A < 2 ^ 53 → magVal (roundMag (A * W) 1) = A * W ∧ roundMag (A * W) 1 < 0x7ff0000000000000 := by
    intro A hA
    rw [hw]
    refine Buff.roundMag_exact hA (Nat.lt_of_lt_of_le (Nat.mul_lt_mul_of_pos_right hA (Nat.two_pow_pos _)) ?_)
    rw [← Nat.pow_add]
    exact Nat.pow_le_pow_right (by decide) (by decide)
  obtain ⟨u1, u2⟩ := ex (4 * M + 1) (by omega)
  have hup : roundMag (magVal (near M S) * S) 1 ≤ roundMag ((4 * M + 1) * W) 1 :=
    roundMag_mono (by rw [Nat.add_mul, Nat.one_mul]; exact h2)
  have hupv := magVal_mono hup
  rw [u1, Nat.add_mul, Nat.one_mul] at hupv
  have hlo : 4 * M * W ≤ magVal (roundMag (magVal (near M S) * S) 1) + W := by
    by_cases h0 : M = 0
    · subst h0; simp
    · obtain ⟨l1, -⟩ := ex (4 * M - 1) (by omega)
      have e1 : (4 * M - 1) * W + W = 4 * M * W := by
        rw [← Nat.succ_mul]
        congr 1
        omega
      have hl : roundMag ((4 * M - 1) * W) 1 ≤ roundMag (magVal (near M S) * S) 1 :=
        roundMag_mono (by omega)
      have := magVal_mono hl
      rw [l1] at this
      omega
  refine ⟨by omega, ?_⟩
  have h1073 : (2 : Nat) ^ 1073 = 2 * W := by
    rw [hw, show (1073 : Nat) = 1 + 1072 from rfl, Nat.pow_add]
  have hWpos : 0 < W := by rw [hw]; exact Nat.two_pow_pos _
  rw [h1073]
  have e2 : 4 * M * W = M * U := by rw [hW, Nat.mul_comm 4 M, Nat.mul_assoc]
  rw [e2] at hlo hupv
  have e3 : (M + 1) * U = M * U + U := by rw [Nat.add_mul, Nat.one_mul]
  clear hw h1073 ex
  apply Nat.div_eq_of_lt_le
  · generalize magVal (roundMag (magVal (near M S) * S) 1) = R at *
    generalize M * U = X at *
    omega
  · rw [e3]
    generalize magVal (roundMag (magVal (near M S) * S) 1) = R at *
    generalize M * U = X at *
    omega

/-- Nearest double, with sign. -/
def nearest (s : Bool) (M S : Nat) : B64 := mk s (near M S)

theorem nearest_mul {s : Bool} {M S : Nat} (hS : ExactInt S) (hS' : S ≤ 2 ^ 64) (hM : M < 2 ^ 51) :
    mul (nearest s M S) (ofInt (S : Int)) = mk s (roundMag (magVal (near M S) * S) 1) := by
  unfold nearest
  rw [ofInt_nat, mul_mk (near_fin hS.pos (by omega)) hS.fin, hS.val]
  have := Buff.roundMag_scale (magVal (near M S) * S) 1 (k := U) U_pos
  rw [Nat.one_mul, Nat.mul_assoc] at this
  rw [this]
  cases s <;> rfl

/-- The signed integer. -/
def signed (s : Bool) (M : Nat) : Int := if s then -(M : Int) else M

theorem round_mk {s : Bool} {r M : Nat} (hr : r < 0x7ff0000000000000) (h : (magVal r + 2 ^ 1073) / U = M) :
    Soft.round (mk s r) = mk s (roundMag (M * U) 1) := by
  have g1 : mag (mk s r) = r := mag_mk _ (by omega)
  have g2 : sgn (mk s r) = s := sgn_mk _ (by omega)
  unfold Soft.round isFinite absVal rnd
  rw [g1, g2, U_eq, h, decide_eq_true hr, if_pos rfl]

theorem round_toI64 {s : Bool} {r M : Nat} (hr : r < 0x7ff0000000000000)
    (h : (magVal r + 2 ^ 1073) / U = M) (hM : M < 2 ^ 53) :
    toI64 (Soft.round (mk s r)) = BitVec.ofInt 64 (signed s M) := by
  have hx := exact_U (s := 0) hM (by decide)
  rw [Nat.pow_zero, Nat.mul_one] at hx
  rw [round_mk hr h]
  obtain ⟨hx1, hx2⟩ := hx
  generalize roundMag (M * U) 1 = t at *
  have g3 : mag (mk s t) = t := mag_mk _ (by omega)
  have g4 : sgn (mk s t) = s := sgn_mk _ (by omega)
  unfold toI64 absVal
  rw [isNaN_mk (Nat.le_of_lt hx2)]
  simp only [g3, g4, U_eq, hx1, Nat.mul_div_cancel _ U_pos, Bool.false_eq_true, if_false]
  unfold signed
  cases s
  · simp only [Bool.false_eq_true, if_false]
    rw [Nat.min_eq_left (by omega), BitVec.ofInt_natCast]
  · simp only [if_true]
    rw [Nat.min_eq_left (by omega)]

/-- Quantising the double nearest to `±M / S` gives `±M`. -/
theorem quantize_nearest {s : Bool} {M S : Nat} (hS : ExactInt S) (hS' : S ≤ 2 ^ 64) (hM : M < 2 ^ 51) :
    toI64 (Soft.round (mul (nearest s M S) (ofInt (S : Int)))) = BitVec.ofInt 64 (signed s M) := by
  rw [nearest_mul hS hS' hM]
  obtain ⟨h1, h2⟩ := near_mul_round hS.pos hS' hM
  exact round_toI64 h1 h2 (by omega)

/-- Dividing the integer by a scale gives the nearest double again (a zero comes back positive). -/
theorem dequantize_nearest {s : Bool} {M S : Nat} (hS : ExactInt S) (hM : M < 2 ^ 53) :
    div (ofInt (BitVec.ofInt 64 (signed s M)).toInt) (ofInt (S : Int)) = nearest (s && M != 0) M S := by
  have e0 : (BitVec.ofInt 64 (signed s M)).toInt = signed s M := by
    rw [BitVec.toInt_ofInt]
    unfold signed
    exact Int.bmod_eq_of_le (by split <;> omega) (by split <;> omega)
  have hx := exact_U (s := 0) hM (by decide)
  rw [Nat.pow_zero, Nat.mul_one] at hx
  have e1 : ofInt (signed s M) = mk (s && M != 0) (roundMag (M * U) 1) := by
    unfold ofInt rnd signed
    rw [U_eq]
    cases s
    · simp only [Bool.false_eq_true, if_false, Int.natAbs_natCast, Bool.false_and]
      congr 1
    · simp only [if_true, Int.natAbs_neg, Int.natAbs_natCast, Bool.true_and]
      congr 1
      by_cases h : M = 0
      · subst h; rfl
      · simp only [bne_iff_ne, ne_eq, h, not_false_eq_true, decide_eq_true_eq, Bool.decide_eq_true, bne, beq_eq_false_iff_ne.2 h, Bool.not_false]
        omega
  rw [e0, e1, ofInt_nat, div_mk hx.2 hS.fin hS.mag_ne, hx.1, hS.val, Buff.roundMag_scale _ _ U_pos, Bool.bne_false]
  rfl

/-- Different numerators have different doubles. -/
theorem near_strict {M M' S : Nat} (hS : 0 < S) (hS' : S ≤ 2 ^ 64) (hM : M < 2 ^ 51) (hM' : M' < 2 ^ 51) :
    near M S < near M' S ↔ M < M' := by
  obtain ⟨W, hW, hw⟩ := U_quarter
  have hWpos : 0 < W := by rw [hw]; exact Nat.two_pow_pos _
  have mono : ∀ A B, A ≤ B → near A S ≤ near B S := fun A B h => roundMag_mono (Nat.mul_le_mul_right _ h)
  constructor
  · intro h
    apply Nat.lt_of_not_le
    intro hc
    have := mono _ _ hc
    omega
  · intro h
    rcases Nat.lt_or_eq_of_le (mono _ _ (Nat.le_of_lt h)) with h1 | h1
    · exact h1
    · exfalso
      have h2 := (near_mul hS hS' hM hW hw).2
      have h3 := (near_mul hS hS' hM' hW hw).1
      rw [h1] at h2
      have h4 : 4 * (M + 1) * W ≤ 4 * M' * W := Nat.mul_le_mul_right _ (by omega)
      rw [Nat.mul_add, Nat.add_mul] at h4
      generalize magVal (near M' S) * S = V at *
      generalize 4 * M * W = X at *
      generalize 4 * M' * W = Y at *
      clear hw hW
      omega

/-- Dividing by less than half the scale gives a different double. -/
theorem near_half {M S S' : Nat} (hS : S ≤ 2 ^ 64) (h0 : 0 < S') (h : 2 * S' ≤ S) (hM : M < 2 ^ 51) (hz : 0 < M) :
    near M S ≠ near M S' := by
  obtain ⟨W, hW, hw⟩ := U_quarter
  have hWpos : 0 < W := by rw [hw]; exact Nat.two_pow_pos _
  intro he
  have h1 := (near_mul (S := S) (by omega) hS hM hW hw).2
  have h2 := (near_mul (S := S') h0 (by omega) hM hW hw).1
  rw [he] at h1
  have h3 : magVal (near M S') * (2 * S') ≤ magVal (near M S') * S := Nat.mul_le_mul_left _ h
  have h4 : 4 * 1 * W ≤ 4 * M * W := Nat.mul_le_mul_right _ (by omega)
  rw [Nat.mul_left_comm] at h3
  generalize magVal (near M S') * S' = V at *
  generalize magVal (near M S') * S = V' at *
  generalize 4 * M * W = X at *
  clear hw hW
  omega

theorem key_nearest {s : Bool} {M S : Nat} : key (nearest s M S) = if s then -(near M S : Int) else near M S := by
  unfold key nearest
  have : near M S ≤ 0x7ff0000000000000 := roundMag_le _ _
  rw [sgn_mk _ (by omega), mag_mk _ (by omega)]

theorem isNaN_nearest {s : Bool} {M S : Nat} : isNaN (nearest s M S) = false := isNaN_mk (roundMag_le _ _)

theorem near_zero {M S : Nat} (hS : 0 < S) (hS' : S ≤ 2 ^ 64) (hM : M < 2 ^ 51) : near M S = 0 ↔ M = 0 := by
  have h0 : near 0 S = 0 := by
    have := roundMag_magVal_mul (m := 0) hS (by decide)
    unfold near
    rw [magVal_zero, Nat.zero_mul] at this
    rw [Nat.zero_mul]
    exact this
  have := near_strict (M := 0) hS hS' (by decide) hM
  rw [h0] at this
  omega

/-- Order of the doubles is the order of the signed numerators. -/
theorem key_lt {s t : Bool} {M N S : Nat} (hS : 0 < S) (hS' : S ≤ 2 ^ 64) (hM : M < 2 ^ 51) (hN : N < 2 ^ 51) :
    key (nearest s M S) < key (nearest t N S) ↔ signed s M < signed t N := by
  have h1 := near_strict hS hS' hM hN
  have h2 := near_strict hS hS' hN hM
  have h3 := near_zero hS hS' hM
  have h4 := near_zero hS hS' hN
  rw [key_nearest, key_nearest]
  unfold signed
  generalize near M S = x at *
  generalize near N S = y at *
  cases s <;> cases t <;> simp only [Bool.false_eq_true, if_true, if_false] <;> omega

/-- `(v * S).round() / S` leaves the double nearest to `±M / S` as it is, sign of zero included. -/
theorem round_div_nearest {s : Bool} {M S : Nat} (hS : ExactInt S) (hS' : S ≤ 2 ^ 64) (hM : M < 2 ^ 51) :
    div (Soft.round (mul (nearest s M S) (ofInt (S : Int)))) (ofInt (S : Int)) = nearest s M S := by
  rw [nearest_mul hS hS' hM]
  obtain ⟨h1, h2⟩ := near_mul_round hS.pos hS' hM
  rw [round_mk h1 h2]
  have hx := exact_U (A := M) (s := 0) (by omega) (by decide)
  rw [Nat.pow_zero, Nat.mul_one] at hx
  rw [ofInt_nat, div_mk hx.2 hS.fin hS.mag_ne, hx.1, hS.val, Buff.roundMag_scale _ _ U_pos, Bool.bne_false]
  rfl

end Ebi.Decimal
