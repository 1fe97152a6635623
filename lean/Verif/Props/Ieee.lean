import Verif.IeeeLemmas
import Verif.DecimalRound
import Verif.Decimal

/-!
# C73: the arithmetic of the model is IEEE-754 double arithmetic

`Soft.ops` is what the sums, distances, products and quantisations of the other theorems are computed with. Values are
integers in units of `2^-1074`.
-/

namespace Ebi.Props

open Ebi Ebi.Soft

attribute [local irreducible] roundMag magVal

/-- `x` is `n / d` rounded to nearest: no double is nearer, and of two that are as near `x` is the one with an even last
bit. From `2^1024 - 2^970` on it is infinite. -/
structure Rounded (x : B64) (n : Int) (d : Nat) : Prop where
  infinite : (2 ^ 54 - 1) * 2 ^ 2044 * d ≤ n.natAbs → x = if n < 0 then negInf else posInf
  finite : n.natAbs < (2 ^ 54 - 1) * 2 ^ 2044 * d → isFinite x = true
  nearest : n.natAbs < (2 ^ 54 - 1) * 2 ^ 2044 * d → ∀ y, isFinite y = true →
    (exactVal x * d - n).natAbs ≤ (exactVal y * d - n).natAbs
  even : n.natAbs < (2 ^ 54 - 1) * 2 ^ 2044 * d → ∀ y, isFinite y = true → exactVal y ≠ exactVal x →
    (exactVal x * d - n).natAbs = (exactVal y * d - n).natAbs → mag x % 2 = 0

/-- Value of a sign-magnitude number. -/
def keyVal (k : Int) : Int := if k < 0 then -(magVal k.natAbs : Int) else magVal k.natAbs

theorem magVal_strict {m n : Nat} (h : m < n) : magVal m < magVal n :=
  Nat.lt_of_lt_of_le (magVal_lt_succ m) (magVal_mono h)

theorem exactVal_keyVal (v : B64) : exactVal v = keyVal (key v) := by
  unfold exactVal keyVal key
  cases sgn v
  · simp only [Bool.false_eq_true, if_false, Int.natAbs_natCast]
    rw [if_neg (by omega)]
  · simp only [if_true, Int.natAbs_neg, Int.natAbs_natCast]
    by_cases h : mag v = 0
    · rw [h, if_neg (by decide), show magVal 0 = 0 by decide +kernel]; rfl
    · rw [if_pos (by omega)]

theorem keyVal_strict {j k : Int} (h : j < k) : keyVal j < keyVal k := by
  have h0 : magVal 0 = 0 := by decide +kernel
  unfold keyVal
  by_cases hj : j < 0
  · rw [if_pos hj]
    have := magVal_strict (show 0 < j.natAbs by omega)
    by_cases hk : k < 0
    · rw [if_pos hk]
      have := magVal_strict (show k.natAbs < j.natAbs by omega)
      omega
    · rw [if_neg hk]; omega
  · rw [if_neg hj, if_neg (by omega)]
    have := magVal_strict (show j.natAbs < k.natAbs by omega)
    omega

theorem key_mag (v : B64) : (key v).natAbs = mag v := by unfold key; split <;> omega

/-- Between two doubles with even last bits there is another. -/
theorem between {x y : B64} (hx : isFinite x = true) (hy : isFinite y = true) (ex : mag x % 2 = 0) (ey : mag y % 2 = 0)
    (h : exactVal x < exactVal y) : ∃ z, isFinite z = true ∧ exactVal x < exactVal z ∧ exactVal z < exactVal y := by
  rw [isFinite_iff] at hx hy
  rw [← key_mag] at hx hy ex ey
  rw [exactVal_keyVal, exactVal_keyVal] at *
  have hk : key x < key y := by
    rcases Int.lt_trichotomy (key x) (key y) with h' | h' | h'
    · exact h'
    · rw [h'] at h; omega
    · have := keyVal_strict h'; omega
  have hm : (key x + 1).natAbs < 0x7ff0000000000000 := by omega
  refine ⟨mk (decide (key x + 1 < 0)) (key x + 1).natAbs, ?_, ?_⟩
  · rw [isFinite_iff, mag_mk _ (by omega)]; exact hm
  · rw [exactVal_mk (by omega)]
    have e : (if decide (key x + 1 < 0) = true then -(magVal (key x + 1).natAbs : Int) else magVal (key x + 1).natAbs) =
        keyVal (key x + 1) := by
      unfold keyVal
      by_cases h : key x + 1 < 0
      · rw [decide_eq_true h, if_pos rfl, if_pos h]
      · rw [decide_eq_false h, if_neg h]; rfl
    rw [e]
    exact ⟨keyVal_strict (by omega), keyVal_strict (by omega)⟩

/-- A double is known from what it is the rounding of, up to the sign of a zero. -/
theorem c73_rounded_unique {x y : B64} {n : Int} {d : Nat} (hx : Rounded x n d) (hy : Rounded y n d) :
    x = y ∨ exactVal x = exactVal y := by
  by_cases h : (2 ^ 54 - 1) * 2 ^ 2044 * d ≤ n.natAbs
  · left; rw [hx.infinite h, hy.infinite h]
  · have h : n.natAbs < (2 ^ 54 - 1) * 2 ^ 2044 * d := Nat.lt_of_not_le h
    have hd : 0 < d := by
      rcases Nat.eq_zero_or_pos d with hd | hd
      · rw [hd, Nat.mul_zero] at h; omega
      · exact hd
    right
    have fx := hx.finite h
    have fy := hy.finite h
    have e := Nat.le_antisymm (hx.nearest h y fy) (hy.nearest h x fx)
    apply Classical.byContradiction
    intro hne
    have e1 := hx.even h y fy (Ne.symm hne) e
    have e2 := hy.even h x fx hne e.symm
    have hdi : (0 : Int) < d := by omega
    rcases Int.lt_or_gt_of_ne hne with hlt | hlt
    · obtain ⟨z, z1, z2, z3⟩ := between fx fy e1 e2 hlt
      have h1 := hx.nearest h z z1
      have m1 := Int.mul_lt_mul_of_pos_right z2 hdi
      have m2 := Int.mul_lt_mul_of_pos_right z3 hdi
      generalize exactVal x * (d : Int) = X at *
      generalize exactVal y * (d : Int) = Y at *
      generalize exactVal z * (d : Int) = Z at *
      omega
    · obtain ⟨z, z1, z2, z3⟩ := between fy fx e2 e1 hlt
      have h1 := hx.nearest h z z1
      have m1 := Int.mul_lt_mul_of_pos_right z2 hdi
      have m2 := Int.mul_lt_mul_of_pos_right z3 hdi
      generalize exactVal x * (d : Int) = X at *
      generalize exactVal y * (d : Int) = Y at *
      generalize exactVal z * (d : Int) = Z at *
      omega

theorem exactVal_rnd (s : Bool) (n d : Nat) : exactVal (rnd s n d) = if s then -(magVal (roundMag n d) : Int) else magVal (roundMag n d) := by
  have := roundMag_le n d
  exact exactVal_mk (by omega)

theorem mag_rnd (s : Bool) (n d : Nat) : mag (rnd s n d) = roundMag n d := by
  have := roundMag_le n d
  exact mag_mk s (by omega)

theorem sgn_rnd (s : Bool) (n d : Nat) : sgn (rnd s n d) = s := by
  have := roundMag_le n d
  exact sgn_mk s (by omega)

theorem rnd_rounded (s : Bool) (n : Nat) {d : Nat} (hd : 0 < d) : Rounded (rnd s n d) (if s then -(n : Int) else n) d := by
  have hN : (if s then -(n : Int) else n).natAbs = n := by split <;> omega
  have hinf := roundMag_overflow (n := n) hd
  have hpos : 0 < (2 ^ 54 - 1) * 2 ^ 2044 * d := Nat.mul_pos (Nat.mul_pos (by decide) (Nat.two_pow_pos _)) hd
  have hle := roundMag_le n d
  have key : n < (2 ^ 54 - 1) * 2 ^ 2044 * d → ∀ y,
      (exactVal (rnd s n d) * d - (if s then -(n : Int) else n)).natAbs ≤ (exactVal y * d - (if s then -(n : Int) else n)).natAbs ∧
      (exactVal y ≠ exactVal (rnd s n d) → (exactVal (rnd s n d) * d - (if s then -(n : Int) else n)).natAbs =
        (exactVal y * d - (if s then -(n : Int) else n)).natAbs → roundMag n d % 2 = 0) := by
    intro hlt y
    have hfin : roundMag n d < 0x7ff0000000000000 := by
      rcases Nat.lt_or_ge (roundMag n d) 0x7ff0000000000000 with h | h
      · exact h
      · have := hinf.1 (by omega); omega
    obtain ⟨b1, b2⟩ := roundMag_best hd hfin (mag y)
    have b0 := (roundMag_best hd hfin 0).1
    rw [show magVal 0 = 0 by decide +kernel] at b0
    rw [exactVal_rnd]
    have hy : exactVal y = if sgn y then -(magVal (mag y) : Int) else magVal (mag y) := rfl
    rw [hy]
    have zero : magVal (mag y) * d = 0 → magVal (mag y) = 0 := fun h => by
      rcases Nat.mul_eq_zero.1 h with h | h
      · exact h
      · omega
    have zero' : magVal (roundMag n d) * d = 0 → magVal (roundMag n d) = 0 := fun h => by
      rcases Nat.mul_eq_zero.1 h with h | h
      · exact h
      · omega
    have cast : ∀ v : Nat, (-(v : Int)) * (d : Int) = -((v * d : Nat) : Int) := fun v => by
      rw [Int.neg_mul, Int.natCast_mul]
    have cast' : ∀ v : Nat, (v : Int) * (d : Int) = ((v * d : Nat) : Int) := fun v => (Int.natCast_mul _ _).symm
    generalize magVal (roundMag n d) = X at *
    generalize magVal (mag y) = Y at *
    cases s <;> cases sgn y
    all_goals simp only [Bool.false_eq_true, if_false, if_true, cast, cast']
    all_goals generalize X * d = A at *
    all_goals generalize Y * d = B at *
    all_goals refine ⟨by omega, fun h1 h2 => ?_⟩
    all_goals rcases b2 (by omega) with b2 | b2
    all_goals first
      | exact b2
      | (exfalso; subst b2; omega)
      | (exfalso; subst b2; have := zero; have := zero'; omega)
  refine ⟨?_, ?_, ?_, ?_⟩
  · rw [hN]
    intro h
    have h1 := hinf.2 h
    have hn : 0 < n := by omega
    unfold rnd
    rw [h1]
    cases s
    · simp only [Bool.false_eq_true, if_false]
      rw [if_neg (by omega)]; decide
    · simp only [if_true]
      rw [if_pos (by omega)]; decide
  · rw [hN]
    intro h
    rw [isFinite_iff, mag_rnd]
    rcases Nat.lt_or_ge (roundMag n d) 0x7ff0000000000000 with h' | h'
    · exact h'
    · have := hinf.1 (by omega); omega
  · rw [hN]
    exact fun h y _ => (key h y).1
  · rw [hN, mag_rnd]
    exact fun h y _ => (key h y).2

/-! ### Operations -/

theorem fin_facts {a : B64} (ha : isFinite a = true) : isNaN a = false ∧ isInf a = false := by
  rw [isFinite_iff] at ha
  unfold isNaN isInf
  simp only [decide_eq_false_iff_not]
  omega

/-- Addition and subtraction of finite doubles: rounded; a zero is positive but for `-0 + -0`. -/
theorem c73_add {a b : B64} (ha : isFinite a = true) (hb : isFinite b = true) :
    Rounded (Soft.ops.add a b) (exactVal a + exactVal b) 1 ∧
      (exactVal a + exactVal b = 0 → Soft.ops.add a b = if sgn a && sgn b then 0x8000000000000000#64 else 0#64) := by
  have e : Soft.ops.add a b = add a b := rfl
  rw [e, add_fin ha hb]
  by_cases h0 : exactVal a + exactVal b = 0
  · rw [if_pos h0]
    refine ⟨?_, fun _ => by split <;> decide⟩
    rw [h0]
    have h1 : ∀ s, mk s 0 = rnd s 0 1 := fun s => by
      unfold rnd; rw [show roundMag 0 1 = 0 by decide +kernel]
    have h2 := fun s => rnd_rounded s 0 (d := 1) (by decide)
    split
    · rw [h1]; exact h2 true
    · rw [h1]; exact h2 false
  · rw [if_neg h0]
    refine ⟨?_, fun h => absurd h h0⟩
    have h1 := rnd_rounded (decide (exactVal a + exactVal b < 0)) (exactVal a + exactVal b).natAbs (d := 1) (by decide)
    have h2 : (if decide (exactVal a + exactVal b < 0) = true then -((exactVal a + exactVal b).natAbs : Int)
        else (exactVal a + exactVal b).natAbs) = exactVal a + exactVal b := by
      by_cases h : exactVal a + exactVal b < 0
      · rw [decide_eq_true h, if_pos rfl]; omega
      · rw [decide_eq_false h, if_neg (by decide)]; omega
    rw [h2] at h1
    exact h1

theorem exactVal_negate (b : B64) : exactVal (neg b) = -exactVal b ∧ isFinite (neg b) = isFinite b ∧ sgn (neg b) = !sgn b := by
  have := mag_lt b
  unfold neg
  refine ⟨?_, ?_, sgn_mk _ this⟩
  · rw [exactVal_mk this]
    unfold exactVal
    cases sgn b <;> simp
  · unfold isFinite; rw [mag_mk _ this]

theorem c73_sub {a b : B64} (ha : isFinite a = true) (hb : isFinite b = true) :
    Rounded (Soft.ops.sub a b) (exactVal a - exactVal b) 1 ∧
      (exactVal a = exactVal b → Soft.ops.sub a b = if sgn a && !sgn b then 0x8000000000000000#64 else 0#64) := by
  obtain ⟨h1, h2, h3⟩ := exactVal_negate b
  have h := c73_add ha (h2.trans hb)
  rw [h1, h3] at h
  exact ⟨h.1, fun e => h.2 (by omega)⟩

theorem signed_mul (s t : Bool) (x y : Nat) :
    (if (s != t) = true then -((x * y : Nat) : Int) else ((x * y : Nat) : Int)) =
      (if s = true then -(x : Int) else x) * (if t = true then -(y : Int) else y) := by
  rw [Int.natCast_mul]
  cases s <;> cases t <;> simp [Int.neg_mul, Int.mul_neg]

/-- Multiplication; the sign is the product of the signs, of zeros too. -/
theorem c73_mul {a b : B64} (ha : isFinite a = true) (hb : isFinite b = true) :
    Rounded (Soft.ops.mul a b) (exactVal a * exactVal b) (2 ^ 1074) ∧ sgn (Soft.ops.mul a b) = (sgn a != sgn b) := by
  obtain ⟨n1, i1⟩ := fin_facts ha
  obtain ⟨n2, i2⟩ := fin_facts hb
  have e : Soft.ops.mul a b = rnd (sgn a != sgn b) (absVal a * absVal b) (2 ^ 1074) := by
    show mul a b = _
    unfold mul
    simp only [n1, n2, i1, i2, Bool.or_self, Bool.false_eq_true, if_false]
  rw [e]
  refine ⟨?_, sgn_rnd ..⟩
  have h := rnd_rounded (sgn a != sgn b) (absVal a * absVal b) (d := 2 ^ 1074) (Nat.two_pow_pos _)
  rw [signed_mul] at h
  exact h

/-- Division by a finite double that is not zero. -/
theorem c73_div {a b : B64} (ha : isFinite a = true) (hb : isFinite b = true) (h0 : exactVal b ≠ 0) :
    Rounded (Soft.ops.div a b) ((if sgn b then -exactVal a else exactVal a) * 2 ^ 1074) (exactVal b).natAbs ∧
      sgn (Soft.ops.div a b) = (sgn a != sgn b) := by
  obtain ⟨n1, i1⟩ := fin_facts ha
  obtain ⟨n2, i2⟩ := fin_facts hb
  have hm : mag b ≠ 0 := fun h => h0 (exactVal_eq_zero.2 h)
  have e : Soft.ops.div a b = rnd (sgn a != sgn b) (absVal a * 2 ^ 1074) (absVal b) := by
    show div a b = _
    unfold div
    simp only [n1, n2, i1, i2, hm, Bool.or_self, Bool.false_eq_true, if_false]
  rw [e, exactVal_natAbs]
  refine ⟨?_, sgn_rnd ..⟩
  have hpos : 0 < absVal b := by
    rcases Nat.eq_zero_or_pos (absVal b) with h | h
    · exfalso; apply h0
      have := exactVal_natAbs b
      unfold absVal at h
      omega
    · exact h
  have h := rnd_rounded (sgn a != sgn b) (absVal a * 2 ^ 1074) (d := absVal b) hpos
  have e2 : (if (sgn a != sgn b) = true then -((absVal a * 2 ^ 1074 : Nat) : Int) else ((absVal a * 2 ^ 1074 : Nat) : Int)) =
      (if sgn b then -exactVal a else exactVal a) * 2 ^ 1074 := by
    rw [Int.natCast_mul, Int.natCast_pow]
    unfold exactVal absVal
    cases sgn a <;> cases sgn b <;> simp [Int.neg_mul]
  rw [e2] at h
  exact h

/-- Integers become doubles by rounding. -/
theorem c73_casts (n : Nat) (q : BitVec 64) : Rounded (Soft.ops.ofNat n) (n * 2 ^ 1074) 1 ∧
    Rounded (Soft.ops.ofI64 q) (q.toInt * 2 ^ 1074) 1 := by
  have h : ∀ x : Int, Rounded (ofInt x) (x * 2 ^ 1074) 1 := by
    intro x
    have h := rnd_rounded (decide (x < 0)) (x.natAbs * 2 ^ 1074) (d := 1) (by decide)
    have e : (if decide (x < 0) = true then -((x.natAbs * 2 ^ 1074 : Nat) : Int) else ((x.natAbs * 2 ^ 1074 : Nat) : Int)) =
        x * 2 ^ 1074 := by
      rw [Int.natCast_mul, Int.natCast_pow]
      by_cases h : x < 0
      · rw [decide_eq_true h, if_pos rfl, ← Int.neg_mul, show -(x.natAbs : Int) = x by omega]; rfl
      · rw [decide_eq_false h, if_neg (by decide), show (x.natAbs : Int) = x by omega]; rfl
    rw [e] at h
    exact h
  exact ⟨h n, h q.toInt⟩

/-- A NaN operand gives NaN. -/
theorem c73_nan {a b : B64} (h : isNaN a = true ∨ isNaN b = true) : isNaN (Soft.ops.add a b) = true ∧
    isNaN (Soft.ops.sub a b) = true ∧ isNaN (Soft.ops.mul a b) = true ∧ isNaN (Soft.ops.div a b) = true := by
  have hn : isNaN nan = true := by decide
  have hneg : isNaN (neg b) = isNaN b := by
    unfold neg isNaN; rw [mag_mk _ (mag_lt b)]
  have h1 : (isNaN a || isNaN b) = true := by simpa using h
  refine ⟨?_, ?_, ?_, ?_⟩
  · show isNaN (add a b) = true
    unfold add; rw [h1]; exact hn
  · show isNaN (add a (neg b)) = true
    unfold add; rw [hneg, h1]; exact hn
  · show isNaN (mul a b) = true
    unfold mul; simp only [h1]; exact hn
  · show isNaN (div a b) = true
    unfold div; simp only [h1]; exact hn

/-- The signed infinity and the signed zero. -/
def infinity (s : Bool) : B64 := if s then negInf else posInf
def signedZero (s : Bool) : B64 := if s then 0x8000000000000000#64 else 0#64

theorem inf_cases {a : B64} (h : isInf a = true) : a = infinity (sgn a) := by
  have h1 : mag a = 0x7ff0000000000000 := by simpa [isInf] using h
  have h2 := mk_sgn_mag a
  rw [h1] at h2
  rw [← h2, sgn_mk _ (by decide)]
  cases sgn a <;> decide

/-- Infinities: sums of opposite infinities, infinity times zero, infinity by infinity and zero by zero are NaN; everything
else is an infinity or a zero with the sign of the operands. -/
theorem c73_infinities {a b : B64} (ha : isNaN a = false) (hb : isNaN b = false) :
    (isInf a = true → isInf b = true → sgn a ≠ sgn b → isNaN (Soft.ops.add a b) = true) ∧
    (isInf a = true → (isInf b = true → sgn a = sgn b) → Soft.ops.add a b = a) ∧
    (isInf a = false → isInf b = true → Soft.ops.add a b = b) ∧
    ((isInf a = true ∧ mag b = 0) ∨ (isInf b = true ∧ mag a = 0) → isNaN (Soft.ops.mul a b) = true) ∧
    (isInf a = true ∨ isInf b = true → mag a ≠ 0 → mag b ≠ 0 → Soft.ops.mul a b = infinity (sgn a != sgn b)) ∧
    ((isInf a = true ∧ isInf b = true) ∨ (mag a = 0 ∧ mag b = 0) → isNaN (Soft.ops.div a b) = true) ∧
    (isInf a = true → isInf b = false → Soft.ops.div a b = infinity (sgn a != sgn b)) ∧
    (isInf a = false → isInf b = true → Soft.ops.div a b = signedZero (sgn a != sgn b)) ∧
    (isInf a = false → mag a ≠ 0 → mag b = 0 → Soft.ops.div a b = infinity (sgn a != sgn b)) := by
  have hn : isNaN nan = true := by decide
  have mi : ∀ s, mk s 0x7ff0000000000000 = infinity s := by intro s; cases s <;> decide
  have mz : ∀ s, mk s 0 = signedZero s := by intro s; cases s <;> decide
  have zi : ∀ v : B64, mag v = 0 → isInf v = false := fun v h => by unfold isInf; rw [h]; decide
  refine ⟨?_, ?_, ?_, ?_, ?_, ?_, ?_, ?_, ?_⟩
  · intro h1 h2 h3
    show isNaN (add a b) = true
    unfold add
    have : (sgn a != sgn b) = true := by simpa using h3
    simp only [ha, hb, h1, h2, this, Bool.or_self, Bool.false_eq_true, if_false, if_true, Bool.and_self]
    exact hn
  · intro h1 h2
    show add a b = a
    unfold add
    have : (isInf b && sgn a != sgn b) = false := by
      cases hb : isInf b
      · rfl
      · rw [h2 hb]; simp
    simp only [ha, hb, h1, this, Bool.or_self, Bool.false_eq_true, if_false, if_true]
  · intro h1 h2
    show add a b = b
    unfold add
    simp only [ha, hb, h1, h2, Bool.or_self, Bool.false_eq_true, if_false, if_true]
  · intro h
    show isNaN (mul a b) = true
    unfold mul
    have h1 : (isInf a || isInf b) = true := by rcases h with h | h <;> simp [h.1]
    have h2 : (decide (mag a = 0) || decide (mag b = 0)) = true := by rcases h with h | h <;> simp [h.2]
    simp only [ha, hb, h1, h2, Bool.or_self, Bool.false_eq_true, if_false, if_true]
    exact hn
  · intro h h1 h2
    show mul a b = _
    unfold mul
    have h3 : (isInf a || isInf b) = true := by rcases h with h | h <;> simp [h]
    have h4 : (decide (mag a = 0) || decide (mag b = 0)) = false := by simp [h1, h2]
    simp only [ha, hb, h3, h4, Bool.or_self, Bool.false_eq_true, if_false, if_true]
    exact mi _
  · intro h
    show isNaN (div a b) = true
    unfold div
    rcases h with h | h
    · simp only [ha, hb, h.1, h.2, Bool.or_self, Bool.false_eq_true, if_false, if_true]
      exact hn
    · simp only [ha, hb, zi a h.1, zi b h.2, h.1, h.2, Bool.or_self, Bool.false_eq_true, if_false, if_true]
      exact hn
  · intro h1 h2
    show div a b = _
    unfold div
    simp only [ha, hb, h1, h2, Bool.or_self, Bool.false_eq_true, if_false, if_true]
    exact mi _
  · intro h1 h2
    show div a b = _
    unfold div
    simp only [ha, hb, h1, h2, Bool.or_self, Bool.false_eq_true, if_false, if_true]
    exact mz _
  · intro h1 h2 h3
    show div a b = _
    unfold div
    simp only [ha, hb, h1, zi b h3, h2, h3, Bool.or_self, Bool.false_eq_true, if_false, if_true]
    exact mi _

/-- `min` and `max` ignore a NaN and otherwise answer one of the two that is not beyond the other. -/
theorem c73_min_max (a b : B64) :
    (isNaN a = true → Soft.ops.fmin a b = b ∧ Soft.ops.fmax a b = b) ∧
    (isNaN a = false → isNaN b = true → Soft.ops.fmin a b = a ∧ Soft.ops.fmax a b = a) ∧
    (isNaN a = false → isNaN b = false →
      (Soft.ops.fmin a b = a ∧ fle a b = true ∨ Soft.ops.fmin a b = b ∧ flt b a = true) ∧
      (Soft.ops.fmax a b = a ∧ fle b a = true ∨ Soft.ops.fmax a b = b ∧ flt a b = true)) := by
  refine ⟨fun h => ?_, fun h1 h2 => ?_, fun h1 h2 => ?_⟩
  · show fmin a b = b ∧ fmax a b = b
    unfold fmin fmax; simp [h]
  · show fmin a b = a ∧ fmax a b = a
    unfold fmin fmax; simp [h1, h2]
  · show (fmin a b = a ∧ _ ∨ fmin a b = b ∧ _) ∧ (fmax a b = a ∧ _ ∨ fmax a b = b ∧ _)
    have e : ∀ x y : B64, isNaN x = false → isNaN y = false → flt x y = false → fle y x = true := by
      intro x y hx hy h
      simp only [flt, fle, hx, hy, Bool.not_false, Bool.true_and, decide_eq_false_iff_not, decide_eq_true_eq] at *
      omega
    unfold fmin fmax
    simp only [h1, h2, Bool.false_eq_true, if_false]
    constructor
    · cases h : flt b a
      · exact Or.inl ⟨rfl, e _ _ h2 h1 h⟩
      · exact Or.inr ⟨rfl, rfl⟩
    · cases h : flt a b
      · exact Or.inl ⟨rfl, e _ _ h1 h2 h⟩
      · exact Or.inr ⟨rfl, rfl⟩

/-- Comparison is comparison of the values. -/
theorem c73_compare {a b : B64} (ha : isFinite a = true) (hb : isFinite b = true) :
    (fle a b = true ↔ exactVal a ≤ exactVal b) ∧ (flt a b = true ↔ exactVal a < exactVal b) ∧
      (feq a b = true ↔ exactVal a = exactVal b) := by
  have n1 := (fin_facts ha).1
  have n2 := (fin_facts hb).1
  simp only [fle, flt, feq, n1, n2, Bool.not_false, Bool.true_and, decide_eq_true_eq]
  rw [exactVal_keyVal, exactVal_keyVal]
  rcases Int.lt_trichotomy (key a) (key b) with h | h | h
  · have := keyVal_strict h; omega
  · rw [h]; omega
  · have := keyVal_strict h; omega

/-- `round` is the nearest integer, halves away from zero. -/
theorem c73_round {v : B64} (hv : isFinite v = true) : isFinite (Soft.ops.round v) = true ∧
    sgn (Soft.ops.round v) = sgn v ∧
    (exactVal (Soft.ops.round v)).natAbs = ((exactVal v).natAbs + 2 ^ 1073) / 2 ^ 1074 * 2 ^ 1074 := by
  have e : Soft.ops.round v = rnd (sgn v) ((absVal v + 2 ^ 1073) / 2 ^ 1074 * 2 ^ 1074) 1 := by
    show round v = _
    unfold round; rw [if_pos hv]
  rw [e, isFinite_iff, mag_rnd, sgn_rnd, exactVal_natAbs, exactVal_natAbs, mag_rnd]
  rw [isFinite_iff] at hv
  have key : roundMag ((absVal v + 2 ^ 1073) / 2 ^ 1074 * 2 ^ 1074) 1 < 0x7ff0000000000000 ∧
      magVal (roundMag ((absVal v + 2 ^ 1073) / 2 ^ 1074 * 2 ^ 1074) 1) = (absVal v + 2 ^ 1073) / 2 ^ 1074 * 2 ^ 1074 := by
    by_cases h : 2 ^ (52 + 1074) ≤ absVal v
    · obtain ⟨t, ht⟩ := magVal_grid (m := mag v) h
      have e1 : (absVal v + 2 ^ 1073) / 2 ^ 1074 * 2 ^ 1074 = absVal v := by
        unfold absVal
        rw [ht, Nat.add_comm, Nat.add_mul_div_right _ _ (Nat.two_pow_pos _),
          Nat.div_eq_of_lt (Nat.pow_lt_pow_right (by decide) (by decide)), Nat.zero_add]
      rw [e1]
      unfold absVal
      rw [roundMag_magVal (by omega)]
      exact ⟨hv, rfl⟩
    · have hlt : (absVal v + 2 ^ 1073) / 2 ^ 1074 < 2 ^ 53 := by
        apply Nat.div_lt_of_lt_mul
        have h1 : absVal v < 2 ^ (52 + 1074) := Nat.lt_of_not_le h
        have h2 : 2 ^ 1074 * 2 ^ 53 = 2 * 2 ^ (52 + 1074) := by
          rw [← Nat.pow_add, show 1074 + 53 = (52 + 1074) + 1 from rfl, Nat.pow_succ']
        have h3 : 2 ^ 1073 ≤ 2 ^ (52 + 1074) := Nat.pow_le_pow_right (by decide) (by decide)
        rw [h2]
        generalize 2 ^ (52 + 1074) = P at *
        generalize 2 ^ 1073 = Q at *
        omega
      have := Elf.exact_U (s := 0) hlt (by decide)
      rw [Nat.pow_zero, Nat.mul_one, ← Elf.U_eq] at this
      exact ⟨this.2, this.1⟩
  exact ⟨key.1, rfl, key.2⟩

/-- `as i64` truncates and saturates; NaN becomes zero. -/
theorem c73_to_i64 (v : B64) : (isNaN v = true → Soft.ops.toI64 v = 0#64) ∧
    (isInf v = true → (Soft.ops.toI64 v).toInt = if sgn v then -2 ^ 63 else 2 ^ 63 - 1) ∧
    (isFinite v = true → (Soft.ops.toI64 v).toInt = max (-2 ^ 63) (min (2 ^ 63 - 1) ((exactVal v).tdiv (2 ^ 1074)))) := by
  have hneg : ∀ t : Nat, t ≤ 2 ^ 63 → (BitVec.ofInt 64 (-(t : Int))).toInt = -t := fun t ht => by
    rw [BitVec.toInt_ofInt]
    exact Int.bmod_eq_of_le (by omega) (by omega)
  have hpos : ∀ t : Nat, t ≤ 2 ^ 63 - 1 → (BitVec.ofNat 64 t).toInt = t := fun t ht => by
    rw [← BitVec.ofInt_natCast, BitVec.toInt_ofInt]
    exact Int.bmod_eq_of_le (by omega) (by omega)
  refine ⟨fun h => ?_, fun h => ?_, fun h => ?_⟩
  · show toI64 v = _
    unfold toI64; rw [if_pos h]
  · rw [inf_cases h]
    cases sgn v <;> decide +kernel
  · show (toI64 v).toInt = _
    have hn := (fin_facts h).1
    unfold toI64
    rw [if_neg (by rw [hn]; decide)]
    simp only
    have e : (exactVal v).tdiv (2 ^ 1074) = if sgn v then -((absVal v / 2 ^ 1074 : Nat) : Int) else ((absVal v / 2 ^ 1074 : Nat) : Int) := by
      have e0 : ((2 : Int) ^ 1074) = ((2 ^ 1074 : Nat) : Int) := (Int.natCast_pow 2 1074).symm
      rw [e0]
      unfold exactVal absVal
      cases sgn v
      · simp only [Bool.false_eq_true, if_false]
        exact Int.ofNat_tdiv ..
      · simp only [if_true]
        rw [Int.neg_tdiv]
        congr 1
    rw [e]
    generalize absVal v / 2 ^ 1074 = t
    cases sgn v
    · simp only [Bool.false_eq_true, if_false]
      rw [hpos _ (by omega)]
      omega
    · simp only [if_true]
      rw [hneg _ (by omega)]
      omega

/-- The double nearest to `±n * 10^k`, and the one nearest to `±M / S`, of C64, C65 and C71. -/
theorem c73_decimal (neg : Bool) (n : Nat) (k : Int) :
    Rounded (Decimal.decimalToF64 neg n k) ((if neg then -(n : Int) else n) * 10 ^ k.toNat * 2 ^ 1074) (10 ^ (-k).toNat) ∧
    ∀ S, 0 < S → Rounded (Decimal.nearest neg n S) ((if neg then -(n : Int) else n) * 2 ^ 1074) S := by
  have sg : ∀ x c : Nat, (if neg = true then -((x * c : Nat) : Int) else ((x * c : Nat) : Int)) =
      (if neg = true then -(x : Int) else x) * (c : Int) := fun x c => by
    rw [Int.natCast_mul]
    cases neg <;> simp [Int.neg_mul]
  refine ⟨?_, fun S hS => ?_⟩
  · unfold Decimal.decimalToF64
    split
    · rename_i h
      rw [show (-k).toNat = 0 by omega, Nat.pow_zero]
      have h := rnd_rounded neg (n * 10 ^ k.toNat * 2 ^ 1074) (d := 1) (by decide)
      rw [sg, sg, Int.natCast_pow, Int.natCast_pow] at h
      exact h
    · rename_i h
      rw [show k.toNat = 0 by omega, Int.pow_zero, Int.mul_one]
      have h := rnd_rounded neg (n * 2 ^ 1074) (d := 10 ^ (-k).toNat) (Nat.pow_pos (by decide))
      rw [sg, Int.natCast_pow] at h
      exact h
  · have h := rnd_rounded neg (n * 2 ^ 1074) hS
    rw [sg, Int.natCast_pow] at h
    unfold Decimal.nearest Decimal.near
    rw [← Elf.U_eq]
    exact h

/-! ### Examples -/

/-- 0.1 + 0.2 and 1 / 3 meet the hypotheses. -/
example : isFinite 0x3fb999999999999a#64 = true ∧ isFinite 0x3fc999999999999a#64 = true ∧
    Soft.ops.add 0x3fb999999999999a#64 0x3fc999999999999a#64 = 0x3fd3333333333334#64 ∧
    exactVal 0x4008000000000000#64 ≠ 0 ∧
    Soft.ops.div 0x3ff0000000000000#64 0x4008000000000000#64 = 0x3fd5555555555555#64 := by decide +kernel

example : ∃ n d, Rounded 0x3fd5555555555555#64 n d ∧ n.natAbs < (2 ^ 54 - 1) * 2 ^ 2044 * d := by
  have h := (c73_div (a := 0x3ff0000000000000#64) (b := 0x4008000000000000#64) (by decide) (by decide) (by decide +kernel)).1
  rw [show Soft.ops.div 0x3ff0000000000000#64 0x4008000000000000#64 = 0x3fd5555555555555#64 by decide +kernel] at h
  exact ⟨_, _, h, by decide +kernel⟩

end Ebi.Props
