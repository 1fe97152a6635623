import Verif.SoftDiv
import Verif.BuffFixed

/-!
# Rounding errors of sums
-/

namespace Ebi.Soft

open Ebi

attribute [local irreducible] roundMag magVal

/-- The largest finite magnitude. -/
def largest : Nat := magVal 0x7fefffffffffffff

attribute [local irreducible] largest

theorem roundMag_error {n : Nat} (h : n ≤ largest) :
    roundMag n 1 < 0x7ff0000000000000 ∧ 2 ^ 53 * ((magVal (roundMag n 1) : Int) - n).natAbs ≤ n := by
  have hfin : roundMag n 1 < 0x7ff0000000000000 := by
    have h1 : roundMag n 1 ≤ roundMag largest 1 := roundMag_mono h
    rw [show largest = magVal 0x7fefffffffffffff by unfold largest; rfl, roundMag_magVal (by decide)] at h1
    omega
  refine ⟨hfin, ?_⟩
  obtain ⟨e, q, h1, h2, h3, h4, -, -⟩ := roundMag_spec (n := n) (d := 1) (by decide) hfin
  rw [h1]
  rw [Nat.one_mul] at h2 h3
  rcases h4 with rfl | ⟨h4, -⟩
  · rw [Nat.pow_zero, Nat.mul_one] at h2 h3
    have : q = n := by omega
    subst this
    simp
  · rw [Nat.mul_one, Nat.pow_add] at h4
    rw [Nat.add_mul, Nat.one_mul, Nat.mul_assoc] at h2
    rw [Nat.mul_assoc] at h3
    generalize q * 2 ^ e = y at *
    generalize 2 ^ e = z at *
    omega

theorem isFinite_iff {v : B64} : isFinite v = true ↔ mag v < 0x7ff0000000000000 := by unfold isFinite; simp

theorem add_fin {a b : B64} (ha : isFinite a = true) (hb : isFinite b = true) :
    add a b = (if exactVal a + exactVal b = 0 then (if sgn a && sgn b then mk true 0 else mk false 0)
      else rnd (decide (exactVal a + exactVal b < 0)) (exactVal a + exactVal b).natAbs 1) := by
  rw [isFinite_iff] at ha hb
  have n1 : isNaN a = false := by unfold isNaN; simp; omega
  have n2 : isNaN b = false := by unfold isNaN; simp; omega
  have i1 : isInf a = false := by unfold isInf; simp; omega
  have i2 : isInf b = false := by unfold isInf; simp; omega
  unfold add
  rw [n1, n2, i1, i2]
  simp only [Bool.or_self, Bool.false_eq_true, if_false]

theorem exactVal_mk {s : Bool} {m : Nat} (h : m < 2 ^ 63) : exactVal (mk s m) = if s then -(magVal m : Int) else magVal m := by
  unfold exactVal
  rw [sgn_mk s h, mag_mk s h]

/-- One addition: half a unit in the last place. Nothing is lost below the normal numbers. -/
theorem add_error {a b : B64} (ha : isFinite a = true) (hb : isFinite b = true)
    (h : (exactVal a + exactVal b).natAbs ≤ largest) : isFinite (add a b) = true ∧
      2 ^ 53 * (exactVal (add a b) - (exactVal a + exactVal b)).natAbs ≤ (exactVal a + exactVal b).natAbs := by
  rw [add_fin ha hb]
  obtain ⟨h1, h2⟩ := roundMag_error h
  split
  · rename_i h0
    have hz : ∀ s, isFinite (mk s 0) = true ∧ exactVal (mk s 0) = 0 := by
      intro s
      exact ⟨by rw [isFinite_iff, mag_mk s (by decide)]; decide, exactVal_eq_zero.2 (mag_mk s (by decide))⟩
    rw [h0]
    split
    · exact ⟨(hz true).1, by rw [(hz true).2]; decide⟩
    · exact ⟨(hz false).1, by rw [(hz false).2]; decide⟩
  · generalize exactVal a + exactVal b = x at *
    unfold rnd
    refine ⟨by rw [isFinite_iff, mag_mk _ (by omega)]; exact h1, ?_⟩
    rw [exactVal_mk (by omega)]
    by_cases hx : x < 0
    · rw [decide_eq_true hx, if_pos rfl]
      omega
    · rw [decide_eq_false hx, if_neg (by decide)]
      omega

/-- The inverse of the unit roundoff. -/
def D : Nat := 2 ^ 53

theorem D_eq : D = 2 ^ 53 := rfl

attribute [local irreducible] D

/-- A running sum: `s` after at most `d` roundings on every path stands for `S`, the absolute values adding up to `A`. -/
def Sums (d : Nat) (s : B64) (S : Int) (A : Nat) : Prop :=
  isFinite s = true ∧ S.natAbs ≤ A ∧ D ^ d * ((exactVal s - S).natAbs + A) ≤ (D + 1) ^ d * A

theorem Sums.value {v : B64} (h : isFinite v = true) : Sums 0 v (exactVal v) (exactVal v).natAbs :=
  ⟨h, Nat.le_refl _, by simp⟩

theorem Sums.zero : Sums 0 0#64 0 0 := ⟨by decide, by decide, by
  rw [exactVal_eq_zero.2 (show mag 0#64 = 0 by decide)]; simp⟩

theorem Sums.succ {d : Nat} {s : B64} {S : Int} {A : Nat} (h : Sums d s S A) : Sums (d + 1) s S A := by
  refine ⟨h.1, h.2.1, ?_⟩
  have h3 := h.2.2
  rw [Nat.pow_succ, Nat.pow_succ]
  generalize D ^ d = x at *
  generalize (D + 1) ^ d = y at *
  generalize (exactVal s - S).natAbs + A = t at *
  have e1 : x * D * t = x * t * D := by rw [Nat.mul_assoc, Nat.mul_comm D, ← Nat.mul_assoc]
  have e2 : y * (D + 1) * A = y * A * (D + 1) := by
    rw [Nat.mul_assoc, Nat.mul_comm (D + 1), ← Nat.mul_assoc]
  rw [e1, e2]
  exact Nat.mul_le_mul h3 (Nat.le_succ _)

theorem Sums.le {d d' : Nat} {s : B64} {S : Int} {A : Nat} (h : Sums d s S A) (hd : d ≤ d') : Sums d' s S A := by
  obtain ⟨k, rfl⟩ := Nat.exists_eq_add_of_le hd
  clear hd
  induction k with
  | zero => exact h
  | succ k ih => exact ih.succ

/-- `(1 + u)^d <= 1 / (1 - d u)`. -/
theorem pow_bound (D d : Nat) : (D - d) * (D + 1) ^ d ≤ D * D ^ d := by
  induction d with
  | zero => simp
  | succ d ih =>
    rw [Nat.pow_succ, Nat.pow_succ]
    by_cases h : D < d + 1
    · rw [show D - (d + 1) = 0 by omega, Nat.zero_mul]; exact Nat.zero_le _
    · have h1 : (D - (d + 1)) * (D + 1) ≤ (D - d) * D := by
        obtain ⟨k, rfl⟩ := Nat.exists_eq_add_of_le (show d + 1 ≤ D by omega)
        rw [show d + 1 + k - (d + 1) = k by omega, show d + 1 + k - d = k + 1 by omega, Nat.mul_succ, Nat.succ_mul]
        omega
      calc (D - (d + 1)) * ((D + 1) ^ d * (D + 1)) = (D - (d + 1)) * (D + 1) * (D + 1) ^ d := by
            rw [Nat.mul_comm ((D + 1) ^ d), ← Nat.mul_assoc]
        _ ≤ (D - d) * D * (D + 1) ^ d := Nat.mul_le_mul_right _ h1
        _ = (D - d) * (D + 1) ^ d * D := by rw [Nat.mul_assoc, Nat.mul_comm D, ← Nat.mul_assoc]
        _ ≤ D * D ^ d * D := Nat.mul_le_mul_right _ ih
        _ = D * (D ^ d * D) := Nat.mul_assoc _ _ _

/-- The error in plain words, for up to `2^52` roundings. -/
theorem Sums.error {d : Nat} {s : B64} {S : Int} {A : Nat} (h : Sums d s S A) (hd : d ≤ 2 ^ 52) :
    2 ^ 52 * (exactVal s - S).natAbs ≤ d * A := by
  have h1 := h.2.2
  have h2 := pow_bound D d
  have hD := D_eq
  have hp : 0 < D ^ d := Nat.pow_pos (by omega)
  generalize D ^ d = x at *
  generalize (D + 1) ^ d = y at *
  generalize (exactVal s - S).natAbs = E at *
  have h3 : (D - d) * (E + A) * x ≤ D * A * x := by
    calc (D - d) * (E + A) * x = (D - d) * (x * (E + A)) := by rw [Nat.mul_assoc, Nat.mul_comm x]
      _ ≤ (D - d) * (y * A) := Nat.mul_le_mul_left _ h1
      _ = (D - d) * y * A := by rw [Nat.mul_assoc]
      _ ≤ D * x * A := Nat.mul_le_mul_right _ h2
      _ = D * A * x := by rw [Nat.mul_assoc, Nat.mul_comm x, ← Nat.mul_assoc]
  have h4 := Nat.le_of_mul_le_mul_right h3 hp
  obtain ⟨k, hk⟩ := Nat.exists_eq_add_of_le (show d ≤ D by omega)
  rw [show D - d = k by omega, Nat.mul_add] at h4
  have h6 : D * A = d * A + k * A := by rw [← Nat.add_mul, ← hk]
  have h5 : k * E ≤ d * A := by omega
  exact Nat.le_trans (Nat.mul_le_mul_right _ (show 2 ^ 52 ≤ k by omega)) h5

/-- The computed sum is at most twice the sum of the absolute values. -/
theorem Sums.total {d : Nat} {s : B64} {S : Int} {A : Nat} (h : Sums d s S A) (hd : d ≤ 2 ^ 52) :
    (exactVal s - S).natAbs ≤ A := by
  have h1 := h.error hd
  have h2 : d * A ≤ 2 ^ 52 * A := Nat.mul_le_mul_right _ hd
  exact Nat.le_of_mul_le_mul_left (Nat.le_trans h1 h2) (by decide)

theorem Sums.add {d : Nat} {s t : B64} {S T : Int} {A B : Nat} (h : Sums d s S A) (h' : Sums d t T B) (hd : d ≤ 2 ^ 52)
    (hA : 2 * (A + B) ≤ largest) : Sums (d + 1) (Soft.add s t) (S + T) (A + B) := by
  have e1 := h.total hd
  have e2 := h'.total hd
  have a1 := h.2.1
  have a2 := h'.2.1
  obtain ⟨f1, f2⟩ := add_error h.1 h'.1 (by omega)
  refine ⟨f1, by omega, ?_⟩
  have g1 := h.2.2
  have g2 := h'.2.2
  rw [Nat.pow_succ, Nat.pow_succ]
  generalize exactVal (Soft.add s t) = z at *
  generalize exactVal s = p at *
  generalize exactVal t = q at *
  generalize D ^ d = x at *
  generalize (D + 1) ^ d = y at *
  have g3 : x * ((p - S).natAbs + (q - T).natAbs + (A + B)) ≤ y * (A + B) := by
    rw [show (p - S).natAbs + (q - T).natAbs + (A + B) = ((p - S).natAbs + A) + ((q - T).natAbs + B) by omega,
      Nat.mul_add x ((p - S).natAbs + A), Nat.mul_add y]
    exact Nat.add_le_add g1 g2
  have g4 : D * ((z - (S + T)).natAbs + (A + B)) ≤ (D + 1) * ((p - S).natAbs + (q - T).natAbs + (A + B)) := by
    rw [← D_eq] at f2
    have e3 : (p + q).natAbs ≤ (p - S).natAbs + (q - T).natAbs + (A + B) := by omega
    have e4 : (z - (S + T)).natAbs ≤ (z - (p + q)).natAbs + ((p - S).natAbs + (q - T).natAbs) := by omega
    have e5 := Nat.mul_le_mul_left D e4
    rw [Nat.mul_add D (z - (p + q)).natAbs] at e5
    rw [Nat.mul_add D, Nat.add_mul, Nat.one_mul, Nat.mul_add D _ (A + B)]
    omega
  calc x * D * ((z - (S + T)).natAbs + (A + B)) = x * (D * ((z - (S + T)).natAbs + (A + B))) := Nat.mul_assoc _ _ _
    _ ≤ x * ((D + 1) * ((p - S).natAbs + (q - T).natAbs + (A + B))) := Nat.mul_le_mul_left _ g4
    _ = (D + 1) * (x * ((p - S).natAbs + (q - T).natAbs + (A + B))) := by
        rw [← Nat.mul_assoc, Nat.mul_comm x, Nat.mul_assoc]
    _ ≤ (D + 1) * (y * (A + B)) := Nat.mul_le_mul_left _ g3
    _ = y * (D + 1) * (A + B) := by rw [← Nat.mul_assoc, Nat.mul_comm y]

/-- Adding up a list of sums. -/
theorem Sums.fold {d0 : Nat} : ∀ (l : List (B64 × Int × Nat)) {d : Nat} {s : B64} {S : Int} {A : Nat}, d0 ≤ d → Sums d s S A →
    (∀ p ∈ l, Sums d0 p.1 p.2.1 p.2.2) → d + l.length ≤ 2 ^ 52 → 2 * (A + (l.map (·.2.2)).sum) ≤ largest →
    Sums (d + l.length) ((l.map (·.1)).foldl Soft.add s) (S + (l.map (·.2.1)).sum) (A + (l.map (·.2.2)).sum)
  | [], d, s, S, A, _, h, _, _, _ => by simpa using h
  | p :: l, d, s, S, A, hd, h, hl, hlen, hA => by
    simp only [List.map_cons, List.foldl_cons, List.sum_cons, List.length_cons] at *
    have h1 := h.add ((hl p (List.mem_cons_self ..)).le hd) (by omega) (by omega)
    have h2 := Sums.fold l (d := d + 1) (by omega) h1 (fun q hq => hl q (List.mem_cons_of_mem _ hq)) (by omega) (by omega)
    rw [show d + (l.length + 1) = d + 1 + l.length by omega]
    rw [show S + (p.2.1 + (l.map (·.2.1)).sum) = S + p.2.1 + (l.map (·.2.1)).sum by omega,
      show A + (p.2.2 + (l.map (·.2.2)).sum) = A + p.2.2 + (l.map (·.2.2)).sum by omega]
    exact h2

/-! ### Exact sums -/

/-- `s` is exactly `M` units of `2^k`. -/
def OnGrid (k : Nat) (s : B64) (M : Int) : Prop := isFinite s = true ∧ exactVal s = M * 2 ^ k

theorem add_exact {k : Nat} {a b : B64} {M N : Int} (ha : OnGrid k a M) (hb : OnGrid k b N)
    (h : M.natAbs + N.natAbs < 2 ^ 53) (hk : k ≤ 2045) : OnGrid k (add a b) (M + N) := by
  have hx : exactVal a + exactVal b = (M + N) * 2 ^ k := by rw [ha.2, hb.2, Int.add_mul]
  have hn : ((M + N) * (2 : Int) ^ k).natAbs = (M + N).natAbs * 2 ^ k := by
    rw [Int.natAbs_mul]
    rw [Int.natAbs_pow]
    rfl
  have hlt : (M + N).natAbs < 2 ^ 53 := by omega
  obtain ⟨h1, h2⟩ := Buff.roundMag_exact (s := k) hlt (by
    refine Nat.lt_of_lt_of_le (Nat.mul_lt_mul_of_pos_right hlt (Nat.two_pow_pos k)) ?_
    rw [← Nat.pow_add]
    exact Nat.pow_le_pow_right (by decide) (by omega))
  rw [OnGrid, add_fin ha.1 hb.1, hx]
  split
  · rename_i h0
    rw [h0]
    split
    · exact ⟨by rw [isFinite_iff, mag_mk true (by decide)]; decide, exactVal_eq_zero.2 (mag_mk true (by decide))⟩
    · exact ⟨by rw [isFinite_iff, mag_mk false (by decide)]; decide, exactVal_eq_zero.2 (mag_mk false (by decide))⟩
  · unfold rnd
    rw [hn]
    refine ⟨by rw [isFinite_iff, mag_mk _ (by omega)]; exact h2, ?_⟩
    rw [exactVal_mk (by omega), h1]
    have hp : 0 < (2 : Int) ^ k := Int.pow_pos (by decide)
    have e : (((M + N).natAbs * 2 ^ k : Nat) : Int) = ((M + N) * 2 ^ k).natAbs := by rw [hn]
    rw [e]
    generalize (M + N) * (2 : Int) ^ k = x
    by_cases hx : x < 0
    · rw [decide_eq_true hx, if_pos rfl]; omega
    · rw [decide_eq_false hx, if_neg (by decide)]; omega

theorem fold_exact {k : Nat} (hk : k ≤ 2045) : ∀ (l : List (B64 × Int)) {s : B64} {M : Int} {A : Nat}, OnGrid k s M →
    M.natAbs ≤ A → (∀ p ∈ l, OnGrid k p.1 p.2) → A + (l.map (·.2.natAbs)).sum < 2 ^ 53 →
    OnGrid k ((l.map (·.1)).foldl add s) (M + (l.map (·.2)).sum)
  | [], s, M, A, h, _, _, _ => by simpa using h
  | p :: l, s, M, A, h, hA, hl, hs => by
    simp only [List.map_cons, List.foldl_cons, List.sum_cons] at *
    have h1 := add_exact h (hl p (List.mem_cons_self ..)) (by omega) hk
    rw [show M + (p.2 + (l.map (·.2)).sum) = M + p.2 + (l.map (·.2)).sum by omega]
    exact fold_exact hk l h1 (A := A + p.2.natAbs) (by omega) (fun q hq => hl q (List.mem_cons_of_mem _ hq)) (by omega)

theorem fold_plain (l : List B64) {s : B64} (h : Plain s) : Plain (l.foldl add s) := by
  induction l generalizing s with
  | nil => exact h
  | cons v l ih => exact ih (plain_add h v)

/-- A finite double that is not the negative zero is determined by its value. -/
theorem plain_ext {a b : B64} (ha : Plain a) (hb : Plain b) (h : exactVal a = exactVal b) (fa : isFinite a = true)
    (fb : isFinite b = true) : a = b := by
  rw [isFinite_iff] at fa fb
  have hm : mag a = mag b := by
    have h1 := exactVal_natAbs a
    have h2 := exactVal_natAbs b
    rw [h] at h1
    have h3 := roundMag_magVal (m := mag a) (by omega)
    rw [← h1, h2, roundMag_magVal (by omega)] at h3
    exact h3.symm
  have hs : sgn a = sgn b := by
    by_cases hz : mag a = 0
    · have key : ∀ v : B64, mag v = 0 → Plain v → sgn v = false := by
        intro v h0 hp
        rw [Bool.eq_false_iff]
        intro hs
        apply hp.1
        rw [← mk_sgn_mag v, hs, h0]
        rfl
      rw [key a hz ha, key b (hm ▸ hz) hb]
    · have h1 := exactVal_neg_iff hz
      have h2 := exactVal_neg_iff (v := b) (hm ▸ hz)
      rw [h] at h1
      rw [Bool.eq_iff_iff]
      exact h1.symm.trans h2
  rw [← mk_sgn_mag a, ← mk_sgn_mag b, hm, hs]

end Ebi.Soft
