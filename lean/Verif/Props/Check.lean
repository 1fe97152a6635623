import Verif.DriverLemmas
import Verif.Props.DecimalFile

/-!
# C68: the check before BUFF and DeltaSprintz are run

The experiments leave out a configuration when the data cannot be quantised with its scale. The check looks at the
largest value only, and starts at zero.
-/

namespace Ebi.Props

open Ebi Ebi.Decimal Ebi.Driver Ebi.Soft

attribute [local irreducible] roundMag magVal

/-- The product with the scale survives rounding, `as i64` and back: nothing is clipped. -/
def Unclipped (scale : Nat) (v : B64) : Prop :=
  feq (Soft.ops.ofI64 (Soft.ops.toI64 (Soft.ops.round (Soft.ops.mul v (Soft.ops.ofNat scale)))))
    (Soft.ops.round (Soft.ops.mul v (Soft.ops.ofNat scale))) = true

/-- What the check accepts: a finite product of magnitude up to 2^63. -/
def InRange (scale : Nat) (v : B64) : Prop :=
  isFinite (Soft.ops.mul v (Soft.ops.ofNat scale)) = true ∧
    mag (Soft.ops.mul v (Soft.ops.ofNat scale)) ≤ 0x43e0000000000000

theorem InRange.carried {scale : Nat} {v : B64} (h : InRange scale v) : Unclipped scale v := Soft.carried h.2

/-- At least zero; no NaN. -/
def NonNeg (v : B64) : Prop := isNaN v = false ∧ 0 ≤ key v

theorem scale_finite {scale : Nat} (h : scale < 2 ^ 64) : isFinite (Soft.ops.ofNat scale) = true := by
  have h1 : roundMag (scale * 2 ^ 1074) 1 ≤ roundMag (2 ^ 64 * 2 ^ 1074) 1 :=
    roundMag_mono (Nat.mul_le_mul_right _ (by omega))
  have h2 := (pow_magVal (F := 64) (by decide)).2
  unfold isFinite
  apply decide_eq_true
  show mag (ofInt (scale : Int)) < _
  unfold ofInt rnd
  rw [Int.natAbs_natCast, mag_mk _ (by omega)]
  omega

theorem inRange_mono {scale : Nat} (hs : scale < 2 ^ 64) {v w : B64} (hv : NonNeg v) (hw : NonNeg w)
    (h : key v ≤ key w) (hr : InRange scale w) : InRange scale v := by
  have hm : mag v ≤ mag w := by
    have h1 := hv.2
    have h2 := hw.2
    unfold key at h h1 h2
    split at h <;> split at h <;> simp_all <;> omega
  have hwf : isFinite w = true := by
    cases hf : isFinite w with
    | true => rfl
    | false =>
      have h1 := hr.1
      rw [show Soft.ops.mul w (Soft.ops.ofNat scale) = Soft.mul w (Soft.ops.ofNat scale) from rfl, mul_inf hf] at h1
      exact h1
  have hvf : isFinite v = true := decide_eq_true (Nat.lt_of_le_of_lt hm (of_decide_eq_true hwf))
  have e1 : mag (Soft.ops.mul v (Soft.ops.ofNat scale)) = _ := mul_mag hvf (scale_finite hs)
  have e2 : mag (Soft.ops.mul w (Soft.ops.ofNat scale)) = _ := mul_mag hwf (scale_finite hs)
  have hle : mag (Soft.ops.mul v (Soft.ops.ofNat scale)) ≤ mag (Soft.ops.mul w (Soft.ops.ofNat scale)) := by
    rw [e1, e2]
    exact roundMag_mono (Nat.mul_le_mul_right _ (magVal_mono hm))
  exact ⟨decide_eq_true (Nat.lt_of_le_of_lt hle (of_decide_eq_true hr.1)), Nat.le_trans hle hr.2⟩

/-! ### The loop -/

theorem fmax_nonneg {a v : B64} (ha : NonNeg a) :
    NonNeg (Soft.ops.fmax a v) ∧ key a ≤ key (Soft.ops.fmax a v) ∧ (NonNeg v → key v ≤ key (Soft.ops.fmax a v)) ∧
      (Soft.ops.fmax a v = a ∨ Soft.ops.fmax a v = v ∧ NonNeg v) := by
  show NonNeg (Soft.fmax a v) ∧ key a ≤ key (Soft.fmax a v) ∧ (NonNeg v → key v ≤ key (Soft.fmax a v)) ∧
    (Soft.fmax a v = a ∨ Soft.fmax a v = v ∧ NonNeg v)
  unfold Soft.fmax
  rw [if_neg (by simp [ha.1])]
  split
  · rename_i hn
    refine ⟨ha, Int.le_refl _, fun h => ?_, .inl rfl⟩
    rw [h.1] at hn
    cases hn
  · rename_i hn
    have hn : isNaN v = false := by simpa using hn
    unfold flt
    rw [ha.1, hn]
    simp only [Bool.not_false, Bool.true_and, decide_eq_true_eq]
    have := ha.2
    split
    · rename_i hlt
      have hv : NonNeg v := ⟨hn, by omega⟩
      exact ⟨hv, by omega, fun _ => Int.le_refl _, .inr ⟨rfl, hv⟩⟩
    · rename_i hlt
      exact ⟨ha, Int.le_refl _, fun _ => by omega, .inl rfl⟩

theorem maxLoop_spec : ∀ (n : Nat) (buf : List Byte),
    buf.length = 8 * n → ∀ {B : List Byte} {acc : B64}, NonNeg acc →
      let r := maxLoop Soft.ops B acc buf
      NonNeg r ∧ key acc ≤ key r ∧ (∀ v ∈ toF64s buf, NonNeg v → key v ≤ key r) ∧ (r = acc ∨ r ∈ toF64s buf) := by
  intro n
  induction n with
  | zero =>
    intro buf hb B acc ha
    have : buf = [] := List.length_eq_zero_iff.1 (by omega)
    subst this
    refine ⟨ha, Int.le_refl _, fun v hv => ?_, .inl rfl⟩
    cases hv
  | succ n ih =>
    intro buf hb B acc ha
    match buf, hb with
    | a :: b :: c :: d :: e :: f :: g :: h :: rest, hb =>
      have hl : rest.length = 8 * n := by simp only [List.length_cons] at hb; omega
      obtain ⟨h1, h2, h3, h4⟩ := fmax_nonneg (v := f64Of [a, b, c, d, e, f, g, h]) ha
      obtain ⟨i1, i2, i3, i4⟩ := ih rest hl (B := [a, b, c, d, e, f, g, h]) h1
      have et : toF64s (a :: b :: c :: d :: e :: f :: g :: h :: rest) =
          f64Of [a, b, c, d, e, f, g, h] :: toF64s rest := by
        rw [toF64s]
      refine ⟨i1, ?_, ?_, ?_⟩
      · simp only [maxLoop]; omega
      · intro v hv hn
        rw [et] at hv
        simp only [maxLoop]
        rcases List.mem_cons.1 hv with rfl | hv
        · have := h3 hn
          omega
        · exact i3 v hv hn
      · rw [et]
        simp only [maxLoop]
        rcases i4 with i4 | i4
        · rw [i4]
          rcases h4 with h4 | h4
          · exact .inl h4
          · exact .inr (by rw [h4.1]; exact List.mem_cons_self ..)
        · exact .inr (List.mem_cons_of_mem _ i4)

theorem maxValue_spec {buf : List Byte} (hb : buf.length % 8 = 0) :
    NonNeg (maxValue Soft.ops buf) ∧ (∀ v ∈ toF64s buf, NonNeg v → key v ≤ key (maxValue Soft.ops buf)) ∧
      (maxValue Soft.ops buf = 0#64 ∨ maxValue Soft.ops buf ∈ toF64s buf) := by
  have h0 : NonNeg 0#64 := by unfold NonNeg; decide
  obtain ⟨h1, -, h3, h4⟩ := maxLoop_spec (buf.length / 8) buf (by omega) (B := List.replicate 8 0#8) h0
  exact ⟨h1, h3, h4⟩

theorem zero_inRange {scale : Nat} (hs : scale < 2 ^ 64) : InRange scale 0#64 := by
  have e : mag (Soft.ops.mul 0#64 (Soft.ops.ofNat scale)) = _ := mul_mag (a := 0#64) (by decide) (scale_finite hs)
  have e0 : mag 0#64 = 0 := by decide
  have hr := roundMag_magVal (m := 0) (by decide)
  rw [magVal_zero] at hr
  have hz : roundMag 0 (2 ^ 1074) = 0 := by
    have := roundMag_mono_cross (n := 0) (d := 2 ^ 1074) (n' := 0) (d' := 1) (Nat.two_pow_pos _) (by decide) (by simp)
    omega
  rw [e0, magVal_zero, Nat.zero_mul, hz] at e
  unfold InRange isFinite
  rw [e]
  decide

/-- When a configuration is run: for all records that are at least zero the product with the scale is finite and at
most 2^63, and for BUFF the precision is at most twelve. -/
theorem c68_check (log10 : Nat → Nat) (isBuff : Bool) {scale : Nat} (hs : scale < 2 ^ 64) {buf : List Byte}
    (hb : buf.length % 8 = 0) :
    admitted Soft.ops log10 isBuff scale (maxValue Soft.ops buf) = true ↔
      (∀ v ∈ toF64s buf, NonNeg v → InRange scale v) ∧ (isBuff = true → precisionOf log10 scale ≤ 12) := by
  obtain ⟨h1, h2, h3⟩ := maxValue_spec hb
  have hrange : (∀ v ∈ toF64s buf, NonNeg v → InRange scale v) ↔ InRange scale (maxValue Soft.ops buf) := by
    constructor
    · intro h
      rcases h3 with h3 | h3
      · rw [h3]; exact zero_inRange hs
      · exact h _ h3 h1
    · intro h v hv hn
      exact inRange_mono hs hn h1 (h2 v hv hn) h
  rw [hrange]
  unfold admitted InRange
  generalize Soft.ops.mul (maxValue Soft.ops buf) (Soft.ops.ofNat scale) = q
  simp only []
  have habs : mag (q &&& 0x7fffffffffffffff#64) = mag q ∧ sgn (q &&& 0x7fffffffffffffff#64) = false := by
    unfold mag sgn
    rw [BitVec.toNat_and, show (0x7fffffffffffffff#64).toNat = 2 ^ 63 - 1 by decide, Nat.and_two_pow_sub_one_eq_mod]
    refine ⟨Nat.mod_mod _ _, decide_eq_false ?_⟩
    have := Nat.mod_lt q.toNat (show 0 < 2 ^ 63 by decide)
    omega
  have hcmp : isFinite q = true → flt 0x43e0000000000000#64 (q &&& 0x7fffffffffffffff#64) =
      decide (0x43e0000000000000 < mag q) := by
    intro hf
    have hf := of_decide_eq_true hf
    unfold flt isNaN
    have hk : key (q &&& 0x7fffffffffffffff#64) = (mag q : Int) := by
      unfold key
      rw [habs.1, habs.2]
      rfl
    rw [habs.1, hk, show key 0x43e0000000000000#64 = (0x43e0000000000000 : Int) by decide,
      show mag 0x43e0000000000000#64 = 0x43e0000000000000 by decide, decide_eq_false (by omega),
      decide_eq_false (by omega)]
    simp only [Bool.not_false, Bool.true_and]
    apply decide_eq_decide.2
    omega
  cases hf : isFinite q with
  | false => simp
  | true =>
    rw [hcmp hf]
    by_cases hle : 0x43e0000000000000 < mag q
    · simp [hle]
      omega
    · simp only [hle, decide_false, Bool.not_true, Bool.or_self, Bool.false_eq_true, if_false, Bool.not_eq_true',
        Bool.and_eq_false_imp, decide_eq_false_iff_not, true_and]
      constructor
      · intro h
        exact ⟨by omega, fun hb => by have := h hb; omega⟩
      · intro h hb
        have := h.2 hb
        omega

/-- A run is safe for the records that are at least zero. Missing: the others, see `c68_negative`. -/
theorem c68_safe_partial (log10 : Nat → Nat) (isBuff : Bool) {scale : Nat} (hs : scale < 2 ^ 64) {buf : List Byte}
    (hb : buf.length % 8 = 0) (h : admitted Soft.ops log10 isBuff scale (maxValue Soft.ops buf) = true) :
    ∀ v ∈ toF64s buf, NonNeg v → Unclipped scale v := fun v hv hn =>
  (((c68_check log10 isBuff hs hb).1 h).1 v hv hn).carried

/-- The range is the right one: a record outside of it is clipped. -/
theorem c68_clipped {scale : Nat} {v : B64} (h : ¬ InRange scale v) : ¬ Unclipped scale v := by
  intro hc
  have hm : mag (Soft.ops.mul v (Soft.ops.ofNat scale)) ≤ top63 := carried_only hc
  have ht : top63 = 0x43e0000000000000 := rfl
  exact h ⟨decide_eq_true (by omega), by omega⟩

/-- A configuration of DeltaSprintz that is left out has a record that would be clipped. -/
theorem c68_skipped (log10 : Nat → Nat) {scale : Nat} (hs : scale < 2 ^ 64) {buf : List Byte}
    (hb : buf.length % 8 = 0) (h : admitted Soft.ops log10 false scale (maxValue Soft.ops buf) = false) :
    ∃ v ∈ toF64s buf, NonNeg v ∧ ¬ Unclipped scale v := by
  apply Classical.byContradiction
  intro hc
  have : admitted Soft.ops log10 false scale (maxValue Soft.ops buf) = true := by
    rw [c68_check log10 false hs hb]
    refine ⟨fun v hv hn => ?_, fun hf => by cases hf⟩
    apply Classical.byContradiction
    intro hr
    exact hc ⟨v, hv, hn, c68_clipped hr⟩
  rw [h] at this
  cases this

/-- -1e300. -/
def hugeNegative : B64 := 0xfe37e43c8800759c#64

/-- The claim fails for negative records: -1e300 passes with any scale, is clipped, and does not come back. -/
theorem c68_negative :
    (∀ log10 scale, scale < 2 ^ 64 → admitted Soft.ops log10 false scale (maxValue Soft.ops (f64Bytes hugeNegative)) =
      true) ∧ ¬ Unclipped 100 hugeNegative ∧ readBack sampleEnv (.deltaSprintz 8 100) hugeNegative ≠ hugeNegative := by
  refine ⟨fun log10 scale hs => ?_, ?_, ?_⟩
  · rw [c68_check log10 false hs (by simp)]
    refine ⟨fun v hv hn => ?_, fun hf => by cases hf⟩
    rw [show toF64s (f64Bytes hugeNegative) = [hugeNegative] by decide +kernel, List.mem_singleton] at hv
    subst hv
    exact absurd hn.2 (by decide)
  · apply c68_clipped
    intro h
    have h2 := h.2
    revert h2
    decide +kernel
  · decide +kernel

/-- A few bytes after the last record are taken together with the end of that record: two bytes short of a record
of 2.0 and the configuration is left out, though every record is in range. -/
theorem c68_tail : admitted Soft.ops (fun _ => 15) false (10 ^ 15)
      (maxValue Soft.ops (f64Bytes 0x4000000000000000#64 ++ List.replicate 7 0xff#8)) = false ∧
    toF64s (f64Bytes 0x4000000000000000#64 ++ List.replicate 7 0xff#8) = [0x4000000000000000#64] ∧
    InRange (10 ^ 15) 0x4000000000000000#64 := by
  refine ⟨by decide +kernel, by decide +kernel, ?_⟩
  unfold InRange
  decide +kernel

/-! Hypotheses met: 12.5 and 0.07, scale 100. -/
example : admitted Soft.ops (fun _ => 2) true 100
    (maxValue Soft.ops (f64Bytes 0x4029000000000000#64 ++ f64Bytes 0x3fb1eb851eb851ec#64)) = true := by decide +kernel

example : admitted Soft.ops (fun _ => 2) false 100 (maxValue Soft.ops (f64Bytes 0x7e37e43c8800759c#64)) = false := by
  decide +kernel

end Ebi.Props
