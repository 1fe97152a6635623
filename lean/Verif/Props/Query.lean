import Verif.Query
import Verif.SoftFloat

/-!
# C35 predicate semantics, and the default query implementations on one chunk
-/

namespace Ebi.Props

open Ebi

/-! ## C35

The specification compares exact values (`exactVal`, integers in units of `2^-1074`, for finite
doubles), with the infinities beyond every finite value. -/

/-- Extended exact value: `none` for NaN; the infinities are placed beyond every finite value. -/
def realVal (v : B64) : Option Int :=
  if isNaN v then none
  else if isInf v then some (if sgn v then -(2 ^ 2200 : Nat) else (2 ^ 2200 : Nat))
  else some (exactVal v)

/-- Spec of `a < b`, `a <= b`, `a == b`: NaN compares false. -/
def specLt (a b : B64) : Prop := ∃ x y, realVal a = some x ∧ realVal b = some y ∧ x < y
def specLe (a b : B64) : Prop := ∃ x y, realVal a = some x ∧ realVal b = some y ∧ x ≤ y
def specEq (a b : B64) : Prop := ∃ x, realVal a = some x ∧ realVal b = some x

theorem magVal_finite_lt {m : Nat} (h : m < 0x7ff0000000000000) : magVal m < 2 ^ 2200 := by
  unfold magVal
  have h1 : m / 2 ^ 52 - 1 ≤ 2045 := by omega
  have h2 : 2 ^ (m / 2 ^ 52 - 1) ≤ 2 ^ 2045 := Nat.pow_le_pow_right (by omega) h1
  have h3 : m % 2 ^ 52 < 2 ^ 52 := Nat.mod_lt _ (by decide)
  split
  · calc m % 2 ^ 52 < 2 ^ 52 := h3
      _ ≤ 2 ^ 2200 := Nat.pow_le_pow_right (by omega) (by omega)
  · calc (2 ^ 52 + m % 2 ^ 52) * 2 ^ (m / 2 ^ 52 - 1) ≤ 2 ^ 53 * 2 ^ 2045 :=
        Nat.mul_le_mul (by omega) h2
      _ = 2 ^ 2098 := by rw [← Nat.pow_add]
      _ < 2 ^ 2200 := Nat.pow_lt_pow_right (by omega) (by omega)

/-- The order of `realVal` is the order of `key`. -/
theorem realVal_order {a b : B64} {x y : Int} (ha : realVal a = some x) (hb : realVal b = some y) :
    (x < y ↔ key a < key b) ∧ (x = y ↔ key a = key b) := by
  have hab := exactVal_lt_iff a b
  have heq := exactVal_eq_iff a b
  have fin : ∀ v : B64, isNaN v = false → isInf v = false → mag v < 0x7ff0000000000000 := by
    intro v h1 h2
    simp only [isNaN, isInf, decide_eq_false_iff_not] at h1 h2
    omega
  have key_inf : ∀ v : B64, isInf v = true →
      key v = if sgn v then -0x7ff0000000000000 else 0x7ff0000000000000 := by
    intro v h
    simp only [isInf, decide_eq_true_eq] at h
    simp [key, h]
  have key_fin : ∀ v : B64, mag v < 0x7ff0000000000000 →
      -0x7ff0000000000000 < key v ∧ key v < 0x7ff0000000000000 ∧
      -((2 ^ 2200 : Nat) : Int) < exactVal v ∧ exactVal v < ((2 ^ 2200 : Nat) : Int) := by
    intro v h
    have h1 := magVal_finite_lt h
    generalize hN : (2 : Nat) ^ 2200 = N at h1 ⊢
    simp only [key, exactVal]
    cases sgn v <;> simp <;> omega
  unfold realVal at ha hb
  generalize hN : ((2 ^ 2200 : Nat) : Int) = N at ha hb key_fin
  have hNpos : 0 < N := by
    rw [← hN]; exact_mod_cast Nat.two_pow_pos 2200
  cases han : isNaN a with
  | true => simp [han] at ha
  | false =>
  cases hbn : isNaN b with
  | true => simp [hbn] at hb
  | false =>
  cases hai : isInf a with
  | true =>
    have hk := key_inf a hai
    simp only [han, hai, if_true, Bool.false_eq_true, if_false, Option.some.injEq] at ha
    cases hbi : isInf b with
    | true =>
      have hk2 := key_inf b hbi
      simp only [hbn, hbi, if_true, Bool.false_eq_true, if_false, Option.some.injEq] at hb
      rw [hk, hk2, ← ha, ← hb]
      cases sgn a <;> cases sgn b <;> simp <;> omega
    | false =>
      have hk2 := key_fin b (fin b hbn hbi)
      simp only [hbn, hbi, Bool.false_eq_true, if_false, Option.some.injEq] at hb
      rw [hk, ← ha]
      cases sgn a <;> simp <;> omega
  | false =>
    have hk := key_fin a (fin a han hai)
    simp only [han, hai, Bool.false_eq_true, if_false, Option.some.injEq] at ha
    cases hbi : isInf b with
    | true =>
      have hk2 := key_inf b hbi
      simp only [hbn, hbi, if_true, Bool.false_eq_true, if_false, Option.some.injEq] at hb
      rw [hk2, ← hb]
      cases sgn b <;> simp <;> omega
    | false =>
      simp only [hbn, hbi, Bool.false_eq_true, if_false, Option.some.injEq] at hb
      rw [← ha, ← hb]
      exact ⟨hab, heq⟩

theorem realVal_none (v : B64) : realVal v = none ↔ isNaN v = true := by
  unfold realVal
  split <;> rename_i h
  · simp [h]
  · split <;> simp [h]

/-- The comparison operators used by predicates are the IEEE ones. -/
theorem c35_comparisons (a b : B64) :
    (flt a b = true ↔ specLt a b) ∧ (fle a b = true ↔ specLe a b) ∧ (feq a b = true ↔ specEq a b) := by
  unfold flt fle feq specLt specLe specEq
  cases han : isNaN a with
  | true =>
    have := (realVal_none a).2 han
    simp [this]
  | false =>
  cases hbn : isNaN b with
  | true =>
    have := (realVal_none b).2 hbn
    simp [this]
  | false =>
  cases ha : realVal a with
  | none => rw [(realVal_none a).1 ha] at han; cases han
  | some x =>
  cases hb : realVal b with
  | none => rw [(realVal_none b).1 hb] at hbn; cases hbn
  | some y =>
    obtain ⟨h1, h2⟩ := realVal_order ha hb
    simp only [Bool.not_false, Bool.true_and, decide_eq_true_eq, Option.some.injEq,
      exists_eq_left', exists_and_left]
    refine ⟨h1.symm, ?_, ?_⟩
    · omega
    · rw [← h2]
      exact eq_comm

/-- `Eq`: equal values; `Ne`: the negation (so NaN satisfies `Ne`, whatever the constant). -/
theorem c35_eq_ne (c v : B64) :
    ((Predicate.eq c).eval f64Cmp v = true ↔ specEq v c) ∧
    ((Predicate.ne c).eval f64Cmp v = true ↔ ¬ specEq v c) := by
  have h := (c35_comparisons v c).2.2
  refine ⟨h, ?_⟩
  simp only [Predicate.eval, f64Cmp]
  rw [← h]
  simp

/-- A bound holds. -/
def lowerOk (v : B64) : RangeValue B64 → Prop
  | .inclusive s => specLe s v
  | .exclusive s => specLt s v
  | .none => True

def upperOk (v : B64) : RangeValue B64 → Prop
  | .inclusive s => specLe v s
  | .exclusive s => specLt v s
  | .none => True

/-- A range is the conjunction of its bounds. -/
theorem c35_range (r : Range B64) (v : B64) :
    (Predicate.range r).eval f64Cmp v = true ↔ lowerOk v r.start ∧ upperOk v r.stop := by
  obtain ⟨s, e⟩ := r
  simp only [Predicate.eval, Range.eval, f64Cmp, Bool.and_eq_true]
  apply and_congr
  · cases s with
    | inclusive s => exact (c35_comparisons s v).2.1
    | exclusive s => exact (c35_comparisons s v).1
    | none => simp [lowerOk]
  · cases e with
    | inclusive s => exact (c35_comparisons v s).2.1
    | exclusive s => exact (c35_comparisons v s).1
    | none => simp [upperOk]

/-- NaN satisfies no `Eq` and no range with at least one bound; it satisfies every `Ne`. -/
theorem c35_nan (v : B64) (h : isNaN v = true) (c : B64) (r : Range B64)
    (hr : r.start ≠ .none ∨ r.stop ≠ .none) :
    (Predicate.eq c).eval f64Cmp v = false ∧ (Predicate.ne c).eval f64Cmp v = true ∧
      (Predicate.range r).eval f64Cmp v = false := by
  have hv := (realVal_none v).2 h
  have h1 : ¬ specEq v c := by rintro ⟨x, hx, -⟩; rw [hv] at hx; cases hx
  refine ⟨?_, ((c35_eq_ne c v).2).2 h1, ?_⟩
  · rw [Bool.eq_false_iff]; exact fun hc => h1 (((c35_eq_ne c v).1).1 hc)
  · rw [Bool.eq_false_iff]
    intro hc
    obtain ⟨h2, h3⟩ := (c35_range r v).1 hc
    have l : ∀ s, ¬ specLe s v ∧ ¬ specLt s v := by
      intro s
      refine ⟨?_, ?_⟩ <;> rintro ⟨x, y, -, hy, -⟩ <;> rw [hv] at hy <;> cases hy
    have u : ∀ s, ¬ specLe v s ∧ ¬ specLt v s := by
      intro s
      refine ⟨?_, ?_⟩ <;> rintro ⟨x, y, hx, -, -⟩ <;> rw [hv] at hx <;> cases hx
    rcases hr with hr | hr
    · cases hs : r.start with
      | inclusive s => rw [hs] at h2; exact (l s).1 h2
      | exclusive s => rw [hs] at h2; exact (l s).2 h2
      | none => exact hr hs
    · cases hs : r.stop with
      | inclusive s => rw [hs] at h3; exact (u s).1 h3
      | exclusive s => rw [hs] at h3; exact (u s).2 h3
      | none => exact hr hs

/-- The two zeros are equal. -/
theorem c35_zeros : (Predicate.eq 0#64).eval f64Cmp 0x8000000000000000#64 = true := by decide +kernel

example : (Predicate.range ⟨.inclusive 0x3ff0000000000000#64, .exclusive 0x4000000000000000#64⟩).eval
    f64Cmp 0x3ff8000000000000#64 = true := by decide +kernel

end Ebi.Props
