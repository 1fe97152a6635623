import Verif.Decimal
import Verif.DecimalRound

/-!
# Lemmas about the decimal text helpers
-/

namespace Ebi.Decimal

open Ebi

/-! ## Cutting -/

theorem cut_none {c : Char} {s : List Char} (h : c ∉ s) : cut c s = none := by
  induction s with
  | nil => rfl
  | cons x xs ih =>
    rw [List.mem_cons, not_or] at h
    rw [cut, if_neg (fun e => h.1 e.symm), ih h.2]
    rfl

theorem cut_append {c : Char} {a : List Char} (h : c ∉ a) (b : List Char) : cut c (a ++ c :: b) = some (a, b) := by
  induction a with
  | nil => simp [cut]
  | cons x xs ih =>
    rw [List.mem_cons, not_or] at h
    rw [List.cons_append, cut, if_neg (fun e => h.1 e.symm), ih h.2]
    rfl

/-! ## The tally -/

/-- Number of records whose key satisfies `f`. -/
def weight (f : Nat → Bool) (m : List (Nat × Nat)) : Nat := ((m.filter (fun e => f e.1)).map Prod.snd).sum

theorem weight_cons (f : Nat → Bool) (e : Nat × Nat) (m : List (Nat × Nat)) :
    weight f (e :: m) = (if f e.1 then e.2 else 0) + weight f m := by
  unfold weight
  by_cases h : f e.1 = true
  · rw [List.filter_cons_of_pos (by simpa using h), if_pos h]; simp
  · rw [List.filter_cons_of_neg (by simpa using h), if_neg h]; simp

theorem weight_bump (f : Nat → Bool) (p : Nat) (m : List (Nat × Nat)) :
    weight f (bump p m) = weight f m + if f p then 1 else 0 := by
  induction m with
  | nil => rw [bump, weight_cons]; exact Nat.add_comm _ _
  | cons e r ih =>
    obtain ⟨q, c⟩ := e
    rw [bump]
    split
    · rw [weight_cons f (p, 1)]; simp only; omega
    · split
      · rename_i h; subst h
        rw [weight_cons, weight_cons]
        simp only
        split <;> omega
      · rw [weight_cons, weight_cons, ih]
        omega

theorem mem_bump {p q : Nat} {m : List (Nat × Nat)} : q ∈ (bump p m).map Prod.fst ↔ q = p ∨ q ∈ m.map Prod.fst := by
  induction m with
  | nil => simp [bump]
  | cons e r ih =>
    obtain ⟨k, c⟩ := e
    rw [bump]
    split
    · simp
    · split
      · rename_i h; subst h; simp
      · rw [List.map_cons, List.mem_cons, ih, List.map_cons, List.mem_cons]
        constructor
        · rintro (h | h | h) <;> simp [h]
        · rintro (h | h | h) <;> simp [h]

theorem sorted_bump {p : Nat} {m : List (Nat × Nat)} (h : (m.map Prod.fst).Pairwise (· < ·)) :
    ((bump p m).map Prod.fst).Pairwise (· < ·) := by
  induction m with
  | nil => simp [bump]
  | cons e r ih =>
    obtain ⟨k, c⟩ := e
    rw [List.map_cons, List.pairwise_cons] at h
    rw [bump]
    split
    · rename_i hp
      rw [List.map_cons, List.pairwise_cons, List.map_cons, List.pairwise_cons]
      refine ⟨fun x hx => ?_, h⟩
      rcases List.mem_cons.1 hx with rfl | hx
      · exact hp
      · exact Nat.lt_trans hp (h.1 x hx)
    · split
      · rw [List.map_cons, List.pairwise_cons]; exact h
      · rename_i h1 h2
        rw [List.map_cons, List.pairwise_cons]
        refine ⟨fun x hx => ?_, ih h.2⟩
        rcases mem_bump.1 hx with rfl | hx
        · simp only at *; omega
        · exact h.1 x hx

theorem tally_gen (precs : List Nat) (m : List (Nat × Nat)) (h : (m.map Prod.fst).Pairwise (· < ·)) :
    ((precs.foldl (fun m p => bump p m) m).map Prod.fst).Pairwise (· < ·) ∧
    (∀ q, q ∈ (precs.foldl (fun m p => bump p m) m).map Prod.fst ↔ q ∈ precs ∨ q ∈ m.map Prod.fst) ∧
    ∀ f, weight f (precs.foldl (fun m p => bump p m) m) = precs.countP f + weight f m := by
  induction precs generalizing m with
  | nil => exact ⟨h, by simp, by simp⟩
  | cons p ps ih =>
    obtain ⟨h1, h2, h3⟩ := ih (bump p m) (sorted_bump h)
    refine ⟨h1, fun q => ?_, fun f => ?_⟩
    · rw [List.foldl_cons, h2, mem_bump, List.mem_cons]
      constructor
      · rintro (h | h | h) <;> simp [h]
      · rintro ((h | h) | h) <;> simp [h]
    · rw [List.foldl_cons, h3, weight_bump, List.countP_cons]
      omega

theorem total_eq (m : List (Nat × Nat)) : total m = weight (fun _ => true) m := by
  unfold total weight
  rw [List.filter_eq_self.2 (fun _ _ => rfl)]

theorem weight_reverse (f : Nat → Bool) (m : List (Nat × Nat)) : weight f m.reverse = weight f m := by
  unfold weight
  rw [List.filter_reverse, List.map_reverse, List.sum_reverse]

/-- What the loop chooses: the first key, from above, that is not rejected. -/
theorem choose_iff (o : FloatOps) (thr : B64) (n : Nat) (d : List (Nat × Nat)) (acc : Nat)
    (h : (d.map Prod.fst).Pairwise (· > ·)) (p : Nat) :
    choose o thr n acc d = some p ↔
      p ∈ d.map Prod.fst ∧
      flt (o.div (o.ofNat (acc + weight (fun q => decide (p ≤ q)) d)) (o.ofNat n)) thr = false ∧
      ∀ q ∈ d.map Prod.fst, p < q →
        flt (o.div (o.ofNat (acc + weight (fun r => decide (q ≤ r)) d)) (o.ofNat n)) thr = true := by
  induction d generalizing acc with
  | nil => simp [choose]
  | cons e r ih =>
    obtain ⟨k, c⟩ := e
    rw [List.map_cons, List.pairwise_cons] at h
    simp only at h
    have hw : weight (fun q => decide (k ≤ q)) ((k, c) :: r) = c := by
      rw [weight_cons]
      simp only [Nat.le_refl, decide_true, if_true]
      have : weight (fun q => decide (k ≤ q)) r = 0 := by
        unfold weight
        rw [List.filter_eq_nil_iff.2]
        · rfl
        · intro x hx
          have := h.1 x.1 (List.mem_map_of_mem hx)
          simp only [decide_eq_true_eq]
          omega
      omega
    have hw' : ∀ q ∈ r.map Prod.fst,
        weight (fun x => decide (q ≤ x)) ((k, c) :: r) = c + weight (fun x => decide (q ≤ x)) r := by
      intro q hq
      rw [weight_cons]
      have := h.1 q hq
      rw [if_pos (by simp only [decide_eq_true_eq]; omega)]
    rw [choose]
    cases hk : flt (o.div (o.ofNat (acc + c)) (o.ofNat n)) thr with
    | false =>
      simp only [Bool.false_eq_true, if_false, Option.some.injEq]
      constructor
      · rintro rfl
        refine ⟨by simp, by rw [hw]; exact hk, fun q hq hlt => ?_⟩
        rcases List.mem_cons.1 (show q ∈ k :: r.map Prod.fst from hq) with rfl | hq
        · omega
        · have := h.1 q hq
          omega
      · rintro ⟨h1, h2, h3⟩
        rcases List.mem_cons.1 (show p ∈ k :: r.map Prod.fst from h1) with rfl | h1
        · rfl
        · exfalso
          have := h3 k (by simp) (h.1 p h1)
          rw [hw, hk] at this
          cases this
    | true =>
      simp only [if_true]
      rw [ih (acc + c) h.2]
      constructor
      · rintro ⟨h1, h2, h3⟩
        refine ⟨List.mem_cons_of_mem _ h1, by rw [hw' p h1, ← Nat.add_assoc]; exact h2, fun q hq hlt => ?_⟩
        rcases List.mem_cons.1 (show q ∈ k :: r.map Prod.fst from hq) with rfl | hq
        · rw [hw]; exact hk
        · rw [hw' q hq, ← Nat.add_assoc]; exact h3 q hq hlt
      · rintro ⟨h1, h2, h3⟩
        rcases List.mem_cons.1 (show p ∈ k :: r.map Prod.fst from h1) with rfl | h1
        · rw [hw, hk] at h2; cases h2
        · rw [hw' p h1, ← Nat.add_assoc] at h2
          refine ⟨h1, h2, fun q hq hlt => ?_⟩
          have := h3 q (List.mem_cons_of_mem _ hq) hlt
          rwa [hw' q hq, ← Nat.add_assoc] at this

theorem chosen_iff (o : FloatOps) (exact : Bool) (precs : List Nat) (p : Nat) :
    chosen o exact precs = some p ↔
      p ∈ precs ∧
      flt (o.div (o.ofNat (precs.countP (fun q => decide (p ≤ q)))) (o.ofNat precs.length))
        (if exact then 0#64 else onePercent) = false ∧
      ∀ q ∈ precs, p < q →
        flt (o.div (o.ofNat (precs.countP (fun r => decide (q ≤ r)))) (o.ofNat precs.length))
          (if exact then 0#64 else onePercent) = true := by
  obtain ⟨h1, h2, h3⟩ := tally_gen precs [] (by simp)
  have h2' : ∀ q, q ∈ (tally precs).reverse.map Prod.fst ↔ q ∈ precs := by
    intro q
    rw [List.map_reverse, List.mem_reverse]
    exact (h2 q).trans (by simp)
  have h3' : ∀ f, weight f (tally precs) = precs.countP f := fun f => (h3 f).trans (by simp [weight])
  unfold chosen
  rw [choose_iff]
  · simp only [h2', weight_reverse, h3', Nat.zero_add, total_eq]
    rw [List.countP_true]
  · rw [List.map_reverse, List.pairwise_reverse]
    exact h1

/-! ## Comparing a share with one percent -/

open Soft Elf

attribute [local irreducible] roundMag magVal U

theorem near_le (a n : Nat) : near a n ≤ 0x7ff0000000000000 := roundMag_le _ _

theorem share_eq {a n : Nat} (hn : 0 < n) (han : a ≤ n) (h : n < 2 ^ 53) :
    Soft.ops.div (Soft.ops.ofNat a) (Soft.ops.ofNat n) = mk false (near a n) := by
  show Soft.div (ofInt (a : Int)) (ofInt (n : Int)) = _
  have hS := exactInt_lt hn h
  have := dequantize_nearest (s := false) (M := a) hS (by omega)
  have e0 : (BitVec.ofInt 64 (signed false a)).toInt = (a : Int) := by
    rw [BitVec.toInt_ofInt]
    unfold signed
    simp only [Bool.false_eq_true, if_false]
    exact Int.bmod_eq_of_le (by omega) (by omega)
  rw [e0] at this
  rw [this]
  rfl

theorem onePercent_eq : onePercent = mk false (roundMag U 100) ∧ roundMag U 100 = 0x3f847ae147ae147b := by
  constructor <;> decide +kernel

/-- Value just below the double `0.01`. -/
theorem below_onePercent : ∃ X, magVal 0x3f847ae147ae147a = 5764607523034234 * X ∧ U = 2 ^ 59 * X ∧ 0 < X := by
  refine ⟨2 ^ 1015, ?_, ?_, Nat.two_pow_pos _⟩
  · decide +kernel
  · rw [← U_eq, ← Nat.pow_add]

/-- The share `a / n` is below the double `0.01` exactly when fewer than one in a hundred. -/
theorem share_lt {a n : Nat} (hn : 0 < n) (han : a ≤ n) (h : n ≤ 2 ^ 52) :
    flt (Soft.ops.div (Soft.ops.ofNat a) (Soft.ops.ofNat n)) onePercent = decide (100 * a < n) := by
  rw [share_eq hn han (by omega), onePercent_eq.1, flt_mk (near_le a n) (roundMag_le _ _)]
  congr 1
  apply propext
  constructor
  · intro hlt
    apply Nat.lt_of_not_le
    intro hc
    have : roundMag U 100 ≤ near a n := roundMag_mono_cross (by decide) hn (by
      rw [Nat.mul_comm U, Nat.mul_right_comm, Nat.mul_comm a]
      exact Nat.mul_le_mul_right _ hc)
    omega
  · intro hlt
    rw [onePercent_eq.2]
    obtain ⟨X, h1, h2, h3⟩ := below_onePercent
    have h4 : near a n ≤ roundMag (magVal 0x3f847ae147ae147a) 1 := roundMag_mono_cross hn (by decide) (by
      rw [Nat.mul_one, h1, h2, Nat.mul_right_comm, ← Nat.mul_assoc]
      exact Nat.mul_le_mul_right _ (by omega))
    rw [roundMag_magVal (by decide)] at h4
    omega

/-- No share is below zero. -/
theorem share_zero {a n : Nat} (hn : 0 < n) (han : a ≤ n) (h : n ≤ 2 ^ 52) :
    flt (Soft.ops.div (Soft.ops.ofNat a) (Soft.ops.ofNat n)) 0#64 = false := by
  rw [share_eq hn han (by omega), show (0#64 : B64) = mk false 0 from rfl, flt_mk (near_le a n) (by decide)]
  simp

end Ebi.Decimal
