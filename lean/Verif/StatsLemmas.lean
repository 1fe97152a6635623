import Verif.Stats
import Verif.SumLemmas
import Verif.ElfDomain
import Verif.Props.Ieee
import Verif.Props.Text

/-!
# Lemmas about the statistics tool
-/

namespace Ebi.Stats

open Ebi Ebi.Soft Ebi.Decimal Ebi.Props

attribute [local irreducible] roundMag magVal

/-! ### Quotients of integers -/

theorem rounded_scale {x : B64} {n : Int} {d c : Nat} (hc : 0 < c) (h : Rounded x (n * c) (d * c)) : Rounded x n d := by
  have hn : (n * (c : Int)).natAbs = n.natAbs * c := by rw [Int.natAbs_mul]; rfl
  have hd : ∀ y : B64, (exactVal y * ((d * c : Nat) : Int) - n * c).natAbs = (exactVal y * d - n).natAbs * c := by
    intro y
    rw [Int.natCast_mul, ← Int.mul_assoc, ← Int.sub_mul, Int.natAbs_mul]
    rfl
  have hlt : ∀ t, (t * d ≤ n.natAbs ↔ t * (d * c) ≤ n.natAbs * c) := by
    intro t
    rw [← Nat.mul_assoc]
    exact ⟨fun h => Nat.mul_le_mul_right _ h, fun h => Nat.le_of_mul_le_mul_right h hc⟩
  have hs : n * (c : Int) < 0 ↔ n < 0 := by
    constructor
    · intro h
      apply Int.lt_of_not_ge
      intro h0
      exact absurd h (Int.not_lt.2 (Int.mul_nonneg h0 (by omega)))
    · intro h
      exact Int.mul_neg_of_neg_of_pos h (by omega)
  refine ⟨fun h1 => ?_, fun h1 => ?_, fun h1 y hy => ?_, fun h1 y hy hne he => ?_⟩
  · rw [h.infinite (by rw [hn]; exact (hlt _).1 h1)]
    by_cases h0 : n < 0
    · rw [if_pos h0, if_pos (hs.2 h0)]
    · rw [if_neg h0, if_neg (fun hx => h0 (hs.1 hx))]
  · exact h.finite (by rw [hn]; exact Nat.lt_of_not_le fun hx => absurd ((hlt _).2 hx) (by omega))
  · have := h.nearest (by rw [hn]; exact Nat.lt_of_not_le fun hx => absurd ((hlt _).2 hx) (by omega)) y hy
    rw [hd, hd] at this
    exact Nat.le_of_mul_le_mul_right this hc
  · exact h.even (by rw [hn]; exact Nat.lt_of_not_le fun hx => absurd ((hlt _).2 hx) (by omega)) y hy hne (by rw [hd, hd, he])

theorem cast_exact {x : Int} (h : x.natAbs < 2 ^ 53) :
    isFinite (ofInt x) = true ∧ exactVal (ofInt x) = x * 2 ^ 1074 ∧ sgn (ofInt x) = decide (x < 0) := by
  obtain ⟨h1, h2⟩ := Elf.exact_U (s := 0) h (by decide)
  unfold ofInt
  rw [Nat.pow_zero, Nat.mul_one] at h1 h2
  rw [← Elf.U_eq] at h1 h2
  refine ⟨?_, ?_, sgn_rnd ..⟩
  · rw [isFinite_iff, mag_rnd]; exact h2
  · rw [exactVal_rnd, h1, Int.natCast_mul, Int.natCast_pow]
    by_cases h0 : x < 0
    · rw [decide_eq_true h0, if_pos rfl, ← Int.neg_mul, show -(x.natAbs : Int) = x by omega]; rfl
    · rw [decide_eq_false h0, if_neg (by decide), show (x.natAbs : Int) = x by omega]; rfl

/-- A finite double over an integer. -/
theorem quot_any {t : B64} {n : Nat} (ht : isFinite t = true) (h0 : 0 < n) (hn : n < 2 ^ 53) :
    Rounded (Soft.ops.div t (Soft.ops.ofNat n)) (exactVal t) n ∧ sgn (Soft.ops.div t (Soft.ops.ofNat n)) = sgn t := by
  obtain ⟨h1, h2, h3⟩ := cast_exact (x := (n : Int)) (by omega)
  have hp : 0 < (2 : Nat) ^ 1074 := Nat.two_pow_pos _
  have hpi : (2 : Int) ^ 1074 ≠ 0 := by
    have : ((2 ^ 1074 : Nat) : Int) = (2 : Int) ^ 1074 := by rw [Int.natCast_pow]; rfl
    omega
  have hs : sgn (Soft.ops.ofNat n) = false := by
    show sgn (ofInt (n : Int)) = false
    rw [h3]
    exact decide_eq_false (by omega)
  have he : exactVal (Soft.ops.ofNat n) = (n : Int) * 2 ^ 1074 := h2
  have hd := c73_div ht (b := Soft.ops.ofNat n) h1 (by
    rw [he]
    intro hx
    rcases Int.mul_eq_zero.1 hx with h | h
    · omega
    · exact hpi h)
  rw [hs, if_neg (by decide), he] at hd
  have e : ((n : Int) * 2 ^ 1074).natAbs = n * 2 ^ 1074 := by
    rw [Int.natAbs_mul, Int.natAbs_pow]; rfl
  have e2 : (2 : Int) ^ 1074 = ((2 ^ 1074 : Nat) : Int) := by rw [Int.natCast_pow]; rfl
  rw [e, e2] at hd
  refine ⟨rounded_scale hp hd.1, ?_⟩
  rw [hd.2]
  cases sgn t <;> rfl

/-- One integer over another. -/
theorem quot_int {S : Int} {n : Nat} (hS : S.natAbs < 2 ^ 53) (h0 : 0 < n) (hn : n < 2 ^ 53) :
    Rounded (Soft.ops.div (ofInt S) (Soft.ops.ofNat n)) (S * 2 ^ 1074) n := by
  obtain ⟨h1, h2, _⟩ := cast_exact hS
  have h := (quot_any h1 h0 hn).1
  rw [h2] at h
  exact h

/-! ### Sums -/

theorem sumWrap_eq (l : List Nat) (h : l.sum < 2 ^ 64) : sumWrap l = l.sum := by
  have gen : ∀ (l : List Nat) (a : Nat), a + l.sum < 2 ^ 64 → l.foldl (fun s x => (s + x) % 2 ^ 64) a = a + l.sum := by
    intro l
    induction l with
    | nil => intro a _; simp
    | cons x xs ih =>
      intro a ha
      rw [List.sum_cons] at ha
      rw [List.foldl_cons, Nat.mod_eq_of_lt (by omega), ih _ (by omega), List.sum_cons]
      omega
  unfold sumWrap
  rw [gen l 0 (by omega)]
  omega

theorem wrap32_add (a b : Int) : wrap32 (wrap32 a + b) = wrap32 (a + b) := by
  unfold wrap32
  exact Int.bmod_add_bmod ..

theorem sumWrap32_eq (l : List Int) : sumWrap32 l = wrap32 l.sum := by
  have gen : ∀ (l : List Int) (a : Int), l.foldl (fun s x => wrap32 (s + x)) (wrap32 a) = wrap32 (a + l.sum) := by
    intro l
    induction l with
    | nil => intro a; simp
    | cons x xs ih =>
      intro a
      rw [List.foldl_cons, wrap32_add, ih, List.sum_cons, Int.add_assoc]
  have := gen l 0
  rw [Int.zero_add] at this
  exact this

theorem wrap32_small {x : Int} (h1 : -2 ^ 31 ≤ x) (h2 : x < 2 ^ 31) : wrap32 x = x := by
  unfold wrap32
  apply Int.bmod_eq_of_le <;> omega

theorem ofI32_eq {x : Int} (h1 : -2 ^ 31 ≤ x) (h2 : x < 2 ^ 31) : ofI32 Soft.ops x = ofInt x := by
  show ofInt (BitVec.ofInt 64 x).toInt = ofInt x
  rw [BitVec.toInt_ofInt]
  rw [Int.bmod_eq_of_le (by omega) (by omega)]

/-! ### Extremes -/

theorem maxFrom_cases (m : B64) (vs : List B64) :
    maxFrom m vs ≠ .err ∧ (maxFrom m vs = .panic ↔ vs ≠ [] ∧ ∃ v ∈ m :: vs, isNaN v = true) := by
  induction vs generalizing m with
  | nil => simp [maxFrom]
  | cons v vs ih =>
    rw [maxFrom]
    by_cases hn : (isNaN m || isNaN v) = true
    · rw [if_pos hn]
      refine ⟨by simp, ?_⟩
      simp only [ne_eq, reduceCtorEq, not_false_eq_true, true_and, true_iff]
      rcases Bool.or_eq_true .. ▸ hn with h | h
      · exact ⟨m, List.mem_cons_self .., h⟩
      · exact ⟨v, List.mem_cons_of_mem _ (List.mem_cons_self ..), h⟩
    · rw [if_neg hn]
      have hm : isNaN m = false := by cases h : isNaN m <;> simp_all
      have hv : isNaN v = false := by cases h : isNaN v <;> simp_all
      have key : ∀ w : B64, isNaN w = false → ((vs ≠ [] ∧ ∃ x ∈ w :: vs, isNaN x = true) ↔
          ((v :: vs) ≠ [] ∧ ∃ x ∈ m :: v :: vs, isNaN x = true)) := by
        intro w hw
        simp only [List.mem_cons]
        constructor
        · rintro ⟨_, x, hx, h⟩
          rcases hx with rfl | hx
          · rw [hw] at h; cases h
          · exact ⟨by simp, x, Or.inr (Or.inr hx), h⟩
        · rintro ⟨_, x, hx, h⟩
          rcases hx with rfl | rfl | hx
          · rw [hm] at h; cases h
          · rw [hv] at h; cases h
          · exact ⟨List.ne_nil_of_mem hx, x, Or.inr hx, h⟩
      split
      · exact ⟨(ih m).1, (ih m).2.trans (key m hm)⟩
      · exact ⟨(ih v).1, (ih v).2.trans (key v hv)⟩

theorem minFrom_cases (m : B64) (vs : List B64) :
    minFrom m vs ≠ .err ∧ (minFrom m vs = .panic ↔ vs ≠ [] ∧ ∃ v ∈ m :: vs, isNaN v = true) := by
  induction vs generalizing m with
  | nil => simp [minFrom]
  | cons v vs ih =>
    rw [minFrom]
    by_cases hn : (isNaN m || isNaN v) = true
    · rw [if_pos hn]
      refine ⟨by simp, ?_⟩
      simp only [ne_eq, reduceCtorEq, not_false_eq_true, true_and, true_iff]
      rcases Bool.or_eq_true .. ▸ hn with h | h
      · exact ⟨m, List.mem_cons_self .., h⟩
      · exact ⟨v, List.mem_cons_of_mem _ (List.mem_cons_self ..), h⟩
    · rw [if_neg hn]
      have hm : isNaN m = false := by cases h : isNaN m <;> simp_all
      have hv : isNaN v = false := by cases h : isNaN v <;> simp_all
      have key : ∀ w : B64, isNaN w = false → ((vs ≠ [] ∧ ∃ x ∈ w :: vs, isNaN x = true) ↔
          ((v :: vs) ≠ [] ∧ ∃ x ∈ m :: v :: vs, isNaN x = true)) := by
        intro w hw
        simp only [List.mem_cons]
        constructor
        · rintro ⟨_, x, hx, h⟩
          rcases hx with rfl | hx
          · rw [hw] at h; cases h
          · exact ⟨by simp, x, Or.inr (Or.inr hx), h⟩
        · rintro ⟨_, x, hx, h⟩
          rcases hx with rfl | rfl | hx
          · rw [hm] at h; cases h
          · rw [hv] at h; cases h
          · exact ⟨List.ne_nil_of_mem hx, x, Or.inr hx, h⟩
      split
      · exact ⟨(ih v).1, (ih v).2.trans (key v hv)⟩
      · exact ⟨(ih m).1, (ih m).2.trans (key m hm)⟩

theorem fle_of_flt {a b : B64} (h : flt a b = true) : fle a b = true := by
  unfold flt at h; unfold fle; simp at *; exact ⟨h.1, by omega⟩

theorem fle_of_not_flt {a b : B64} (ha : isNaN a = false) (hb : isNaN b = false) (h : flt a b = false) : fle b a = true := by
  unfold flt at h; unfold fle; simp [ha, hb] at *; omega

theorem flt_trans' {a b c : B64} (h : fle a b = true) (h' : flt b c = true) : flt a c = true := by
  unfold flt at *; unfold fle at h; simp at *; exact ⟨⟨h.1.1, h'.1.2⟩, by omega⟩

theorem flt_trans'' {a b c : B64} (h : flt a b = true) (h' : fle b c = true) : flt a c = true := by
  unfold flt at *; unfold fle at h'; simp at *; exact ⟨⟨h.1.1, h'.1.2⟩, by omega⟩

theorem fle_trans' {a b c : B64} (h : fle a b = true) (h' : fle b c = true) : fle a c = true := by
  unfold fle at *; simp at *; exact ⟨⟨h.1.1, h'.1.2⟩, by omega⟩

/-- The last of the greatest. -/
theorem maxFrom_ok : ∀ (vs pre : List B64) (m : B64) (mid : List B64) {x : B64}, (∀ v ∈ pre, fle v m = true) →
    (∀ v ∈ mid, flt v m = true) → maxFrom m vs = .ok x →
    ∃ l r, pre ++ m :: (mid ++ vs) = l ++ x :: r ∧ (∀ v ∈ l, fle v x = true) ∧ (∀ v ∈ r, flt v x = true)
  | [], pre, m, mid, x, h1, h2, h => by
    cases h
    exact ⟨pre, mid, by simp, h1, h2⟩
  | v :: vs, pre, m, mid, x, h1, h2, h => by
    rw [maxFrom] at h
    split at h
    · cases h
    · rename_i hn
      have hm : isNaN m = false := by cases h : isNaN m <;> simp_all
      have hv : isNaN v = false := by cases h : isNaN v <;> simp_all
      split at h
      · rename_i hlt
        obtain ⟨l, r, e, h3, h4⟩ := maxFrom_ok vs pre m (mid ++ [v]) h1 (by
          intro w hw
          rcases List.mem_append.1 hw with hw | hw
          · exact h2 w hw
          · rw [List.mem_singleton.1 hw]; exact hlt) h
        exact ⟨l, r, by rw [← e]; simp, h3, h4⟩
      · rename_i hlt
        have hle := fle_of_not_flt hv hm (by simpa using hlt)
        obtain ⟨l, r, e, h3, h4⟩ := maxFrom_ok vs (pre ++ m :: mid) v [] (by
          intro w hw
          rcases List.mem_append.1 hw with hw | hw
          · exact fle_trans' (h1 w hw) hle
          · rcases List.mem_cons.1 hw with rfl | hw
            · exact hle
            · exact fle_trans' (fle_of_flt (h2 w hw)) hle) (by simp) h
        exact ⟨l, r, by rw [← e]; simp, h3, h4⟩

/-- The first of the least. -/
theorem minFrom_ok : ∀ (vs pre : List B64) (m : B64) (mid : List B64) {x : B64}, (∀ v ∈ pre, flt m v = true) →
    (∀ v ∈ mid, fle m v = true) → minFrom m vs = .ok x →
    ∃ l r, pre ++ m :: (mid ++ vs) = l ++ x :: r ∧ (∀ v ∈ l, flt x v = true) ∧ (∀ v ∈ r, fle x v = true)
  | [], pre, m, mid, x, h1, h2, h => by
    cases h
    exact ⟨pre, mid, by simp, h1, h2⟩
  | v :: vs, pre, m, mid, x, h1, h2, h => by
    rw [minFrom] at h
    split at h
    · cases h
    · rename_i hn
      have hm : isNaN m = false := by cases h : isNaN m <;> simp_all
      have hv : isNaN v = false := by cases h : isNaN v <;> simp_all
      split at h
      · rename_i hlt
        obtain ⟨l, r, e, h3, h4⟩ := minFrom_ok vs (pre ++ m :: mid) v [] (by
          intro w hw
          rcases List.mem_append.1 hw with hw | hw
          · exact flt_trans'' hlt (fle_of_flt (h1 w hw))
          · rcases List.mem_cons.1 hw with rfl | hw
            · exact hlt
            · exact flt_trans'' hlt (h2 w hw)) (by simp) h
        exact ⟨l, r, by rw [← e]; simp, h3, h4⟩
      · rename_i hlt
        obtain ⟨l, r, e, h3, h4⟩ := minFrom_ok vs pre m (mid ++ [v]) h1 (by
          intro w hw
          rcases List.mem_append.1 hw with hw | hw
          · exact h2 w hw
          · rw [List.mem_singleton.1 hw]; exact fle_of_not_flt hv hm (by simpa using hlt)) h
        exact ⟨l, r, by rw [← e]; simp, h3, h4⟩

theorem foldl_max_nat (l : List Nat) (a : Nat) : l.foldl max a ∈ a :: l ∧ ∀ x ∈ a :: l, x ≤ l.foldl max a := by
  induction l generalizing a with
  | nil => simp
  | cons y ys ih =>
    obtain ⟨h1, h2⟩ := ih (max a y)
    rw [List.foldl_cons]
    refine ⟨?_, ?_⟩
    · rcases List.mem_cons.1 h1 with h | h
      · rw [h]; rcases Nat.le_total a y with h | h
        · rw [Nat.max_eq_right h]; simp
        · rw [Nat.max_eq_left h]; simp
      · exact List.mem_cons_of_mem _ (List.mem_cons_of_mem _ h)
    · intro x hx
      have h3 := h2 (max a y) (List.mem_cons_self ..)
      rcases List.mem_cons.1 hx with rfl | hx
      · omega
      · rcases List.mem_cons.1 hx with rfl | hx
        · omega
        · exact h2 x (List.mem_cons_of_mem _ hx)

theorem foldl_min_nat (l : List Nat) (a : Nat) : l.foldl min a ∈ a :: l ∧ ∀ x ∈ a :: l, l.foldl min a ≤ x := by
  induction l generalizing a with
  | nil => simp
  | cons y ys ih =>
    obtain ⟨h1, h2⟩ := ih (min a y)
    rw [List.foldl_cons]
    refine ⟨?_, ?_⟩
    · rcases List.mem_cons.1 h1 with h | h
      · rw [h]; rcases Nat.le_total a y with h | h
        · rw [Nat.min_eq_left h]; simp
        · rw [Nat.min_eq_right h]; simp
      · exact List.mem_cons_of_mem _ (List.mem_cons_of_mem _ h)
    · intro x hx
      have h3 := h2 (min a y) (List.mem_cons_self ..)
      rcases List.mem_cons.1 hx with rfl | hx
      · omega
      · rcases List.mem_cons.1 hx with rfl | hx
        · omega
        · exact h2 x (List.mem_cons_of_mem _ hx)

theorem foldl_max_int (l : List Int) (a : Int) : l.foldl max a ∈ a :: l ∧ ∀ x ∈ a :: l, x ≤ l.foldl max a := by
  induction l generalizing a with
  | nil => simp
  | cons y ys ih =>
    obtain ⟨h1, h2⟩ := ih (max a y)
    rw [List.foldl_cons]
    refine ⟨?_, ?_⟩
    · rcases List.mem_cons.1 h1 with h | h
      · rw [h]; rcases Int.le_total a y with h | h
        · rw [Int.max_eq_right h]; simp
        · rw [Int.max_eq_left h]; simp
      · exact List.mem_cons_of_mem _ (List.mem_cons_of_mem _ h)
    · intro x hx
      have h3 := h2 (max a y) (List.mem_cons_self ..)
      rcases List.mem_cons.1 hx with rfl | hx
      · omega
      · rcases List.mem_cons.1 hx with rfl | hx
        · omega
        · exact h2 x (List.mem_cons_of_mem _ hx)

theorem foldl_min_int (l : List Int) (a : Int) : l.foldl min a ∈ a :: l ∧ ∀ x ∈ a :: l, l.foldl min a ≤ x := by
  induction l generalizing a with
  | nil => simp
  | cons y ys ih =>
    obtain ⟨h1, h2⟩ := ih (min a y)
    rw [List.foldl_cons]
    refine ⟨?_, ?_⟩
    · rcases List.mem_cons.1 h1 with h | h
      · rw [h]; rcases Int.le_total a y with h | h
        · rw [Int.min_eq_left h]; simp
        · rw [Int.min_eq_right h]; simp
      · exact List.mem_cons_of_mem _ (List.mem_cons_of_mem _ h)
    · intro x hx
      have h3 := h2 (min a y) (List.mem_cons_self ..)
      rcases List.mem_cons.1 hx with rfl | hx
      · omega
      · rcases List.mem_cons.1 hx with rfl | hx
        · omega
        · exact h2 x (List.mem_cons_of_mem _ hx)

/-! ### The distinct values -/

theorem distinct_spec (l : List B64) : (distinct l).Nodup ∧ (∀ v, v ∈ distinct l ↔ v ∈ l) ∧ (distinct l).length ≤ l.length := by
  induction l with
  | nil => simp [distinct]
  | cons v vs ih =>
    obtain ⟨h1, h2, h3⟩ := ih
    rw [distinct]
    split
    · rename_i hc
      have hc : v ∈ vs := by simpa using hc
      refine ⟨h1, fun w => ?_, by rw [List.length_cons]; omega⟩
      rw [h2, List.mem_cons]
      exact ⟨Or.inr, fun h => h.elim (fun e => e ▸ hc) id⟩
    · rename_i hc
      have hc : v ∉ vs := by simpa using hc
      refine ⟨List.nodup_cons.2 ⟨fun h => hc ((h2 v).1 h), h1⟩, fun w => ?_, by rw [List.length_cons, List.length_cons]; omega⟩
      rw [List.mem_cons, List.mem_cons, h2]

/-! ### Parsing -/

theorem parse_spec (ss : List (List Char)) :
    (parse ss = none ↔ ∃ s ∈ ss, parseF64 s = none) ∧
    (∀ r, parse ss = some r → r.1 = ss.map decimalPrecision ∧ ss.map parseF64 = r.2.map some) := by
  induction ss with
  | nil => simp [parse]
  | cons s ss ih =>
    obtain ⟨h1, h2⟩ := ih
    rw [parse]
    cases hp : parseF64 s with
    | none => simp [hp]
    | some v =>
      refine ⟨?_, ?_⟩
      · simp only [Option.map_eq_none_iff, h1, List.mem_cons, exists_eq_or_imp, hp, reduceCtorEq, false_or]
      · intro r hr
        obtain ⟨q, hq, rfl⟩ := Option.map_eq_some_iff.1 hr
        obtain ⟨h3, h4⟩ := h2 q hq
        simp [h3, h4, hp]

end Ebi.Stats
