import Verif.ElfLarge
import Verif.Props.Xor

/-!
# C09 Elf / ElfOnChimp losslessness; C17, C18, C21, C46 for the Elf wrapper

`lg` stands for the platform's `f64::log10`; nothing is assumed about it unless stated.
-/

namespace Ebi.Props

open Ebi

/-! ## C09 -/

/-- `|v|`: the sign bit cleared. -/
def magBits (v : B64) : B64 := v &&& 0x7fffffffffffffff#64

/-- The doubles `1e-6` and `1e9`. -/
def d1em6 : B64 := 0x3eb0c6f7a0b5ed8d#64
def d1e9 : B64 := 0x41cdcd6500000000#64

/-- The values for which losslessness is proved: zeros, infinities, and `1e-6 ≤ |v| < 1e9`. -/
def ElfRange (v : B64) : Prop :=
  feq v 0#64 = true ∨ isInf v = true ∨ (fle d1em6 (magBits v) = true ∧ flt (magBits v) d1e9 = true)

theorem magBits_toNat (v : B64) : (magBits v).toNat = mag v := by
  unfold magBits mag
  rw [BitVec.toNat_and, show (0x7fffffffffffffff#64).toNat = 2 ^ 63 - 1 from rfl, Nat.and_two_pow_sub_one_eq_mod]

theorem magBits_key (v : B64) : key (magBits v) = mag v ∧ mag (magBits v) = mag v := by
  have h := magBits_toNat v
  have hlt := Soft.mag_lt v
  have hs : sgn (magBits v) = false := by unfold sgn; rw [h]; simpa using hlt
  have hm : mag (magBits v) = mag v := by
    have : mag (magBits v) = (magBits v).toNat % 2 ^ 63 := rfl
    rw [this, h, Nat.mod_eq_of_lt hlt]
  refine ⟨?_, hm⟩
  unfold key
  rw [hs, hm]
  rfl

theorem elfRange_carries (lg : B64 → B64) {v : B64} (h : ElfRange v) :
    Elf.Carries lg (· ≠ nanBits) v := by
  rcases h with h | h | ⟨h1, h2⟩
  · apply Elf.carries_special
    left
    unfold feq at h
    simp only [Bool.and_eq_true, decide_eq_true_eq] at h
    have h3 := h.2
    have h0 : key 0#64 = 0 := by decide
    rw [h0] at h3
    exact Classical.byContradiction fun hc => Elf.key_ne_zero hc h3
  · apply Elf.carries_special
    right
    unfold isInf at h
    simpa using h
  · obtain ⟨hk, -⟩ := magBits_key v
    unfold fle at h1
    unfold flt at h2
    simp only [Bool.and_eq_true, decide_eq_true_eq] at h1 h2
    have k1 := h1.2
    have k2 := h2.2
    have e1 : key d1em6 = 0x3eb0c6f7a0b5ed8d := by decide
    have e2 : key d1e9 = 0x41cdcd6500000000 := by decide
    rw [hk, e1] at k1
    rw [hk, e2] at k2
    exact Elf.carries_range lg (by omega) (by omega)

/-- With the large values added: zeros, infinities, and `1e-6 ≤ |v|`. Together with the values below `1e-6`
and the NaNs these are all. -/
def ElfWide (v : B64) : Prop :=
  feq v 0#64 = true ∨ isInf v = true ∨ fle d1em6 (magBits v) = true

theorem elfWide_carries {lg : B64 → B64} (hlg : Elf.Log10Close lg) {v : B64} (h : ElfWide v) :
    Elf.Carries lg (· ≠ nanBits) v := by
  by_cases h0 : feq v 0#64 = true
  · exact elfRange_carries lg (Or.inl h0)
  by_cases h1 : isInf v = true
  · exact elfRange_carries lg (Or.inr (Or.inl h1))
  have h2 : fle d1em6 (magBits v) = true := by
    rcases h with h | h | h
    · exact absurd h h0
    · exact absurd h h1
    · exact h
  by_cases h3 : flt (magBits v) d1e9 = true
  · exact elfRange_carries lg (Or.inr (Or.inr ⟨h2, h3⟩))
  obtain ⟨hk, hm⟩ := magBits_key v
  have e2 : key d1e9 = 0x41cdcd6500000000 := by decide
  have e3 : isNaN d1e9 = false := by decide
  unfold fle at h2
  simp only [Bool.and_eq_true, Bool.not_eq_true'] at h2
  unfold flt at h3
  rw [h2.1.2, e3, hk, e2] at h3
  simp only [Bool.not_false, Bool.true_and, decide_eq_true_eq] at h3
  have h4 := h2.1.2
  unfold isNaN at h4
  rw [hm] at h4
  unfold isInf at h1
  simp only [decide_eq_true_eq, decide_eq_false_iff_not] at h1 h4
  exact Elf.carries_large hlg (by omega) (by omega)

/-- Elf: for every sequence of values in the range, decompressing the compressed chunk gives the same
bit patterns, whatever the compressor was used for before and whatever `log10` the platform has.

Partial: the full claim (all NaN-free sequences) is false, see `c09_elf_lossy`. Missing besides the
lossy region below `1e-6`: values from `1e9` on, which depend on `log10` (`c09_elf_wide_partial`). -/
theorem c09_elf_partial (lg : B64 → B64) (c : (Elf.elf lg).Compressor) (vs : List B64)
    (h : ∀ v ∈ vs, ElfRange v) :
    (Elf.elf lg).decompress (chunkBytes (Elf.elf lg) c vs) = .ok vs :=
  (Elf.laws lg ElfXor.laws).round_trip c vs fun v hv => elfRange_carries lg (h v hv)

/-- The same for ElfOnChimp. -/
theorem c09_elf_on_chimp_partial (lg : B64 → B64) (c : (Elf.elfOnChimp lg).Compressor) (vs : List B64)
    (h : ∀ v ∈ vs, ElfRange v) :
    (Elf.elfOnChimp lg).decompress (chunkBytes (Elf.elfOnChimp lg) c vs) = .ok vs :=
  (Elf.laws lg Chimp.laws).round_trip c vs fun v hv => elfRange_carries lg (h v hv)

/-- With a `log10` that is accurate to `2.6e-15` around powers of ten (`Elf.Log10Close`) the values from `1e9` to
infinity are carried as well.

Partial: only the values below `1e-6` are missing, where the claim is false (`c09_elf_lossy`). -/
theorem c09_elf_wide_partial (lg : B64 → B64) (hlg : Elf.Log10Close lg) (c : (Elf.elf lg).Compressor)
    (vs : List B64) (h : ∀ v ∈ vs, ElfWide v) :
    (Elf.elf lg).decompress (chunkBytes (Elf.elf lg) c vs) = .ok vs :=
  (Elf.laws lg ElfXor.laws).round_trip c vs fun v hv => elfWide_carries hlg (h v hv)

/-- The same for ElfOnChimp. -/
theorem c09_elf_on_chimp_wide_partial (lg : B64 → B64) (hlg : Elf.Log10Close lg)
    (c : (Elf.elfOnChimp lg).Compressor) (vs : List B64) (h : ∀ v ∈ vs, ElfWide v) :
    (Elf.elfOnChimp lg).decompress (chunkBytes (Elf.elfOnChimp lg) c vs) = .ok vs :=
  (Elf.laws lg Chimp.laws).round_trip c vs fun v hv => elfWide_carries hlg (h v hv)

/-- The decimal exponent of a magnitude, searched downwards. -/
def decade (V : Nat) : Nat → Nat
  | 0 => 0
  | i + 1 => if 10 ^ (i + 1) * 2 ^ 1074 ≤ V then i + 1 else decade V i

/-- A crude logarithm: the decimal exponent plus one half. -/
def stepLog10 (v : B64) : B64 := Soft.rnd false ((2 * decade (Soft.absVal v) 310 + 1) * 2 ^ 1073) 1

theorem decade_eq {V n : Nat} (h1 : 10 ^ n * 2 ^ 1074 ≤ V) (h2 : V < 10 ^ (n + 1) * 2 ^ 1074) :
    ∀ N, n ≤ N → decade V N = n := by
  intro N
  induction N with
  | zero => intro h; unfold decade; omega
  | succ N ih =>
    intro h
    unfold decade
    by_cases hn : n = N + 1
    · subst hn; rw [if_pos h1]
    · rw [if_neg, ih (by omega)]
      intro hc
      have : 10 ^ (n + 1) * 2 ^ 1074 ≤ 10 ^ (N + 1) * 2 ^ 1074 :=
        Nat.mul_le_mul_right _ (Nat.pow_le_pow_right (by decide) (by omega))
      exact absurd (Nat.lt_of_lt_of_le h2 (Nat.le_trans this hc)) (Nat.lt_irrefl _)

theorem stepLog10_table : ∀ n : Fin 311, isFinite (Soft.rnd false ((2 * n.1 + 1) * 2 ^ 1073) 1) = true ∧
    exactVal (Soft.rnd false ((2 * n.1 + 1) * 2 ^ 1073) 1) = (((2 * n.1 + 1) * 2 ^ 1073 : Nat) : Int) := by
  decide +kernel

theorem half_units {x y : Nat} (hx : 0 < x) (hy : y = x * 2) (n : Nat) : (n - 1) * y ≤ (2 * n + 1) * x ∧
    (2 * n + 1) * x < (n + 2) * y ∧ n * y < (2 * n + 1) * x ∧ (2 * n + 1) * x < (n + 1) * y := by
  have h : ∀ a, a * y = 2 * a * x := by intro a; rw [hy]; ac_rfl
  rw [h, h, h, h]
  exact ⟨Nat.mul_le_mul_right _ (by omega), Nat.mul_lt_mul_of_pos_right (by omega) hx,
    Nat.mul_lt_mul_of_pos_right (by omega) hx, Nat.mul_lt_mul_of_pos_right (by omega) hx⟩

/-- `Log10Close` can be met. -/
theorem stepLog10_close : Elf.Log10Close stepLog10 := by
  intro v n h9 hf h1 h2
  have hs : sgn v = false := by
    unfold exactVal at h1
    cases h : sgn v with
    | false => rfl
    | true =>
      rw [h] at h1
      simp only [if_true] at h1
      have : 0 < 10 ^ n * 2 ^ 1074 := Nat.mul_pos (Nat.pow_pos (by decide)) (Nat.pow_pos (by decide))
      omega
  have hv : exactVal v = (Soft.absVal v : Int) := by unfold exactVal; rw [hs]; rfl
  rw [hv] at h1 h2
  have h1' := Int.ofNat_le.1 h1
  have h2' := Int.ofNat_lt.1 h2
  have hfin : mag v < 0x7ff0000000000000 := by unfold isFinite at hf; simpa using hf
  have htop : Soft.absVal v < 2 ^ 1025 * 2 ^ 1074 := by rw [Elf.U_eq]; exact Elf.mag_top hfin
  have hn : n ≤ 310 := by
    rcases Nat.lt_or_ge 310 n with h | h
    · have h3 : 10 ^ 311 * 2 ^ 1074 ≤ 10 ^ n * 2 ^ 1074 := Nat.mul_le_mul_right _ (Nat.pow_le_pow_right (by decide) h)
      have h4 : 2 ^ 1025 * 2 ^ 1074 ≤ 10 ^ 311 * 2 ^ 1074 := Nat.mul_le_mul_right _ (by decide +kernel)
      exact absurd (Nat.lt_of_lt_of_le htop (Nat.le_trans h4 (Nat.le_trans h3 h1'))) (Nat.lt_irrefl _)
    · exact h
  obtain ⟨t1, t2⟩ := stepLog10_table ⟨n, by omega⟩
  have hd := decade_eq h1' h2' 310 hn
  unfold stepLog10
  rw [hd]
  simp only at t1 t2
  rw [t2]
  obtain ⟨e1, e2, e3, e4⟩ := half_units (x := 2 ^ 1073) (Nat.pow_pos (by decide)) (Nat.pow_succ 2 1073) n
  exact ⟨t1, Int.ofNat_le.2 e1, Int.ofNat_lt.2 e2, fun _ => Int.ofNat_lt.2 e3, fun _ => Int.ofNat_lt.2 e4⟩

/-- 1234567890.1 really is erased: the recovery uses `log10`. -/
example : Elf.plan stepLog10 Elf.i32Max 0x41d26580b4866666#64 = .erase 11 0x41d26580b4840000#64 := by
  decide +kernel

/-- 2147483648.5, -1e15, the largest double, infinity satisfy the hypothesis of the wide theorems. -/
example : ∀ v ∈ [0x41e0000000100000#64, 0xc30c6bf526340000#64, 0x7fefffffffffffff#64, 0x7ff0000000000000#64],
    ElfWide v := by
  simp only [List.forall_mem_cons]
  refine ⟨Or.inr (Or.inr (by decide)), Or.inr (Or.inr (by decide)), Or.inr (Or.inr (by decide)),
    Or.inr (Or.inl (by decide)), by simp⟩

/-- 12.34, -0.001, 0.1, -0.0, infinity, 999999999.9999999 satisfy the hypothesis. -/
example : ∀ v ∈ [0x4028ae147ae147ae#64, 0xbf50624dd2f1a9fc#64, 0x3fb999999999999a#64,
    0x8000000000000000#64, 0x7ff0000000000000#64, 0x41cdcd64ffffffff#64], ElfRange v := by
  simp only [List.forall_mem_cons]
  refine ⟨Or.inr (Or.inr (by decide)), Or.inr (Or.inr (by decide)), Or.inr (Or.inr (by decide)),
    Or.inl (by decide), Or.inr (Or.inl (by decide)), Or.inr (Or.inr (by decide)), by simp⟩

/-- 12.34 really is erased (not just passed through) by a fresh compressor. -/
example : Elf.plan (fun x => x) Elf.i32Max 0x4028ae147ae147ae#64 = .erase 4 0x4028ac0000000000#64 := by
  decide +kernel

/-- The claim is false: a one-value chunk holding `3.0000000000000004e-7` decompresses to `3e-7`, the
neighbouring double (`log10` is not consulted for this value). -/
theorem c09_elf_lossy :
    (Elf.elf fun x => x).decompress
      (chunkBytes (Elf.elf fun x => x) (Elf.elf fun x => x).fresh [0x3e9421f5f40d8377#64])
      = .ok [0x3e9421f5f40d8376#64] := by decide +kernel

theorem c09_elf_on_chimp_lossy :
    (Elf.elfOnChimp fun x => x).decompress
      (chunkBytes (Elf.elfOnChimp fun x => x) (Elf.elfOnChimp fun x => x).fresh [0x3e9421f5f40d8377#64])
      = .ok [0x3e9421f5f40d8376#64] := by decide +kernel

/-- `3.0000000000000004e-7` is an ordinary number: not NaN, not infinite. -/
example : isNaN 0x3e9421f5f40d8377#64 = false ∧ isInf 0x3e9421f5f40d8377#64 = false := by decide

/-- A NaN of any payload ends the stream: itself and everything after it is lost. -/
theorem nan_loop (lg : B64 → B64) (C : XorCodec) {x : B64} (hx : isNaN x = true) (vs us : List B64) :
    ∀ (s : Elf.Enc C) (w : BitWriter), (Elf.codec lg C).compressLoop s w (vs ++ x :: us)
      = (Elf.codec lg C).compressLoop s w (vs ++ nanBits :: us) := by
  have hplan : ∀ last, Elf.plan lg last x = Elf.plan lg last nanBits := by
    intro last
    have h1 : (feq x 0#64 || isInf x) = false := by
      have h2 : 0x7ff0000000000000 < mag x := by unfold isNaN at hx; simpa using hx
      have h3 : feq x 0#64 = false := by unfold feq; rw [hx]; rfl
      have h4 : isInf x = false := by unfold isInf; simp; omega
      rw [h3, h4]; rfl
    rw [Elf.plan_nan]
    unfold Elf.plan
    rw [h1, hx]
    rfl
  induction vs with
  | nil =>
    intro s w
    simp only [List.nil_append, XorCodec.compressLoop]
    change (Elf.codec lg C).compressLoop (Elf.compressFloat lg C s w x).1 (Elf.compressFloat lg C s w x).2.1 us
      = (Elf.codec lg C).compressLoop (Elf.compressFloat lg C s w nanBits).1
        (Elf.compressFloat lg C s w nanBits).2.1 us
    unfold Elf.compressFloat
    rw [hplan]
  | cons v vs ih =>
    intro s w
    simp only [List.cons_append, XorCodec.compressLoop]
    exact ih _ _

theorem c09_elf_nan_cuts (lg : B64 → B64) (c : (Elf.elf lg).Compressor) (vs us : List B64) (x : B64)
    (hx : isNaN x = true) (h : ∀ v ∈ vs, ElfRange v) :
    (Elf.elf lg).decompress (chunkBytes (Elf.elf lg) c (vs ++ x :: us)) = .ok vs := by
  have h1 := (Elf.laws lg ElfXor.laws).cut_at_nan c vs us fun v hv => elfRange_carries lg (h v hv)
  have h2 := nan_loop lg ElfXor.codec hx vs us ((Elf.elf lg).reset c).enc ((Elf.elf lg).reset c).w
  unfold chunkBytes XorCodec.compress
  unfold XorCodec.compress at h1
  change (Elf.elf lg).compressLoop _ _ _ = (Elf.elf lg).compressLoop _ _ _ at h2
  simp only [h2]
  rw [show (vs ++ x :: us).length = (vs ++ nanBits :: us).length by simp]
  exact h1

example : isNaN 0xfff0000000000001#64 = true := by decide

/-- The same on ElfOnChimp. -/
theorem c09_elf_on_chimp_nan_cuts (lg : B64 → B64) (c : (Elf.elfOnChimp lg).Compressor) (vs us : List B64) (x : B64)
    (hx : isNaN x = true) (h : ∀ v ∈ vs, ElfRange v) :
    (Elf.elfOnChimp lg).decompress (chunkBytes (Elf.elfOnChimp lg) c (vs ++ x :: us)) = .ok vs := by
  have h1 := (Elf.laws lg Chimp.laws).cut_at_nan c vs us fun v hv => elfRange_carries lg (h v hv)
  have h2 := nan_loop lg Chimp.codec hx vs us ((Elf.elfOnChimp lg).reset c).enc ((Elf.elfOnChimp lg).reset c).w
  unfold chunkBytes XorCodec.compress
  unfold XorCodec.compress at h1
  change (Elf.elfOnChimp lg).compressLoop _ _ _ = (Elf.elfOnChimp lg).compressLoop _ _ _ at h2
  simp only [h2]
  rw [show (vs ++ x :: us).length = (vs ++ nanBits :: us).length by simp]
  exact h1

/-! ## C17 (Elf wrapper) -/

/-- `ElfEncoderWrapper::compress_float` reports only its own one, two or six flag bits, not the bits of
the XOR layer it has just written: here 2 of 21. (The value is discarded by the only caller.) -/
theorem c17_elf_wrapper_undercounts :
    (Elf.compressFloat (fun x => x) ElfXor.codec (Elf.elf fun x => x).init BitWriter.new 0x3ff8000000000000#64).2.2 = 2 ∧
    growth (Elf.elf fun x => x) [] 0x3ff8000000000000#64 = 21 := by decide +kernel

/-! ## C18, C21, C46 -/

theorem c18_elf (lg : B64 → B64) (c : (Elf.elf lg).Compressor) (vs : List B64) :
    (chunkBytes (Elf.elf lg) c vs).length ≤ announced (Elf.elf lg) c vs ∧
    announced (Elf.elf lg) c vs ≤ (chunkBytes (Elf.elf lg) c vs).length + 1 :=
  (Elf.encLaws lg ElfXor.encLaws).buffered_bound c vs

theorem c18_elf_on_chimp (lg : B64 → B64) (c : (Elf.elfOnChimp lg).Compressor) (vs : List B64) :
    (chunkBytes (Elf.elfOnChimp lg) c vs).length ≤ announced (Elf.elfOnChimp lg) c vs ∧
    announced (Elf.elfOnChimp lg) c vs ≤ (chunkBytes (Elf.elfOnChimp lg) c vs).length + 1 :=
  (Elf.encLaws lg Chimp.encLaws).buffered_bound c vs

theorem c21_elf_reuse (lg : B64 → B64) : ReuseSafe (Elf.elf lg) := (Elf.encLaws lg ElfXor.encLaws).reuse
theorem c21_elf_on_chimp_reuse (lg : B64 → B64) : ReuseSafe (Elf.elfOnChimp lg) :=
  (Elf.encLaws lg Chimp.encLaws).reuse

theorem c46_elf (lg : B64 → B64) : Terminates (Elf.elf lg) :=
  terminates_of_progress (Elf.progress lg ElfXor.progress)
theorem c46_elf_on_chimp (lg : B64 → B64) : Terminates (Elf.elfOnChimp lg) :=
  terminates_of_progress (Elf.progress lg Chimp.progress)

end Ebi.Props
