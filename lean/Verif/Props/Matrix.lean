import Verif.MatrixLemmas
import Verif.Props.Precision
import Verif.Props.Ucr

/-!
# C71: the matrix experiment multiplies the matrices it has generated
-/

namespace Ebi.Props

open Ebi Ebi.Decimal Ebi.Soft Ebi.Matrix

attribute [local irreducible] roundMag magVal Elf.U near nearest

/-! ### Sizes -/

theorem dvd_two_pow {m : Nat} : ∀ {n : Nat}, m ∣ 2 ^ n → ∃ k, k ≤ n ∧ m = 2 ^ k
  | 0, h => ⟨0, Nat.le_refl _, Nat.dvd_one.1 h⟩
  | n + 1, h => by
    by_cases he : m % 2 = 0
    · obtain ⟨c, rfl⟩ := Nat.dvd_of_mod_eq_zero he
      rw [Nat.pow_succ, Nat.mul_comm (2 ^ n)] at h
      obtain ⟨k, hk, rfl⟩ := dvd_two_pow (Nat.dvd_of_mul_dvd_mul_left (by decide) h)
      exact ⟨k + 1, by omega, by rw [Nat.pow_succ, Nat.mul_comm]⟩
    · have hc : Nat.Coprime m 2 := by
        unfold Nat.Coprime
        have h2 : Nat.gcd m 2 ∣ 2 := Nat.gcd_dvd_right m 2
        have h1 : Nat.gcd m 2 ∣ m := Nat.gcd_dvd_left m 2
        have hle := Nat.le_of_dvd (by decide) h2
        have hpos : 0 < Nat.gcd m 2 := Nat.gcd_pos_of_pos_right _ (by decide)
        generalize Nat.gcd m 2 = g at *
        rcases (by omega : g = 1 ∨ g = 2) with rfl | rfl
        · rfl
        · exact absurd (Nat.mod_eq_zero_of_dvd h1) he
      rw [Nat.pow_succ] at h
      obtain ⟨k, hk, e⟩ := dvd_two_pow (hc.dvd_of_dvd_mul_right h)
      exact ⟨k, by omega, e⟩

/-- The assertion lets exactly the powers of two up to 4096 pass. -/
theorem c71_sizes {m : Nat} (hm : m < 2 ^ 32) : checkSize m = .ok () ↔ ∃ k, k ≤ 12 ∧ m = 2 ^ k := by
  have hlt : m * m < 2 ^ 64 := by
    have := Nat.mul_lt_mul'' hm hm
    omega
  unfold checkSize
  simp only [Nat.mod_eq_of_lt hlt]
  constructor
  · intro h
    split at h
    · cases h
    · split at h
      · rename_i h1 h2
        have hd : m * m ∣ 2 ^ 24 := Nat.dvd_of_mod_eq_zero h2
        obtain ⟨k, hk, rfl⟩ := dvd_two_pow (Nat.dvd_trans (Nat.dvd_mul_right m m) hd)
        rw [← Nat.pow_add] at hd
        have := (Nat.pow_dvd_pow_iff_le_right (by decide : 1 < 2)).1 hd
        exact ⟨k, by omega, rfl⟩
      · cases h
  · rintro ⟨k, hk, rfl⟩
    rw [← Nat.pow_add, if_neg (Nat.ne_of_gt (Nat.two_pow_pos _))]
    rw [if_pos]
    exact Nat.mod_eq_zero_of_dvd (Nat.pow_dvd_pow 2 (show k + k ≤ 24 by omega))

/-! ### What is generated -/

/-- A random number: from 0 on, below 1. -/
def Random01 (x : B64) : Prop := sgn x = false ∧ flt x 0x3ff0000000000000#64 = true

theorem Random01.mag {x : B64} (h : Random01 x) : mag x ≤ 0x3ff0000000000000 := by
  obtain ⟨h1, h2⟩ := h
  unfold flt key at h2
  rw [h1, show sgn 0x3ff0000000000000#64 = false by decide, show Ebi.mag 0x3ff0000000000000#64 = 0x3ff0000000000000 by decide] at h2
  simp only [Bool.and_eq_true, decide_eq_true_eq, Bool.false_eq_true, if_false] at h2
  omega

/-- Every entry is the double nearest to a number with eight decimals from -4 to 4. -/
theorem c71_generated {xs : List B64} (h : ∀ x ∈ xs, Random01 x) :
    ∀ v ∈ generate Soft.ops xs, ∃ s M, M ≤ 4 * 10 ^ 8 ∧ v = nearest s M (10 ^ 8) := by
  intro v hv
  obtain ⟨x, hx, rfl⟩ := List.mem_map.1 hv
  have hb := mapValue_bound (h x hx).1 (h x hx).mag
  have h1 : ExactInt (10 ^ 8) := exactInt_pow10 (by decide)
  obtain ⟨M, h2, h3⟩ := roundByScale_nearest (v := mapValue Soft.ops x) (B := 4 * 10 ^ 8) h1 (by omega) (by decide) (by
    have := magVal_mono hb
    rw [four_val, Elf.U_eq] at this
    generalize Elf.U = U at *
    omega)
  have e : ∀ (v : B64) (S : Nat), roundByScale Soft.ops v S
      = Soft.div (Soft.round (Soft.mul v (ofInt (S : Int)))) (ofInt (S : Int)) := fun _ _ => rfl
  refine ⟨sgn (mapValue Soft.ops x), M, h2, ?_⟩
  rw [e, ← h3]
  rfl

theorem generated_near {xs : List B64} (h : ∀ x ∈ xs, Random01 x) : ∀ v ∈ generate Soft.ops xs, NearDecimal 8 v := by
  intro v hv
  obtain ⟨s, M, h1, h2⟩ := c71_generated h v hv
  exact ⟨s, M, by omega, h2⟩

theorem near_finite {v : B64} {p : Nat} (h : NearDecimal p v) : mag v < 0x7ff0000000000000 := by
  obtain ⟨s, M, h1, rfl⟩ := h
  have := near_fin (S := 10 ^ p) (M := M) (Nat.pow_pos (by decide)) (by omega)
  unfold nearest
  rw [mag_mk _ (by omega)]
  exact this

/-! ### The run -/

/-- A run of the experiment: a size, random numbers, a configuration that carries the data. -/
structure Drawn (E : Env) (cfg : Config) (s : Tpch.Stamp) (m : Nat) (xs ys : List B64) : Prop where
  arithmetic : E.o = Soft.ops
  libraries : LosslessLibraries E
  supported : Supported E cfg
  size : ∃ k, k ≤ 12 ∧ m = 2 ^ k
  data : xs.length = 40 * (m * m)
  target : ys.length = m * m
  random : ∀ x ∈ xs, Random01 x
  /-- Elf is not proved to carry numbers below a millionth (C09). -/
  elf : cfg.scheme = .elf ∨ cfg.scheme = .elfOnChimp → ∀ v ∈ generate Soft.ops xs, ElfRange v
  version : s.version.1 < 2 ^ 16 ∧ s.version.2.1 < 2 ^ 16 ∧ s.version.2.2 < 2 ^ 16
  times : s.times.WF
  elapsed : s.elapsed.WF
  files : ∀ file, (Tpch.encoderArgs cfg s (generate Soft.ops xs)).encode (E.scheme cfg) = some (.ok file) →
    file.length < 2 ^ 63

variable {E : Env} {cfg : Config} {s : Tpch.Stamp} {m : Nat} {xs ys : List B64}

theorem Drawn.area (h : Drawn E cfg s m xs ys) : 0 < m * m ∧ m * m ≤ 2 ^ 24 ∧ m * m ∣ 2 ^ 24 ∧ m < 2 ^ 32 := by
  obtain ⟨k, hk, rfl⟩ := h.size
  rw [← Nat.pow_add]
  exact ⟨Nat.two_pow_pos _, Nat.pow_le_pow_right (by decide) (by omega), Nat.pow_dvd_pow 2 (by omega),
    Nat.pow_lt_pow_right (by decide) (by omega)⟩

theorem Drawn.written (h : Drawn E cfg s m xs ys) :
    ∃ file mt, (Tpch.encoderArgs cfg s (generate Soft.ops xs)).encode (E.scheme cfg) = some (.ok file) ∧
      openFile file = .ok mt ∧ Written E (Tpch.encoderArgs cfg s (generate Soft.ops xs)) file mt := by
  obtain ⟨a1, a2, a3, a4⟩ := h.area
  have hlen : (generate Soft.ops xs).length = 40 * (m * m) := by rw [generate, List.length_map, h.data]
  have hacc : ∀ v ∈ generate Soft.ops xs, Accepts E cfg v := by
    intro v hv
    have hn : v ≠ nanBits := by
      intro e
      have := near_finite (generated_near h.random v hv)
      rw [e, show mag nanBits = 0x7ff8000000000000 by decide] at this
      omega
    have he := h.elf
    cases cfg with
    | elf c => exact Or.inl (he (Or.inl rfl) v hv)
    | elfOnChimp c => exact Or.inl (he (Or.inr rfl) v hv)
    | gorilla c => exact hn
    | chimp c => exact hn
    | chimp128 c => exact hn
    | _ => trivial
  have hfiles := h.files
  generalize generate Soft.ops xs = vs at *
  have hne : vs ≠ [] := by intro e; rw [e] at hlen; simp at hlen; omega
  have hb : ofF64s vs ≠ [] := by
    intro e
    have h6 := congrArg List.length e
    simp at h6
    omega
  have hrec := encoderArgs_records cfg s vs
  have hv : (Tpch.encoderArgs cfg s vs).Valid := by
    refine ⟨?_, ?_, h.version.1, h.version.2.1, h.version.2.2, h.times, h.elapsed, ?_, ?_⟩
    · show (ChunkOption.recordCount _).Positive
      exact ⟨by omega, by omega⟩
    · show (ChunkOption.recordCount _).WF
      simp only [ChunkOption.WF, ChunkOption.value]; omega
    · simp [Tpch.encoderArgs, hne, Source.Clean, hb]
    · simp [Tpch.encoderArgs, hne, Source.data, hlen]; omega
  have h8 : 8 ≤ (Tpch.encoderArgs cfg s vs).src.data.length := by
    have := (Tpch.encoderArgs cfg s vs).records_length
    rw [hrec] at this
    omega
  obtain ⟨file, h1, h2⟩ := Props.written E h.libraries (Tpch.encoderArgs cfg s vs) h.supported hv
    (by rw [hrec]; exact hacc) (by rw [hrec, hlen]; omega) h8
  obtain ⟨mt, hw⟩ := h2 (hfiles file h1)
  exact ⟨file, mt, h1, hw.encoded.opened, hw⟩

theorem Drawn.whole (h : Drawn E cfg s m xs ys) :
    WholeVectors (m * m) (Tpch.encoderArgs cfg s (generate Soft.ops xs)) := by
  intro k hk
  have : k = 2 ^ 24 := by
    have : (ChunkOption.recordCount (128 * 1024 * 1024 / 8)).recordsPerChunk = some k := hk
    simp [ChunkOption.recordsPerChunk] at this
    omega
  rw [this]
  exact Or.inl h.area.2.2.1

/-- Whatever the precision, for every configuration but BUFF: the products of the matrices as the file gives them back. -/
theorem matrix_run (h : Drawn E cfg s m xs ys) (hc : cfg.scheme ≠ .buff) (prec : Nat) :
    run E cfg s prec m xs ys = some (.ok (products Soft.ops ((generate Soft.ops xs).map (readBack E cfg)) m m 40
      (generate Soft.ops ys) m m)) := by
  obtain ⟨a1, a2, a3, a4⟩ := h.area
  obtain ⟨file, mt, h1, h2, h3⟩ := h.written
  have hlen : (Tpch.encoderArgs cfg s (generate Soft.ops xs)).records.length = 40 * (m * m) := by
    rw [encoderArgs_records, generate, List.length_map, h.data]
  have hdiv : 40 * (m * m) / (m * m) = 40 := Nat.mul_div_cancel _ a1
  have h4 := c42_matmul_partial h3 (some prec) (Or.inr hc) (by
      intro e
      rw [e] at hlen
      simp at hlen
      omega) (target := generate Soft.ops ys) (tr := m) (tc := m) (dr := m) (dc := m) rfl a1 (by omega)
    (by rw [hlen]; exact Nat.mul_mod_left _ _) (by rw [generate, List.length_map, h.target])
    (by rw [hlen, hdiv, Nat.mul_assoc]; omega) h.whole
  rw [hlen, hdiv, h.arithmetic, encoderArgs_records] at h4
  unfold run
  rw [(c71_sizes a4).2 h.size, h.arithmetic]
  simp only [Ucr.andThen, h1, Ucr.openTrain, h2, Res.map_ok]
  rw [h4]
  rfl

/-! ### C71 -/

/-- The configurations without quantisation answer the products of the generated matrices, bit for bit. -/
theorem c71_products (h : Drawn E cfg s m xs ys) (h1 : cfg.scheme ≠ .buff) (h2 : cfg.scheme ≠ .deltaSprintz) (prec : Nat) :
    run E cfg s prec m xs ys
      = some (.ok (products Soft.ops (generate Soft.ops xs) m m 40 (generate Soft.ops ys) m m)) := by
  rw [matrix_run h h1 prec]
  have : readBack E cfg = id := by
    funext v
    cases cfg <;> first | rfl | exact absurd rfl h1 | exact absurd rfl h2
  rw [this, List.map_id]

/-- Two lists of the same numbers: bit for bit, except that zeros may differ in sign. -/
def SameNumbers (a b : List B64) : Prop :=
  a.length = b.length ∧ ∀ (i : Nat) x y, a[i]? = some x → b[i]? = some y → x = y ∨ (exactVal x = 0 ∧ exactVal y = 0 ∧ isFinite x = true ∧ isFinite y = true)

theorem sameUpToZero_iff {a b : B64} (h : SameUpToZero a b) :
    a = b ∨ (exactVal a = 0 ∧ exactVal b = 0 ∧ isFinite a = true ∧ isFinite b = true) := by
  rcases h with h | ⟨h1, h2⟩
  · exact Or.inl h
  · refine Or.inr ⟨(zero_flags h1).2.2, (zero_flags h2).2.2, ?_, ?_⟩
    · unfold isFinite; simp; omega
    · unfold isFinite; simp; omega

theorem dot_same {u u' v : List B64} (h : u.length = u'.length)
    (hu : ∀ (i : Nat) x y, u[i]? = some x → u'[i]? = some y → SameUpToZero x y) : SameUpToZero (dot Soft.ops u v) (dot Soft.ops u' v) := by
  unfold dot
  have key : ∀ (u u' v : List B64) (a a' : B64), SameUpToZero a a' → u.length = u'.length →
      (∀ (i : Nat) x y, u[i]? = some x → u'[i]? = some y → SameUpToZero x y) →
      SameUpToZero ((List.zipWith Soft.mul u v).foldl Soft.add a) ((List.zipWith Soft.mul u' v).foldl Soft.add a') := by
    intro u
    induction u with
    | nil =>
      intro u' v a a' ha hl _
      cases u' with
      | nil => exact ha
      | cons _ _ => cases hl
    | cons x u ih =>
      intro u' v a a' ha hl hu
      cases u' with
      | nil => cases hl
      | cons x' u' =>
        cases v with
        | nil => exact ha
        | cons y v =>
          simp only [List.zipWith_cons_cons, List.foldl_cons]
          exact ih u' v _ _ (ha.add ((hu 0 x x' rfl rfl).mul (.refl y))) (by simpa using hl)
            (fun i => hu (i + 1))
  exact key u u' v _ _ (.refl _) h hu

theorem products_same {a b : List B64} (hl : a.length = b.length)
    (h : ∀ (i : Nat) x y, a[i]? = some x → b[i]? = some y → SameUpToZero x y) (dr dc n : Nat) (target : List B64) (tr tc : Nat) :
    SameNumbers (products Soft.ops a dr dc n target tr tc) (products Soft.ops b dr dc n target tr tc) := by
  have glue : ∀ (f g : Nat → List B64) (L : List Nat), (∀ q ∈ L, SameNumbers (f q) (g q)) →
      SameNumbers (L.flatMap f) (L.flatMap g) := by
    intro f g L
    induction L with
    | nil => intro _; exact ⟨rfl, by simp⟩
    | cons q L ih =>
      intro H
      obtain ⟨h1, h2⟩ := H q (List.mem_cons_self ..)
      obtain ⟨h3, h4⟩ := ih fun q' hq => H q' (List.mem_cons_of_mem _ hq)
      refine ⟨by simp only [List.flatMap_cons, List.length_append]; omega, fun i x y hx hy => ?_⟩
      simp only [List.flatMap_cons] at hx hy
      by_cases hi : i < (f q).length
      · rw [List.getElem?_append_left hi] at hx
        rw [List.getElem?_append_left (by omega)] at hy
        exact h2 i x y hx hy
      · rw [List.getElem?_append_right (by omega)] at hx
        rw [List.getElem?_append_right (by omega), ← h1] at hy
        exact h4 _ x y hx hy
  unfold products
  refine glue _ _ _ fun q _ => glue _ _ _ fun r _ => ⟨by simp, fun i x y hx hy => ?_⟩
  rw [List.getElem?_map] at hx hy
  obtain ⟨j, hj, rfl⟩ := Option.map_eq_some_iff.1 hx
  rw [hj] at hy
  simp only [Option.map_some, Option.some.injEq] at hy
  rw [← hy]
  apply sameUpToZero_iff
  apply dot_same
  · simp only [dataRow, List.length_take, List.length_drop, hl]
  · intro i x y hx hy
    simp only [dataRow] at hx hy
    by_cases hi : i < dc
    · rw [List.getElem?_take_of_lt hi, List.getElem?_drop] at hx hy
      exact h _ x y hx hy
    · rw [List.getElem?_take_eq_none (by omega)] at hx
      cases hx

/-- A negative zero is the only decimal DeltaSprintz changes. -/
theorem readBack_near (hE : E.o = Soft.ops) {n t : BitVec 64} {p : Nat} (hp : p ≤ 9) (ht : t.toNat = 10 ^ p) {v : B64}
    (hv : NearDecimal p v) : SameUpToZero (readBack E (.deltaSprintz n t) v) v := by
  obtain ⟨sg, M, hM, rfl⟩ := hv
  by_cases hz : sg = true ∧ M = 0
  · obtain ⟨rfl, rfl⟩ := hz
    have hlt : 10 ^ p < 2 ^ 32 := Nat.lt_of_le_of_lt (Nat.pow_le_pow_right (by decide) hp) (by decide +kernel)
    have h1 := rounded_nearest p (Nat.le_trans hp (by decide)) true 0 hM
    have h2 := exactInt_pow10 (Nat.le_trans hp (by decide : 9 ≤ 22))
    rw [readBack_soft hE, ht, h1, Nat.mod_eq_of_lt hlt]
    have hle := pow10_le (Nat.le_trans hp (by decide : 9 ≤ 19))
    generalize 10 ^ p = S at *
    rw [dequantize_nearest h2 (by omega)]
    have h0 := (near_zero h2.pos hle (M := 0) (by decide)).2 rfl
    right
    unfold nearest
    rw [h0]
    exact ⟨mag_mk _ (by decide), mag_mk _ (by decide)⟩
  · rw [c65_readBack hE p hp ht (nearest sg M (10 ^ p)) ⟨sg, M, hM, fun h1 h2 => hz ⟨h1, h2⟩, rfl⟩]
    exact .refl _

/-- DeltaSprintz answers the same numbers: a negative zero in the data is read as a zero, which can only show in the
sign of a zero of the products. -/
theorem c71_delta {n t : BitVec 64} (h : Drawn E (.deltaSprintz n t) s m xs ys) (ht : t.toNat = 10 ^ 8) (prec : Nat) :
    ∃ r, run E (.deltaSprintz n t) s prec m xs ys = some (.ok r) ∧
      SameNumbers r (products Soft.ops (generate Soft.ops xs) m m 40 (generate Soft.ops ys) m m) := by
  refine ⟨_, matrix_run h (by intro e; cases e) prec, ?_⟩
  apply products_same (by simp)
  intro i x y hx hy
  rw [List.getElem?_map, hy] at hx
  simp only [Option.map_some, Option.some.injEq] at hx
  rw [← hx]
  exact readBack_near h.arithmetic (by decide) ht (generated_near h.random y (List.mem_of_getElem? hy))

/-- BUFF at a precision of the table multiplies reduced matrices, each entry within `2^-28 + 2^-b` of the generated one.
The logarithm of the scale is eight. -/
theorem c71_buff {t : BitVec 64} (h : Drawn E (.buff t) s m xs ys) (ht : t.toNat = 10 ^ 8) (hlog : E.log10Scale (10 ^ 8) = 8)
    {prec b : Nat} (hp : Buff.precisionMap[prec]? = some b) :
    ∃ ws, run E (.buff t) s prec m xs ys = some (.ok (products Soft.ops ws m m 40 (generate Soft.ops ys) m m)) ∧
      ReducedAll Soft.ops 28 b (generate Soft.ops xs) ws ∧
      ∀ (i : Nat) (v w : B64), (generate Soft.ops xs)[i]? = some v → ws[i]? = some w →
        isFinite w = true ∧ (exactVal v - exactVal w).natAbs < 2 ^ (1074 - 28) + 2 ^ (1074 - b) := by
  obtain ⟨a1, a2, a3, a4⟩ := h.area
  obtain ⟨file, mt, h1, h2, h3⟩ := h.written
  have hF : buffBits E t = 28 := by
    unfold buffBits Buff.fractionBits
    rw [ht, if_neg (by decide), hlog]
    rfl
  obtain ⟨ws, g1, -, g2, -⟩ := c70_values h3 rfl hp
  rw [hF, h.arithmetic, encoderArgs_records] at g1
  have hlen : (Tpch.encoderArgs (.buff t) s (generate Soft.ops xs)).records.length = 40 * (m * m) := by
    rw [encoderArgs_records, generate, List.length_map, h.data]
  have hdiv : 40 * (m * m) / (m * m) = 40 := Nat.mul_div_cancel _ a1
  have h4 := g2 (generate Soft.ops ys) m m m m (by
      intro e
      rw [e] at hlen
      simp at hlen
      omega) rfl a1 (by omega)
    (by rw [hlen]; exact Nat.mul_mod_left _ _) (by rw [generate, List.length_map, h.target])
    (by rw [hlen, hdiv, Nat.mul_assoc]; omega) h.whole
  rw [hlen, hdiv, h.arithmetic] at h4
  refine ⟨ws, ?_, g1, ?_⟩
  · unfold run
    rw [(c71_sizes a4).2 h.size, h.arithmetic]
    simp only [Ucr.andThen, h1, Ucr.openTrain, h2, Res.map_ok]
    rw [h4]
  · intro i v w hv hw
    obtain ⟨x, hx, hxv⟩ := List.mem_map.1 (List.mem_of_getElem? hv)
    obtain ⟨sg, M, hM, e⟩ := c71_generated h.random v (List.mem_of_getElem? hv)
    have hle : magVal (mag v) ≤ 8 * 2 ^ 1074 := by
      have hle : near M (10 ^ 8) ≤ near (8 * 10 ^ 8) (10 ^ 8) := by
        unfold near
        exact roundMag_mono (Nat.mul_le_mul_right _ (by omega))
      have h8 : near (8 * 10 ^ 8) (10 ^ 8) = 0x4020000000000000 := by
        unfold near
        have := roundMag_magVal_mul (m := 0x4020000000000000) (d := 10 ^ 8) (by decide) (by decide)
        rw [eight_val, Elf.U_eq] at this
        rwa [show 8 * Elf.U * 10 ^ 8 = 8 * 10 ^ 8 * Elf.U by rw [Nat.mul_assoc, Nat.mul_comm Elf.U, ← Nat.mul_assoc]] at this
      have hm : mag v = near M (10 ^ 8) := by
        rw [e]
        unfold nearest
        exact mag_mk _ (by omega)
      rw [hm, ← eight_val]
      exact magVal_mono (by omega)
    have hr : (exactVal v).natAbs * 2 ^ 28 < 2 ^ 63 * 2 ^ 1074 := by
      rw [exactVal_natAbs]
      have hpos : 0 < 2 ^ 1074 := Nat.two_pow_pos _
      generalize 2 ^ 1074 = U at *
      omega
    obtain ⟨k1, k2, -, -⟩ := c14_error_bound v 28 (by decide) hr
    have htr := c14_truncation v 28 (by decide) hr
    have hq : (Buff.intoFixed v 28).toInt.natAbs ≤ 2 ^ 52 := by
      rw [htr, Int.natAbs_tdiv, Int.natAbs_mul, exactVal_natAbs]
      apply Nat.div_le_of_le_mul
      simp only [Int.natAbs_natCast]
      have hpos : 0 < 2 ^ 1074 := Nat.two_pow_pos _
      generalize 2 ^ 1074 = U at *
      omega
    obtain ⟨e1, e2, e3⟩ := c70_error (by decide) hp (g1.2 i v w hv hw) hq
    refine ⟨e1, ?_⟩
    generalize exactVal (fixedValue Soft.ops 28 (Buff.intoFixed v 28)) = f at *
    generalize 2 ^ (1074 - 28) = A at *
    generalize 2 ^ (1074 - b) = B at *
    omega

/-! ### An instance -/

/-- The environment of the examples with a logarithm of eight. -/
def matrixEnv : Env := { sampleEnv with log10Scale := fun _ => 8 }

/-- Forty numbers: 0.75, 0.3, 0.5 and 0.123 ten times. -/
def matrixNumbers : List B64 :=
  (List.replicate 10 [0x3fe8000000000000#64, 0x3fd3333333333333#64, 0x3fe0000000000000#64, 0x3fbf7ced916872b0#64]).flatten

theorem matrixNumbers_drawn (cfg : Config) (hs : Supported matrixEnv cfg)
    (he : cfg.scheme ≠ .elf ∧ cfg.scheme ≠ .elfOnChimp)
    (hf : (Tpch.encoderArgs cfg sampleStamp (generate Soft.ops matrixNumbers)).encode (matrixEnv.scheme cfg) |>.any
      (fun r => match r with | .ok f => decide (f.length < 1000) | _ => false)) :
    Drawn matrixEnv cfg sampleStamp 1 matrixNumbers [0x3fd0000000000000#64] where
  arithmetic := rfl
  libraries := ⟨sampleEnv_lossless.zstd, sampleEnv_lossless.gzip, sampleEnv_lossless.snappy, sampleEnv_lossless.alp⟩
  supported := hs
  size := ⟨0, by decide, rfl⟩
  data := by decide
  target := by decide
  random := by
    intro x hx
    have : matrixNumbers.all (fun x => !sgn x && flt x 0x3ff0000000000000#64) = true := by decide +kernel
    have := List.all_eq_true.1 this x hx
    simp only [Bool.and_eq_true, Bool.not_eq_true'] at this
    exact this
  elf := fun h => h.elim (fun e => absurd e he.1) (fun e => absurd e he.2)
  version := by decide
  times := by simp [sampleStamp, Times.WF, Times.zero, Duration.WF]
  elapsed := by simp [sampleStamp, Duration.WF]
  files := by
    intro file hfile
    rw [hfile] at hf
    have := of_decide_eq_true (by simpa using hf : decide (file.length < 1000) = true)
    omega

example : Drawn matrixEnv (.gorilla 8192#64) sampleStamp 1 matrixNumbers [0x3fd0000000000000#64] :=
  matrixNumbers_drawn _ trivial (by decide) (by decide +kernel)
example : Drawn matrixEnv (.deltaSprintz 8192#64 100000000#64) sampleStamp 1 matrixNumbers [0x3fd0000000000000#64] :=
  matrixNumbers_drawn _ trivial (by decide) (by decide +kernel)
example : Drawn matrixEnv (.buff 100000000#64) sampleStamp 1 matrixNumbers [0x3fd0000000000000#64] :=
  matrixNumbers_drawn _ (show (Buff.fractionBits _ _).isSome = true by decide) (by decide) (by decide +kernel)

/-- 0.75 and 0.25 become the matrices 2 and -2, 0.5 the matrix 0; 0 times -2 is -0. -/
example : (run matrixEnv (.gorilla 8192#64) sampleStamp 3 1 matrixNumbers [0x3fd0000000000000#64]).map
    (fun r => r.map fun l => (l.length, l[0]?, l[2]?)) = some (.ok (40, some 0xc010000000000000#64, some 0x8000000000000000#64)) := by
  decide +kernel

end Ebi.Props
