import Verif.Cuda
import Verif.Props.Matmul

/-!
# C63: matrix multiplication on the device
-/

namespace Ebi.Props

open Ebi Ebi.Cuda

/-! ## Specification -/

/-- The `j`-th column of a matrix with `tr` rows and `tc` columns stored row by row. -/
def rowMajorColumn (target : List B64) (tr tc j : Nat) : List B64 := (List.range tr).map fun p => target.getD (p * tc + j) 0#64

/-- The matrix stored column by column. -/
def transposed (target : List B64) (tr tc : Nat) : List B64 := (List.range tc).flatMap fun j => rowMajorColumn target tr tc j

/-- A device that multiplies column-major matrices: `scalar u v r` says that `r` is an acceptable result for the scalar
product of a row and a column (order of summation and rounding are the device's business). It reads the given rows and
columns and nothing else. -/
def Multiplies (dev : Device) (scalar : List B64 → List B64 → B64 → Prop) : Prop :=
  ∀ (m n k lda ldb ldc : Nat) (a b c : Buffer), 0 < m → 0 < n → 0 < k → m ≤ lda → k ≤ ldb → m ≤ ldc →
    m < 2 ^ 31 → n < 2 ^ 31 → k < 2 ^ 31 → (n - 1) * ldc + m ≤ c.length →
    ∃ c', dev.gemm ⟨m, n, k, lda, ldb, ldc⟩ a b c = .ok c' ∧ c'.length = c.length ∧
      ∀ i j (u v : List B64), i < m → j < n → u.length = k → v.length = k →
        (∀ p, p < k → a[i + p * lda]? = some (some (u.getD p 0#64))) →
        (∀ p, p < k → b[p + j * ldb]? = some (some (v.getD p 0#64))) →
        ∃ r, c'[i + j * ldc]? = some (some r) ∧ scalar u v r

/-- The entries of a batch of products: matrix `q`, row `r`, column `j`. -/
def Batch (scalar : List B64 → List B64 → B64 → Prop) (data : List B64) (dr dc batch : Nat) (target : List B64) (tr tc : Nat)
    (out : List B64) : Prop :=
  out.length = batch * (dr * tc) ∧ ∀ q r j, q < batch → r < dr → j < tc → ∃ v, out[q * (dr * tc) + (r * tc + j)]? = some v ∧
    scalar (rowMajorColumn target tr tc j) (dataRow data dr dc q r) v

/-! ## Sizes -/

theorem asI32_small {n : Nat} (h : n < 2 ^ 31) : asI32 n = n := by
  unfold asI32
  rw [BitVec.toInt_eq_toNat_of_lt (by rw [BitVec.toNat_ofNat]; omega), BitVec.toNat_ofNat]
  omega

theorem asI32_lt (n : Nat) : -2 ^ 31 ≤ asI32 n ∧ asI32 n < 2 ^ 31 := by
  unfold asI32
  have := BitVec.toInt_lt (x := BitVec.ofNat 32 n)
  have := BitVec.le_toInt (x := BitVec.ofNat 32 n)
  omega

theorem asI32_le (n : Nat) : asI32 n ≤ n := by
  unfold asI32
  rw [BitVec.toInt_eq_toNat_cond, BitVec.toNat_ofNat]
  have := Nat.mod_le n (2 ^ 32)
  split <;> omega

theorem mulUsize_small {a b : Nat} (h : a * b < 2 ^ 31) : mulUsize a b = a * b := by
  unfold mulUsize
  have e : BitVec.ofInt 32 ((a : Int) * b) = BitVec.ofNat 32 (a * b) := by
    rw [← BitVec.ofInt_natCast]
    congr 1
  have e2 := asI32_small h
  unfold asI32 at e2
  rw [e, e2, BitVec.ofInt_natCast, BitVec.toNat_ofNat]
  omega

/-- What passes for a size is below 2^31 or beyond any slice. -/
theorem mulUsize_range (a b : Int) : mulUsize a b < 2 ^ 31 ∨ 2 ^ 64 - 2 ^ 31 ≤ mulUsize a b := by
  unfold mulUsize
  have h1 := BitVec.toInt_lt (x := BitVec.ofInt 32 (a * b))
  have h2 := BitVec.le_toInt (x := BitVec.ofInt 32 (a * b))
  generalize (BitVec.ofInt 32 (a * b)).toInt = z at *
  rw [BitVec.toNat_ofInt]
  omega

/-- The size checks of the row-major configuration on slices that have the sizes of the matrices: they pass exactly
for nonempty matrices of less than 2^31 entries each, however large the dimensions are (nothing wraps into a wrong
answer). -/
theorem c63_sizes {m n k : Nat} (h1 : n * k < 2 ^ 60) (h2 : k * m < 2 ^ 60) (h3 : n * m < 2 ^ 60) :
    sizesFit (rowMajor m n k) (n * k) (k * m) (n * m) = true ↔
      0 < m ∧ 0 < n ∧ 0 < k ∧ n * k < 2 ^ 31 ∧ k * m < 2 ^ 31 ∧ n * m < 2 ^ 31 := by
  unfold sizesFit rowMajor
  simp only [Bool.and_eq_true, Bool.not_eq_true', Bool.or_eq_false_iff, decide_eq_false_iff_not, beq_iff_eq]
  constructor
  · rintro ⟨⟨⟨⟨⟨a1, a2⟩, a3⟩, a4⟩, a5⟩, a6⟩
    have l1 := asI32_le m
    have l2 := asI32_le n
    have l3 := asI32_le k
    have r1 := mulUsize_range (asI32 n) (asI32 k)
    have r2 := mulUsize_range (asI32 k) (asI32 m)
    have r3 := mulUsize_range (asI32 n) (asI32 m)
    rw [← a4] at r1
    rw [← a5] at r2
    rw [← a6] at r3
    refine ⟨by omega, by omega, by omega, by omega, by omega, by omega⟩
  · rintro ⟨a1, a2, a3, a4, a5, a6⟩
    have b1 : m < 2 ^ 31 := Nat.lt_of_le_of_lt (Nat.le_mul_of_pos_left m a3) a5
    have b2 : n < 2 ^ 31 := Nat.lt_of_le_of_lt (Nat.le_mul_of_pos_right n a3) a4
    have b3 : k < 2 ^ 31 := Nat.lt_of_le_of_lt (Nat.le_mul_of_pos_left k a2) a4
    rw [asI32_small b1, asI32_small b2, asI32_small b3, mulUsize_small a4, mulUsize_small a5, mulUsize_small a6]
    refine ⟨⟨⟨⟨⟨by omega, by omega⟩, by omega⟩, rfl⟩, rfl⟩, rfl⟩

/-- What the binding refuses, it refuses with an error before anything runs on the device: empty matrices, matrices of
2^31 entries or more, slices of other sizes. -/
theorem c63_refused (dev : Device) (ctx : Context) {m n k : Nat} (a b c : List B64) (ha : a.length < 2 ^ 60)
    (hb : b.length < 2 ^ 60) (hc : c.length < 2 ^ 60)
    (h : (a.length = n * k ∧ b.length = k * m ∧ c.length = n * m ∧
        ¬ (0 < m ∧ 0 < n ∧ 0 < k ∧ n * k < 2 ^ 31 ∧ k * m < 2 ^ 31 ∧ n * m < 2 ^ 31)) ∨
      (0 < m ∧ 0 < n ∧ 0 < k ∧ n * k < 2 ^ 31 ∧ k * m < 2 ^ 31 ∧ n * m < 2 ^ 31 ∧
        ¬ (a.length = n * k ∧ b.length = k * m ∧ c.length = n * m))) :
    ctx.gemm dev a b c (rowMajor m n k) = .err := by
  have hfit : sizesFit (rowMajor m n k) a.length b.length c.length = false := by
    rw [Bool.eq_false_iff]
    intro hs
    rcases h with ⟨e1, e2, e3, h⟩ | ⟨a1, a2, a3, a4, a5, a6, h⟩
    · rw [e1, e2, e3] at hs
      exact h ((c63_sizes (by omega) (by omega) (by omega)).1 hs)
    · have b1 : m < 2 ^ 31 := Nat.lt_of_le_of_lt (Nat.le_mul_of_pos_left m a3) a5
      have b2 : n < 2 ^ 31 := Nat.lt_of_le_of_lt (Nat.le_mul_of_pos_right n a3) a4
      have b3 : k < 2 ^ 31 := Nat.lt_of_le_of_lt (Nat.le_mul_of_pos_left k a2) a4
      unfold sizesFit rowMajor at hs
      simp only [Bool.and_eq_true, beq_iff_eq] at hs
      rw [asI32_small b1, asI32_small b2, asI32_small b3, mulUsize_small a4, mulUsize_small a5, mulUsize_small a6] at hs
      exact h ⟨hs.1.1.2, hs.1.2, hs.2⟩
  unfold Context.gemm
  rw [hfit]
  rfl

/-- A slice of three for two by two. -/
example (dev : Device) : Context.gemm dev Context.new [0, 0, 0] [0, 0, 0, 0] [0, 0, 0, 0] (rowMajor 2 2 2) = .err :=
  c63_refused dev _ _ _ _ (by decide) (by decide) (by decide) (Or.inr (by decide))

/-! ## One product -/

theorem upload_get (buf : Option Buffer) (xs : List B64) {i : Nat} (h : i < xs.length) :
    (upload buf xs)[i]? = some (some (xs.getD i 0#64)) := by
  have h1 : xs[i]? = some (xs.getD i 0#64) := by rw [List.getD_eq_getElem?_getD, List.getElem?_eq_getElem h]; rfl
  have h2 : (xs.map some)[i]? = some (some (xs.getD i 0#64)) := by rw [List.getElem?_map, h1]; rfl
  unfold upload
  split
  · split
    · rw [List.getElem?_append_left (by simpa using h)]
      exact h2
    · exact h2
  · exact h2

theorem uploadResult_length (buf : Option Buffer) (xs : List B64) (h : ∀ s, buf = some s → s.length ≤ xs.length) :
    (uploadResult buf xs).length = xs.length := by
  unfold uploadResult
  split
  · rename_i s
    have := h s rfl
    split
    · simp; omega
    · simp
  · simp

/-- One product through the binding, whatever the buffers hold, as long as the result buffer is not longer than the
result: row-major data and target give the row-major product. -/
theorem c63_gemm {dev : Device} {scalar : List B64 → List B64 → B64 → Prop} (hdev : Multiplies dev scalar) (ctx : Context)
    {target data c : List B64} {dr tc dc : Nat} (h1 : target.length = dc * tc) (h2 : data.length = dr * dc)
    (h3 : c.length = dr * tc) (hdr : 0 < dr) (htc : 0 < tc) (hdc : 0 < dc) (s1 : dc * tc < 2 ^ 31) (s2 : dr * dc < 2 ^ 31)
    (s3 : dr * tc < 2 ^ 31) (hc : ∀ s, ctx.c = some s → s.length ≤ c.length) :
    ∃ out ctx', ctx.gemm dev target data c (rowMajor dr tc dc) = .ok (out.map some, ctx') ∧
      (∀ s, ctx'.c = some s → s.length = c.length) ∧ Batch scalar data dr dc 1 target dc tc out := by
  have hs : sizesFit (rowMajor dr tc dc) target.length data.length c.length = true := by
    rw [h1, h2, h3, Nat.mul_comm dc tc, Nat.mul_comm dr dc, Nat.mul_comm dr tc]
    exact (c63_sizes (by rw [Nat.mul_comm]; omega) (by rw [Nat.mul_comm]; omega) (by rw [Nat.mul_comm]; omega)).2
      ⟨hdr, htc, hdc, by rw [Nat.mul_comm]; omega, by rw [Nat.mul_comm]; omega, by rw [Nat.mul_comm]; omega⟩
  have b1 : dr < 2 ^ 31 := Nat.lt_of_le_of_lt (Nat.le_mul_of_pos_right dr hdc) s2
  have b2 : tc < 2 ^ 31 := Nat.lt_of_le_of_lt (Nat.le_mul_of_pos_left tc hdc) s1
  have b3 : dc < 2 ^ 31 := Nat.lt_of_le_of_lt (Nat.le_mul_of_pos_left dc hdr) s2
  have hl := uploadResult_length ctx.c c hc
  have hfit : (dr - 1) * tc + tc ≤ (uploadResult ctx.c c).length := by
    rw [hl, h3, ← Nat.succ_mul]
    exact Nat.le_of_eq (by congr 1; omega)
  obtain ⟨c', e1, e2, e3⟩ := hdev tc dr dc tc dc tc (upload ctx.a target) (upload ctx.b data) (uploadResult ctx.c c)
    htc hdr hdc (Nat.le_refl _) (Nat.le_refl _) (Nat.le_refl _) b2 b1 b3 hfit
  have entry : ∀ r j, r < dr → j < tc → ∃ v, c'[r * tc + j]? = some (some v) ∧
      scalar (rowMajorColumn target dc tc j) (dataRow data dr dc 0 r) v := by
    intro r j hr hj
    have hrow : (r + 1) * dc ≤ dr * dc := Nat.mul_le_mul_right _ hr
    rw [Nat.succ_mul] at hrow
    have hdl : (dataRow data dr dc 0 r).length = dc := by
      simp only [dataRow, Nat.zero_mul, Nat.zero_add, List.length_take, List.length_drop, h2]
      omega
    obtain ⟨v, v1, v2⟩ := e3 j r (rowMajorColumn target dc tc j) (dataRow data dr dc 0 r) hj hr (by simp [rowMajorColumn]) hdl
      (by
        intro p hp
        have : (p + 1) * tc ≤ dc * tc := Nat.mul_le_mul_right _ hp
        rw [Nat.succ_mul] at this
        rw [upload_get _ _ (by rw [h1]; omega)]
        simp only [rowMajorColumn, List.getD_eq_getElem?_getD, List.getElem?_map, List.getElem?_range hp, Option.map_some,
          Option.getD_some]
        rw [Nat.add_comm])
      (by
        intro p hp
        rw [upload_get _ _ (by rw [h2]; omega)]
        simp only [dataRow, Nat.zero_mul, Nat.zero_add, List.getD_eq_getElem?_getD, List.getElem?_take, hp, if_true,
          List.getElem?_drop]
        rw [Nat.add_comm])
    refine ⟨v, ?_, v2⟩
    rw [Nat.add_comm]
    exact v1
  have all : ∀ x ∈ c', ∃ v, x = some v := by
    intro x hx
    obtain ⟨i, hi, rfl⟩ := List.getElem_of_mem hx
    have hi2 : i < tc * dr := by rw [e2, hl, h3, Nat.mul_comm] at hi; exact hi
    obtain ⟨v, v1, -⟩ := entry (i / tc) (i % tc) (Nat.div_lt_of_lt_mul hi2) (Nat.mod_lt _ htc)
    rw [Nat.mul_comm, Nat.div_add_mod, List.getElem?_eq_getElem hi] at v1
    exact ⟨v, by simpa using v1⟩
  obtain ⟨out, ho⟩ : ∃ out : List B64, c' = out.map some := by
    clear e1 e2 e3 entry
    induction c' with
    | nil => exact ⟨[], rfl⟩
    | cons x xs ih =>
      obtain ⟨v, rfl⟩ := all x (List.mem_cons_self ..)
      obtain ⟨o, rfl⟩ := ih fun y hy => all y (List.mem_cons_of_mem _ hy)
      exact ⟨v :: o, rfl⟩
  have hol : out.length = c.length := by rw [← hl, ← e2, ho, List.length_map]
  refine ⟨out, ⟨some (upload ctx.a target), some (upload ctx.b data), some c'⟩, ?_, ?_, ?_⟩
  · unfold Context.gemm
    rw [if_pos hs]
    simp only [rowMajor, asI32_small b1, asI32_small b2, asI32_small b3]
    rw [e1]
    simp only [Res.bind_ok, download]
    rw [if_neg (by rw [e2, hl]; omega), e2, hl, List.drop_of_length_le (Nat.le_refl _)]
    simp [ho]
  · intro s e
    cases e
    rw [e2, hl]
  · refine ⟨by rw [hol, h3]; omega, ?_⟩
    intro q r j hq hr hj
    obtain rfl : q = 0 := by omega
    obtain ⟨v, v1, v2⟩ := entry r j hr hj
    refine ⟨v, ?_, v2⟩
    rw [ho, List.getElem?_map] at v1
    rw [Nat.zero_mul, Nat.zero_add]
    cases hx : out[r * tc + j]? with
    | none => rw [hx] at v1; cases v1
    | some w => rw [hx] at v1; simpa using v1

/-- With a result buffer kept from a larger product the call panics after the computation. -/
theorem c63_larger_buffer_panics {dev : Device} {scalar : List B64 → List B64 → B64 → Prop} (hdev : Multiplies dev scalar)
    (ctx : Context) {target data c : List B64} {dr tc dc : Nat} (h1 : target.length = dc * tc) (h2 : data.length = dr * dc)
    (h3 : c.length = dr * tc) (hdr : 0 < dr) (htc : 0 < tc) (hdc : 0 < dc) (s1 : dc * tc < 2 ^ 31) (s2 : dr * dc < 2 ^ 31)
    (s3 : dr * tc < 2 ^ 31) {s : Buffer} (hs : ctx.c = some s) (hl : c.length < s.length) :
    ctx.gemm dev target data c (rowMajor dr tc dc) = .panic := by
  have hfits : sizesFit (rowMajor dr tc dc) target.length data.length c.length = true := by
    rw [h1, h2, h3, Nat.mul_comm dc tc, Nat.mul_comm dr dc, Nat.mul_comm dr tc]
    exact (c63_sizes (by rw [Nat.mul_comm]; omega) (by rw [Nat.mul_comm]; omega) (by rw [Nat.mul_comm]; omega)).2
      ⟨hdr, htc, hdc, by rw [Nat.mul_comm]; omega, by rw [Nat.mul_comm]; omega, by rw [Nat.mul_comm]; omega⟩
  have b1 : dr < 2 ^ 31 := Nat.lt_of_le_of_lt (Nat.le_mul_of_pos_right dr hdc) s2
  have b2 : tc < 2 ^ 31 := Nat.lt_of_le_of_lt (Nat.le_mul_of_pos_left tc hdc) s1
  have b3 : dc < 2 ^ 31 := Nat.lt_of_le_of_lt (Nat.le_mul_of_pos_left dc hdr) s2
  have hul : (uploadResult ctx.c c).length = s.length := by
    rw [hs]
    simp only [uploadResult]
    rw [if_pos (by omega)]
    simp
    omega
  have hfit : (dr - 1) * tc + tc ≤ (uploadResult ctx.c c).length := by
    have : (dr - 1) * tc + tc = dr * tc := by rw [← Nat.succ_mul]; congr 1; omega
    omega
  obtain ⟨c', e1, e2, -⟩ := hdev tc dr dc tc dc tc (upload ctx.a target) (upload ctx.b data) (uploadResult ctx.c c)
    htc hdr hdc (Nat.le_refl _) (Nat.le_refl _) (Nat.le_refl _) b2 b1 b3 hfit
  unfold Context.gemm
  rw [if_pos hfits]
  simp only [rowMajor, asI32_small b1, asI32_small b2, asI32_small b3]
  rw [e1]
  simp only [Res.bind_ok, download]
  rw [if_pos (by omega)]
  rfl

/-! ## The batch -/

theorem batch_append {scalar : List B64 → List B64 → B64 → Prop} {data : List B64} {dr dc b : Nat} {target : List B64}
    {tr tc : Nat} {o1 o2 : List B64} (h1 : Batch scalar (data.take (dr * dc)) dr dc 1 target tr tc o1)
    (h2 : Batch scalar (data.drop (dr * dc)) dr dc b target tr tc o2) :
    Batch scalar data dr dc (b + 1) target tr tc (o1 ++ o2) := by
  obtain ⟨l1, e1⟩ := h1
  obtain ⟨l2, e2⟩ := h2
  rw [Nat.one_mul] at l1
  refine ⟨by rw [List.length_append, l1, l2, Nat.succ_mul]; omega, ?_⟩
  intro q r j hq hr hj
  have hrt : (r + 1) * tc ≤ dr * tc := Nat.mul_le_mul_right _ hr
  rw [Nat.succ_mul] at hrt
  have hrd : (r + 1) * dc ≤ dr * dc := Nat.mul_le_mul_right _ hr
  rw [Nat.succ_mul] at hrd
  cases q with
  | zero =>
    obtain ⟨v, v1, v2⟩ := e1 0 r j (by omega) hr hj
    refine ⟨v, ?_, ?_⟩
    · rw [List.getElem?_append_left (by omega)]
      exact v1
    · have : dataRow (data.take (dr * dc)) dr dc 0 r = dataRow data dr dc 0 r := by
        unfold dataRow
        rw [Nat.zero_mul, Nat.zero_add, List.drop_take, List.take_take, Nat.min_eq_left (by omega)]
      rwa [← this]
  | succ q =>
    obtain ⟨v, v1, v2⟩ := e2 q r j (by omega) hr hj
    refine ⟨v, ?_, ?_⟩
    · rw [Nat.succ_mul, List.getElem?_append_right (by omega), l1,
        show q * (dr * tc) + dr * tc + (r * tc + j) - dr * tc = q * (dr * tc) + (r * tc + j) by omega]
      exact v1
    · have : dataRow (data.drop (dr * dc)) dr dc q r = dataRow data dr dc (q + 1) r := by
        unfold dataRow
        rw [List.drop_drop, Nat.succ_mul]
        congr 2
        omega
      rwa [← this]

theorem decompress_holds {E : Env} {h : Handle} {lo : Nat} {vs : List B64} (hh : h.Holds E lo vs) :
    ∃ h', Cuda.decompress E h = .ok (vs, h') ∧ h'.Holds E lo vs := by
  obtain ⟨r1, e⟩ := hh.gives.1
  refine ⟨{ h with reader := r1 }, ?_, AnyReader.Gives.after e, hh.records, hh.off⟩
  unfold Cuda.decompress
  rw [e]
  rfl

/-- The shapes: nonempty matrices of less than 2^31 entries. -/
structure Shapes (target : List B64) (dr dc tc : Nat) : Prop where
  entries : target.length = dc * tc
  rows : 0 < dr
  columns : 0 < dc
  targetColumns : 0 < tc
  s1 : dc * tc < 2 ^ 31
  s2 : dr * dc < 2 ^ 31
  s3 : dr * tc < 2 ^ 31

/-- One matrix that lies in the chunk, or not. -/
theorem chunkGemm_spec {E : Env} {dev : Device} {scalar : List B64 → List B64 → B64 → Prop} (hdev : Multiplies dev scalar)
    {target : List B64} {dr dc tc : Nat} (hs : Shapes target dr dc tc) (ctx : Context)
    (hctx : ∀ s, ctx.c = some s → s.length ≤ dr * tc) {h : Handle} {lo : Nat} {c : List B64} (hh : h.Holds E lo c) (off : Nat) :
    (c.length < off + dr * dc →
      chunkGemm E dev ctx h off (dr * dc) target (List.replicate (dr * tc) 0#64) (rowMajor dr tc dc) = .panic) ∧
    (off + dr * dc ≤ c.length → ∃ out ctx' h',
      chunkGemm E dev ctx h off (dr * dc) target (List.replicate (dr * tc) 0#64) (rowMajor dr tc dc)
        = .ok (out.map some, ctx', h') ∧ h'.Holds E lo c ∧ (∀ s, ctx'.c = some s → s.length ≤ dr * tc) ∧
      Batch scalar ((c.drop off).take (dr * dc)) dr dc 1 target dc tc out) := by
  obtain ⟨h', e1, hh'⟩ := decompress_holds hh
  refine ⟨fun hl => ?_, fun hl => ?_⟩
  · unfold chunkGemm
    rw [e1]
    simp only [Res.bind_ok]
    rw [if_pos hl]
  · obtain ⟨out, ctx', g1, g2, g3⟩ := c63_gemm hdev ctx (target := target) (data := (c.drop off).take (dr * dc))
      (c := List.replicate (dr * tc) 0#64) hs.entries (by rw [List.length_take, List.length_drop]; omega) (by simp) hs.rows hs.targetColumns
      hs.columns hs.s1 hs.s2 hs.s3 (by simpa using hctx)
    refine ⟨out, ctx', h', ?_, hh', ?_, g3⟩
    · unfold chunkGemm
      rw [e1]
      simp only [Res.bind_ok]
      rw [if_neg (by omega), g1]
      rfl
    · intro s e
      have := g2 s e
      simp at this
      omega

/-- The loop: `c` is the chunk being read, `rest` the chunks after it. All whole: the products. Otherwise: a panic. -/
theorem cudaLoop_spec {E : Env} {d : Decoder} {dev : Device} {scalar : List B64 → List B64 → B64 → Prop}
    (hdev : Multiplies dev scalar) {target : List B64} {dr dc tc : Nat} (hs : Shapes target dr dc tc) (b : Nat) :
    ∀ (chunk off : Nat) (h : Handle) (ctx : Context) (lo : Nat) (c : List B64) (rest : List (List B64)), h.Holds E lo c →
      (∀ s, ctx.c = some s → s.length ≤ dr * tc) →
      (∀ (j : Nat) (c' : List B64), rest[j]? = some c' →
        ∃ h' lo', d.chunkReader E (chunk + 1 + j) = .ok h' ∧ h'.Holds E lo' c') →
      (∀ c' ∈ rest, c' ≠ []) → dr * dc ∣ off → off ≤ c.length →
      (c.drop off ++ rest.flatten).length = b * (dr * dc) →
      ((∀ c' ∈ c :: rest, dr * dc ∣ c'.length) →
        ∃ out, Cuda.matmulLoop E d dev target (dr * dc) (dr * tc) (rowMajor dr tc dc) b chunk off h ctx = .ok (out.map some) ∧
          Batch scalar (c.drop off ++ rest.flatten) dr dc b target dc tc out) ∧
      ((∃ c' ∈ c :: rest, ¬ dr * dc ∣ c'.length) →
        Cuda.matmulLoop E d dev target (dr * dc) (dr * tc) (rowMajor dr tc dc) b chunk off h ctx = .panic) := by
  have hpos : 0 < dr * dc := Nat.mul_pos hs.rows hs.columns
  induction b with
  | zero =>
    intro chunk off h ctx lo c rest hh hctx hread hne hoff hle hlen
    rw [Nat.zero_mul, List.length_append] at hlen
    refine ⟨fun _ => ⟨[], rfl, by simp, fun q r j hq => by omega⟩, ?_⟩
    rintro ⟨c', hc', hnd⟩
    have hrest : rest = [] := by
      cases rest with
      | nil => rfl
      | cons x xs =>
        have := List.length_pos_iff.2 (hne x (List.mem_cons_self ..))
        rw [List.flatten_cons, List.length_append] at hlen
        omega
    rw [hrest, List.mem_singleton] at hc'
    rw [List.length_drop] at hlen
    have : c.length = off := by omega
    rw [hc', this] at hnd
    exact absurd hoff hnd
  | succ b ih =>
    have key : ∀ (chunk off : Nat) (h : Handle) (ctx : Context) (lo : Nat) (c : List B64) (rest : List (List B64)),
        h.Holds E lo c → (∀ s, ctx.c = some s → s.length ≤ dr * tc) →
        (∀ (j : Nat) (c' : List B64), rest[j]? = some c' →
          ∃ h' lo', d.chunkReader E (chunk + 1 + j) = .ok h' ∧ h'.Holds E lo' c') →
        (∀ c' ∈ rest, c' ≠ []) → dr * dc ∣ off → off < c.length →
        (c.drop off ++ rest.flatten).length = (b + 1) * (dr * dc) →
        ((∀ c' ∈ c :: rest, dr * dc ∣ c'.length) →
          ∃ out, (do
            let (out, ctx, h) ← chunkGemm E dev ctx h off (dr * dc) target (List.replicate (dr * tc) 0#64) (rowMajor dr tc dc)
            let rest ← Cuda.matmulLoop E d dev target (dr * dc) (dr * tc) (rowMajor dr tc dc) b chunk (off + dr * dc) h ctx
            .ok (out ++ rest)) = .ok (out.map some) ∧
            Batch scalar (c.drop off ++ rest.flatten) dr dc (b + 1) target dc tc out) ∧
        ((∃ c' ∈ c :: rest, ¬ dr * dc ∣ c'.length) → (do
            let (out, ctx, h) ← chunkGemm E dev ctx h off (dr * dc) target (List.replicate (dr * tc) 0#64) (rowMajor dr tc dc)
            let rest ← Cuda.matmulLoop E d dev target (dr * dc) (dr * tc) (rowMajor dr tc dc) b chunk (off + dr * dc) h ctx
            .ok (out ++ rest)) = .panic) := by
      intro chunk off h ctx lo c rest hh hctx hread hne hoff hlt hlen
      obtain ⟨g1, g2⟩ := chunkGemm_spec hdev hs ctx hctx hh off
      by_cases hin : off + dr * dc ≤ c.length
      · obtain ⟨out, ctx', h', e1, hh', hctx', hb⟩ := g2 hin
        have hdrop : (c.drop off ++ rest.flatten).drop (dr * dc) = c.drop (off + dr * dc) ++ rest.flatten := by
          rw [List.drop_append_of_le_length (by rw [List.length_drop]; omega), List.drop_drop]
        have htake : (c.drop off ++ rest.flatten).take (dr * dc) = (c.drop off).take (dr * dc) :=
          List.take_append_of_le_length (by rw [List.length_drop]; omega)
        obtain ⟨i1, i2⟩ := ih chunk (off + dr * dc) h' ctx' lo c rest hh' hctx' hread hne
          (Nat.dvd_add hoff (Nat.dvd_refl _)) hin (by rw [← hdrop, List.length_drop, hlen, Nat.succ_mul, Nat.add_sub_cancel])
        rw [e1]
        simp only [Res.bind_ok]
        refine ⟨fun hall => ?_, fun hbad => ?_⟩
        · obtain ⟨o2, e2, hb2⟩ := i1 hall
          refine ⟨out ++ o2, ?_, ?_⟩
          · rw [e2]
            simp only [Res.bind_ok, List.map_append]
          · rw [← htake] at hb
            rw [← hdrop] at hb2
            exact batch_append hb hb2
        · rw [i2 hbad]
          rfl
      · rw [g1 (by omega)]
        refine ⟨fun hall => ?_, fun _ => rfl⟩
        exfalso
        obtain ⟨x, hx⟩ := hall c (List.mem_cons_self ..)
        obtain ⟨y, hy⟩ := hoff
        rw [hx, hy] at hlt
        have hxy : y < x := Nat.lt_of_mul_lt_mul_left hlt
        apply hin
        rw [hx, hy, ← Nat.mul_succ]
        exact Nat.mul_le_mul_left _ hxy
    intro chunk off h ctx lo c rest hh hctx hread hne hoff hle hlen
    rw [Cuda.matmulLoop]
    by_cases hlt : off < c.length
    · rw [if_neg (by rw [hh.records]; omega)]
      exact key chunk off h ctx lo c rest hh hctx hread hne hoff hlt hlen
    · rw [if_pos (by rw [hh.records]; omega)]
      have hnil : c.drop off = [] := List.drop_of_length_le (by omega)
      have hc : dr * dc ∣ c.length := by
        rw [show c.length = off by omega]
        exact hoff
      rw [hnil, List.nil_append] at hlen ⊢
      cases rest with
      | nil =>
        rw [List.flatten_nil, List.length_nil, Nat.succ_mul] at hlen
        omega
      | cons c' rest =>
        obtain ⟨h', lo', e1, hh'⟩ := hread 0 c' rfl
        rw [Nat.add_zero] at e1
        have hl : 0 < c'.length := List.length_pos_iff.2 (hne c' (List.mem_cons_self ..))
        obtain ⟨k1, k2⟩ := key (chunk + 1) 0 h' ctx lo' c' rest hh' hctx
          (fun j c2 hj => by
            have := hread (j + 1) c2 (by simpa using hj)
            rw [show chunk + 1 + (j + 1) = chunk + 1 + 1 + j by omega] at this
            exact this)
          (fun c2 h2 => hne c2 (List.mem_cons_of_mem _ h2)) (Nat.dvd_zero _) hl (by simpa using hlen)
        simp only [e1, Res.bind_ok]
        refine ⟨fun hall => ?_, fun hbad => k2 ?_⟩
        · obtain ⟨out, o1, o2⟩ := k1 fun x hx => hall x (List.mem_cons_of_mem _ hx)
          exact ⟨out, o1, by simpa using o2⟩
        · obtain ⟨x, hx, hn⟩ := hbad
          rcases List.mem_cons.1 hx with rfl | hx
          · exact absurd hc hn
          · exact ⟨x, hx, hn⟩

/-- On any open file whose chunks hold `css`: whole matrices in every chunk give the products, anything else panics. -/
theorem cuda_opens {E : Env} {d : Decoder} {css : List (List B64)} (h : Opens E d css) (hne : css ≠ []) {dev : Device}
    {scalar : List B64 → List B64 → B64 → Prop} (hdev : Multiplies dev scalar) {target : List B64} {dr dc tc : Nat}
    (hs : Shapes target dr dc tc) (hdvd : dr * dc ∣ css.flatten.length)
    (hcap : 8 * (css.flatten.length / (dr * dc) * (dr * tc)) < 2 ^ 63) :
    ((∀ c ∈ css, dr * dc ∣ c.length) → ∃ out, Cuda.matmul E dev d target (dc, tc) (dr, dc) = .ok (out.map some) ∧
      Batch scalar css.flatten dr dc (css.flatten.length / (dr * dc)) target dc tc out) ∧
    ((∃ c ∈ css, ¬ dr * dc ∣ c.length) → Cuda.matmul E dev d target (dc, tc) (dr, dc) = .panic) := by
  have hpos : 0 < dr * dc := Nat.mul_pos hs.rows hs.columns
  have hpos2 : 0 < dr * tc := Nat.mul_pos hs.rows hs.targetColumns
  have s1 := hs.s1
  have s2 := hs.s2
  have s3 := hs.s3
  cases css with
  | nil => exact absurd rfl hne
  | cons c css =>
    obtain ⟨h0, e0, hh0⟩ := h.reader 0 c rfl
    have hrun : Cuda.matmul E dev d target (dc, tc) (dr, dc)
        = Cuda.matmulLoop E d dev target (dr * dc) (dr * tc) (rowMajor dr tc dc)
            ((c :: css).flatten.length / (dr * dc)) 0 0 h0 Context.new := by
      unfold Cuda.matmul
      simp only [Nat.mod_eq_of_lt (show dr * dc < 2 ^ 64 by omega), Nat.mod_eq_of_lt (show dc * tc < 2 ^ 64 by omega),
        Nat.mod_eq_of_lt (show dr * tc < 2 ^ 64 by omega), h.records, Nat.mod_eq_zero_of_dvd hdvd, hs.entries, ne_eq,
        not_true_eq_false, or_self, if_false]
      rw [if_neg (by omega), Nat.mod_eq_of_lt (by omega), if_neg (by omega), e0]
      simp only [Res.bind_ok]
      rw [if_neg (by omega), Nat.mul_div_cancel _ hpos2]
    rw [hrun]
    have := cudaLoop_spec (E := E) (d := d) hdev hs ((c :: css).flatten.length / (dr * dc)) 0 0 h0 Context.new _ c css hh0
      (by intro s e; cases e)
      (by
        intro j c' hj
        obtain ⟨h', e, hh⟩ := h.reader (j + 1) c' (by simpa using hj)
        exact ⟨h', _, by rw [Nat.zero_add, Nat.add_comm]; exact e, hh⟩)
      (fun c' hc' => h.nonempty c' (List.mem_cons_of_mem _ hc')) (Nat.dvd_zero _) (Nat.zero_le _)
      (by rw [List.drop_zero, ← List.flatten_cons, Nat.div_mul_cancel hdvd])
    rwa [List.drop_zero, ← List.flatten_cons] at this

/-! ## Files -/

/-- The batch of products of a file, whatever the scheme: the target is read row by row. Whole matrices per chunk give the
products, a matrix that straddles chunks a panic. Missing, because the code differs: the target is not read column by
column as `matmul` reads it (`c63_layouts_differ`, `c63_transposed`), matrices of 2^31 entries and more are refused
(`c63_sizes`), and no target columns panic (`c63_no_columns_panics`). -/
theorem c63_matmul_partial {E : Env} {a : Args} {file : List Byte} {m : Metadata} (h : Written E a file m)
    (prec : Option Nat) (hp : prec = none ∨ a.cfg.scheme ≠ .buff) (hne : a.records ≠ []) {dev : Device}
    {scalar : List B64 → List B64 → B64 → Prop} (hdev : Multiplies dev scalar) {target : List B64} {dr dc tc : Nat}
    (hs : Shapes target dr dc tc) (hdvd : a.records.length % (dr * dc) = 0)
    (hcap : 8 * (a.records.length / (dr * dc) * (dr * tc)) < 2 ^ 63) :
    (WholeVectors (dr * dc) a → ∃ out, Cuda.matmul E dev ⟨file, m, prec⟩ target (dc, tc) (dr, dc) = .ok (out.map some) ∧
      Batch scalar (a.records.map (readBack E a.cfg)) dr dc (a.records.length / (dr * dc)) target dc tc out) ∧
    (¬ WholeVectors (dr * dc) a → Cuda.matmul E dev ⟨file, m, prec⟩ target (dc, tc) (dr, dc) = .panic) := by
  obtain ⟨cs, h1, h2⟩ := h.encoded.opens h.law h.valid h.accepts h.len prec hp
  have e : (cs.map fun c => c.map (readBack E a.cfg)).flatten = a.records.map (readBack E a.cfg) := by
    rw [← List.map_flatten, h1.flatten]
  have hcs : cs.map (fun c => c.map (readBack E a.cfg)) ≠ [] := by
    intro e2
    rw [e2] at e
    exact hne (List.map_eq_nil_iff.1 e.symm)
  have hd : dr * dc ∣ (cs.map fun c => c.map (readBack E a.cfg)).flatten.length := by
    rw [e, List.length_map]
    exact Nat.dvd_of_mod_eq_zero hdvd
  obtain ⟨g1, g2⟩ := cuda_opens h2 hcs hdev hs hd (by rw [e, List.length_map]; exact hcap)
  rw [e, List.length_map] at g1
  refine ⟨fun hw => g1 (aligned_all (aligned_of_split h1 hw _) hd), fun hw => g2 ?_⟩
  unfold WholeVectors at hw
  have ⟨k, hk⟩ := Classical.not_forall.1 hw
  have ⟨hk1, hk2⟩ := Classical.not_imp.1 hk
  obtain ⟨hk3, hk4⟩ := not_or.1 hk2
  rw [hk1] at h1
  generalize a.records = vs at h1 hne hk4
  cases h1 with
  | nil => exact absurd rfl hne
  | @cons _ cs hne' hs' =>
    refine ⟨_, List.mem_map_of_mem (List.mem_cons_self ..), ?_⟩
    have : (firstPart (some k) vs).length = k := by
      simp only [firstPart, List.length_take]
      omega
    rwa [List.length_map, this]

theorem c63_preconditions (E : Env) (dev : Device) (d : Decoder) (target : List B64) {tr tc dr dc : Nat} (hsize : 0 < dr * dc)
    (h64 : dr * dc < 2 ^ 64) (h642 : tr * tc < 2 ^ 64)
    (h : dc ≠ tr ∨ d.info.footer.records % (dr * dc) ≠ 0 ∨ target.length ≠ tr * tc) :
    Cuda.matmul E dev d target (tr, tc) (dr, dc) = .err := by
  unfold Cuda.matmul
  simp only [Nat.mod_eq_of_lt h64, Nat.mod_eq_of_lt h642]
  rw [if_neg (by omega), if_pos (by omega)]

/-- A data shape with a zero panics, as in `matmul`. -/
theorem c63_zero_shape_panics (E : Env) (dev : Device) (d : Decoder) (target : List B64) (tr tc dr dc : Nat)
    (h : dr = 0 ∨ dc = 0) : Cuda.matmul E dev d target (tr, tc) (dr, dc) = .panic := by
  unfold Cuda.matmul
  have : dr * dc = 0 := by rcases h with rfl | rfl <;> simp
  simp only [this, Nat.zero_mod, if_true]

/-- No target columns: `matmul` returns nothing, here it panics. -/
theorem c63_no_columns_panics {E : Env} {d : Decoder} {css : List (List B64)} (h : Opens E d css) (hne : css ≠ [])
    (dev : Device) {dr dc : Nat} (hsize : 0 < dr * dc) (h64 : dr * dc < 2 ^ 64) (hdvd : dr * dc ∣ css.flatten.length) :
    Cuda.matmul E dev d [] (dc, 0) (dr, dc) = .panic := by
  cases css with
  | nil => exact absurd rfl hne
  | cons c css =>
    obtain ⟨h0, e0, hh0⟩ := h.reader 0 c rfl
    unfold Cuda.matmul
    simp only [Nat.mod_eq_of_lt h64, h.records, Nat.mod_eq_zero_of_dvd hdvd, Nat.mul_zero, Nat.zero_mod, ne_eq,
      not_true_eq_false, or_self, if_false, List.length_nil]
    rw [if_neg (by omega), if_neg (by omega), e0]
    simp only [Res.bind_ok, if_true]

/-! ## Compared with `matmul` -/

theorem flatMap_range_get {A : Type} (f : Nat → List A) (k : Nat) (hf : ∀ q, (f q).length = k) (b : Nat) {q i : Nat}
    (hq : q < b) (hi : i < k) : ((List.range b).flatMap f)[q * k + i]? = (f q)[i]? := by
  induction b generalizing f q with
  | zero => omega
  | succ b ih =>
    rw [List.range_succ_eq_map, List.flatMap_cons, List.flatMap_map]
    cases q with
    | zero => rw [Nat.zero_mul, Nat.zero_add, List.getElem?_append_left (by rw [hf]; exact hi)]
    | succ q =>
      rw [List.getElem?_append_right (by rw [hf, Nat.succ_mul]; omega), hf,
        show (q + 1) * k + i - k = q * k + i by rw [Nat.succ_mul]; omega]
      exact ih (fun x => f (x + 1)) (fun x => hf (x + 1)) (by omega)

theorem flatMap_range_length {A : Type} (f : Nat → List A) (k : Nat) (hf : ∀ q, (f q).length = k) (b : Nat) :
    ((List.range b).flatMap f).length = b * k := by
  induction b with
  | zero => simp
  | succ b ih => rw [List.range_succ, List.flatMap_append, List.length_append, ih]; simp [hf, Nat.succ_mul]

theorem targetColumn_transposed (target : List B64) {tr tc j : Nat} (hj : j < tc) :
    targetColumn (transposed target tr tc) tr j = rowMajorColumn target tr tc j := by
  have hl : ∀ q, (rowMajorColumn target tr tc q).length = tr := fun q => by simp [rowMajorColumn]
  have h1 : (j + 1) * tr ≤ tc * tr := Nat.mul_le_mul_right _ hj
  rw [Nat.succ_mul] at h1
  apply List.ext_getElem?
  intro i
  unfold targetColumn
  by_cases hi : i < tr
  · rw [List.getElem?_take, if_pos hi, List.getElem?_drop]
    exact flatMap_range_get _ tr hl tc hj hi
  · rw [List.getElem?_take, if_neg hi, List.getElem?_eq_none (by rw [hl]; omega)]

/-- A device that adds in order: the batch is the one `matmul` computes with the transposed target. -/
theorem batch_exact {o : FloatOps} {data : List B64} {dr dc batch : Nat} {target : List B64} {tr tc : Nat} {out : List B64}
    (h : Batch (fun u v r => r = dot o v u) data dr dc batch target tr tc out) (htc : 0 < tc) :
    out = products o data dr dc batch (transposed target tr tc) tr tc := by
  obtain ⟨h1, h2⟩ := h
  have hin : ∀ q r, ((List.range tc).map fun j =>
      dot o (dataRow data dr dc q r) (targetColumn (transposed target tr tc) tr j)).length = tc := fun q r => by simp
  have hrow : ∀ q, ((List.range dr).flatMap fun r => (List.range tc).map fun j =>
      dot o (dataRow data dr dc q r) (targetColumn (transposed target tr tc) tr j)).length = dr * tc :=
    fun q => flatMap_range_length _ tc (hin q) dr
  have hlen : (products o data dr dc batch (transposed target tr tc) tr tc).length = batch * (dr * tc) :=
    flatMap_range_length _ _ hrow batch
  apply List.ext_getElem?
  intro i
  by_cases hi : i < batch * (dr * tc)
  · have hpos : 0 < dr * tc := by
      rcases Nat.eq_zero_or_pos (dr * tc) with h0 | h0
      · rw [h0] at hi; omega
      · exact h0
    have hq : i / (dr * tc) < batch := Nat.div_lt_of_lt_mul (by rwa [Nat.mul_comm] at hi)
    have hm := Nat.mod_lt i hpos
    have hr : i % (dr * tc) / tc < dr := Nat.div_lt_of_lt_mul (Nat.lt_of_lt_of_eq hm (Nat.mul_comm ..))
    have hj := Nat.mod_lt (i % (dr * tc)) htc
    obtain ⟨v, v1, v2⟩ := h2 _ _ _ hq hr hj
    have e2 : i % (dr * tc) / tc * tc + i % (dr * tc) % tc = i % (dr * tc) := by
      rw [Nat.mul_comm _ tc, Nat.div_add_mod]
    have e : i / (dr * tc) * (dr * tc) + i % (dr * tc) = i := by
      generalize dr * tc = K
      rw [Nat.mul_comm, Nat.div_add_mod]
    rw [e2, e] at v1
    rw [v1, v2]
    have g1 := flatMap_range_get _ _ hrow batch hq (i := i % (dr * tc)) hm
    have g2 := flatMap_range_get _ _ (hin (i / (dr * tc))) dr hr hj
    rw [e2] at g2
    rw [g2, e, List.getElem?_map, List.getElem?_range hj] at g1
    unfold products
    rw [g1, Option.map_some, targetColumn_transposed _ hj]
  · rw [List.getElem?_eq_none (by omega), List.getElem?_eq_none (by omega)]

/-- With a device that adds in order, `matmul_cuda` is `matmul` of the transposed target. -/
theorem c63_transposed {E : Env} {a : Args} {file : List Byte} {m : Metadata} (h : Written E a file m)
    (prec : Option Nat) (hp : prec = none ∨ a.cfg.scheme ≠ .buff) (hne : a.records ≠ []) {dev : Device}
    (hdev : Multiplies dev fun u v r => r = dot E.o v u) {target : List B64} {dr dc tc : Nat}
    (hs : Shapes target dr dc tc) (hdvd : a.records.length % (dr * dc) = 0)
    (hcap : 8 * (a.records.length / (dr * dc) * (dr * tc)) < 2 ^ 63) (hw : WholeVectors (dr * dc) a) :
    Cuda.matmul E dev ⟨file, m, prec⟩ target (dc, tc) (dr, dc)
      = (Decoder.matmul E ⟨file, m, prec⟩ (transposed target dc tc) (dc, tc) (dr, dc)).map (List.map some) := by
  obtain ⟨out, e1, e2⟩ := (c63_matmul_partial h prec hp hne hdev hs hdvd hcap).1 hw
  have s2 := hs.s2
  rw [c42_matmul_partial h prec hp hne (tr := dc) rfl (Nat.mul_pos hs.rows hs.columns) (by omega) hdvd
    (by rw [transposed, flatMap_range_length _ dc (fun q => by simp [rowMajorColumn]), Nat.mul_comm])
    (by rwa [Nat.mul_assoc]) hw, e1, batch_exact e2 hs.targetColumns]
  rfl

/-! ## A device, examples and failures -/

/-- A device on soft floats: in order, as the definition of the product says. -/
def softDevice : Device where
  gemm cfg a b c := .ok ((List.range c.length).map fun x =>
    let i := x % cfg.ldc.toNat
    let j := x / cfg.ldc.toNat
    if i < cfg.m.toNat ∧ j < cfg.n.toNat then
      some (dot Soft.ops ((List.range cfg.k.toNat).map fun p => ((b[p + j * cfg.ldb.toNat]?).getD none).getD 0#64)
        ((List.range cfg.k.toNat).map fun p => ((a[i + p * cfg.lda.toNat]?).getD none).getD 0#64))
    else (c[x]?).getD none)

theorem softDevice_multiplies : Multiplies softDevice fun u v r => r = dot Soft.ops v u := by
  intro m n k lda ldb ldc a b c hm hn hk h1 h2 h3 _ _ _ hfit
  refine ⟨_, rfl, by simp, ?_⟩
  intro i j u v hi hj hu hv ha hb
  have hjl : j * ldc ≤ (n - 1) * ldc := Nat.mul_le_mul_right _ (by omega)
  have hx : i + j * ldc < c.length := by omega
  have e1 : (i + j * ldc) % ldc = i := by rw [Nat.add_mul_mod_self_right, Nat.mod_eq_of_lt (by omega)]
  have e2 : (i + j * ldc) / ldc = j := by
    rw [Nat.add_mul_div_right _ _ (by omega), Nat.div_eq_of_lt (by omega)]
    omega
  have eu : ((List.range k).map fun p => ((a[i + p * lda]?).getD none).getD 0#64) = u := by
    apply List.ext_getElem (by simp [hu])
    intro p p1 p2
    rw [List.getElem_map, List.getElem_range, ha p (by omega)]
    simp [List.getD_eq_getElem?_getD, List.getElem?_eq_getElem p2]
  have ev : ((List.range k).map fun p => ((b[p + j * ldb]?).getD none).getD 0#64) = v := by
    apply List.ext_getElem (by simp [hv])
    intro p p1 p2
    rw [List.getElem_map, List.getElem_range, hb p (by omega)]
    simp [List.getD_eq_getElem?_getD, List.getElem?_eq_getElem p2]
  refine ⟨_, ?_, rfl⟩
  rw [List.getElem?_map, List.getElem?_range hx]
  simp only [Int.toNat_natCast, e1, e2, hi, hj, and_self, if_true, Option.map_some, eu, ev]

/-- 1, 2, 3, 4. -/
def matTarget : List B64 := [0x3ff0000000000000#64, 0x4000000000000000#64, 0x4008000000000000#64, 0x4010000000000000#64]

/-- The hypotheses of `c63_transposed` and `c63_matmul_partial`: three 1 × 2 matrices, four records per chunk, a 2 × 2
target. -/
example : ∃ d, plainDecoder matData 4 = some d ∧ Written sampleEnv (plainArgs matData 4) d.file d.info ∧
    (plainArgs matData 4).records ≠ [] ∧ WholeVectors (1 * 2) (plainArgs matData 4) ∧
    (plainArgs matData 4).records.length % (1 * 2) = 0 ∧ Shapes matTarget 1 2 2 := by
  have h : (plainDecoder matData 4).map (fun d => decide (d.file.length < 1000)) = some true := by
    decide +kernel
  obtain ⟨d, hd, h2⟩ := Option.map_eq_some_iff.1 h
  have h3 : d.file.length < 1000 := of_decide_eq_true h2
  rw [plainArgs_records]
  refine ⟨d, hd, plainDecoder_written hd (by simp [matData]) (by omega) (by omega) (by simp [matData]) (by omega),
    by simp [matData], ?_, rfl, ⟨rfl, by omega, by omega, by omega, by omega, by omega, by omega⟩⟩
  intro k hk
  cases hk
  exact Or.inl ⟨2, rfl⟩

/-- The same arguments, two answers: [1, 2], [3, 4], [5, 6] times the target read by columns and by rows. -/
theorem c63_layouts_differ :
    ∃ d, plainDecoder matData 4 = some d ∧
      d.matmul sampleEnv matTarget (2, 2) (1, 2)
        = .ok [0x4014000000000000#64, 0x4026000000000000#64, 0x4026000000000000#64, 0x4039000000000000#64,
            0x4031000000000000#64, 0x4043800000000000#64] ∧
      Cuda.matmul sampleEnv softDevice d matTarget (2, 2) (1, 2)
        = .ok [some 0x401c000000000000#64, some 0x4024000000000000#64, some 0x402e000000000000#64,
            some 0x4036000000000000#64, some 0x4037000000000000#64, some 0x4041000000000000#64] := by
  have h : (plainDecoder matData 4).map (fun d => (d.matmul sampleEnv matTarget (2, 2) (1, 2),
      Cuda.matmul sampleEnv softDevice d matTarget (2, 2) (1, 2)))
      = some (.ok [0x4014000000000000#64, 0x4026000000000000#64, 0x4026000000000000#64, 0x4039000000000000#64,
            0x4031000000000000#64, 0x4043800000000000#64],
          .ok [some 0x401c000000000000#64, some 0x4024000000000000#64, some 0x402e000000000000#64,
            some 0x4036000000000000#64, some 0x4037000000000000#64, some 0x4041000000000000#64]) := by
    decide +kernel
  obtain ⟨d, hd, h2⟩ := Option.map_eq_some_iff.1 h
  exact ⟨d, hd, congrArg Prod.fst h2, congrArg Prod.snd h2⟩

/-- Three records per chunk: the second matrix straddles. `matmul` answers (wrongly, C42), this panics. -/
example : (plainDecoder matData 3).map (fun d => Cuda.matmul sampleEnv softDevice d (ones 2) (2, 1) (1, 2)) = some .panic := by
  decide +kernel

/-- A buffer kept from a 2 × 2 result, then a 1 × 1 result. -/
example : (Context.gemm softDevice ⟨none, none, some (List.replicate 4 none)⟩ (ones 1) (ones 1) (ones 1) (rowMajor 1 1 1)) = .panic :=
  c63_larger_buffer_panics softDevice_multiplies _ (dr := 1) (tc := 1) (dc := 1) rfl rfl rfl (by omega) (by omega) (by omega)
    (by omega) (by omega) (by omega) rfl (by simp [ones])

end Ebi.Props
