import Verif.SumLemmas
import Verif.Props.InSitu

/-!
# C72: answers do not depend on the scheme or on the chunks
-/

namespace Ebi.Props

open Ebi Ebi.Soft

attribute [local irreducible] roundMag magVal largest

/-! ### Two files of the same records -/

theorem readBack_default (E : Env) {cfg : Config} (h1 : cfg.scheme ≠ .buff) (h2 : cfg.scheme ≠ .deltaSprintz) (vs : List B64) :
    vs.map (readBack E cfg) = vs := by
  have : readBack E cfg = id := by
    funext v
    cases cfg <;> first | rfl | exact absurd rfl h1 | exact absurd rfl h2
  rw [this, List.map_id]

variable {E : Env} {a b : Args} {fa fb : List Byte} {ma mb : Metadata}

/-- The two files hold the same records, written with schemes that do not quantize; the chunk options, parameters and
schemes may differ. -/
structure Alike (E : Env) (a b : Args) (fa fb : List Byte) (ma mb : Metadata) : Prop where
  first : Written E a fa ma
  second : Written E b fb mb
  records : a.records = b.records
  firstExact : a.cfg.scheme ≠ .buff ∧ a.cfg.scheme ≠ .deltaSprintz
  secondExact : b.cfg.scheme ≠ .buff ∧ b.cfg.scheme ≠ .deltaSprintz

theorem c72_materialize (h : Alike E a b fa fb ma mb) (p q : Option Nat) (bm : Option Bitmap)
    (hr : bm = none ∨ a.records.length < 2 ^ 32) :
    ∃ vs, Decoder.materialize E ⟨fa, ma, p⟩ bm none = .ok vs ∧ Decoder.materialize E ⟨fb, mb, q⟩ bm none = .ok vs := by
  have e1 := c30_every_scheme h.first p (Or.inr h.firstExact.1) bm hr
  have e2 := c30_every_scheme h.second q (Or.inr h.secondExact.1) bm (h.records ▸ hr)
  rw [readBack_default E h.firstExact.1 h.firstExact.2] at e1
  rw [readBack_default E h.secondExact.1 h.secondExact.2, ← h.records] at e2
  exact ⟨_, e1, e2⟩

theorem c72_filter (h : Alike E a b fa fb ma mb) (p q : Option Nat) (f : Predicate B64) (bm : Option Bitmap)
    (hr : a.records.length < 2 ^ 32) :
    ∃ r vs, Decoder.filter E ⟨fa, ma, p⟩ f bm none = .ok r ∧ Decoder.filter E ⟨fb, mb, q⟩ f bm none = .ok r ∧
      Decoder.filterMaterialize E ⟨fa, ma, p⟩ f bm none = .ok vs ∧
      Decoder.filterMaterialize E ⟨fb, mb, q⟩ f bm none = .ok vs := by
  obtain ⟨r1, x1, x2, x3⟩ := c31_decoder_filter h.first h.firstExact.1 h.firstExact.2 p f bm hr
  obtain ⟨r2, y1, y2, y3⟩ := c31_decoder_filter h.second h.secondExact.1 h.secondExact.2 q f bm (h.records ▸ hr)
  obtain ⟨-, o1, -, z1, -, z2⟩ := c32_decoder h.first h.firstExact.1 h.firstExact.2 p f bm hr
  obtain ⟨-, o2, -, w1, -, w2⟩ := c32_decoder h.second h.secondExact.1 h.secondExact.2 q f bm (h.records ▸ hr)
  rw [readBack_default E h.firstExact.1 h.firstExact.2] at x3 z2
  rw [readBack_default E h.secondExact.1 h.secondExact.2, ← h.records] at y3 w2
  have e : r1 = r2 := Bitmap.ext x2 y2 (fun x => (x3 x).trans (y3 x).symm)
  subst e
  have e : o1 = o2 := by rw [z2, w2]
  subst e
  exact ⟨r1, o1, x1, y1, z1, w1⟩

theorem feq_of_fle {x y : B64} (h1 : fle x y = true) (h2 : fle y x = true) : feq x y = true := by
  simp only [fle, feq, Bool.and_eq_true, Bool.not_eq_true', decide_eq_true_eq] at *
  exact ⟨h1.1, by omega⟩

/-- Equal as numbers: `f64::min` and `f64::max` leave the sign of a zero open. -/
theorem c72_extrema (h : Alike E a b fa fb ma mb) (p q : Option Nat) (ho : MinMaxLaw E.o) (bm : Option Bitmap)
    (hr : bm = none ∨ a.records.length < 2 ^ 32) :
    (∃ x y, Decoder.min E ⟨fa, ma, p⟩ bm none = .ok x ∧ Decoder.min E ⟨fb, mb, q⟩ bm none = .ok y ∧ feq x y = true) ∧
    (∃ x y, Decoder.max E ⟨fa, ma, p⟩ bm none = .ok x ∧ Decoder.max E ⟨fb, mb, q⟩ bm none = .ok y ∧ feq x y = true) := by
  constructor
  · obtain ⟨x, x1, x2, x3, x4⟩ := c33_decoder_min h.first h.firstExact.1 h.firstExact.2 p ho bm hr
    obtain ⟨y, y1, y2, y3, y4⟩ := c33_decoder_min h.second h.secondExact.1 h.secondExact.2 q ho bm (h.records ▸ hr)
    rw [readBack_default E h.firstExact.1 h.firstExact.2] at x3 x4
    rw [readBack_default E h.secondExact.1 h.secondExact.2, ← h.records] at y3 y4
    refine ⟨x, y, x1, y1, feq_of_fle ?_ ?_⟩
    · rcases y3 with rfl | y3
      · exact fle_posInf x2
      · exact x4 y y3 y2
    · rcases x3 with rfl | x3
      · exact fle_posInf y2
      · exact y4 x x3 x2
  · obtain ⟨x, x1, x2, x3, x4⟩ := c33_decoder_max h.first h.firstExact.1 h.firstExact.2 p ho bm hr
    obtain ⟨y, y1, y2, y3, y4⟩ := c33_decoder_max h.second h.secondExact.1 h.secondExact.2 q ho bm (h.records ▸ hr)
    rw [readBack_default E h.firstExact.1 h.firstExact.2] at x3 x4
    rw [readBack_default E h.secondExact.1 h.secondExact.2, ← h.records] at y3 y4
    refine ⟨x, y, x1, y1, feq_of_fle ?_ ?_⟩
    · rcases x3 with rfl | x3
      · exact negInf_fle y2
      · exact y4 x x3 x2
    · rcases y3 with rfl | y3
      · exact negInf_fle x2
      · exact x4 y y3 y2

/-! ### Vectors -/

/-- There is one answer: the last of the nearest vectors. -/
theorem nearest_unique {o : FloatOps} {target data : List B64} {r r' : Knn} (h : Nearest o target data r)
    (h' : Nearest o target data r') : r = r' := by
  unfold Nearest at h h'
  rcases h with ⟨a1, a2, a3, a4⟩ | ⟨a1, a2⟩ <;> rcases h' with ⟨b1, b2, b3, b4⟩ | ⟨b1, b2⟩
  · obtain ⟨i, x⟩ := r
    obtain ⟨j, y⟩ := r'
    simp only at *
    have e1 := a4 j b1 (b2 ▸ b3)
    have e2 := b4 i a1 (a2 ▸ a3)
    rw [← b2] at e1
    rw [← a2] at e2
    have : i = j := by
      rcases Nat.lt_trichotomy i j with h | h | h
      · have := e1.2 h; rw [e2.1] at this; cases this
      · exact h
      · have := e2.2 h; rw [e1.1] at this; cases this
    subst this
    rw [a2, b2]
  · have := b2 _ a1
    rw [← a2, a3] at this; cases this
  · have := a2 _ b1
    rw [← b2, b3] at this; cases this
  · rw [a1, b1]

/-- Where both files keep the vectors whole, both find the same vector at the same distance. -/
theorem c72_knn (h : Alike E a b fa fb ma mb) (p q : Option Nat) {target : List B64} (ht : target ≠ [])
    (hw : WholeVectors target.length a) (hw' : WholeVectors target.length b) {fuel : Nat}
    (hfuel : a.records.length < fuel) :
    ∃ r, Decoder.knn1 E ⟨fa, ma, p⟩ target fuel = some (.ok r) ∧ Decoder.knn1 E ⟨fb, mb, q⟩ target fuel = some (.ok r) := by
  obtain ⟨x, x1, x2⟩ := c41_knn_partial h.first p (Or.inr h.firstExact.1) ht hw hfuel
  obtain ⟨y, y1, y2⟩ := c41_knn_partial h.second q (Or.inr h.secondExact.1) ht hw' (h.records ▸ hfuel)
  rw [readBack_default E h.firstExact.1 h.firstExact.2] at x2
  rw [readBack_default E h.secondExact.1 h.secondExact.2, ← h.records] at y2
  rw [nearest_unique y2 x2] at y1
  exact ⟨x, x1, y1⟩

/-- The products are the same bit for bit. -/
theorem c72_matmul (h : Alike E a b fa fb ma mb) (p q : Option Nat) (hne : a.records ≠ []) {target : List B64}
    {tr tc dr dc : Nat} (hshape : dc = tr) (hsize : 0 < dr * dc) (h64 : dr * dc < 2 ^ 64)
    (hdvd : a.records.length % (dr * dc) = 0) (htarget : target.length = tr * tc)
    (hcap : 8 * (a.records.length / (dr * dc) * dr * tc) < 2 ^ 63) (hw : WholeVectors (dr * dc) a)
    (hw' : WholeVectors (dr * dc) b) :
    ∃ vs, Decoder.matmul E ⟨fa, ma, p⟩ target (tr, tc) (dr, dc) = .ok vs ∧
      Decoder.matmul E ⟨fb, mb, q⟩ target (tr, tc) (dr, dc) = .ok vs := by
  have x := c42_matmul_partial h.first p (Or.inr h.firstExact.1) hne hshape hsize h64 hdvd htarget hcap hw
  have y := c42_matmul_partial h.second q (Or.inr h.secondExact.1) (h.records ▸ hne) hshape hsize h64
    (h.records ▸ hdvd) htarget (h.records ▸ hcap) hw'
  rw [readBack_default E h.firstExact.1 h.firstExact.2] at x
  rw [readBack_default E h.secondExact.1 h.secondExact.2, ← h.records] at y
  exact ⟨_, x, y⟩

/-! ### Sums -/

/-- The sum of the values, exactly, in units of `2^-1074`. -/
def total (vs : List B64) : Int := (vs.map exactVal).sum

/-- The sum of their absolute values. -/
def weight (vs : List B64) : Nat := (vs.map fun v => (exactVal v).natAbs).sum

theorem total_append (u v : List B64) : total (u ++ v) = total u + total v := by
  simp [total]

theorem weight_append (u v : List B64) : weight (u ++ v) = weight u + weight v := by
  simp [weight]

theorem pickFrom_length (bm : Option Bitmap) (off : Nat) (c : List B64) : (pickFrom bm off c).length ≤ c.length := by
  unfold pickFrom
  rw [List.length_map]
  exact Nat.le_trans (List.length_filter_le _ _) (by simp)

theorem pick_eq_pickFrom (bm : Option Bitmap) (vs : List B64) : pick bm vs = pickFrom bm 0 vs := rfl

theorem sums_of_values {vs : List B64} (hv : ∀ v ∈ vs, isFinite v = true) {L : Nat} (hL : vs.length ≤ L) (h52 : L ≤ 2 ^ 52)
    (hA : 2 * weight vs ≤ largest) : Sums L (vs.foldl Soft.add 0#64) (total vs) (weight vs) := by
  have h := Sums.fold (d0 := 0) (vs.map fun v => (v, exactVal v, (exactVal v).natAbs)) (Nat.le_refl _) Sums.zero
    (by
      intro p hp
      obtain ⟨v, h1, rfl⟩ := List.mem_map.1 hp
      exact Sums.value (hv v h1))
    (by rw [List.length_map]; omega)
    (by simpa [weight, Function.comp_def] using hA)
  have h2 : Sums (0 + vs.length) (vs.foldl Soft.add 0#64) (total vs) (weight vs) := by
    simpa [weight, total, Function.comp_def] using h
  exact h2.le (by omega)

theorem partialSums_sums (bm : Option Bitmap) {L : Nat} (h52 : L ≤ 2 ^ 52) : ∀ (chunks : List (List B64)) (off : Nat),
    (∀ c ∈ chunks, c.length ≤ L) → (∀ v ∈ pickFrom bm off chunks.flatten, isFinite v = true) →
    2 * weight (pickFrom bm off chunks.flatten) ≤ largest →
    ∃ l : List (B64 × Int × Nat), l.map (·.1) = partialSums Soft.ops bm off chunks ∧ l.length ≤ chunks.length ∧
      (∀ p ∈ l, Sums L p.1 p.2.1 p.2.2) ∧ (l.map (·.2.1)).sum = total (pickFrom bm off chunks.flatten) ∧
      (l.map (·.2.2)).sum = weight (pickFrom bm off chunks.flatten)
  | [], off, _, _, _ => ⟨[], rfl, Nat.le_refl _, (by simp), rfl, rfl⟩
  | c :: cs, off, hc, hv, hw => by
    rw [List.flatten_cons, pickFrom_append] at hv hw ⊢
    rw [weight_append] at hw ⊢
    rw [total_append]
    obtain ⟨l, l1, l2, l3, l4, l5⟩ := partialSums_sums bm h52 cs (off + c.length)
      (fun d hd => hc d (List.mem_cons_of_mem _ hd)) (fun v h => hv v (List.mem_append_right _ h)) (by omega)
    rw [partialSums]
    by_cases he : pickFrom bm off c = []
    · rw [if_pos he, he]
      refine ⟨l, l1, (by rw [List.length_cons]; omega), l3, ?_, ?_⟩
      · rw [l4]; simp [total]
      · rw [l5]; simp [weight]
    · rw [if_neg he]
      refine ⟨((pickFrom bm off c).foldl Soft.add 0#64, total (pickFrom bm off c), weight (pickFrom bm off c)) :: l, ?_, ?_, ?_, ?_, ?_⟩
      · rw [List.map_cons, l1]; rfl
      · rw [List.length_cons, List.length_cons]; omega
      · intro p hp
        rcases List.mem_cons.1 hp with rfl | hp
        · exact sums_of_values (fun v h => hv v (List.mem_append_left _ h))
            (Nat.le_trans (pickFrom_length bm off c) (hc c (List.mem_cons_self ..))) h52 (by omega)
        · exact l3 p hp
      · rw [List.map_cons, List.sum_cons, l4]
      · rw [List.map_cons, List.sum_cons, l5]

/-- The computed sum of finite values is finite and off by at most `(L + chunks) * 2^-52` of the sum of the absolute
values, where `L` is the length of the longest chunk. -/
theorem c72_sum_error {m : Metadata} {file : List Byte} (h : Written E a file m) (ho : E.o = Soft.ops)
    (h1 : a.cfg.scheme ≠ .buff) (h2 : a.cfg.scheme ≠ .deltaSprintz) (p : Option Nat) (bm : Option Bitmap)
    (hr : bm = none ∨ a.records.length < 2 ^ 32) (hv : ∀ v ∈ pick bm a.records, isFinite v = true) {L : Nat}
    (hL : ∀ i n, m.numberOfRecords i = .ok n → n ≤ L) (h52 : L + m.footer.chunks ≤ 2 ^ 52)
    (hA : 2 * weight (pick bm a.records) ≤ largest) :
    ∃ s, Decoder.sum E ⟨file, m, p⟩ bm none = .ok s ∧ isFinite s = true ∧
      2 ^ 52 * (exactVal s - total (pick bm a.records)).natAbs ≤ (L + m.footer.chunks) * weight (pick bm a.records) := by
  obtain ⟨chunks, c1, c2, c3, c4⟩ := c33_decoder_sum h h1 h2 p bm hr
  rw [readBack_default E h1 h2] at c1
  rw [pick_eq_pickFrom] at *
  rw [← c1] at hv hA ⊢
  rw [ho] at c4
  obtain ⟨l, l1, l2, l3, l4, l5⟩ := partialSums_sums bm (L := L) (by omega) chunks 0
    (fun c hc => by
      obtain ⟨i, hi⟩ := List.getElem?_of_mem hc
      exact hL i _ (c3 i c hi)) hv hA
  have hs := Sums.fold l (Nat.le_refl L) (Sums.zero.le (Nat.zero_le L)) l3 (by omega) (by rw [l5]; omega)
  rw [l4, l5, l1, Int.zero_add, Nat.zero_add] at hs
  have hs := hs.le (show L + l.length ≤ L + m.footer.chunks by omega)
  exact ⟨_, c4, hs.1, hs.error h52⟩

/-- Two files of the same records differ in their sums by the two bounds together. -/
theorem c72_sum_close (h : Alike E a b fa fb ma mb) (ho : E.o = Soft.ops) (p q : Option Nat) (bm : Option Bitmap)
    (hr : bm = none ∨ a.records.length < 2 ^ 32) (hv : ∀ v ∈ pick bm a.records, isFinite v = true) {L L' : Nat}
    (hL : ∀ i n, ma.numberOfRecords i = .ok n → n ≤ L) (h52 : L + ma.footer.chunks ≤ 2 ^ 52)
    (hL' : ∀ i n, mb.numberOfRecords i = .ok n → n ≤ L') (h52' : L' + mb.footer.chunks ≤ 2 ^ 52)
    (hA : 2 * weight (pick bm a.records) ≤ largest) :
    ∃ s t, Decoder.sum E ⟨fa, ma, p⟩ bm none = .ok s ∧ Decoder.sum E ⟨fb, mb, q⟩ bm none = .ok t ∧
      2 ^ 52 * (exactVal s - exactVal t).natAbs ≤
        (L + ma.footer.chunks + (L' + mb.footer.chunks)) * weight (pick bm a.records) := by
  obtain ⟨s, s1, -, s3⟩ := c72_sum_error h.first ho h.firstExact.1 h.firstExact.2 p bm hr hv hL h52 hA
  obtain ⟨t, t1, -, t3⟩ := c72_sum_error h.second ho h.secondExact.1 h.secondExact.2 q bm (h.records ▸ hr)
    (h.records ▸ hv) hL' h52' (h.records ▸ hA)
  rw [← h.records] at t3
  refine ⟨s, t, s1, t1, ?_⟩
  rw [Nat.add_mul]
  generalize total (pick bm a.records) = T at *
  omega

theorem sum_natAbs_grid {k : Nat} {vs : List B64} (hd : ∀ v ∈ vs, (2 : Int) ^ k ∣ exactVal v) :
    weight vs = (vs.map fun v => (exactVal v / 2 ^ k).natAbs).sum * 2 ^ k ∧
      total vs = (vs.map fun v => exactVal v / 2 ^ k).sum * 2 ^ k := by
  induction vs with
  | nil => simp [weight, total]
  | cons v vs ih =>
    obtain ⟨i1, i2⟩ := ih (fun u hu => hd u (List.mem_cons_of_mem _ hu))
    have e := Int.ediv_mul_cancel (hd v (List.mem_cons_self ..))
    have e2 : (exactVal v).natAbs = (exactVal v / 2 ^ k).natAbs * 2 ^ k := by
      conv => lhs; rw [← e]
      rw [Int.natAbs_mul, Int.natAbs_pow]; rfl
    constructor
    · rw [weight, List.map_cons, List.sum_cons, List.map_cons, List.sum_cons, Nat.add_mul, ← i1, ← e2]; rfl
    · rw [total, List.map_cons, List.sum_cons, List.map_cons, List.sum_cons, Int.add_mul, ← i2, e]; rfl

theorem onGrid_of {k : Nat} {v : B64} (hf : isFinite v = true) (hd : (2 : Int) ^ k ∣ exactVal v) :
    OnGrid k v (exactVal v / 2 ^ k) := ⟨hf, (Int.ediv_mul_cancel hd).symm⟩

theorem grid_zero (k : Nat) : OnGrid k 0#64 0 := ⟨by decide, by
  rw [exactVal_eq_zero.2 (show mag 0#64 = 0 by decide), Int.zero_mul]⟩

/-- The grid weight of the selected values. -/
def gridWeight (k : Nat) (vs : List B64) : Nat := (vs.map fun v => (exactVal v / 2 ^ k).natAbs).sum

def gridTotal (k : Nat) (vs : List B64) : Int := (vs.map fun v => exactVal v / 2 ^ k).sum

theorem natAbs_gridTotal (k : Nat) (vs : List B64) : (gridTotal k vs).natAbs ≤ gridWeight k vs := by
  induction vs with
  | nil => simp [gridTotal, gridWeight]
  | cons v vs ih =>
    simp only [gridTotal, gridWeight, List.map_cons, List.sum_cons] at *
    omega

theorem gridWeight_append (k : Nat) (u v : List B64) : gridWeight k (u ++ v) = gridWeight k u + gridWeight k v := by
  simp [gridWeight]

theorem gridTotal_append (k : Nat) (u v : List B64) : gridTotal k (u ++ v) = gridTotal k u + gridTotal k v := by
  simp [gridTotal]

theorem grid_values {k : Nat} (hk : k ≤ 2045) {vs : List B64} (hv : ∀ v ∈ vs, isFinite v = true)
    (hd : ∀ v ∈ vs, (2 : Int) ^ k ∣ exactVal v) (hA : gridWeight k vs < 2 ^ 53) :
    OnGrid k (vs.foldl Soft.add 0#64) (gridTotal k vs) := by
  have h := fold_exact hk (vs.map fun v => (v, exactVal v / 2 ^ k)) (grid_zero k) (Nat.le_refl _)
    (by
      intro p hp
      obtain ⟨v, h1, rfl⟩ := List.mem_map.1 hp
      exact onGrid_of (hv v h1) (hd v h1))
    (by simpa [gridWeight, Function.comp_def] using hA)
  simpa [gridTotal, Function.comp_def] using h

theorem partialSums_grid (bm : Option Bitmap) {k : Nat} (hk : k ≤ 2045) : ∀ (chunks : List (List B64)) (off : Nat),
    (∀ v ∈ pickFrom bm off chunks.flatten, isFinite v = true) →
    (∀ v ∈ pickFrom bm off chunks.flatten, (2 : Int) ^ k ∣ exactVal v) →
    gridWeight k (pickFrom bm off chunks.flatten) < 2 ^ 53 →
    ∃ l : List (B64 × Int), l.map (·.1) = partialSums Soft.ops bm off chunks ∧
      (∀ p ∈ l, OnGrid k p.1 p.2) ∧ (l.map (·.2)).sum = gridTotal k (pickFrom bm off chunks.flatten) ∧
      (l.map (·.2.natAbs)).sum ≤ gridWeight k (pickFrom bm off chunks.flatten)
  | [], off, _, _, _ => ⟨[], rfl, (by simp), rfl, Nat.le_refl _⟩
  | c :: cs, off, hv, hd, hw => by
    rw [List.flatten_cons, pickFrom_append] at hv hw hd ⊢
    rw [gridWeight_append] at hw ⊢
    rw [gridTotal_append]
    obtain ⟨l, l1, l3, l4, l5⟩ := partialSums_grid bm hk cs (off + c.length)
      (fun v h => hv v (List.mem_append_right _ h)) (fun v h => hd v (List.mem_append_right _ h)) (by omega)
    rw [partialSums]
    by_cases he : pickFrom bm off c = []
    · rw [if_pos he, he]
      refine ⟨l, l1, l3, ?_, ?_⟩
      · rw [l4]; simp [gridTotal]
      · omega
    · rw [if_neg he]
      refine ⟨((pickFrom bm off c).foldl Soft.add 0#64, gridTotal k (pickFrom bm off c)) :: l, ?_, ?_, ?_, ?_⟩
      · rw [List.map_cons, l1]; rfl
      · intro p hp
        rcases List.mem_cons.1 hp with rfl | hp
        · exact grid_values hk (fun v h => hv v (List.mem_append_left _ h))
            (fun v h => hd v (List.mem_append_left _ h)) (by omega)
        · exact l3 p hp
      · rw [List.map_cons, List.sum_cons, l4]
      · have := natAbs_gridTotal k (pickFrom bm off c)
        rw [List.map_cons, List.sum_cons]
        simp only
        omega

/-- If the selected values are multiples of one power of two and their absolute values add up to less than `2^53` of it,
nothing is rounded: the sum is the sum. (The unit is `2^-1074`: integers are the multiples of `2^1074`.) -/
theorem c72_sum_exact {m : Metadata} {file : List Byte} (h : Written E a file m) (ho : E.o = Soft.ops)
    (h1 : a.cfg.scheme ≠ .buff) (h2 : a.cfg.scheme ≠ .deltaSprintz) (p : Option Nat) (bm : Option Bitmap)
    (hr : bm = none ∨ a.records.length < 2 ^ 32) (hv : ∀ v ∈ pick bm a.records, isFinite v = true) {k : Nat} (hk : k ≤ 2045)
    (hd : ∀ v ∈ pick bm a.records, (2 : Int) ^ k ∣ exactVal v) (hA : weight (pick bm a.records) < 2 ^ 53 * 2 ^ k) :
    ∃ s, Decoder.sum E ⟨file, m, p⟩ bm none = .ok s ∧ isFinite s = true ∧ s ≠ 0x8000000000000000#64 ∧
      exactVal s = total (pick bm a.records) := by
  obtain ⟨chunks, c1, c2, c3, c4⟩ := c33_decoder_sum h h1 h2 p bm hr
  rw [readBack_default E h1 h2] at c1
  rw [pick_eq_pickFrom] at *
  rw [← c1] at hv hA hd ⊢
  rw [ho] at c4
  obtain ⟨e1, e2⟩ := sum_natAbs_grid hd
  have hw : gridWeight k (pickFrom bm 0 chunks.flatten) < 2 ^ 53 := by
    rw [e1] at hA
    exact Nat.lt_of_mul_lt_mul_right hA
  obtain ⟨l, l1, l3, l4, l5⟩ := partialSums_grid bm hk chunks 0 hv hd hw
  have hs := fold_exact hk l (grid_zero k) (Nat.le_refl _) l3 (by
    rw [Int.natAbs_zero, Nat.zero_add]; omega)
  rw [l1, l4, Int.zero_add] at hs
  refine ⟨_, c4, hs.1, ?_, ?_⟩
  · have hp := fold_plain (partialSums Soft.ops bm 0 chunks) (s := 0#64) plain_zero
    exact hp.1
  · rw [e2]; exact hs.2

/-- Two files of the same records then give the same sum bit for bit. -/
theorem c72_sum_same (h : Alike E a b fa fb ma mb) (ho : E.o = Soft.ops) (p q : Option Nat) (bm : Option Bitmap)
    (hr : bm = none ∨ a.records.length < 2 ^ 32) (hv : ∀ v ∈ pick bm a.records, isFinite v = true) {k : Nat} (hk : k ≤ 2045)
    (hd : ∀ v ∈ pick bm a.records, (2 : Int) ^ k ∣ exactVal v) (hA : weight (pick bm a.records) < 2 ^ 53 * 2 ^ k) :
    ∃ s, Decoder.sum E ⟨fa, ma, p⟩ bm none = .ok s ∧ Decoder.sum E ⟨fb, mb, q⟩ bm none = .ok s := by
  obtain ⟨s, s1, s2, s3, s4⟩ := c72_sum_exact h.first ho h.firstExact.1 h.firstExact.2 p bm hr hv hk hd hA
  obtain ⟨t, t1, t2, t3, t4⟩ := c72_sum_exact h.second ho h.secondExact.1 h.secondExact.2 q bm (h.records ▸ hr)
    (h.records ▸ hv) hk (h.records ▸ hd) (h.records ▸ hA)
  rw [← h.records, ← s4] at t4
  have nn : ∀ {x : B64}, isFinite x = true → isNaN x = true → x = nan := by
    intro x hf hn
    rw [isFinite_iff] at hf
    unfold isNaN at hn
    simp only [decide_eq_true_eq] at hn
    omega
  rw [plain_ext ⟨t3, nn t2⟩ ⟨s3, nn s2⟩ t4 t2 s2] at t1
  exact ⟨s, s1, t1⟩

/-! ### Failure and examples -/

/-- 1, 0, 2^53, -2^53. -/
def cancelling : List B64 := [0x3ff0000000000000#64, 0#64, 0x4340000000000000#64, 0xc340000000000000#64]

/-- The sum itself depends on the chunks: the same four records in one chunk add up to 0 and in two chunks to 1. -/
theorem c72_sum_differs : ∃ d e : Decoder, Alike queryEnv (fileArgs (.uncompressed 100#64) cancelling 4) (fileArgs (.uncompressed 100#64) cancelling 2)
      d.file e.file d.info e.info ∧ Decoder.sum queryEnv ⟨d.file, d.info, none⟩ none none = .ok 0#64 ∧
    Decoder.sum queryEnv ⟨e.file, e.info, none⟩ none none = .ok 0x3ff0000000000000#64 := by
  have h1 : (fileDecoder (.uncompressed 100#64) cancelling 4).map (fun d => (decide (d.file.length < 1000),
      Decoder.sum queryEnv ⟨d.file, d.info, none⟩ none none)) = some (true, .ok 0#64) := by decide +kernel
  have h2 : (fileDecoder (.uncompressed 100#64) cancelling 2).map (fun d => (decide (d.file.length < 1000),
      Decoder.sum queryEnv ⟨d.file, d.info, none⟩ none none)) = some (true, .ok 0x3ff0000000000000#64) := by decide +kernel
  obtain ⟨d, -, -, d3, d4⟩ := sample_written (cfg := .uncompressed 100#64) trivial (fun _ _ => trivial) (by simp [cancelling]) (by decide) (by decide)
    (by simp [cancelling]) h1
  obtain ⟨e, -, -, e3, e4⟩ := sample_written (cfg := .uncompressed 100#64) trivial (fun _ _ => trivial) (by simp [cancelling]) (by decide) (by decide)
    (by simp [cancelling]) h2
  exact ⟨d, e, ⟨d3, e3, rfl, ⟨by decide, by decide⟩, ⟨by decide, by decide⟩⟩, d4, e4⟩

/-- 1, 2, 3, -4, 5, 6. -/
def counting : List B64 := [0x3ff0000000000000#64, 0x4000000000000000#64, 0x4008000000000000#64, 0xc010000000000000#64,
  0x4014000000000000#64, 0x4018000000000000#64]

/-- A Gorilla file of one chunk and an uncompressed file of three meet every hypothesis above. -/
example : ∃ d e : Decoder, Alike queryEnv (fileArgs (.gorilla 100#64) counting 6) (fileArgs (.uncompressed 100#64) counting 2)
      d.file e.file d.info e.info ∧ queryEnv.o = Soft.ops ∧ MinMaxLaw queryEnv.o ∧
    (∀ v ∈ pick none counting, isFinite v = true) ∧ (∀ v ∈ pick none counting, (2 : Int) ^ 1074 ∣ exactVal v) ∧
    weight (pick none counting) < 2 ^ 53 * 2 ^ 1074 ∧ 2 * weight (pick none counting) ≤ largest ∧
    (∀ i n, d.info.numberOfRecords i = .ok n → n ≤ 6) ∧ (∀ i n, e.info.numberOfRecords i = .ok n → n ≤ 2) ∧
    d.info.footer.chunks = 1 ∧ e.info.footer.chunks = 3 ∧
    WholeVectors 2 (fileArgs (.gorilla 100#64) counting 6) ∧ WholeVectors 2 (fileArgs (.uncompressed 100#64) counting 2) := by
  have h1 : (fileDecoder (.gorilla 100#64) counting 6).map (fun d => (decide (d.file.length < 1000),
      d.info.footer.chunks, d.info.footer.chunkFooters.length, d.info.numberOfRecords 0)) = some (true, 1, 1, .ok 6) := by
    decide +kernel
  have h2 : (fileDecoder (.uncompressed 100#64) counting 2).map (fun d => (decide (d.file.length < 1000),
      d.info.footer.chunks, d.info.footer.chunkFooters.length, [d.info.numberOfRecords 0,
        d.info.numberOfRecords 1, d.info.numberOfRecords 2])) = some (true, 3, 3, [.ok 2, .ok 2, .ok 2]) := by decide +kernel
  obtain ⟨d, -, -, d3, d4⟩ := sample_written (cfg := .gorilla 100#64) trivial
    (fun v hv hc => absurd (List.all_eq_true.1 (show counting.all (fun v => !isNaN v) = true by decide +kernel) v hv)
      (by rw [hc]; decide)) (by simp [counting]) (by decide) (by decide)
    (by simp [counting]) h1
  obtain ⟨e, -, -, e3, e4⟩ := sample_written (cfg := .uncompressed 100#64) trivial (fun _ _ => trivial) (by simp [counting]) (by decide) (by decide)
    (by simp [counting]) h2
  simp only [Prod.mk.injEq, List.cons.injEq] at d4 e4
  have out : ∀ (m : Metadata) (i : Nat) n, m.footer.chunkFooters.length ≤ i → m.numberOfRecords i = .ok n → False := by
    intro m i n hi h
    unfold Metadata.numberOfRecords Metadata.chunkFooter at h
    rw [List.getElem?_eq_none hi] at h
    cases h
  refine ⟨d, e, ⟨d3, e3, rfl, ⟨by decide, by decide⟩, ⟨by decide, by decide⟩⟩, rfl, soft_minMax, ?_, ?_, by decide +kernel,
    by decide +kernel, ?_, ?_, d4.1, e4.1, ?_, ?_⟩
  · exact fun v hv => List.all_eq_true.1 (show (pick none counting).all isFinite = true by decide +kernel) v hv
  · exact fun v hv => Int.dvd_of_emod_eq_zero (of_decide_eq_true (List.all_eq_true.1
      (show (pick none counting).all (fun v => decide (exactVal v % 2 ^ 1074 = 0)) = true by decide +kernel) v hv))
  · intro i n h
    match i with
    | 0 => rw [d4.2.2] at h; cases h; decide
    | i + 1 => exact (out _ _ _ (by omega) h).elim
  · intro i n h
    match i with
    | 0 => rw [e4.2.2.1] at h; cases h; decide
    | 1 => rw [e4.2.2.2.1] at h; cases h; decide
    | 2 => rw [e4.2.2.2.2.1] at h; cases h; decide
    | i + 3 => exact (out _ _ _ (by omega) h).elim
  · intro k hk
    cases hk
    exact Or.inl ⟨3, rfl⟩
  · intro k hk
    cases hk
    exact Or.inl ⟨1, rfl⟩

end Ebi.Props
