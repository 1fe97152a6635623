import Verif.KnnLemmas
import Verif.Props.Registry

/-!
# C41: nearest neighbour search
-/

namespace Ebi.Props

open Ebi

/-- The `i`-th of the consecutive vectors of length `t`. -/
def vectorAt (t : Nat) (data : List B64) (i : Nat) : List B64 := (data.drop (i * t)).take t

/-- Squared distance, summed in order. -/
def squaredDistance (o : FloatOps) (u v : List B64) : B64 :=
  (List.zipWith (fun a b => o.mul (o.sub a b) (o.sub a b)) u v).foldl o.add o.sumInit

/-- `r` is the last of the vectors with the smallest distance that is a number, or the initial value if
there is none. -/
def Nearest (o : FloatOps) (target data : List B64) (r : Knn) : Prop :=
  let n := data.length / target.length
  let δ := fun i => squaredDistance o (vectorAt target.length data i) target
  (r.index < n ∧ r.distance = δ r.index ∧ isNaN r.distance = false ∧
    ∀ j, j < n → isNaN (δ j) = false →
      fle r.distance (δ j) = true ∧ (r.index < j → fle (δ j) r.distance = false)) ∨
  (r = ⟨2 ^ 64 - 1, posInf⟩ ∧ ∀ j, j < n → isNaN (δ j) = true)

/-! ## Order -/

theorem fle_of_not {a b : B64} (ha : isNaN a = false) (hb : isNaN b = false) (h : fle a b = false) :
    fle b a = true := by
  simp only [fle, ha, hb, Bool.not_false, Bool.true_and, decide_eq_false_iff_not, decide_eq_true_eq] at h ⊢
  omega

theorem fle_self {a : B64} (ha : isNaN a = false) : fle a a = true := by
  simp [fle, ha]

theorem fle_nan {a : B64} (ha : isNaN a = true) (b : B64) : fle a b = false := by
  simp [fle, ha]

theorem fle_posInf {a : B64} (ha : isNaN a = false) : fle a posInf = true := by
  cases h : fle a posInf with
  | true => rfl
  | false =>
    have h1 := fle_of_not ha (by decide) h
    rw [posInf_of_fle h1] at h
    exact absurd h (by decide)

/-! ## The loop against the specification -/

theorem zipWith_take {A B C : Type} (f : A → B → C) (xs : List A) (ys : List B) :
    List.zipWith f (xs.take ys.length) ys = List.zipWith f xs ys := by
  induction xs generalizing ys with
  | nil => simp
  | cons x xs ih => cases ys <;> simp [ih]

theorem distance_eq (o : FloatOps) (target vs : List B64) (x : Nat) :
    defaultDistanceSquared o x target vs = squaredDistance o ((vs.drop x).take target.length) target := by
  have hd : vs.drop (min vs.length x) = vs.drop x := by
    by_cases h : x ≤ vs.length
    · rw [Nat.min_eq_right h]
    · rw [Nat.min_eq_left (by omega), List.drop_of_length_le (Nat.le_refl _), List.drop_of_length_le (by omega)]
  unfold defaultDistanceSquared squaredDistance
  simp only [hd]
  rw [zipWith_take, List.zip_eq_zipWith, List.map_zipWith]

theorem distancesFrom_eq (o : FloatOps) (target vs : List B64) (k off : Nat) :
    distancesFrom o target vs k (off * target.length)
      = (List.range k).map fun i => squaredDistance o (vectorAt target.length vs (off + i)) target := by
  induction k generalizing off with
  | zero => rfl
  | succ k ih =>
    rw [distancesFrom, distance_eq, List.range_succ_eq_map, List.map_cons, List.map_map,
      ← Nat.succ_mul off, ih (off + 1)]
    congr 1
    apply List.map_congr_left
    intro i _
    show squaredDistance o (vectorAt _ _ (off + 1 + i)) _ = squaredDistance o (vectorAt _ _ (off + (i + 1))) _
    rw [show off + 1 + i = off + (i + 1) by omega]

theorem vectorAt_append_left {t : Nat} {c D : List B64} {i : Nat} (h : (i + 1) * t ≤ c.length) :
    vectorAt t (c ++ D) i = vectorAt t c i := by
  unfold vectorAt
  rw [Nat.succ_mul] at h
  rw [List.drop_append_of_le_length (by omega), List.take_append_of_le_length (by rw [List.length_drop]; omega)]

theorem vectorAt_append_right {t k : Nat} {c D : List B64} (h : c.length = k * t) (i : Nat) :
    vectorAt t (c ++ D) (k + i) = vectorAt t D i := by
  unfold vectorAt
  rw [Nat.add_mul, ← h, List.drop_append, List.drop_of_length_le (by omega), List.nil_append,
    Nat.add_sub_cancel_left]

theorem distances_eq (o : FloatOps) {target : List B64} (ht : target ≠ []) (css : List (List B64))
    (hal : Aligned target.length css) :
    css.flatMap (chunkDistances o target)
      = (List.range (css.flatten.length / target.length)).map
          fun i => squaredDistance o (vectorAt target.length css.flatten i) target := by
  have hpos : 0 < target.length := List.length_pos_iff.2 ht
  have h1 : ∀ c : List B64, chunkDistances o target c
      = (List.range (c.length / target.length)).map
          fun i => squaredDistance o (vectorAt target.length c i) target := by
    intro c
    have := distancesFrom_eq o target c (c.length / target.length) 0
    simp only [Nat.zero_mul, Nat.zero_add] at this
    exact this
  induction css with
  | nil => simp
  | cons c css ih =>
    cases css with
    | nil => simp [h1]
    | cons c2 css =>
      obtain ⟨k, hk⟩ := hal.1
      rw [Nat.mul_comm] at hk
      rw [List.flatMap_cons, ih hal.2, h1]
      have hq : c.length / target.length = k := by rw [hk, Nat.mul_div_cancel _ hpos]
      rw [show (c :: c2 :: css).flatten = c ++ (c2 :: css).flatten from List.flatten_cons, hq]
      generalize (c2 :: css).flatten = D
      have hn : (c ++ D).length / target.length = k + D.length / target.length := by
        rw [List.length_append, hk, Nat.add_comm, Nat.add_mul_div_right _ _ hpos, Nat.add_comm]
      rw [hn, List.range_add, List.map_append, List.map_map]
      congr 1
      · apply List.map_congr_left
        intro i hi
        rw [vectorAt_append_left]
        rw [hk]
        exact Nat.mul_le_mul_right _ (List.mem_range.1 hi)
      · apply List.map_congr_left
        intro i _
        simp only [Function.comp]
        rw [vectorAt_append_right hk]

/-- The update of the best result finds the last smallest distance. -/
theorem knnFold_nearest (δ : Nat → B64) (n : Nat) (r : Knn)
    (hr : r = knnFold 0 ⟨usizeMax, posInf⟩ ((List.range n).map δ)) :
    (r.index < n ∧ r.distance = δ r.index ∧ isNaN r.distance = false ∧
      ∀ j, j < n → isNaN (δ j) = false →
        fle r.distance (δ j) = true ∧ (r.index < j → fle (δ j) r.distance = false)) ∨
    (r = ⟨usizeMax, posInf⟩ ∧ ∀ j, j < n → isNaN (δ j) = true) := by
  induction n generalizing r with
  | zero => exact Or.inr ⟨hr, fun j hj => absurd hj (by omega)⟩
  | succ n ih =>
    rw [List.range_succ, List.map_append, knnFold_append] at hr
    simp only [List.map_cons, List.map_nil, knnFold, List.length_map, List.length_range, Nat.zero_add] at hr
    have h0 := ih _ rfl
    generalize knnFold 0 ⟨usizeMax, posInf⟩ ((List.range n).map δ) = b at hr h0
    have hlast : ∀ j, j < n + 1 → j < n ∨ j = n := fun j hj => by omega
    cases hx : isNaN (δ n) with
    | true =>
      rw [fle_nan hx, if_neg (by simp)] at hr
      subst hr
      rcases h0 with ⟨h1, h2, h3, h4⟩ | ⟨h1, h2⟩
      · refine Or.inl ⟨by omega, h2, h3, fun j hj hjn => ?_⟩
        rcases hlast j hj with h | rfl
        · exact h4 j h hjn
        · rw [hx] at hjn; cases hjn
      · refine Or.inr ⟨h1, fun j hj => ?_⟩
        rcases hlast j hj with h | rfl
        · exact h2 j h
        · exact hx
    | false =>
      left
      rcases h0 with ⟨h1, h2, h3, h4⟩ | ⟨h1, h2⟩
      · cases hle : fle (δ n) b.distance with
        | true =>
          rw [hle, if_pos rfl] at hr
          subst hr
          refine ⟨Nat.lt_succ_self n, rfl, hx, fun j hj hjn => ?_⟩
          rcases hlast j hj with h | rfl
          · exact ⟨fle_trans hle (h4 j h hjn).1, fun h' => absurd h' (by simp only; omega)⟩
          · exact ⟨fle_self hx, fun h' => absurd h' (by simp only; omega)⟩
        | false =>
          rw [hle, if_neg (by simp)] at hr
          subst hr
          refine ⟨by omega, h2, h3, fun j hj hjn => ?_⟩
          rcases hlast j hj with h | rfl
          · exact h4 j h hjn
          · exact ⟨fle_of_not hx h3 hle, fun _ => hle⟩
      · rw [h1] at hr
        simp only [fle_posInf hx, if_true] at hr
        subst hr
        refine ⟨Nat.lt_succ_self n, rfl, hx, fun j hj hjn => ?_⟩
        rcases hlast j hj with h | rfl
        · rw [h2 j h] at hjn; cases hjn
        · exact ⟨fle_self hx, fun h' => absurd h' (by simp only; omega)⟩

/-- On any open file whose chunks hold `css`. -/
theorem knn_opens {E : Env} {d : Decoder} {css : List (List B64)} (h : Opens E d css) {target : List B64}
    (ht : target ≠ []) (hal : Aligned target.length css) {fuel : Nat} (hfuel : css.flatten.length < fuel) :
    ∃ r, d.knn1 E target fuel = some (.ok r) ∧ Nearest E.o target css.flatten r := by
  have hlt : ∀ c ∈ css, c.length / target.length < fuel := by
    intro c hc
    have h1 : c.length ≤ css.flatten.length := (List.sublist_flatten_of_mem hc).length_le
    exact Nat.lt_of_le_of_lt (Nat.le_trans (Nat.div_le_self _ _) h1) hfuel
  obtain ⟨s, h1, h2⟩ := knnLoop_spec (E := E) (d := d) ht css (List.range css.length) (by simp)
    (fun j c hc => by
      obtain ⟨hd, h3, h4⟩ := h.reader j c hc
      refine ⟨j, hd, _, ?_, h3, h4⟩
      obtain ⟨hj, -⟩ := List.getElem?_eq_some_iff.1 hc
      rw [List.getElem?_range hj]) hlt hal KnnState.init rfl
  refine ⟨s.best, ?_, ?_⟩
  · unfold Decoder.knn1 Query.handles
    rw [h.chunks, h1]
    rfl
  · rw [distances_eq E.o ht css hal] at h2
    exact knnFold_nearest _ _ _ h2

/-! ## Files -/

/-- Where vectors of length `t` do not straddle chunks: one chunk only, or whole vectors per chunk. -/
def WholeVectors (t : Nat) (a : Args) : Prop :=
  ∀ k, a.opt.recordsPerChunk = some k → t ∣ k ∨ a.records.length ≤ k

theorem split_cons_ne {k : Option Nat} {vs c : List B64} {cs : List (List B64)} (h : Split k vs (c :: cs)) :
    vs ≠ [] := by
  cases h; assumption

theorem aligned_of_split {t : Nat} {k : Option Nat} {vs : List B64} {cs : List (List B64)} (h : Split k vs cs)
    (hk : ∀ n, k = some n → t ∣ n ∨ vs.length ≤ n) (f : B64 → B64) :
    Aligned t (cs.map fun c => c.map f) := by
  induction h with
  | nil => trivial
  | @cons vs cs hv hs ih =>
    cases k with
    | none =>
      cases hs with
      | nil => trivial
      | cons h _ => exact absurd rfl h
    | some n =>
      have ih := ih (fun m hm => (hk m hm).imp id fun h => by simp only [restPart, List.length_drop]; omega)
      cases cs with
      | nil => trivial
      | cons c cs =>
        refine ⟨?_, ih⟩
        have hr : restPart (some n) vs ≠ [] := split_cons_ne hs
        have hl : n < vs.length := by
          rcases Nat.lt_or_ge n vs.length with h | h
          · exact h
          · exact absurd (List.drop_of_length_le h) hr
        simp only [firstPart, List.length_map, List.length_take]
        rw [Nat.min_eq_left (by omega)]
        exact (hk n rfl).resolve_right (by omega)

/-- C41 for files whose chunks hold whole vectors, whatever the scheme: the answer is a nearest vector of
the data read back. Missing: vectors that straddle chunks, for which the code is wrong
(`c41_straddling_wrong`), and the empty target, on which it does not return (`c41_empty_target`). -/
theorem c41_knn_partial {E : Env} {a : Args} {file : List Byte} {m : Metadata} (h : Written E a file m)
    (prec : Option Nat) (hp : prec = none ∨ a.cfg.scheme ≠ .buff) {target : List B64} (ht : target ≠ [])
    (hw : WholeVectors target.length a) {fuel : Nat} (hfuel : a.records.length < fuel) :
    ∃ r, Decoder.knn1 E ⟨file, m, prec⟩ target fuel = some (.ok r) ∧
      Nearest E.o target (a.records.map (readBack E a.cfg)) r := by
  obtain ⟨cs, h1, h2⟩ := h.encoded.opens h.law h.valid h.accepts h.len prec hp
  have e : (cs.map fun c => c.map (readBack E a.cfg)).flatten = a.records.map (readBack E a.cfg) := by
    rw [← List.map_flatten, h1.flatten]
  have h3 := knn_opens h2 ht (aligned_of_split h1 hw _) (fuel := fuel) (by rw [e, List.length_map]; exact hfuel)
  rw [e] at h3
  exact h3

theorem knnWhile_empty {E : Env} {lo : Nat} {vs : List B64} (hv : vs ≠ []) (fuel : Nat) (h : Handle)
    (hh : h.Holds E lo vs) (s : KnnState) : knnWhile E [] vs.length fuel h 0 s = none := by
  have hpos : 0 < vs.length := List.length_pos_iff.2 hv
  induction fuel generalizing h s with
  | zero => rw [knnWhile, if_pos hpos]
  | succ fuel ih =>
    obtain ⟨h', h1, h2⟩ := hh.distance 0 []
    rw [knnWhile, if_pos hpos]
    simp only [List.length_nil, Nat.zero_min, List.take_nil, h1, if_true, Nat.add_zero]
    exact ih h' h2 _

/-- The search for an empty target never returns, on any file with a record: however many iterations are
allowed, they do not suffice. -/
theorem c41_empty_target {E : Env} {a : Args} {file : List Byte} {m : Metadata} (h : Written E a file m)
    (hne : a.records ≠ []) (fuel : Nat) : Decoder.knn1 E ⟨file, m, none⟩ [] fuel = none := by
  obtain ⟨cs, h1, h2⟩ := h.encoded.opens h.law h.valid h.accepts h.len none (Or.inl rfl)
  cases cs with
  | nil => exact absurd h1.flatten.symm hne
  | cons c cs =>
    obtain ⟨hd, h3, h4⟩ := h2.reader 0 _ rfl
    have h5 := knnWhile_empty (h2.nonempty _ (List.mem_cons_self ..)) fuel hd h4 KnnState.init
    unfold Decoder.knn1 Query.handles
    rw [h2.chunks, List.map_cons, List.length_cons, List.range_succ_eq_map, knnLoop, h3]
    rw [← h4.records] at h5
    simp only [knnContinue, KnnState.init, ne_eq, not_true_eq_false, if_false] at h5 ⊢
    rw [h5]

/-! ## Examples and the straddling witness -/

/-- An uncompressed file of `vs`, `k` records per chunk. -/
def plainArgs (vs : List B64) (k : Nat) : Args where
  cfg := .uncompressed 100#64
  opt := .recordCount k
  version := (0, 1, 0)
  times := Times.zero
  elapsed := ⟨0, 0⟩
  src := [.bytes (ofF64s vs)]

theorem plainArgs_valid (vs : List B64) (k : Nat) (h0 : vs ≠ []) (h1 : 0 < k) (h2 : k < 2 ^ 60)
    (h3 : vs.length < 2 ^ 60) : (plainArgs vs k).Valid := by
  refine ⟨⟨h1, h2⟩, ?_, by simp [plainArgs], by simp [plainArgs], by simp [plainArgs], ?_, ?_, ?_, ?_⟩
  · simp only [plainArgs, ChunkOption.WF, ChunkOption.value]; omega
  · simp [plainArgs, Times.WF, Times.zero, Duration.WF]
  · simp [plainArgs, Duration.WF]
  · have := List.length_pos_iff.2 h0
    have h5 : ofF64s vs ≠ [] := by
      intro e
      have h6 := congrArg List.length e
      simp at h6
      omega
    simp [plainArgs, Source.Clean, h5]
  · simp [plainArgs, Source.data]; omega

/-- The decoder on that file. -/
def plainDecoder (vs : List B64) (k : Nat) : Option Decoder :=
  match (plainArgs vs k).encode Uncompressed.scheme with
  | some (.ok file) =>
    match openFile file with
    | .ok m => some ⟨file, m, none⟩
    | _ => none
  | _ => none

theorem plainArgs_records (vs : List B64) (k : Nat) : (plainArgs vs k).records = vs := by
  simp [Args.records, plainArgs, Source.data]

theorem plainDecoder_written {vs : List B64} {k : Nat} {d : Decoder} (h : plainDecoder vs k = some d)
    (h0 : vs ≠ []) (h1 : 0 < k) (h2 : k < 2 ^ 60) (h3 : vs.length < 2 ^ 60) (h4 : d.file.length < 2 ^ 63) :
    Written sampleEnv (plainArgs vs k) d.file d.info := by
  unfold plainDecoder at h
  split at h
  · rename_i file he
    split at h
    · rename_i m hm
      cases h
      exact ⟨sampleEnv_lossless, trivial, plainArgs_valid vs k h0 h1 h2 h3, fun _ _ => trivial,
        (fun h => by cases h), he, h4, hm⟩
    · cases h
  · cases h

/-- 5, 5, 0, 0, 9, 9. -/
def knnData : List B64 := [0x4014000000000000#64, 0x4014000000000000#64, 0#64, 0#64, 0x4022000000000000#64,
  0x4022000000000000#64]

/-- The hypotheses of `c41_knn_partial` on three vectors in two chunks of four records. -/
example : ∃ d, plainDecoder knnData 4 = some d ∧ Written sampleEnv (plainArgs knnData 4) d.file d.info ∧
    WholeVectors 2 (plainArgs knnData 4) ∧ (plainArgs knnData 4).records.length = 6 ∧
    d.info.footer.chunks = 2 := by
  have h : (plainDecoder knnData 4).map (fun d => (decide (d.file.length < 1000), d.info.footer.chunks))
      = some (true, 2) := by decide +kernel
  obtain ⟨d, hd, h2⟩ := Option.map_eq_some_iff.1 h
  have h3 : d.file.length < 1000 := of_decide_eq_true (congrArg Prod.fst h2)
  refine ⟨d, hd, plainDecoder_written hd (by simp [knnData]) (by omega) (by omega) (by simp [knnData]) (by omega), ?_, ?_,
    congrArg Prod.snd h2⟩
  · intro k hk
    cases hk
    exact Or.inl ⟨2, rfl⟩
  · rw [plainArgs_records]; rfl

/-- The nearest vector to (9, 9) is the third, at distance 0; with four records per chunk it is found. -/
example : (plainDecoder knnData 4).map (fun d =>
    d.knn1 sampleEnv [0x4022000000000000#64, 0x4022000000000000#64] 7) = some (some (.ok ⟨2, 0#64⟩)) := by
  decide +kernel

/-- The same data with three records per chunk: the second vector straddles, the chunk is read from its
first record again, and the search answers the first vector at distance 32. The claim is false. -/
theorem c41_straddling_wrong :
    ∃ d, plainDecoder knnData 3 = some d ∧ Written sampleEnv (plainArgs knnData 3) d.file d.info ∧
      d.knn1 sampleEnv [0x4022000000000000#64, 0x4022000000000000#64] 7
        = some (.ok ⟨0, 0x4040000000000000#64⟩) ∧
      ¬ Nearest Soft.ops [0x4022000000000000#64, 0x4022000000000000#64] knnData ⟨0, 0x4040000000000000#64⟩ := by
  have h : (plainDecoder knnData 3).map (fun d => (decide (d.file.length < 1000),
      d.knn1 sampleEnv [0x4022000000000000#64, 0x4022000000000000#64] 7))
      = some (true, some (.ok ⟨0, 0x4040000000000000#64⟩)) := by decide +kernel
  obtain ⟨d, hd, h2⟩ := Option.map_eq_some_iff.1 h
  have h3 : d.file.length < 1000 := of_decide_eq_true (congrArg Prod.fst h2)
  refine ⟨d, hd, plainDecoder_written hd (by simp [knnData]) (by omega) (by omega) (by simp [knnData]) (by omega),
    congrArg Prod.snd h2, ?_⟩
  rintro (⟨-, -, -, h4⟩ | ⟨h4, -⟩)
  · have h5 := (h4 2 (by decide) (by decide +kernel)).1
    revert h5
    decide +kernel
  · revert h4
    decide

end Ebi.Props
