import Verif.Props.Knn

/-!
# C41, any chunks: what `knn1` compares when vectors straddle chunks

The whole answer of `knn1`, for every way of cutting the records into chunks.
-/

namespace Ebi.Props

open Ebi

/-- A vector of which the distance of the first `n` records is `d`, finished with the first records of `c`. -/
def finish (o : FloatOps) (target c : List B64) : Option (Nat × B64) → List (Bool × B64)
  | none => []
  | some (n, d) => [(true, o.add d (squaredDistance o (c.take (target.length - n)) (target.drop n)))]

/-- The spec: the distances `knn1` looks at, in order. A vector that a chunk leaves unfinished is finished with the first
records of the next chunk (`true`), as many as there are; the next chunk is then cut into vectors from its first record
again (`false`). -/
def compared (o : FloatOps) (target : List B64) : Option (Nat × B64) → List (List B64) → List (Bool × B64)
  | _, [] => []
  | pending, c :: cs =>
    let t := target.length
    let rest := c.length % t
    finish o target c pending ++
    ((List.range (c.length / t)).map fun i => (false, squaredDistance o (vectorAt t c i) target)) ++
    compared o target
      (if rest = 0 then none else some (rest, squaredDistance o (c.drop (c.length - rest)) (target.take rest))) cs

/-- Keep the best: a finished vector has to be closer, a whole one only as close. -/
def closest : Nat → Knn → List (Bool × B64) → Knn
  | _, b, [] => b
  | i, b, (finished, x) :: xs =>
    closest (i + 1) (if (if finished then flt x b.distance else fle x b.distance) then ⟨i, x⟩ else b) xs

theorem closest_append (xs ys : List (Bool × B64)) (i : Nat) (b : Knn) :
    closest i b (xs ++ ys) = closest (i + xs.length) (closest i b xs) ys := by
  induction xs generalizing i b with
  | nil => rfl
  | cons x xs ih =>
    simp only [List.cons_append, closest, ih, List.length_cons]
    rw [show i + 1 + xs.length = i + (xs.length + 1) by omega]

theorem closest_whole (xs : List B64) (i : Nat) (b : Knn) : closest i b (xs.map fun x => (false, x)) = knnFold i b xs := by
  induction xs generalizing i b with
  | nil => rfl
  | cons x xs ih =>
    simp only [List.map_cons, closest, knnFold, Bool.false_eq_true, if_false]
    exact ih _ _

/-- The `while` loop, with the distance it leaves for the vector that is not finished. -/
theorem knnWhile_full {E : Env} {target : List B64} (ht : target ≠ []) {lo : Nat} {vs : List B64} (k rest : Nat)
    (hrest : rest < target.length) (fuel : Nat) (hfuel : k < fuel) (h : Handle) (hh : h.Holds E lo vs)
    (offset : Nat) (hoff : offset + k * target.length + rest = vs.length) (s : KnnState) :
    ∃ h' dist, (rest ≠ 0 → dist = defaultDistanceSquared E.o (vs.length - rest) (target.take rest) vs) ∧
      knnWhile E target vs.length fuel h offset s = some (.ok (h',
      ⟨⟨s.processing.index + k, dist⟩,
        knnFold s.processing.index s.best (distancesFrom E.o target vs k offset),
        if rest = 0 then s.remaining else target.length - rest⟩)) := by
  have hpos : 0 < target.length := List.length_pos_iff.2 ht
  induction k generalizing fuel h offset s with
  | zero =>
    obtain ⟨fuel, rfl⟩ : ∃ f, fuel = f + 1 := ⟨fuel - 1, by omega⟩
    by_cases hr : rest = 0
    · refine ⟨h, s.processing.distance, fun h => absurd hr h, ?_⟩
      rw [knnWhile, if_neg (by omega), if_pos hr]
      rfl
    · obtain ⟨h', h1, h2⟩ := hh.distance offset (target.take (min target.length (vs.length - offset)))
      refine ⟨h', defaultDistanceSquared E.o offset (target.take (min target.length (vs.length - offset))) vs,
        fun _ => ?_, ?_⟩
      · rw [show min target.length (vs.length - offset) = rest by omega, show vs.length - rest = offset by omega]
      · rw [knnWhile, if_pos (by omega)]
        simp only [h1]
        rw [if_neg (by omega), knnWhile_done (by omega), if_neg hr,
          show min target.length (vs.length - offset) = rest by omega]
        rfl
  | succ k ih =>
    obtain ⟨fuel, rfl⟩ : ∃ f, fuel = f + 1 := ⟨fuel - 1, by omega⟩
    have hmul : (k + 1) * target.length = k * target.length + target.length := Nat.succ_mul _ _
    have hk : min target.length (vs.length - offset) = target.length := by
      generalize k * target.length = z at hmul
      omega
    obtain ⟨h', h1, h2⟩ := hh.distance offset (target.take (min target.length (vs.length - offset)))
    rw [hk, List.take_length] at h1
    obtain ⟨h'', dist, h4, h3⟩ := ih fuel (by omega) h' h2 (offset + target.length) (by omega)
      ⟨⟨s.processing.index + 1, defaultDistanceSquared E.o offset target vs⟩,
        if fle (defaultDistanceSquared E.o offset target vs) s.best.distance then
          ⟨s.processing.index, defaultDistanceSquared E.o offset target vs⟩ else s.best, s.remaining⟩
    refine ⟨h'', dist, h4, ?_⟩
    rw [knnWhile, if_pos (by omega)]
    simp only [hk, List.take_length, h1, if_true]
    rw [h3]
    simp only [distancesFrom, knnFold]
    rw [show s.processing.index + 1 + k = s.processing.index + (k + 1) by omega]

/-- The state between two chunks, as the spec sees it. -/
def pendingOf (t : Nat) (s : KnnState) : Option (Nat × B64) :=
  if s.remaining = 0 then none else some (t - s.remaining, s.processing.distance)

theorem knnLoop_any {E : Env} {d : Decoder} {target : List B64} (ht : target ≠ []) {fuel : Nat}
    (css : List (List B64)) (is : List Nat) (hlen : is.length = css.length)
    (hread : ∀ (j : Nat) (c : List B64), css[j]? = some c → ∃ i h lo, is[j]? = some i ∧ d.chunkReader E i = .ok h ∧ h.Holds E lo c)
    (hfuel : ∀ c ∈ css, c.length / target.length < fuel) (s : KnnState) (hs : s.remaining < target.length) :
    ∃ s', knnLoop E d target fuel is s = some (.ok s') ∧
      s'.best = closest s.processing.index s.best (compared E.o target (pendingOf target.length s) css) := by
  have hpos : 0 < target.length := List.length_pos_iff.2 ht
  induction css generalizing is s with
  | nil =>
    obtain rfl : is = [] := List.length_eq_zero_iff.1 hlen
    exact ⟨s, rfl, rfl⟩
  | cons c css ih =>
    obtain ⟨i, is, rfl⟩ : ∃ i is', is = i :: is' := by
      cases is with
      | nil => simp at hlen
      | cons i is => exact ⟨i, is, rfl⟩
    obtain ⟨i', h, lo, h1, h2, h3⟩ := hread 0 c rfl
    obtain rfl : i = i' := by simpa using h1
    have hdm := Nat.div_add_mod c.length target.length
    rw [Nat.mul_comm] at hdm
    have hmod := Nat.mod_lt c.length hpos
    -- the unfinished vector
    obtain ⟨hc, sc, hcont, hch, hrem, hidx, hbest⟩ : ∃ hc sc, knnContinue E target h s = .ok (hc, sc) ∧ hc.Holds E lo c ∧
        sc.remaining = 0 ∧
        sc.processing.index = s.processing.index + (if s.remaining = 0 then 0 else 1) ∧
        sc.best = closest s.processing.index s.best (finish E.o target c (pendingOf target.length s)) := by
      unfold knnContinue pendingOf
      by_cases hr : s.remaining = 0
      · simp only [hr, ne_eq, not_true_eq_false, if_false, if_true]
        exact ⟨h, s, rfl, h3, hr, rfl, rfl⟩
      · obtain ⟨h', e1, e2⟩ := h3.distance 0 (target.drop (target.length - s.remaining))
        simp only [ne_eq, hr, not_false_eq_true, if_true, e1, if_false]
        refine ⟨h', _, rfl, e2, rfl, rfl, ?_⟩
        have hd : defaultDistanceSquared E.o 0 (target.drop (target.length - s.remaining)) c =
            squaredDistance E.o (c.take (target.length - (target.length - s.remaining)))
              (target.drop (target.length - s.remaining)) := by
          rw [distance_eq, List.drop_zero, List.length_drop]
        simp only [finish, closest, if_true, hd]
    obtain ⟨h', dist, hdist, h4⟩ := knnWhile_full ht (c.length / target.length) (c.length % target.length)
      hmod fuel (hfuel c (by simp)) hc hch 0 (by omega) sc
    rw [hrem] at h4
    have hw : distancesFrom E.o target c (c.length / target.length) 0 =
        (List.range (c.length / target.length)).map fun i => squaredDistance E.o (vectorAt target.length c i) target := by
      have := distancesFrom_eq E.o target c (c.length / target.length) 0
      simpa only [Nat.zero_mul, Nat.zero_add] using this
    have hlt : (if c.length % target.length = 0 then 0 else target.length - c.length % target.length) < target.length := by
      split <;> omega
    obtain ⟨s', h5, h6⟩ := ih is (by simpa using hlen)
      (fun j c' hc => by
        obtain ⟨i2, h2', lo2, e1, e2, e3⟩ := hread (j + 1) c' (by simpa using hc)
        exact ⟨i2, h2', lo2, by simpa using e1, e2, e3⟩)
      (fun c' hc => hfuel c' (List.mem_cons_of_mem _ hc))
      ⟨⟨sc.processing.index + c.length / target.length, dist⟩,
        knnFold sc.processing.index sc.best (distancesFrom E.o target c (c.length / target.length) 0),
        if c.length % target.length = 0 then 0 else target.length - c.length % target.length⟩ hlt
    refine ⟨s', ?_, ?_⟩
    · rw [knnLoop]
      simp only [h2, hcont, hch.records, h4]
      exact h5
    · rw [h6]
      rw [compared, closest_append, closest_append]
      have hp : pendingOf target.length (⟨⟨sc.processing.index + c.length / target.length, dist⟩,
          knnFold sc.processing.index sc.best (distancesFrom E.o target c (c.length / target.length) 0),
          if c.length % target.length = 0 then 0 else target.length - c.length % target.length⟩ : KnnState) =
          if c.length % target.length = 0 then none
          else some (c.length % target.length, squaredDistance E.o (c.drop (c.length - c.length % target.length))
            (target.take (c.length % target.length))) := by
        unfold pendingOf
        by_cases hr : c.length % target.length = 0
        · simp only [hr, if_true]
        · have hle : c.length % target.length ≤ c.length := Nat.mod_le _ _
          simp only [hr, if_false]
          rw [if_neg (by omega), hdist hr, distance_eq]
          congr 2
          · omega
          · rw [List.length_take, Nat.min_eq_left (by omega), List.take_of_length_le (by rw [List.length_drop]; omega)]
      rw [hp, ← hbest]
      have hn : ∀ (l : List (Bool × B64)), s.processing.index + (if s.remaining = 0 then 0 else 1) = sc.processing.index := by
        intro _; exact hidx.symm
      have hl : (finish E.o target c (pendingOf target.length s)).length
          = if s.remaining = 0 then 0 else 1 := by
        unfold pendingOf
        split <;> rfl
      simp only [List.length_append, hl, List.length_map, List.length_range]
      have hm : ((List.range (c.length / target.length)).map fun i => (false, squaredDistance E.o (vectorAt target.length c i) target))
          = (distancesFrom E.o target c (c.length / target.length) 0).map fun x => (false, x) := by
        rw [hw, List.map_map]; rfl
      rw [hm, closest_whole, ← Nat.add_assoc, hn []]

/-- The answer on any file, cut in any way. -/
theorem knn_any {E : Env} {d : Decoder} {css : List (List B64)} (h : Opens E d css) {target : List B64}
    (ht : target ≠ []) {fuel : Nat} (hfuel : css.flatten.length < fuel) :
    d.knn1 E target fuel = some (.ok (closest 0 ⟨2 ^ 64 - 1, posInf⟩ (compared E.o target none css))) := by
  have hlt : ∀ c ∈ css, c.length / target.length < fuel := by
    intro c hc
    have h1 : c.length ≤ css.flatten.length := (List.sublist_flatten_of_mem hc).length_le
    exact Nat.lt_of_le_of_lt (Nat.le_trans (Nat.div_le_self _ _) h1) hfuel
  obtain ⟨s, h1, h2⟩ := knnLoop_any (E := E) (d := d) ht css (List.range css.length) (by simp)
    (fun j c hc => by
      obtain ⟨hd, h3, h4⟩ := h.reader j c hc
      refine ⟨j, hd, _, ?_, h3, h4⟩
      obtain ⟨hj, -⟩ := List.getElem?_eq_some_iff.1 hc
      rw [List.getElem?_range hj]) hlt KnnState.init (List.length_pos_iff.2 ht)
  unfold Decoder.knn1 Query.handles
  rw [h.chunks, h1]
  show some (Res.ok s.best) = _
  rw [h2]
  rfl

/-- C41 without the alignment: the answer of `knn1` on every file with every scheme, for the chunks the file is cut
into (`Split`, the specification of C25). -/
theorem c41_any {E : Env} {a : Args} {file : List Byte} {m : Metadata} (h : Written E a file m)
    (prec : Option Nat) (hp : prec = none ∨ a.cfg.scheme ≠ .buff) {target : List B64} (ht : target ≠ [])
    {fuel : Nat} (hfuel : a.records.length < fuel) :
    ∃ cs, Split a.opt.recordsPerChunk a.records cs ∧ Decoder.knn1 E ⟨file, m, prec⟩ target fuel =
      some (.ok (closest 0 ⟨2 ^ 64 - 1, posInf⟩
        (compared E.o target none (cs.map fun c => c.map (readBack E a.cfg))))) := by
  obtain ⟨cs, h1, h2⟩ := h.encoded.opens h.law h.valid h.accepts h.len prec hp
  have e : (cs.map fun c => c.map (readBack E a.cfg)).flatten = a.records.map (readBack E a.cfg) := by
    rw [← List.map_flatten, h1.flatten]
  exact ⟨cs, h1, knn_any h2 ht (fuel := fuel) (by rw [e, List.length_map]; exact hfuel)⟩

/-- The vectors of one chunk, and one more for each chunk but the last whose length is not a multiple. -/
def numbersGiven (t : Nat) : List Nat → Nat
  | [] => 0
  | [l] => l / t
  | l :: l2 :: ls => l / t + (if l % t = 0 then 0 else 1) + numbersGiven t (l2 :: ls)

theorem c41_numbers (o : FloatOps) (target : List B64) (css : List (List B64)) :
    (compared o target none css).length = numbersGiven target.length (css.map List.length) := by
  have gen : ∀ (css : List (List B64)) (p : Option (Nat × B64)), css ≠ [] → (compared o target p css).length =
      (if p.isSome then 1 else 0) + numbersGiven target.length (css.map List.length) := by
    intro css
    induction css with
    | nil => exact fun p h => absurd rfl h
    | cons c css ih =>
      intro p _
      rw [compared]
      simp only [List.length_append, List.length_map, List.length_range]
      have h1 : (finish o target c p).length
          = if p.isSome then 1 else 0 := by
        cases p <;> rfl
      rw [h1]
      cases css with
      | nil =>
        simp [compared, numbersGiven]
      | cons c2 css =>
        rw [ih _ (by simp)]
        simp only [List.map_cons, numbersGiven]
        split <;> simp <;> omega
  cases css with
  | nil => rfl
  | cons c css =>
    rw [gen _ none (by simp)]
    simp

theorem closest_index (xs : List (Bool × B64)) (i : Nat) (b : Knn) :
    closest i b xs = b ∨ (i ≤ (closest i b xs).index ∧ (closest i b xs).index < i + xs.length) := by
  induction xs generalizing i b with
  | nil => exact .inl rfl
  | cons x xs ih =>
    obtain ⟨f, x⟩ := x
    rw [closest]
    generalize hc : (if f then flt x b.distance else fle x b.distance) = cond
    rcases ih (i + 1) (if cond then ⟨i, x⟩ else b) with h | ⟨h1, h2⟩
    · rw [h]
      cases cond with
      | true => exact .inr ⟨Nat.le_refl _, by simp⟩
      | false => exact .inl rfl
    · exact .inr ⟨by omega, by simp only [List.length_cons]; omega⟩

/-- The number answered is below the number of vectors counted this way, or `usize::MAX`. -/
theorem c41_index_bound (o : FloatOps) (target : List B64) (css : List (List B64)) :
    (closest 0 ⟨2 ^ 64 - 1, posInf⟩ (compared o target none css)).index = 2 ^ 64 - 1 ∨
    (closest 0 ⟨2 ^ 64 - 1, posInf⟩ (compared o target none css)).index <
      numbersGiven target.length (css.map List.length) := by
  rcases closest_index (compared o target none css) 0 ⟨2 ^ 64 - 1, posInf⟩ with h | ⟨_, h⟩
  · rw [h]; exact .inl rfl
  · rw [c41_numbers, Nat.zero_add] at h
    exact .inr h

theorem numbersGiven_aligned {t : Nat} (ht : 0 < t) (ls : List Nat) (h : ∀ l ∈ ls, l % t = 0) :
    numbersGiven t ls = ls.sum / t := by
  induction ls with
  | nil => simp [numbersGiven]
  | cons l ls ih =>
    have hl := h l (List.mem_cons_self ..)
    have hsum : (l :: ls).sum / t = l / t + ls.sum / t := by
      obtain ⟨k, hk⟩ := Nat.dvd_of_mod_eq_zero hl
      subst hk
      rw [List.sum_cons, Nat.add_comm, Nat.add_mul_div_left _ _ ht, Nat.mul_div_cancel_left _ ht, Nat.add_comm]
    cases ls with
    | nil => rw [hsum]; simp [numbersGiven]
    | cons l2 ls =>
      rw [numbersGiven, if_pos hl, ih fun l hl => h l (List.mem_cons_of_mem _ hl), hsum, Nat.add_zero]

/-- At least as many as there are vectors; with whole chunks just as many. -/
theorem c41_too_many {t : Nat} (ht : 0 < t) (ls : List Nat) :
    ls.sum / t ≤ numbersGiven t ls ∧ ((∀ l ∈ ls, l % t = 0) → numbersGiven t ls = ls.sum / t) := by
  refine ⟨?_, numbersGiven_aligned ht ls⟩
  induction ls with
  | nil => simp [numbersGiven]
  | cons l ls ih =>
    cases ls with
    | nil => simp [numbersGiven]
    | cons l2 ls =>
      rw [numbersGiven, List.sum_cons]
      generalize (l2 :: ls).sum = s at ih
      generalize numbersGiven t (l2 :: ls) = n at ih
      have h1 := Nat.div_add_mod l t
      have h2 := Nat.div_add_mod s t
      have h3 := Nat.mod_lt l ht
      have h4 := Nat.mod_lt s ht
      have : (l + s) / t < l / t + (if l % t = 0 then 0 else 1) + s / t + 1 := by
        rw [Nat.div_lt_iff_lt_mul ht]
        have hm : (l / t + (if l % t = 0 then 0 else 1) + s / t + 1) * t =
            t * (l / t) + (if l % t = 0 then 0 else 1) * t + t * (s / t) + t := by
          rw [Nat.add_mul, Nat.add_mul, Nat.add_mul, Nat.mul_comm (l / t), Nat.mul_comm (s / t), Nat.one_mul]
        rw [hm]
        split
        · omega
        · omega
      omega

/-- Twelve records, 9 but for two. -/
def farData : List B64 := List.replicate 9 0x4022000000000000#64 ++ [0#64, 0#64] ++ [0x4022000000000000#64]

/-- Six vectors of two records, three records per chunk: the answer is vector number 6, which there is not. -/
theorem c41_out_of_range :
    ∃ d, plainDecoder farData 3 = some d ∧ Written sampleEnv (plainArgs farData 3) d.file d.info ∧
      (plainArgs farData 3).records.length = 6 * 2 ∧
      d.knn1 sampleEnv [0#64, 0#64] 13 = some (.ok ⟨6, 0#64⟩) := by
  have h : (plainDecoder farData 3).map (fun d => (decide (d.file.length < 1000), d.knn1 sampleEnv [0#64, 0#64] 13))
      = some (true, some (.ok ⟨6, 0#64⟩)) := by decide +kernel
  obtain ⟨d, hd, h2⟩ := Option.map_eq_some_iff.1 h
  have h3 : d.file.length < 1000 := of_decide_eq_true (congrArg Prod.fst h2)
  refine ⟨d, hd, plainDecoder_written hd (by simp [farData]) (by omega) (by omega) (by simp [farData]) (by omega), ?_,
    congrArg Prod.snd h2⟩
  rw [plainArgs_records]
  rfl

/-- Its chunks, by the spec. -/
example : numbersGiven 2 [3, 3, 3, 3] = 7 ∧ [3, 3, 3, 3].sum / 2 = 6 := by decide
example : closest 0 ⟨2 ^ 64 - 1, posInf⟩ (compared Soft.ops [0#64, 0#64] none [farData.take 3, (farData.drop 3).take 3,
    (farData.drop 6).take 3, farData.drop 9]) = ⟨6, 0#64⟩ := by decide +kernel

end Ebi.Props
