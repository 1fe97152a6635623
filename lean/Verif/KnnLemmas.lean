import Verif.ApiLemmas

/-!
# The loops of `knn1` on aligned chunks
-/

namespace Ebi

/-- The update of the best result, vector by vector. -/
def knnFold : Nat → Knn → List B64 → Knn
  | _, b, [] => b
  | i, b, x :: xs => knnFold (i + 1) (if fle x b.distance then ⟨i, x⟩ else b) xs

theorem knnFold_append (xs ys : List B64) (i : Nat) (b : Knn) :
    knnFold i b (xs ++ ys) = knnFold (i + xs.length) (knnFold i b xs) ys := by
  induction xs generalizing i b with
  | nil => rfl
  | cons x xs ih =>
    simp only [List.cons_append, knnFold, ih, List.length_cons]
    rw [show i + 1 + xs.length = i + (xs.length + 1) by omega]

/-- Distances of the whole vectors of length `t` from position `off` on, `k` of them. -/
def distancesFrom (o : FloatOps) (target : List B64) (vs : List B64) : Nat → Nat → List B64
  | 0, _ => []
  | k + 1, off => defaultDistanceSquared o off target vs :: distancesFrom o target vs k (off + target.length)

theorem distancesFrom_length (o : FloatOps) (target vs : List B64) (k off : Nat) :
    (distancesFrom o target vs k off).length = k := by
  induction k generalizing off with
  | zero => rfl
  | succ k ih => simp [distancesFrom, ih]

/-- One call of `distance_squared`. -/
theorem Handle.Holds.distance {E : Env} {h : Handle} {off : Nat} {vs : List B64} (hh : h.Holds E off vs)
    (i : Nat) (t : List B64) :
    ∃ h', h.number E (.distanceSquared i t) = .ok (defaultDistanceSquared E.o i t vs, h') ∧ h'.Holds E off vs := by
  obtain ⟨h', h1, h2⟩ := hh.exec (q := .distanceSquared i t) rfl
  exact ⟨h', Handle.number_of_exec h1, h2⟩

theorem knnWhile_done {E : Env} {target : List B64} {n fuel offset : Nat} {h : Handle} {s : KnnState}
    (hn : ¬ offset < n) : knnWhile E target n fuel h offset s = some (.ok (h, s)) := by
  cases fuel <;> rw [knnWhile, if_neg hn]

/-- The `while` loop over `k` whole vectors and `rest` records less than one vector. -/
theorem knnWhile_spec {E : Env} {target : List B64} (ht : target ≠ []) {lo : Nat} {vs : List B64} (k rest : Nat)
    (hrest : rest < target.length) (fuel : Nat) (hfuel : k < fuel) (h : Handle) (hh : h.Holds E lo vs)
    (offset : Nat) (hoff : offset + k * target.length + rest = vs.length) (s : KnnState) :
    ∃ h' dist, knnWhile E target vs.length fuel h offset s = some (.ok (h',
      ⟨⟨s.processing.index + k, dist⟩,
        knnFold s.processing.index s.best (distancesFrom E.o target vs k offset),
        if rest = 0 then s.remaining else target.length - rest⟩)) := by
  have hpos : 0 < target.length := List.length_pos_iff.2 ht
  induction k generalizing fuel h offset s with
  | zero =>
    obtain ⟨fuel, rfl⟩ : ∃ f, fuel = f + 1 := ⟨fuel - 1, by omega⟩
    by_cases hr : rest = 0
    · refine ⟨h, s.processing.distance, ?_⟩
      rw [knnWhile, if_neg (by omega), if_pos hr]
      rfl
    · obtain ⟨h', h1, h2⟩ := hh.distance offset (target.take (min target.length (vs.length - offset)))
      refine ⟨h', defaultDistanceSquared E.o offset (target.take (min target.length (vs.length - offset))) vs, ?_⟩
      rw [knnWhile, if_pos (by omega)]
      simp only [h1]
      rw [if_neg (by omega), knnWhile_done (by omega), if_neg hr,
        show min target.length (vs.length - offset) = rest by omega]
      rfl
  | succ k ih =>
    obtain ⟨fuel, rfl⟩ : ∃ f, fuel = f + 1 := ⟨fuel - 1, by omega⟩
    have hmul : (k + 1) * target.length = k * target.length + target.length := Nat.succ_mul _ _
    have hk : min target.length (vs.length - offset) = target.length := by
      generalize k * target.length = z at hmul
      omega
    obtain ⟨h', h1, h2⟩ := hh.distance offset (target.take (min target.length (vs.length - offset)))
    rw [hk, List.take_length] at h1
    obtain ⟨h'', dist, h3⟩ := ih fuel (by omega) h' h2 (offset + target.length) (by omega)
      ⟨⟨s.processing.index + 1, defaultDistanceSquared E.o offset target vs⟩,
        if fle (defaultDistanceSquared E.o offset target vs) s.best.distance then
          ⟨s.processing.index, defaultDistanceSquared E.o offset target vs⟩ else s.best, s.remaining⟩
    refine ⟨h'', dist, ?_⟩
    rw [knnWhile, if_pos (by omega)]
    simp only [hk, List.take_length, h1, if_true]
    rw [h3]
    simp only [distancesFrom, knnFold]
    rw [show s.processing.index + 1 + k = s.processing.index + (k + 1) by omega]

/-- Every chunk but the last holds whole vectors of length `t`. -/
def Aligned (t : Nat) : List (List B64) → Prop
  | [] => True
  | [_] => True
  | c :: cs => t ∣ c.length ∧ Aligned t cs

/-- Distances of the whole vectors of each chunk. -/
def chunkDistances (o : FloatOps) (target : List B64) (c : List B64) : List B64 :=
  distancesFrom o target c (c.length / target.length) 0

theorem knnLoop_spec {E : Env} {d : Decoder} {target : List B64} (ht : target ≠ []) {fuel : Nat}
    (css : List (List B64)) (is : List Nat) (hlen : is.length = css.length)
    (hread : ∀ (j : Nat) (c : List B64), css[j]? = some c → ∃ i h lo, is[j]? = some i ∧ d.chunkReader E i = .ok h ∧ h.Holds E lo c)
    (hfuel : ∀ c ∈ css, c.length / target.length < fuel) (hal : Aligned target.length css) (s : KnnState)
    (hs : s.remaining = 0) :
    ∃ s', knnLoop E d target fuel is s = some (.ok s') ∧
      s'.best = knnFold s.processing.index s.best (css.flatMap (chunkDistances E.o target)) := by
  have hpos : 0 < target.length := List.length_pos_iff.2 ht
  induction css generalizing is s with
  | nil =>
    obtain rfl : is = [] := List.length_eq_zero_iff.1 hlen
    exact ⟨s, rfl, rfl⟩
  | cons c css ih =>
    obtain ⟨i, is, rfl⟩ : ∃ i is', is = i :: is' := by
      cases is with
      | nil => simp at hlen
      | cons i is => exact ⟨i, is, rfl⟩
    obtain ⟨i', h, lo, h1, h2, h3⟩ := hread 0 c rfl
    obtain rfl : i = i' := by simpa using h1
    have hdm := Nat.div_add_mod c.length target.length
    rw [Nat.mul_comm] at hdm
    obtain ⟨h', dist, h4⟩ := knnWhile_spec ht (c.length / target.length) (c.length % target.length)
      (Nat.mod_lt _ hpos) fuel (hfuel c (by simp)) h h3 0 (by omega) s
    have hstep : ∀ s1, (knnWhile E target c.length fuel h 0 s = some (.ok (h', s1))) →
        knnLoop E d target fuel (i :: is) s = knnLoop E d target fuel is s1 := by
      intro s1 hw
      rw [knnLoop]
      simp only [h2, knnContinue, hs, ne_eq, not_true_eq_false, if_false, h3.records, hw]
    have hb : ∀ s1 : KnnState, s1.processing.index = s.processing.index + c.length / target.length →
        s1.best = knnFold s.processing.index s.best (chunkDistances E.o target c) →
        knnFold s1.processing.index s1.best (css.flatMap (chunkDistances E.o target))
          = knnFold s.processing.index s.best ((c :: css).flatMap (chunkDistances E.o target)) := by
      intro s1 e1 e2
      rw [List.flatMap_cons, knnFold_append, e1, e2, chunkDistances, distancesFrom_length]
    rw [hstep _ h4]
    cases css with
    | nil =>
      obtain rfl : is = [] := by simpa using hlen
      exact ⟨_, rfl, hb _ rfl rfl⟩
    | cons c2 css =>
      have hm : c.length % target.length = 0 := Nat.mod_eq_zero_of_dvd hal.1
      obtain ⟨s', h5, h6⟩ := ih is (by simpa using hlen)
        (fun j c' hc => by
          obtain ⟨i2, h2', lo2, e1, e2, e3⟩ := hread (j + 1) c' (by simpa using hc)
          exact ⟨i2, h2', lo2, by simpa using e1, e2, e3⟩)
        (fun c' hc => hfuel c' (List.mem_cons_of_mem _ hc)) hal.2
        ⟨⟨s.processing.index + c.length / target.length, dist⟩,
          knnFold s.processing.index s.best (distancesFrom E.o target c (c.length / target.length) 0),
          if c.length % target.length = 0 then s.remaining else target.length - c.length % target.length⟩
        (by simp only [hm, if_true]; exact hs)
      exact ⟨s', h5, h6.trans (hb _ rfl rfl)⟩

end Ebi
