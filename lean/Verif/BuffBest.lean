import Verif.BuffQueryLemmas

/-!
# BUFF minimum, maximum and sum on a stored chunk
-/

namespace Ebi.Buff

open Ebi BitPack

/-- `a` is at least as good as `b`. -/
def betterEq (isMin : Bool) (a b : Nat) : Prop := if isMin then a ≤ b else b ≤ a

theorem best_fold (isMin : Bool) (V : Nat → Nat) (l : List Nat) (hs : l.Pairwise (· < ·))
    (hV : ∀ x ∈ l, V x ≤ 255) :
    ∃ best, l.foldl (fun a x => bestStep isMin a x (V x)) (bestInit isMin)
        = (best, l.filter (fun x => decide (V x = best))) ∧
      (∀ x ∈ l, betterEq isMin best (V x)) ∧ (l ≠ [] → ∃ x ∈ l, V x = best) := by
  have key : ∀ (post pre : List Nat) (b : Nat), (pre ++ post).Pairwise (· < ·) →
      (∀ x ∈ pre ++ post, V x ≤ 255) → (∀ x ∈ pre, betterEq isMin b (V x)) →
      (pre = [] → b = (bestInit isMin).1) → (pre ≠ [] → ∃ x ∈ pre, V x = b) →
      ∃ best, post.foldl (fun a x => bestStep isMin a x (V x)) (b, pre.filter (fun x => decide (V x = b)))
          = (best, (pre ++ post).filter (fun x => decide (V x = best))) ∧
        (∀ x ∈ pre ++ post, betterEq isMin best (V x)) ∧ (pre ++ post ≠ [] → ∃ x ∈ pre ++ post, V x = best) := by
    intro post
    induction post with
    | nil =>
      intro pre b hs _ hb _ hne
      rw [List.append_nil] at hs ⊢
      exact ⟨b, rfl, hb, hne⟩
    | cons x post ih =>
      intro pre b hs hV hb h0 hne
      have hsplit : pre ++ x :: post = (pre ++ [x]) ++ post := by simp
      rw [hsplit] at hs hV ⊢
      have hx255 := hV x (by simp)
      have hlt : ∀ y ∈ pre, y < x := by
        rw [List.append_assoc, List.pairwise_append] at hs
        intro y hy
        exact hs.2.2 y hy x (by simp)
      have hins : ∀ c : Nat, Bitmap.insert x (pre.filter (fun y => decide (V y = c)))
          = pre.filter (fun y => decide (V y = c)) ++ [x] := fun c =>
        Bitmap.insert_max (fun y hy => hlt y (List.mem_filter.1 hy).1)
      rw [List.foldl_cons]
      by_cases h1 : V x = b
      · have e : bestStep isMin (b, pre.filter (fun x => decide (V x = b))) x (V x)
            = (b, (pre ++ [x]).filter (fun x => decide (V x = b))) := by
          unfold bestStep
          rw [if_pos h1, List.filter_append]
          simp only
          rw [hins]
          simp [h1]
        rw [e]
        refine ih (pre ++ [x]) b hs hV ?_ (by simp) (fun _ => ⟨x, by simp, h1⟩)
        intro y hy
        rw [List.mem_append, List.mem_singleton] at hy
        rcases hy with hy | hy
        · exact hb y hy
        · subst hy; rw [h1]; unfold betterEq; split <;> omega
      · have keepOrSwap : (betterEq isMin b (V x) ∧
              bestStep isMin (b, pre.filter (fun x => decide (V x = b))) x (V x)
                = (b, pre.filter (fun x => decide (V x = b)))) ∨
            (betterEq isMin (V x) b ∧
              bestStep isMin (b, pre.filter (fun x => decide (V x = b))) x (V x) = (V x, [x])) := by
          unfold bestStep betterEq
          rw [if_neg h1]
          have : Bitmap.insert x [] = [x] := rfl
          cases isMin <;> simp only [Bool.false_eq_true, if_false, if_true, this]
          · split
            · exact Or.inr ⟨by omega, rfl⟩
            · exact Or.inl ⟨by omega, rfl⟩
          · split
            · exact Or.inl ⟨by omega, rfl⟩
            · exact Or.inr ⟨by omega, rfl⟩
        rcases keepOrSwap with ⟨h2, e⟩ | ⟨h2, e⟩
        · rw [e]
          have ef : pre.filter (fun x => decide (V x = b)) = (pre ++ [x]).filter (fun x => decide (V x = b)) := by
            rw [List.filter_append]; simp [h1]
          rw [ef]
          refine ih (pre ++ [x]) b hs hV ?_ (by simp) ?_
          · intro y hy
            rw [List.mem_append, List.mem_singleton] at hy
            rcases hy with hy | hy
            · exact hb y hy
            · subst hy; exact h2
          · intro _
            by_cases hp : pre = []
            · have hbi := h0 hp
              exfalso
              unfold betterEq at h2
              unfold bestInit at hbi
              cases isMin <;> simp at h2 hbi <;> omega
            · obtain ⟨y, hy, hyb⟩ := hne hp
              exact ⟨y, by simp [hy], hyb⟩
        · rw [e]
          have ef : ([x] : List Nat) = (pre ++ [x]).filter (fun y => decide (V y = V x)) := by
            rw [List.filter_append]
            have : pre.filter (fun y => decide (V y = V x)) = [] := by
              rw [List.filter_eq_nil_iff]
              intro y hy hc
              rw [decide_eq_true_eq] at hc
              have := hb y hy
              unfold betterEq at h2 this
              cases isMin <;> simp at h2 this <;> omega
            rw [this]
            simp
          have : (V x, [x]) = (V x, (pre ++ [x]).filter (fun y => decide (V y = V x))) := by rw [← ef]
          rw [this]
          refine ih (pre ++ [x]) (V x) hs hV ?_ (by simp) (fun _ => ⟨x, by simp, rfl⟩)
          intro y hy
          rw [List.mem_append, List.mem_singleton] at hy
          rcases hy with hy | hy
          · have := hb y hy
            unfold betterEq at h2 this ⊢
            cases isMin <;> simp at h2 this ⊢ <;> omega
          · subst hy; unfold betterEq; split <;> omega
  have := key l [] (bestInit isMin).1 (by simpa using hs) (by simpa using hV) (by simp) (fun _ => rfl)
    (fun h => absurd rfl h)
  simpa [bestInit] using this

/-- The records holding the extremum of the selected ones. -/
structure Extremum (isMin : Bool) (ds : List Nat) (off : Nat) (L : Bitmap) (m : Nat) : Prop where
  attained : ∃ x ∈ L, dAt ds off x = m
  best : ∀ x ∈ L, betterEq isMin m (dAt ds off x)

/-- One step: among records agreeing with the extremum above, the extremal part is the extremum's. -/
theorem extremum_step {isMin : Bool} {T : List Nat} {V : Nat → Nat} {v best x0 : Nat}
    (h1 : ∀ x ∈ T, betterEq isMin v (V x)) (h0 : x0 ∈ T) (hv : V x0 = v)
    (h2 : ∀ x ∈ T, betterEq isMin best (V x)) (h3 : T ≠ [] → ∃ x ∈ T, V x = best) : best = v := by
  have hne : T ≠ [] := by rintro rfl; simp at h0
  obtain ⟨y, hy, hyb⟩ := h3 hne
  have a := h1 y hy
  have b := h2 x0 h0
  rw [hyb] at a
  rw [hv] at b
  unfold betterEq at a b
  cases isMin <;> simp at a b <;> omega

theorem betterEq_byte {isMin : Bool} {m d R : Nat} (h : betterEq isMin m d)
    (he : d / 2 ^ (R + 8) = m / 2 ^ (R + 8)) :
    betterEq isMin (BitVec.ofNat 8 (m / 2 ^ R)).toNat (BitVec.ofNat 8 (d / 2 ^ R)).toNat := by
  rw [div_step, div_step] at he
  rw [BitVec.toNat_ofNat, BitVec.toNat_ofNat]
  unfold betterEq at *
  cases isMin
  · simp only [Bool.false_eq_true, if_false] at *
    have := Nat.div_le_div_right (c := 2 ^ R) h
    omega
  · simp only [if_true] at *
    have := Nat.div_le_div_right (c := 2 ^ R) h
    omega

theorem betterEq_low {isMin : Bool} {m d r : Nat} (h : betterEq isMin m d) (he : d / 2 ^ r = m / 2 ^ r) :
    betterEq isMin (m % 2 ^ r) (d % 2 ^ r) := by
  have h1 := Nat.div_add_mod m (2 ^ r)
  have h2 := Nat.div_add_mod d (2 ^ r)
  rw [he] at h2
  unfold betterEq at *
  cases isMin <;> simp at * <;> omega

section

variable {buff : List Byte} {base : BitVec 64} {F bits : Nat} {ds : List Nat}

theorem findBest_eq {isMin : Bool} {off R m : Nat} {T L : Bitmap}
    (hT : T = L.filter (fun x => decide (dAt ds off x / 2 ^ (R + 8) = m / 2 ^ (R + 8))))
    (hr : Recs T off ds.length) (hm : Extremum isMin ds off L m) :
    (T.foldl (fun a x => bestStep isMin a x (byteAt ds off R x).toNat) (bestInit isMin)).2
      = L.filter (fun x => decide (dAt ds off x / 2 ^ R = m / 2 ^ R)) := by
  obtain ⟨best, e1, e2, e3⟩ := best_fold isMin (fun x => (byteAt ds off R x).toNat) T hr.sorted
    (fun x _ => by have := (byteAt ds off R x).isLt; omega)
  obtain ⟨x0, hx0, hd0⟩ := hm.attained
  have hx0T : x0 ∈ T := by rw [hT, List.mem_filter]; exact ⟨hx0, by rw [hd0]; simp⟩
  have hbest : best = (BitVec.ofNat 8 (m / 2 ^ R)).toNat := by
    refine extremum_step (T := T) (V := fun x => (byteAt ds off R x).toNat) (x0 := x0) ?_ hx0T ?_ e2 e3
    · intro x hx
      rw [hT, List.mem_filter, decide_eq_true_eq] at hx
      exact betterEq_byte (hm.best x hx.1) hx.2
    · simp only [byteAt, hd0]
  rw [e1]
  simp only
  rw [hT, List.filter_filter]
  apply List.filter_congr
  intro x _
  rw [Bool.eq_iff_iff, Bool.and_eq_true, decide_eq_true_eq, decide_eq_true_eq, decide_eq_true_eq, hbest,
    BitVec.toNat_inj, and_comm]
  exact byte_eq_iff _ _ _

theorem tailBest_eq {isMin : Bool} {off r m : Nat} {T L : Bitmap} (g : Nat → Nat)
    (hg : ∀ a b, a < 2 ^ r → b < 2 ^ r → (a ≤ b ↔ g a ≤ g b)) (hg255 : ∀ a, a < 2 ^ r → g a ≤ 255)
    (hT : T = L.filter (fun x => decide (dAt ds off x / 2 ^ r = m / 2 ^ r)))
    (hr : Recs T off ds.length) (hm : Extremum isMin ds off L m) :
    (T.foldl (fun a x => bestStep isMin a x (g (dAt ds off x % 2 ^ r))) (bestInit isMin)).2
      = L.filter (fun x => decide (dAt ds off x = m)) := by
  have hlt : ∀ a, a % 2 ^ r < 2 ^ r := fun a => Nat.mod_lt _ (Nat.two_pow_pos _)
  obtain ⟨best, e1, e2, e3⟩ := best_fold isMin (fun x => g (dAt ds off x % 2 ^ r)) T hr.sorted
    (fun x _ => hg255 _ (hlt _))
  obtain ⟨x0, hx0, hd0⟩ := hm.attained
  have hx0T : x0 ∈ T := by rw [hT, List.mem_filter]; exact ⟨hx0, by rw [hd0]; simp⟩
  have hbest : best = g (m % 2 ^ r) := by
    refine extremum_step (T := T) (V := fun x => g (dAt ds off x % 2 ^ r)) (x0 := x0) ?_ hx0T ?_ e2 e3
    · intro x hx
      rw [hT, List.mem_filter, decide_eq_true_eq] at hx
      have := betterEq_low (hm.best x hx.1) hx.2
      unfold betterEq at this ⊢
      cases isMin
      · simp only [Bool.false_eq_true, if_false] at *
        exact (hg _ _ (hlt _) (hlt _)).1 this
      · simp only [if_true] at *
        exact (hg _ _ (hlt _) (hlt _)).1 this
    · simp only [hd0]
  rw [e1]
  simp only
  rw [hT, List.filter_filter]
  apply List.filter_congr
  intro x _
  rw [Bool.eq_iff_iff, Bool.and_eq_true, decide_eq_true_eq, decide_eq_true_eq, decide_eq_true_eq, hbest,
    ← split_eq_iff (dAt ds off x) m r, and_comm]
  have : g (dAt ds off x % 2 ^ r) = g (m % 2 ^ r) ↔ dAt ds off x % 2 ^ r = m % 2 ^ r := by
    have h1 := hg (dAt ds off x % 2 ^ r) (m % 2 ^ r) (hlt _) (hlt _)
    have h2 := hg (m % 2 ^ r) (dAt ds off x % 2 ^ r) (hlt _) (hlt _)
    omega
  rw [this]

/-- What the last column is compared by. -/
def tailKey (flipTail : Bool) (s : Nat) : Nat := if flipTail then (flip (BitVec.ofNat 8 s)).toNat else s

theorem tailKey_mono (flipTail : Bool) {r : Nat} (hr : r < 8) :
    (∀ a b, a < 2 ^ r → b < 2 ^ r → (a ≤ b ↔ tailKey flipTail a ≤ tailKey flipTail b)) ∧
      (∀ a, a < 2 ^ r → tailKey flipTail a ≤ 255) := by
  have h7 : 2 ^ r ≤ 2 ^ 7 := Nat.pow_le_pow_right (by decide) (by omega)
  constructor
  · intro a b ha hb
    unfold tailKey
    split
    · rw [flip_toNat, flip_toNat, BitVec.toNat_ofNat, BitVec.toNat_ofNat]; omega
    · rfl
  · intro a ha
    unfold tailKey
    split
    · have := (flip (BitVec.ofNat 8 a)).isLt; omega
    · omega

theorem Stored.bestColumns (h : Stored buff base F bits ds) (hn : ds.length * 8 < 2 ^ 32) {off m : Nat}
    (isMin flipTail : Bool) (L : Bitmap) (hL : Recs L off ds.length) (hm : Extremum isMin ds off L m)
    (k : Nat) (hk : k ≤ bits / 8) (tc : Bitmap)
    (htc : tc = L.filter (fun x => decide (dAt ds off x / 2 ^ (8 * k + bits % 8) = m / 2 ^ (8 * k + bits % 8)))) :
    Buff.bestColumns isMin flipTail buff off ds.length (bits % 8) k ⟨colStart bits ds.length k, 0⟩ tc
      = .ok (L.filter (fun x => decide (dAt ds off x = m))) := by
  induction k generalizing tc with
  | zero =>
    have hrec : Recs tc off ds.length := by rw [htc]; exact hL.filter _
    rw [Nat.mul_zero, Nat.zero_add] at htc
    rw [Buff.bestColumns]
    split
    · rename_i hr
      have hr8 : bits % 8 < 8 := Nat.mod_lt _ (by decide)
      obtain ⟨e', p', -, -, ht⟩ := h.tailLoop hr mulU32 (mulU32_exact hn hr8)
        (fun a x s => bestStep isMin a x (if flipTail then (flip (BitVec.ofNat 8 s)).toNat else s)) off tc 0
        ⟨colStart bits ds.length 0, 0⟩ (bestInit isMin) (Nat.zero_le _) (atRecord_zero _ _) hrec.sorted
        (fun x hx => by have := hrec.mem x hx; omega)
      rw [ht]
      simp only [Res.map]
      congr 1
      exact tailBest_eq (tailKey flipTail) (tailKey_mono flipTail hr8).1 (tailKey_mono flipTail hr8).2 htc hrec hm
    · rename_i hr
      rw [show bits % 8 = 0 by omega] at htc
      rw [htc]
      simp
  | succ k ih =>
    have hrec : Recs tc off ds.length := by rw [htc]; exact hL.filter _
    rw [show 8 * (k + 1) + bits % 8 = 8 * k + bits % 8 + 8 by omega] at htc
    rw [Buff.bestColumns, h.byteColumn hk]
    simp only [findBest]
    rw [idxLoop_eq _ (holds_column ds off (8 * k + bits % 8)) _ _ (by rw [column_length]; exact hrec.mem)]
    simp only [Res.map]
    exact ih (by omega) _ (findBest_eq htc hrec hm)

theorem or_byte (D R : Nat) (hD : D < 2 ^ 64) :
    ((D / 2 ^ (R + 8)) <<< 8) % 2 ^ 64 ||| (BitVec.ofNat 8 (D / 2 ^ R)).toNat = D / 2 ^ R := by
  rw [div_step, BitVec.toNat_ofNat, Nat.shiftLeft_eq]
  have h1 : D / 2 ^ R ≤ D := Nat.div_le_self _ _
  rw [Nat.mod_eq_of_lt (by omega), Nat.mul_comm,
    ← Nat.two_pow_add_eq_or_of_lt (Nat.mod_lt _ (Nat.two_pow_pos _))]
  exact Nat.div_add_mod _ _

theorem or_tail (D r : Nat) (hD : D < 2 ^ 64) : ((D / 2 ^ r) <<< r) % 2 ^ 64 ||| D % 2 ^ r = D := by
  rw [Nat.shiftLeft_eq]
  have h1 : D / 2 ^ r * 2 ^ r ≤ D := Nat.div_mul_le_self _ _
  rw [Nat.mod_eq_of_lt (by omega), Nat.mul_comm,
    ← Nat.two_pow_add_eq_or_of_lt (Nat.mod_lt _ (Nat.two_pow_pos _))]
  exact Nat.div_add_mod _ _

theorem Stored.readRecord (h : Stored buff base F bits ds) {idx d : Nat} (hd : ds[idx]? = some d)
    (k : Nat) (hk : k ≤ bits / 8) :
    Buff.readRecord buff ds.length (bits % 8) idx k ⟨colStart bits ds.length k, 0⟩ (d / 2 ^ (8 * k + bits % 8))
      = .ok d := by
  have hi : idx < ds.length := (List.getElem?_eq_some_iff.1 hd).1
  have hd64 : d < 2 ^ 64 := Nat.lt_of_lt_of_le (h.fit d (List.mem_of_getElem? hd))
    (Nat.pow_le_pow_right (by decide) h.bits_le)
  induction k with
  | zero =>
    rw [Buff.readRecord, Nat.mul_zero, Nat.zero_add]
    split
    · rename_i hr
      obtain ⟨q, hq1, hq2⟩ := h.skipTail (atRecord_zero bits ds.length) (m := idx) (by omega)
      rw [Nat.zero_add] at hq2
      obtain ⟨q2, hq3, -⟩ := h.readTail hr hq2 hd
      rw [hq1]
      simp only
      rw [hq3]
      simp only
      rw [or_tail d _ hd64]
    · rename_i hr
      rw [show bits % 8 = 0 by omega]
      simp
  | succ k ih =>
    have hg := (h.byteGet hk).1 idx hi
    have hc : (column ds (8 * k + bits % 8))[idx]? = some (flip (BitVec.ofNat 8 (d / 2 ^ (8 * k + bits % 8)))) := by
      unfold column; rw [List.getElem?_map, hd]; rfl
    rw [hc] at hg
    rw [Buff.readRecord]
    simp only [skipNByte, readByte]
    rw [hg]
    simp only
    rw [flip_flip, show 8 * (k + 1) + bits % 8 = 8 * k + bits % 8 + 8 by omega, or_byte d _ hd64,
      show colStart bits ds.length (k + 1) + idx + 1 + (ds.length - idx - 1) = colStart bits ds.length k by
        have := (h.byteGet hk).2; omega]
    exact ih (by omega)

theorem Stored.finishBest (h : Stored buff base F bits ds) (o : FloatOps) {off m : Nat} {isMin : Bool}
    {L : Bitmap} (hL : Recs L off ds.length) (hm : Extremum isMin ds off L m) :
    Buff.finishBest o buff ⟨base, ds.length, bits, F⟩ off (L.filter (fun x => decide (dAt ds off x = m)))
      = .ok (dequant o F (base + BitVec.ofNat 64 m)) := by
  unfold Buff.finishBest
  cases hT : L.filter (fun x => decide (dAt ds off x = m)) with
  | nil =>
    obtain ⟨x, hx, hxm⟩ := hm.attained
    rw [List.filter_eq_nil_iff] at hT
    exact absurd (decide_eq_true hxm) (hT x hx)
  | cons x xs =>
    have hx : x ∈ L.filter (fun x => decide (dAt ds off x = m)) := by rw [hT]; simp
    rw [List.mem_filter, decide_eq_true_eq] at hx
    have hr := hL.mem x hx.1
    have := h.readRecord (idx := x - off) (dAt_mem hr.1 hr.2) (bits / 8) (Nat.le_refl _)
    have hbb : 8 * (bits / 8) + bits % 8 = bits := by omega
    rw [hbb, Nat.div_eq_of_lt (dAt_lt h off x), hx.2, show colStart bits ds.length (bits / 8) = 20 by simp [colStart]]
      at this
    simp only
    rw [this]
    rfl

theorem extremum_init {isMin : Bool} (h : Stored buff base F bits ds) {off m : Nat} {L : Bitmap}
    (hm : Extremum isMin ds off L m) :
    L = L.filter (fun x => decide (dAt ds off x / 2 ^ bits = m / 2 ^ bits)) := by
  symm
  rw [List.filter_eq_self]
  intro x _
  obtain ⟨y, -, hy⟩ := hm.attained
  rw [← hy, Nat.div_eq_of_lt (dAt_lt h off x), Nat.div_eq_of_lt (dAt_lt h off y)]
  simp

theorem Stored.bestWithBitmask (h : Stored buff base F bits ds) (hn : ds.length * 8 < 2 ^ 32) (o : FloatOps)
    {off m : Nat} {isMin : Bool} {L : Bitmap} (hL : Recs L off ds.length) (hm : Extremum isMin ds off L m) :
    Buff.bestWithBitmask o isMin buff L off = .ok (dequant o F (base + BitVec.ofNat 64 m)) := by
  unfold Buff.bestWithBitmask
  rw [h.header]
  simp only
  split
  · rename_i hb
    obtain ⟨x, -, hx⟩ := hm.attained
    have := dAt_lt h off x
    rw [hx, hb] at this
    have : m = 0 := by omega
    subst this
    simp
  · have hbb : 8 * (bits / 8) + bits % 8 = bits := by omega
    have := h.bestColumns hn isMin true L hL hm (bits / 8) (Nat.le_refl _) L (by
      rw [hbb]; exact extremum_init h hm)
    rw [show colStart bits ds.length (bits / 8) = 20 by simp [colStart]] at this
    rw [this]
    simp only
    exact h.finishBest o hL hm

theorem Stored.maxWithoutBitmask (h : Stored buff base F bits ds) (hn : ds.length * 8 < 2 ^ 32) (o : FloatOps)
    {off m : Nat} (hm : Extremum false ds off (List.range' off ds.length) m) :
    Buff.maxWithoutBitmask o buff off = .ok (dequant o F (base + BitVec.ofNat 64 m)) := by
  have hL := Recs.all off ds.length
  have hinit := extremum_init h hm
  unfold Buff.maxWithoutBitmask
  rw [h.header]
  simp only
  split
  · rename_i hb
    obtain ⟨x, -, hx⟩ := hm.attained
    have := dAt_lt h off x
    rw [hx, hb] at this
    have : m = 0 := by omega
    subst this
    simp
  · split
    · rename_i hb0 hb8
      obtain ⟨k, hk⟩ : ∃ k, bits / 8 = k + 1 := ⟨bits / 8 - 1, by omega⟩
      have hcol := h.byteColumn (k := k) (by omega)
      have h20 : colStart bits ds.length (k + 1) = 20 := by simp [colStart, hk]
      rw [h20] at hcol
      rw [hcol]
      simp only
      rw [allLoop_eq _ _ (holds_column ds off (8 * k + bits % 8)), column_length]
      rw [findBest_eq (m := m) (L := List.range' off ds.length) (by
        rw [show 8 * k + bits % 8 + 8 = bits by omega]; exact hinit) hL hm]
      rw [show bits / 8 - 1 = k by omega, h.bestColumns hn false false _ hL hm k (by omega) _ rfl]
      simp only
      exact h.finishBest o hL hm
    · rename_i hb0 hb8
      have hbm : bits % 8 = bits := by omega
      obtain ⟨p', ht⟩ := h.tailAll (by omega) (bestStep false) off ds.length 0
        ⟨colStart bits ds.length 0, 0⟩ (bestInit false) (Nat.zero_add _) (atRecord_zero _ _)
      have h20 : colStart bits ds.length 0 = 20 := by
        unfold colStart; rw [show bits / 8 = 0 by omega]; simp
      rw [Nat.add_zero, hbm, h20] at ht
      rw [ht]
      simp only
      have := tailBest_eq (tailKey false) (tailKey_mono false (r := bits) (by omega)).1
        (tailKey_mono false (r := bits) (by omega)).2 hinit hL hm
      simp only [tailKey, Bool.false_eq_true, if_false] at this
      rw [this]
      exact h.finishBest o hL hm

/-! ## Sum -/

theorem foldl_add (V : Nat → Nat) (l : List Nat) (a : Nat) :
    l.foldl (fun a x => a + V x) a = a + (l.map V).sum := by
  induction l generalizing a with
  | nil => simp
  | cons x l ih => rw [List.foldl_cons, ih, List.map_cons, List.sum_cons, Nat.add_assoc]

theorem map_dAt (ds : List Nat) (off : Nat) : (List.range' off ds.length).map (dAt ds off) = ds := by
  apply List.ext_getElem?
  intro i
  rw [List.getElem?_map]
  by_cases hi : i < ds.length
  · rw [List.getElem?_range' hi]
    have := dAt_mem (ds := ds) (off := off) (x := off + i) (by omega) (by omega)
    rw [show off + i - off = i by omega] at this
    simpa using this.symm
  · rw [List.getElem?_eq_none (by simp; omega), List.getElem?_eq_none (by omega)]
    rfl

theorem sum_shift (ds : List Nat) (off : Nat) (G : Nat → Nat) :
    ((List.range' 0 ds.length).map (fun x => G (dAt ds 0 x))).sum
      = ((List.range' off ds.length).map (fun x => G (dAt ds off x))).sum := by
  have h : ∀ o, (List.range' o ds.length).map (fun x => G (dAt ds o x)) = ds.map G := by
    intro o
    conv => rhs; rw [← map_dAt ds o]
    rw [List.map_map]
    rfl
  rw [h, h]

theorem sum_map_add (f g : Nat → Nat) (l : List Nat) :
    (l.map (fun x => f x + g x)).sum = (l.map f).sum + (l.map g).sum := by
  induction l with
  | nil => rfl
  | cons x l ih => simp only [List.map_cons, List.sum_cons, ih]; omega

theorem sum_map_mul (f : Nat → Nat) (c : Nat) (l : List Nat) :
    (l.map (fun x => f x * c)).sum = (l.map f).sum * c := by
  induction l with
  | nil => simp
  | cons x l ih => simp only [List.map_cons, List.sum_cons, ih]; rw [Nat.add_mul]

theorem high_split (d R : Nat) :
    high R d = high (R + 8) d + (BitVec.ofNat 8 (d / 2 ^ R)).toNat * 2 ^ R := by
  unfold high
  rw [div_step, BitVec.toNat_ofNat, Nat.pow_add, Nat.mul_comm (2 ^ R) (2 ^ 8), ← Nat.mul_assoc, ← Nat.add_mul]
  congr 1
  omega

theorem Stored.sumByteColumn (h : Stored buff base F bits ds) (off R : Nat) (bm : Option Bitmap)
    (hL : Recs (bm.getD (List.range' off ds.length)) off ds.length) :
    Buff.sumByteColumn (column ds R) bm off
      = .ok (((bm.getD (List.range' off ds.length)).map (fun x => (byteAt ds off R x).toNat)).sum) := by
  unfold Buff.sumByteColumn
  cases bm with
  | none =>
    simp only [Option.getD_none]
    rw [allLoop_eq _ _ (holds_column ds 0 R), foldl_add, Nat.zero_add, column_length]
    exact congrArg _ (sum_shift ds off (fun d => (BitVec.ofNat 8 (d / 2 ^ R)).toNat))
  | some b =>
    simp only [Option.getD_some] at hL ⊢
    rw [idxLoop_eq _ (holds_column ds off R) _ _ (by rw [column_length]; exact hL.mem), foldl_add, Nat.zero_add]

theorem Stored.sumTail (h : Stored buff base F bits ds) (hr : 0 < bits % 8) (off : Nat) (bm : Option Bitmap)
    (hL : Recs (bm.getD (List.range' off ds.length)) off ds.length) :
    Buff.sumTail buff off (bits % 8) ds.length bm ⟨colStart bits ds.length 0, 0⟩
      = .ok (((bm.getD (List.range' off ds.length)).map (fun x => dAt ds off x % 2 ^ (bits % 8))).sum) := by
  unfold Buff.sumTail
  cases bm with
  | none =>
    simp only [Option.getD_none]
    obtain ⟨p', ht⟩ := h.tailAll hr (fun a _ s => a + s) 0 ds.length 0
        ⟨colStart bits ds.length 0, 0⟩ 0 (Nat.zero_add _) (atRecord_zero _ _)
    rw [Nat.add_zero] at ht
    rw [ht]
    simp only [Res.map]
    rw [foldl_add, Nat.zero_add]
    exact congrArg _ (sum_shift ds off (fun d => d % 2 ^ (bits % 8)))
  | some b =>
    simp only [Option.getD_some] at hL ⊢
    obtain ⟨e', p', -, -, ht⟩ := h.tailLoop hr (fun a b => a * b) (fun _ _ => rfl) (fun a _ s => a + s) off b 0
      ⟨colStart bits ds.length 0, 0⟩ 0 (Nat.zero_le _) (atRecord_zero _ _) hL.sorted
      (fun x hx => by have := hL.mem x hx; omega)
    rw [ht]
    simp only [Res.map]
    rw [foldl_add, Nat.zero_add]

theorem Stored.sumColumns (h : Stored buff base F bits ds) (off : Nat) (bm : Option Bitmap)
    (hL : Recs (bm.getD (List.range' off ds.length)) off ds.length) (k : Nat) (hk : k ≤ bits / 8) :
    Buff.sumColumns buff off ds.length (bits % 8) bm k ⟨colStart bits ds.length k, 0⟩
        (((bm.getD (List.range' off ds.length)).map (fun x => high (8 * k + bits % 8) (dAt ds off x))).sum % 2 ^ 64)
      = .ok (((bm.getD (List.range' off ds.length)).map (fun x => high (bits % 8) (dAt ds off x))).sum % 2 ^ 64,
          ⟨colStart bits ds.length 0, 0⟩) := by
  induction k with
  | zero => rw [Buff.sumColumns, Nat.mul_zero, Nat.zero_add]
  | succ k ih =>
    rw [Buff.sumColumns, h.byteColumn hk]
    simp only
    rw [h.sumByteColumn off _ bm hL]
    simp only
    rw [show 8 * (k + 1) + bits % 8 = 8 * k + bits % 8 + 8 by omega, Nat.shiftLeft_eq, ← Nat.add_mod, ← sum_map_mul,
      ← sum_map_add]
    have e : (bm.getD (List.range' off ds.length)).map (fun x => high (8 * k + bits % 8 + 8) (dAt ds off x)
        + (byteAt ds off (8 * k + bits % 8) x).toNat * 2 ^ (8 * k + bits % 8))
        = (bm.getD (List.range' off ds.length)).map (fun x => high (8 * k + bits % 8) (dAt ds off x)) := by
      apply List.map_congr_left
      intro x _
      unfold byteAt
      exact (high_split _ _).symm
    rw [e]
    exact ih (by omega)

theorem ofNat_mod64 (n : Nat) : BitVec.ofNat 64 (n % 2 ^ 64) = BitVec.ofNat 64 n := by
  apply BitVec.eq_of_toNat_eq
  rw [BitVec.toNat_ofNat, BitVec.toNat_ofNat, Nat.mod_mod]

/-- The sum when the chunk has more than one distinct value. -/
theorem Stored.sumWithBitmask (h : Stored buff base F bits ds) (o : FloatOps) (off : Nat) (bm : Option Bitmap)
    (hL : Recs (bm.getD (List.range' off ds.length)) off ds.length) (hb : bits ≠ 0) :
    Buff.sumWithBitmask o buff bm off
      = .ok (dequant o F (BitVec.ofNat 64 ((bm.getD (List.range' off ds.length)).map (dAt ds off)).sum
          + base * BitVec.ofNat 64 (bm.getD (List.range' off ds.length)).length)) := by
  unfold Buff.sumWithBitmask
  rw [h.header]
  simp only
  rw [if_neg hb]
  have hc := h.sumColumns off bm hL (bits / 8) (Nat.le_refl _)
  have hbb : 8 * (bits / 8) + bits % 8 = bits := by omega
  have h0 : ((bm.getD (List.range' off ds.length)).map (fun x => high bits (dAt ds off x))).sum = 0 := by
    have : (bm.getD (List.range' off ds.length)).map (fun x => high bits (dAt ds off x))
        = (bm.getD (List.range' off ds.length)).map (fun _ => 0 * 1) := by
      apply List.map_congr_left
      intro x _
      rw [high_zero (dAt_lt h off x)]
    rw [this, sum_map_mul]
    generalize bm.getD (List.range' off ds.length) = l
    induction l with
    | nil => rfl
    | cons a l ih =>
      simp at ih ⊢
      exact ih
  rw [hbb, h0, show colStart bits ds.length (bits / 8) = 20 by simp [colStart], Nat.zero_mod] at hc
  rw [hc]
  simp only
  have hlen : (match bm with | some b => b.length | none => ds.length)
      = (bm.getD (List.range' off ds.length)).length := by
    cases bm <;> simp
  split
  · rename_i heq
    split at heq
    · rename_i hr
      rw [h.sumTail (by omega) off bm hL] at heq
      simp only [Res.map, Res.ok.injEq] at heq
      rw [← heq]
      congr 2
      rw [Nat.mod_add_mod, ofNat_mod64, ← sum_map_add]
      congr 1
      · congr 2
        apply List.map_congr_left
        intro x _
        unfold high
        rw [Nat.mul_comm]
        exact Nat.div_add_mod _ _
      · cases bm <;> simp
    · rename_i hr
      simp only [Res.ok.injEq] at heq
      rw [← heq]
      have hr0 : bits % 8 = 0 := by omega
      rw [ofNat_mod64, hr0]
      congr 2
      congr 1
      · congr 2
        apply List.map_congr_left
        intro x _
        exact high_at_zero _
      · cases bm <;> simp
  · rename_i heq
    split at heq
    · rename_i hr
      rw [h.sumTail (by omega) off bm hL] at heq
      simp [Res.map] at heq
    · simp at heq
  · rename_i heq
    split at heq
    · rename_i hr
      rw [h.sumTail (by omega) off bm hL] at heq
      simp [Res.map] at heq
    · simp at heq

end

end Ebi.Buff
