import Verif.BuffSimd

/-!
# BUFF queries on a stored chunk

Records are numbered from `off`; `dAt ds off x` is the stored difference of record `x`.
-/

namespace Ebi.Buff

open Ebi BitPack

def dAt (ds : List Nat) (off x : Nat) : Nat := ds.getD (x - off) 0

def byteAt (ds : List Nat) (off R x : Nat) : Byte := BitVec.ofNat 8 (dAt ds off x / 2 ^ R)

/-- An increasing list of records of the chunk. -/
structure Recs (l : Bitmap) (off n : Nat) : Prop where
  sorted : l.Pairwise (· < ·)
  mem : ∀ x ∈ l, off ≤ x ∧ x < off + n

theorem Recs.all (off n : Nat) : Recs (List.range' off n) off n :=
  ⟨sorted_range' off n, fun x hx => by rw [List.mem_range'_1] at hx; omega⟩

theorem Recs.filter {l : Bitmap} {off n : Nat} (h : Recs l off n) (c : Nat → Bool) : Recs (l.filter c) off n :=
  ⟨h.sorted.sublist List.filter_sublist, fun x hx => h.mem x (List.mem_filter.1 hx).1⟩

theorem dAt_mem {ds : List Nat} {off x : Nat} (h1 : off ≤ x) (h2 : x < off + ds.length) :
    ds[x - off]? = some (dAt ds off x) := by
  unfold dAt
  rw [List.getD_eq_getElem?_getD, List.getElem?_eq_getElem (by omega)]
  rfl

theorem dAt_lt {buff : List Byte} {base : BitVec 64} {F bits : Nat} {ds : List Nat}
    (h : Stored buff base F bits ds) (off x : Nat) : dAt ds off x < 2 ^ bits := by
  unfold dAt
  rw [List.getD_eq_getElem?_getD]
  cases hd : ds[x - off]? with
  | none => exact Nat.two_pow_pos _
  | some d => exact h.fit d (List.mem_of_getElem? hd)

theorem holds_column (ds : List Nat) (off R : Nat) : Holds (column ds R) off (byteAt ds off R) := by
  intro j b hj
  unfold column at hj
  rw [List.getElem?_map] at hj
  cases hd : ds[j]? with
  | none => rw [hd] at hj; simp at hj
  | some d =>
    rw [hd] at hj
    simp only [Option.map_some, Option.some.injEq] at hj
    subst hj
    unfold byteAt dAt
    rw [flip_flip, show off + j - off = j by omega, List.getD_eq_getElem?_getD, hd]
    rfl

section

variable {buff : List Byte} {base : BitVec 64} {F bits : Nat} {ds : List Nat}

theorem Stored.byteGet (h : Stored buff base F bits ds) {k : Nat} (hk : k + 1 ≤ bits / 8) :
    (∀ i, i < ds.length →
      buff[colStart bits ds.length (k + 1) + i]? = (column ds (8 * k + bits % 8))[i]?) ∧
    colStart bits ds.length (k + 1) + ds.length = colStart bits ds.length k := by
  have hb := h.byteColumn hk
  unfold readNByte at hb
  split at hb
  · simp at hb
  · simp only [Res.ok.injEq, Prod.mk.injEq, Pos.mk.injEq] at hb
    obtain ⟨h1, h2, -⟩ := hb
    refine ⟨?_, h2⟩
    intro i hi
    rw [← h1, List.getElem?_take_of_lt hi, List.getElem?_drop]

theorem Stored.byteLoop {A : Type} (h : Stored buff base F bits ds) {k : Nat} (hk : k + 1 ≤ bits / 8)
    (f : A → Nat → Byte → A) (off : Nat) (l : List Nat) (e : Nat) (a : A) (he : e ≤ ds.length)
    (hs : l.Pairwise (· < ·)) (hl : ∀ x ∈ l, off + e ≤ x ∧ x < off + ds.length) :
    ∃ e', e' ≤ ds.length ∧
      Buff.byteLoop buff off f l e ⟨colStart bits ds.length (k + 1) + e, 0⟩ a
        = .ok (l.foldl (fun a x => f a x (byteAt ds off (8 * k + bits % 8) x)) a, e',
            ⟨colStart bits ds.length (k + 1) + e', 0⟩) := by
  induction l generalizing e a with
  | nil => exact ⟨e, he, rfl⟩
  | cons x l ih =>
    rw [List.pairwise_cons] at hs
    obtain ⟨h1, h2⟩ := hl x (by simp)
    have hc : (column ds (8 * k + bits % 8))[x - off]?
        = some ((column ds (8 * k + bits % 8))[x - off]'(by rw [column_length]; omega)) :=
      List.getElem?_eq_getElem _
    have hg := (h.byteGet hk).1 (x - off) (by omega)
    rw [hc] at hg
    have hf := holds_column ds off (8 * k + bits % 8) _ _ hc
    rw [show off + (x - off) = x by omega] at hf
    obtain ⟨e', he', ih⟩ := ih (x - off + 1) (f a x (byteAt ds off (8 * k + bits % 8) x)) (by omega) hs.2 (by
      intro y hy
      have := hs.1 y hy
      have := (hl y (by simp [hy])).2
      omega)
    refine ⟨e', he', ?_⟩
    rw [Buff.byteLoop]
    simp only [skipNByte, readByte]
    rw [show colStart bits ds.length (k + 1) + e + (x - off - e)
      = colStart bits ds.length (k + 1) + (x - off) by omega, hg]
    simp only
    rw [hf, show off + (x - off) = x by omega, Nat.add_assoc, ih, List.foldl_cons]

theorem Stored.tailLoop {A : Type} (h : Stored buff base F bits ds) (hr : 0 < bits % 8)
    (mul : Nat → Nat → Nat) (hmul : ∀ m, m ≤ ds.length → mul m (bits % 8) = m * (bits % 8))
    (f : A → Nat → Nat → A) (off : Nat) (l : List Nat) (e : Nat) (p : Pos) (a : A) (he : e ≤ ds.length)
    (hp : AtRecord p bits ds.length e)
    (hs : l.Pairwise (· < ·)) (hl : ∀ x ∈ l, off + e ≤ x ∧ x < off + ds.length) :
    ∃ e' p', e' ≤ ds.length ∧ AtRecord p' bits ds.length e' ∧
      Buff.tailLoop buff off (bits % 8) mul f l e p a
        = .ok (l.foldl (fun a x => f a x (dAt ds off x % 2 ^ (bits % 8))) a, e', p') := by
  induction l generalizing e p a with
  | nil => exact ⟨e, p, he, hp, rfl⟩
  | cons x l ih =>
    rw [List.pairwise_cons] at hs
    obtain ⟨h1, h2⟩ := hl x (by simp)
    obtain ⟨q, hq1, hq2⟩ := h.skipTail hp (m := x - off - e) (by omega)
    rw [show e + (x - off - e) = x - off by omega] at hq2
    obtain ⟨q2, hq3, hq4⟩ := h.readTail hr hq2 (dAt_mem (by omega) h2)
    obtain ⟨e', p', he', hp', ih⟩ := ih (x - off + 1) q2 (f a x (dAt ds off x % 2 ^ (bits % 8))) (by omega) hq4 hs.2 (by
      intro y hy
      have := hs.1 y hy
      have := (hl y (by simp [hy])).2
      omega)
    refine ⟨e', p', he', hp', ?_⟩
    rw [Buff.tailLoop]
    rw [hmul _ (by omega), hq1]
    simp only
    rw [hq3]
    simp only
    rw [show off + (x - off) = x by omega, ih, List.foldl_cons]

theorem Stored.tailAll {A : Type} (h : Stored buff base F bits ds) (hr : 0 < bits % 8)
    (f : A → Nat → Nat → A) (off k e : Nat) (p : Pos) (a : A) (he : e + k = ds.length)
    (hp : AtRecord p bits ds.length e) :
    ∃ p', Buff.tailAll buff (bits % 8) f k (off + e) p a
        = .ok ((List.range' (off + e) k).foldl (fun a x => f a x (dAt ds off x % 2 ^ (bits % 8))) a, p') := by
  induction k generalizing e p a with
  | zero => exact ⟨p, rfl⟩
  | succ k ih =>
    have hd : ds[e]? = some (dAt ds off (off + e)) := by
      have := dAt_mem (ds := ds) (off := off) (x := off + e) (by omega) (by omega)
      rwa [show off + e - off = e by omega] at this
    obtain ⟨q, h1, h2⟩ := h.readTail hr hp hd
    obtain ⟨p', ih⟩ := ih (e + 1) q (f a (off + e) (dAt ds off (off + e) % 2 ^ (bits % 8))) (by omega) h2
    refine ⟨p', ?_⟩
    rw [Buff.tailAll, h1]
    simp only
    rw [Nat.add_assoc, ih, List.range'_succ, List.foldl_cons, Nat.add_assoc]

theorem mulU32_exact {n r : Nat} (hn : n * 8 < 2 ^ 32) (hr : r < 8) : ∀ m, m ≤ n → mulU32 m r = m * r := by
  intro m hm
  unfold mulU32
  apply Nat.mod_eq_of_lt
  have := Nat.mul_le_mul hm (Nat.le_of_lt hr)
  omega

/-! ## Equality -/

theorem Stored.eqColumn (h : Stored buff base F bits ds) {k off : Nat} (hk : k + 1 ≤ bits / 8)
    (hoff : off + ds.length ≤ 2 ^ 32) (pb : Byte) (res : Option Bitmap)
    (hres : Recs (res.getD (List.range' off ds.length)) off ds.length) :
    Buff.eqColumn buff off ds.length pb ⟨colStart bits ds.length (k + 1), 0⟩ res
      = .ok ((res.getD (List.range' off ds.length)).filter
            (fun x => decide (byteAt ds off (8 * k + bits % 8) x = pb)), ⟨colStart bits ds.length k, 0⟩) := by
  cases res with
  | none =>
    unfold Buff.eqColumn
    simp only
    rw [h.byteColumn hk]
    simp only
    rw [eqColumnAll_eq pb (holds_column ds off _) (by rw [column_length]; exact hoff), column_length]
    rfl
  | some bm =>
    unfold Buff.eqColumn
    simp only [Option.getD_some] at hres ⊢
    obtain ⟨e', h1, h2⟩ := h.byteLoop hk (eqStep pb) off bm 0 [] (Nat.zero_le _) hres.sorted
      (fun x hx => by have := hres.mem x hx; omega)
    rw [Nat.add_zero] at h2
    rw [h2]
    simp only
    rw [eqStep_fold pb _ hres.sorted]
    simp only [skipNByte]
    rw [← (h.byteGet hk).2, Nat.add_assoc, show e' + (ds.length - e') = ds.length by omega]

theorem div_step (a R : Nat) : a / 2 ^ (R + 8) = a / 2 ^ R / 256 := by
  rw [Nat.pow_add, Nat.div_div_eq_div_mul]

theorem byte_eq_iff (a b R : Nat) :
    (a / 2 ^ (R + 8) = b / 2 ^ (R + 8) ∧ BitVec.ofNat 8 (a / 2 ^ R) = BitVec.ofNat 8 (b / 2 ^ R))
      ↔ a / 2 ^ R = b / 2 ^ R := by
  rw [div_step, div_step, ← BitVec.toNat_inj, BitVec.toNat_ofNat, BitVec.toNat_ofNat]
  omega

theorem byte_mod (P bits R : Nat) (h : R + 8 ≤ bits) :
    BitVec.ofNat 8 (P % 2 ^ bits / 2 ^ R) = BitVec.ofNat 8 (P / 2 ^ R) := by
  apply BitVec.eq_of_toNat_eq
  rw [BitVec.toNat_ofNat, BitVec.toNat_ofNat, show bits = R + (bits - R) by omega, Nat.pow_add,
    Nat.mod_mul_right_div_self, Nat.mod_mod_of_dvd]
  exact Nat.pow_dvd_pow 2 (by omega)

/-- The byte columns keep the records whose high bits agree with the constant. -/
theorem Stored.eqColumns (h : Stored buff base F bits ds) {off : Nat} (hoff : off + ds.length ≤ 2 ^ 32)
    (P : Nat) (L : Bitmap) (hL : Recs L off ds.length) (k : Nat) (hk : k ≤ bits / 8) (res : Option Bitmap)
    (hres : res.getD (List.range' off ds.length)
      = L.filter (fun x => decide (dAt ds off x / 2 ^ (8 * k + bits % 8) = P % 2 ^ bits / 2 ^ (8 * k + bits % 8)))) :
    (∃ p, Buff.eqColumns buff off ds.length (bits % 8) P k ⟨colStart bits ds.length k, 0⟩ res
        = .ok (true, some [], p) ∧ L.filter (fun x => decide (dAt ds off x = P % 2 ^ bits)) = []) ∨
    (∃ res', Buff.eqColumns buff off ds.length (bits % 8) P k ⟨colStart bits ds.length k, 0⟩ res
        = .ok (false, res', ⟨colStart bits ds.length 0, 0⟩) ∧
      (res' = none → k = 0 ∧ res = none) ∧
      res'.getD (List.range' off ds.length)
        = L.filter (fun x => decide (dAt ds off x / 2 ^ (bits % 8) = P % 2 ^ bits / 2 ^ (bits % 8)))) := by
  induction k generalizing res with
  | zero =>
    refine Or.inr ⟨res, rfl, fun hn => ⟨rfl, hn⟩, ?_⟩
    rw [hres, Nat.mul_zero, Nat.zero_add]
  | succ k ih =>
    have hrec : Recs (res.getD (List.range' off ds.length)) off ds.length := by rw [hres]; exact hL.filter _
    have hstep := h.eqColumn hk hoff (BitVec.ofNat 8 (P / 2 ^ (8 * k + bits % 8))) res hrec
    have hnext : (res.getD (List.range' off ds.length)).filter
        (fun x => decide (byteAt ds off (8 * k + bits % 8) x = BitVec.ofNat 8 (P / 2 ^ (8 * k + bits % 8))))
        = L.filter (fun x => decide (dAt ds off x / 2 ^ (8 * k + bits % 8)
            = P % 2 ^ bits / 2 ^ (8 * k + bits % 8))) := by
      rw [hres, List.filter_filter]
      apply List.filter_congr
      intro x _
      rw [Bool.eq_iff_iff, Bool.and_eq_true, decide_eq_true_eq, decide_eq_true_eq, decide_eq_true_eq, and_comm,
        show 8 * (k + 1) + bits % 8 = 8 * k + bits % 8 + 8 by omega, ← byte_mod P bits _ (by omega)]
      exact byte_eq_iff _ _ _
    rw [hnext] at hstep
    rw [Buff.eqColumns, hstep]
    simp only
    split
    · rename_i hemp
      refine Or.inl ⟨⟨colStart bits ds.length k, 0⟩, ?_, ?_⟩
      · rw [hemp]
      · rw [List.filter_eq_nil_iff] at hemp ⊢
        intro x hx hc
        apply hemp x hx
        rw [decide_eq_true_eq] at hc ⊢
        rw [hc]
    · rcases ih (by omega) (some (L.filter (fun x => decide (dAt ds off x / 2 ^ (8 * k + bits % 8)
            = P % 2 ^ bits / 2 ^ (8 * k + bits % 8))))) rfl with hl | ⟨res', h1, h2, h3⟩
      · exact Or.inl hl
      · refine Or.inr ⟨res', h1, ?_, h3⟩
        intro hn
        have := (h2 hn).2
        simp at this

theorem eqTail_fold (off r c : Nat) {l : List Nat} (hl : l.Pairwise (· < ·)) :
    l.foldl (fun a x => eqTailStep c a x (dAt ds off x % 2 ^ r)) []
      = l.filter (fun x => decide (dAt ds off x % 2 ^ r = c)) := by
  have := Bitmap.foldl_insert (c := fun x => decide (dAt ds off x % 2 ^ r = c)) hl (acc := []) (by simp)
  rw [List.nil_append] at this
  rw [← this]
  unfold eqTailStep
  simp

theorem mod_mod_256 (P r : Nat) (hr : r ≤ 8) : P % 2 ^ r % 256 = P % 2 ^ r := by
  apply Nat.mod_eq_of_lt
  have : P % 2 ^ r < 2 ^ r := Nat.mod_lt _ (Nat.two_pow_pos _)
  have : 2 ^ r ≤ 2 ^ 8 := Nat.pow_le_pow_right (by decide) hr
  omega

/-- `x` is determined by its high and low parts. -/
theorem split_eq_iff (a b r : Nat) : (a / 2 ^ r = b / 2 ^ r ∧ a % 2 ^ r = b % 2 ^ r) ↔ a = b := by
  constructor
  · rintro ⟨h1, h2⟩
    rw [← Nat.div_add_mod a (2 ^ r), ← Nat.div_add_mod b (2 ^ r), h1, h2]
  · rintro rfl; exact ⟨rfl, rfl⟩

/-- The constant the equality filter compares with. Beyond the chunk's width it is reduced, and the
sub-byte layout without a bitmask only uses the low byte. -/
def eqConst (bits P : Nat) (masked : Bool) : Nat :=
  if bits < 8 ∧ masked = false then P % 256 else P % 2 ^ bits

/-- The equality filter after its two early tests. -/
theorem Stored.equalFilter (h : Stored buff base F bits ds) (hn : ds.length * 8 < 2 ^ 32) {off : Nat}
    (hoff : off + ds.length ≤ 2 ^ 32) (pred : B64) (bm : Option Bitmap)
    (hL : Recs (bm.getD (List.range' off ds.length)) off ds.length)
    (h1 : (intoFixed pred F).slt base = false) (h2 : bits ≠ 0) :
    Buff.equalFilter buff pred bm off
      = .ok ((bm.getD (List.range' off ds.length)).filter
          (fun x => decide (dAt ds off x = eqConst bits (intoFixed pred F - base).toNat bm.isSome))) := by
  unfold Buff.equalFilter
  rw [h.header]
  simp only [h1]
  rw [if_neg (by simp), if_neg h2]
  generalize (intoFixed pred F - base).toNat = P
  have hb := h.bits_le
  have hinit : bm.getD (List.range' off ds.length)
      = (bm.getD (List.range' off ds.length)).filter (fun x => decide (dAt ds off x / 2 ^ (8 * (bits / 8) + bits % 8)
          = P % 2 ^ bits / 2 ^ (8 * (bits / 8) + bits % 8))) := by
    symm
    rw [List.filter_eq_self]
    intro x _
    have hbb : 8 * (bits / 8) + bits % 8 = bits := by omega
    rw [hbb, Nat.div_eq_of_lt (dAt_lt h off x), Nat.div_eq_of_lt (Nat.mod_lt _ (Nat.two_pow_pos _))]
    simp
  have hp : (⟨colStart bits ds.length (bits / 8), 0⟩ : Pos) = ⟨20, 0⟩ := by simp [colStart]
  have hmul := mulU32_exact hn (Nat.mod_lt bits (by decide : 0 < 8))
  rcases h.eqColumns hoff P _ hL (bits / 8) (Nat.le_refl _) bm hinit with ⟨p, e1, e2⟩ | ⟨res', e1, e2, e3⟩
  · rw [hp] at e1
    rw [e1]
    simp only [Option.getD_some]
    have : eqConst bits P bm.isSome = P % 2 ^ bits := by
      unfold eqConst
      split
      · rename_i hc
        obtain ⟨hc, hm⟩ := hc
        rw [show bits / 8 = 0 by omega, Buff.eqColumns] at e1
        simp at e1
      · rfl
    rw [this, e2]
  · rw [hp] at e1
    rw [e1]
    simp only
    have hres : Recs (res'.getD (List.range' off ds.length)) off ds.length := by rw [e3]; exact hL.filter _
    split
    · rename_i hr
      cases res' with
      | none =>
        simp only
        obtain ⟨hk, hbm⟩ := e2 rfl
        subst hbm
        obtain ⟨p', ht⟩ := h.tailAll hr (eqTailStep (P % 256)) off ds.length 0
          ⟨colStart bits ds.length 0, 0⟩ [] (Nat.zero_add _) (atRecord_zero _ _)
        rw [Nat.add_zero] at ht
        rw [ht]
        simp only [unwrap, Res.map]
        rw [eqTail_fold off (bits % 8) _ (sorted_range' _ _)]
        congr 1
        simp only [Option.getD_none, Option.isSome_none]
        apply List.filter_congr
        intro x _
        have hc : eqConst bits P false = P % 256 := by
          unfold eqConst; rw [if_pos ⟨by omega, rfl⟩]
        rw [Bool.eq_iff_iff, decide_eq_true_eq, decide_eq_true_eq, hc, show bits % 8 = bits by omega,
          Nat.mod_eq_of_lt (dAt_lt h off x)]
      | some b =>
        simp only [Option.getD_some] at hres e3 ⊢
        obtain ⟨e', p', he', hp', ht⟩ := h.tailLoop hr mulU32 hmul (eqTailStep (P % 2 ^ (bits % 8) % 256)) off b 0
          ⟨colStart bits ds.length 0, 0⟩ [] (Nat.zero_le _) (atRecord_zero _ _) hres.sorted
          (fun x hx => by have := hres.mem x hx; omega)
        rw [ht]
        simp only [unwrap]
        obtain ⟨q, hq, -⟩ := h.skipTail hp' (m := ds.length - e') (by omega)
        rw [hmul _ (by omega), hq]
        simp only
        rw [eqTail_fold off (bits % 8) _ hres.sorted, e3, List.filter_filter]
        congr 1
        apply List.filter_congr
        intro x _
        rw [mod_mod_256 P _ (by omega)]
        have hcst : eqConst bits P bm.isSome = P % 2 ^ bits := by
          unfold eqConst
          split
          · rename_i hc
            obtain ⟨hc, hm⟩ := hc
            rw [show bits / 8 = 0 by omega, Buff.eqColumns] at e1
            simp only [Res.ok.injEq, Prod.mk.injEq, true_and] at e1
            rw [e1.1] at hm
            simp at hm
          · rfl
        rw [hcst, Bool.eq_iff_iff, Bool.and_eq_true, decide_eq_true_eq, decide_eq_true_eq, decide_eq_true_eq, and_comm,
          ← split_eq_iff (dAt ds off x) (P % 2 ^ bits) (bits % 8),
          Nat.mod_mod_of_dvd P (Nat.pow_dvd_pow 2 (Nat.mod_le bits 8))]
    · rename_i hr
      have hr0 : bits % 8 = 0 := by omega
      have : eqConst bits P bm.isSome = P % 2 ^ bits := by
        unfold eqConst
        rw [if_neg (by omega)]
      rw [this]
      unfold allRecords
      rw [e3, hr0]
      simp

/-! ## Comparison -/

def strict (greater : Bool) (P d : Nat) : Bool := if greater then decide (P < d) else decide (d < P)

/-- The comparison asked for. -/
def rel (greater inclusive : Bool) (P d : Nat) : Bool :=
  if inclusive then (if greater then decide (P ≤ d) else decide (d ≤ P)) else strict greater P d

theorem lex_lt (a b M : Nat) : (a / M < b / M ∨ (a / M = b / M ∧ a % M < b % M)) ↔ a < b := by
  have h1 := Nat.div_add_mod a M
  have h2 := Nat.div_add_mod b M
  constructor
  · rintro (h | ⟨h, h'⟩)
    · exact Nat.lt_of_not_le (fun hc => by have := Nat.div_le_div_right (c := M) hc; omega)
    · rw [h] at h1; omega
  · intro h
    rcases Nat.lt_trichotomy (a / M) (b / M) with hc | hc | hc
    · exact Or.inl hc
    · refine Or.inr ⟨hc, ?_⟩
      rw [hc] at h1; omega
    · have := Nat.div_le_div_right (c := M) (Nat.le_of_lt h)
      omega

theorem lex_le (a b M : Nat) : (a / M < b / M ∨ (a / M = b / M ∧ a % M ≤ b % M)) ↔ a ≤ b := by
  have h1 := Nat.div_add_mod a M
  have h2 := Nat.div_add_mod b M
  constructor
  · rintro (h | ⟨h, h'⟩)
    · exact Nat.le_of_lt (Nat.lt_of_not_le (fun hc => by have := Nat.div_le_div_right (c := M) hc; omega))
    · rw [h] at h1; omega
  · intro h
    rcases Nat.lt_trichotomy (a / M) (b / M) with hc | hc | hc
    · exact Or.inl hc
    · refine Or.inr ⟨hc, ?_⟩
      rw [hc] at h1; omega
    · have := Nat.div_le_div_right (c := M) h
      omega

theorem strict_step (g : Bool) (P d R : Nat) :
    (strict g (P / 2 ^ (R + 8)) (d / 2 ^ (R + 8)) = true ∨
      (d / 2 ^ (R + 8) = P / 2 ^ (R + 8) ∧
        qual g (BitVec.ofNat 8 (P / 2 ^ R)) (BitVec.ofNat 8 (d / 2 ^ R)) = true))
      ↔ strict g (P / 2 ^ R) (d / 2 ^ R) = true := by
  rw [div_step, div_step]
  unfold strict qual
  rw [BitVec.toNat_ofNat, BitVec.toNat_ofNat]
  cases g <;> simp only [Bool.false_eq_true, if_false, if_true, decide_eq_true_eq] <;> omega

theorem rel_tail (g i : Bool) (P d r : Nat) :
    (strict g (P / 2 ^ r) (d / 2 ^ r) = true ∨
      (d / 2 ^ r = P / 2 ^ r ∧ rel g i (P % 2 ^ r) (d % 2 ^ r) = true))
      ↔ rel g i P d = true := by
  have h1 := lex_lt P d (2 ^ r)
  have h2 := lex_lt d P (2 ^ r)
  have h3 := lex_le P d (2 ^ r)
  have h4 := lex_le d P (2 ^ r)
  unfold rel strict
  cases g <;> cases i <;> simp only [Bool.false_eq_true, if_false, if_true, decide_eq_true_eq] <;> omega

theorem cmpTail_fold (g i : Bool) (c off r : Nat) (l q : List Nat) :
    l.foldl (fun a x => cmpTailStep g i c a x (dAt ds off x % 2 ^ r)) q
      = Bitmap.union q (l.filter (fun x => rel g i c (dAt ds off x % 2 ^ r))) := by
  rw [← Bitmap.foldl_union]
  congr 1
  funext a x
  unfold cmpTailStep rel strict
  cases g <;> cases i <;> simp only [Bool.false_eq_true, if_false, if_true, decide_eq_true_eq]
  · split
    · rw [if_neg (by omega)]
    · split
      · rw [if_neg (by omega)]
      · rw [if_pos (by omega)]
  · split
    · rw [if_neg (by omega)]
    · split
      · rw [if_pos (by omega)]
      · rw [if_pos (by omega)]
  · split
    · rfl
    · split
      · rfl
      · rfl
  · split
    · rw [if_pos (by omega)]
    · split
      · rw [if_pos (by omega)]
      · rw [if_neg (by omega)]

theorem Stored.cmpColumn (h : Stored buff base F bits ds) {off : Nat}
    (hoff : off + ds.length ≤ 2 ^ 32) (useSimd : Nat → Nat → Bool) (g : Bool) (R : Nat) (pb : Byte)
    (tc : Option Bitmap) (q : Bitmap) (hres : Recs (tc.getD (List.range' off ds.length)) off ds.length) :
    Buff.cmpColumn useSimd g (column ds R) pb ds.length q off tc
      = .ok ((tc.getD (List.range' off ds.length)).filter (fun x => decide (byteAt ds off R x = pb)),
          Bitmap.union q ((tc.getD (List.range' off ds.length)).filter (fun x => qual g pb (byteAt ds off R x)))) := by
  cases tc with
  | none =>
    unfold Buff.cmpColumn
    simp only
    rw [cmpColumnAll_eq g pb q (holds_column ds off R) (by rw [column_length]; exact hoff), column_length]
    rfl
  | some t =>
    unfold Buff.cmpColumn
    simp only [Option.getD_some] at hres ⊢
    rw [cmpColumnMask_eq _ g pb q (holds_column ds off R) (by rw [column_length]; exact hoff) hres.sorted
      (by rw [column_length]; exact hres.mem)]

theorem Stored.cmpColumns (h : Stored buff base F bits ds) {off : Nat} (hoff : off + ds.length ≤ 2 ^ 32)
    (useSimd : Nat → Nat → Bool) (g : Bool) (P : Nat) (L : Bitmap) (hL : Recs L off ds.length)
    (k : Nat) (hk : k ≤ bits / 8) (tc : Option Bitmap) (q : Bitmap)
    (htc : tc.getD (List.range' off ds.length)
      = L.filter (fun x => decide (dAt ds off x / 2 ^ (8 * k + bits % 8) = P / 2 ^ (8 * k + bits % 8))))
    (hqs : q.Pairwise (· < ·))
    (hq : ∀ x, x ∈ q ↔ x ∈ L ∧
      strict g (P / 2 ^ (8 * k + bits % 8)) (dAt ds off x / 2 ^ (8 * k + bits % 8)) = true) :
    (∃ q' p, Buff.cmpColumns useSimd g buff off ds.length (bits % 8) P k ⟨colStart bits ds.length k, 0⟩ tc q
        = .ok (true, some [], q', p) ∧ ∀ i, q' = L.filter (fun x => rel g i P (dAt ds off x))) ∨
    (∃ tc' q', Buff.cmpColumns useSimd g buff off ds.length (bits % 8) P k ⟨colStart bits ds.length k, 0⟩ tc q
        = .ok (false, tc', q', ⟨colStart bits ds.length 0, 0⟩) ∧
      (tc' = none → k = 0 ∧ tc = none) ∧
      tc'.getD (List.range' off ds.length)
        = L.filter (fun x => decide (dAt ds off x / 2 ^ (bits % 8) = P / 2 ^ (bits % 8))) ∧
      q'.Pairwise (· < ·) ∧
      (∀ x, x ∈ q' ↔ x ∈ L ∧ strict g (P / 2 ^ (bits % 8)) (dAt ds off x / 2 ^ (bits % 8)) = true)) := by
  induction k generalizing tc q with
  | zero =>
    rw [Nat.mul_zero, Nat.zero_add] at htc hq
    exact Or.inr ⟨tc, q, rfl, fun hn => ⟨rfl, hn⟩, htc, hqs, hq⟩
  | succ k ih =>
    have hrec : Recs (tc.getD (List.range' off ds.length)) off ds.length := by rw [htc]; exact hL.filter _
    have hstep := h.cmpColumn hoff useSimd g (8 * k + bits % 8) (BitVec.ofNat 8 (P / 2 ^ (8 * k + bits % 8))) tc q hrec
    have hR : 8 * (k + 1) + bits % 8 = 8 * k + bits % 8 + 8 := by omega
    rw [hR] at htc hq
    have hnext : (tc.getD (List.range' off ds.length)).filter
        (fun x => decide (byteAt ds off (8 * k + bits % 8) x = BitVec.ofNat 8 (P / 2 ^ (8 * k + bits % 8))))
        = L.filter (fun x => decide (dAt ds off x / 2 ^ (8 * k + bits % 8) = P / 2 ^ (8 * k + bits % 8))) := by
      rw [htc, List.filter_filter]
      apply List.filter_congr
      intro x _
      rw [Bool.eq_iff_iff, Bool.and_eq_true, decide_eq_true_eq, decide_eq_true_eq, decide_eq_true_eq, and_comm]
      exact byte_eq_iff _ _ _
    rw [hnext] at hstep
    generalize hQ : Bitmap.union q ((tc.getD (List.range' off ds.length)).filter
      (fun x => qual g (BitVec.ofNat 8 (P / 2 ^ (8 * k + bits % 8))) (byteAt ds off (8 * k + bits % 8) x))) = Q at hstep
    have hQs : Q.Pairwise (· < ·) := by rw [← hQ]; exact Bitmap.union_sorted _ hqs
    have hQm : ∀ x, x ∈ Q ↔ x ∈ L ∧
        strict g (P / 2 ^ (8 * k + bits % 8)) (dAt ds off x / 2 ^ (8 * k + bits % 8)) = true := by
      intro x
      rw [← hQ, Bitmap.mem_union, hq, List.mem_filter, htc, List.mem_filter, decide_eq_true_eq,
        ← strict_step g P (dAt ds off x) (8 * k + bits % 8)]
      unfold byteAt
      constructor
      · rintro (⟨a, b⟩ | ⟨⟨a, b⟩, c⟩)
        · exact ⟨a, Or.inl b⟩
        · exact ⟨a, Or.inr ⟨b, c⟩⟩
      · rintro ⟨a, b | ⟨b, c⟩⟩
        · exact Or.inl ⟨a, b⟩
        · exact Or.inr ⟨⟨a, b⟩, c⟩
    rw [Buff.cmpColumns, h.byteColumn hk]
    simp only
    rw [hstep]
    simp only
    split
    · rename_i hemp
      refine Or.inl ⟨Q, ⟨colStart bits ds.length k, 0⟩, ?_, ?_⟩
      · rw [hemp]
      · intro i
        rw [List.filter_eq_nil_iff] at hemp
        apply Bitmap.sorted_ext hQs (hL.sorted.sublist List.filter_sublist)
        intro x
        rw [hQm, List.mem_filter]
        constructor
        · rintro ⟨a, b⟩
          exact ⟨a, (rel_tail g i P _ _).1 (Or.inl b)⟩
        · rintro ⟨a, b⟩
          refine ⟨a, ?_⟩
          rcases (rel_tail g i P _ (8 * k + bits % 8)).2 b with hc | hc
          · exact hc
          · exact absurd (decide_eq_true hc.1) (hemp x a)
    · rcases ih (by omega) (some (L.filter (fun x => decide (dAt ds off x / 2 ^ (8 * k + bits % 8)
            = P / 2 ^ (8 * k + bits % 8))))) Q rfl hQs hQm with hl | ⟨tc', q', h1, h2, h3⟩
      · exact Or.inl hl
      · refine Or.inr ⟨tc', q', h1, ?_, h3⟩
        intro hn
        have := (h2 hn).2
        simp at this

/-- The comparison filter after its three early tests. -/
theorem Stored.cmpFilter (h : Stored buff base F bits ds) (hn : ds.length * 8 < 2 ^ 32) {off : Nat}
    (hoff : off + ds.length ≤ 2 ^ 32) (useSimd : Nat → Nat → Bool) (g i : Bool) (pred : B64) (bm : Option Bitmap)
    (hL : Recs (bm.getD (List.range' off ds.length)) off ds.length)
    (h1 : (intoFixed pred F).slt base = false) (h2 : bits ≠ 0)
    (h3 : bitsLength (intoFixed pred F - base) ≤ bits) :
    Buff.cmpFilter useSimd g i buff pred bm off
      = .ok ((bm.getD (List.range' off ds.length)).filter
          (fun x => rel g i (intoFixed pred F - base).toNat (dAt ds off x))) := by
  unfold Buff.cmpFilter
  rw [h.header]
  simp only [h1]
  have hP : (intoFixed pred F - base).toNat < 2 ^ bits :=
    Nat.lt_of_lt_of_le (lt_bitsLength _) (Nat.pow_le_pow_right (by decide) h3)
  rw [if_neg (by simp), if_neg h2, if_neg (by omega)]
  generalize (intoFixed pred F - base).toNat = P at *
  have hb := h.bits_le
  have hbb : 8 * (bits / 8) + bits % 8 = bits := by omega
  have hinit : bm.getD (List.range' off ds.length)
      = (bm.getD (List.range' off ds.length)).filter (fun x => decide (dAt ds off x / 2 ^ (8 * (bits / 8) + bits % 8)
          = P / 2 ^ (8 * (bits / 8) + bits % 8))) := by
    symm
    rw [List.filter_eq_self]
    intro x _
    rw [hbb, Nat.div_eq_of_lt (dAt_lt h off x), Nat.div_eq_of_lt hP]
    simp
  have hq0 : ∀ x, x ∈ ([] : Bitmap) ↔ x ∈ bm.getD (List.range' off ds.length) ∧
      strict g (P / 2 ^ (8 * (bits / 8) + bits % 8)) (dAt ds off x / 2 ^ (8 * (bits / 8) + bits % 8)) = true := by
    intro x
    rw [hbb, Nat.div_eq_of_lt (dAt_lt h off x), Nat.div_eq_of_lt hP]
    unfold strict
    cases g <;> simp
  have hp : (⟨colStart bits ds.length (bits / 8), 0⟩ : Pos) = ⟨20, 0⟩ := by simp [colStart]
  have hmul := mulU32_exact hn (Nat.mod_lt bits (by decide : 0 < 8))
  rcases h.cmpColumns hoff useSimd g P _ hL (bits / 8) (Nat.le_refl _) bm [] hinit List.Pairwise.nil hq0 with
    ⟨q', p, e1, e2⟩ | ⟨tc', q', e1, e2, e3, e4, e5⟩
  · rw [hp] at e1
    rw [e1]
    simp only
    rw [e2 i]
  · rw [hp] at e1
    rw [e1]
    simp only
    have hres : Recs (tc'.getD (List.range' off ds.length)) off ds.length := by rw [e3]; exact hL.filter _
    -- the final step in both tail cases
    have hfin : Bitmap.union q' ((tc'.getD (List.range' off ds.length)).filter
        (fun x => rel g i (P % 2 ^ (bits % 8)) (dAt ds off x % 2 ^ (bits % 8))))
        = (bm.getD (List.range' off ds.length)).filter (fun x => rel g i P (dAt ds off x)) := by
      apply Bitmap.sorted_ext (Bitmap.union_sorted _ e4) (hL.sorted.sublist List.filter_sublist)
      intro x
      rw [Bitmap.mem_union, e5, e3, List.filter_filter, List.mem_filter, List.mem_filter, Bool.and_eq_true,
        decide_eq_true_eq, ← rel_tail g i P (dAt ds off x) (bits % 8)]
      constructor
      · rintro (⟨a, b⟩ | ⟨a, b, c⟩)
        · exact ⟨a, Or.inl b⟩
        · exact ⟨a, Or.inr ⟨c, b⟩⟩
      · rintro ⟨a, b | ⟨b, c⟩⟩
        · exact Or.inl ⟨a, b⟩
        · exact Or.inr ⟨a, c, b⟩
    split
    · rename_i hr
      rw [mod_mod_256 P _ (by omega)]
      cases tc' with
      | none =>
        simp only
        obtain ⟨p', ht⟩ := h.tailAll hr (cmpTailStep g i (P % 2 ^ (bits % 8))) off ds.length 0
          ⟨colStart bits ds.length 0, 0⟩ q' (Nat.zero_add _) (atRecord_zero _ _)
        rw [Nat.add_zero] at ht
        rw [ht]
        simp only [unwrap, Res.map]
        rw [cmpTail_fold]
        exact congrArg _ hfin
      | some b =>
        simp only
        simp only [Option.getD_some] at hres e3 hfin
        obtain ⟨e', p', he', hp', ht⟩ := h.tailLoop hr mulU32 hmul (cmpTailStep g i (P % 2 ^ (bits % 8))) off b 0
          ⟨colStart bits ds.length 0, 0⟩ q' (Nat.zero_le _) (atRecord_zero _ _) hres.sorted
          (fun x hx => by have := hres.mem x hx; omega)
        rw [ht]
        simp only [unwrap]
        obtain ⟨q, hq, -⟩ := h.skipTail hp' (m := ds.length - e') (by omega)
        rw [hmul _ (by omega), hq]
        simp only
        rw [cmpTail_fold]
        exact congrArg _ hfin
    · rename_i hr
      have hr0 : bits % 8 = 0 := by omega
      cases tc' with
      | none =>
        have := (e2 rfl).1
        omega
      | some t =>
        simp only
        simp only [Option.getD_some] at hfin e3
        congr 1
        rw [← hfin, hr0]
        cases i with
        | true =>
          simp only [if_true]
          congr 1
          symm
          rw [List.filter_eq_self]
          intro x _
          rw [Nat.pow_zero, Nat.mod_one, Nat.mod_one]
          unfold rel
          cases g <;> simp
        | false =>
          simp only [Bool.false_eq_true, if_false]
          have : t.filter (fun x => rel g false (P % 2 ^ 0) (dAt ds off x % 2 ^ 0)) = [] := by
            rw [List.filter_eq_nil_iff]
            intro x _
            rw [Nat.pow_zero, Nat.mod_one, Nat.mod_one]
            unfold rel strict
            cases g <;> simp
          rw [this]
          rfl

end

end Ebi.Buff
