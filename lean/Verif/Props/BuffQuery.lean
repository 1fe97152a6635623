import Verif.BuffBest
import Verif.Props.Buff

/-!
# C36, C37, C38: in-situ queries on BUFF chunks
-/

namespace Ebi.Props

open Ebi

/-! ## C37: vectorised comparison -/

/-- The three parts of a column, put together, are the column; the middle one is a whole number of
32-byte words and, if there is one, starts at a record number divisible by 8. -/
theorem c37_split (chunk : List Byte) (off : Nat) :
    (Buff.splitSimd chunk off).1 ++ (Buff.splitSimd chunk off).2.1 ++ (Buff.splitSimd chunk off).2.2 = chunk ∧
      32 ∣ (Buff.splitSimd chunk off).2.1.length ∧
      ((Buff.splitSimd chunk off).2.1 ≠ [] → (off + (Buff.splitSimd chunk off).1.length) % 8 = 0) :=
  ⟨by rw [List.append_assoc]; exact Buff.splitSimd_append chunk off, Buff.splitSimd_len chunk off,
    Buff.splitSimd_aligned chunk off⟩

example : (Buff.splitSimd (List.replicate 100 7#8) 3).1.length = 5 ∧
    (Buff.splitSimd (List.replicate 100 7#8) 3).2.1.length = 64 ∧
    (Buff.splitSimd (List.replicate 100 7#8) 3).2.2.length = 31 := by decide +kernel

/-- A column as stored: every byte with its top bit flipped. -/
def stored (bytes : List Byte) : List Byte := bytes.map (· ^^^ 0x80#8)

/-- The record numbers, from `off` on, whose byte satisfies `c`. -/
def positions (bytes : List Byte) (off : Nat) (c : Byte → Bool) : List Nat :=
  (List.range bytes.length).filterMap (fun i => if (bytes[i]?.map c).getD false then some (off + i) else none)

theorem holds_stored (bytes : List Byte) (off : Nat) :
    Buff.Holds (stored bytes) off (fun x => bytes.getD (x - off) 0) := by
  intro j b hj
  unfold stored at hj
  rw [List.getElem?_map] at hj
  cases hb : bytes[j]? with
  | none => rw [hb] at hj; simp at hj
  | some c =>
    rw [hb] at hj
    simp only [Option.map_some, Option.some.injEq] at hj
    subst hj
    show Buff.flip (c ^^^ 0x80#8) = bytes.getD (off + j - off) 0
    rw [show off + j - off = j by omega, List.getD_eq_getElem?_getD, hb]
    exact Buff.flip_flip c

theorem positions_eq (bytes : List Byte) (off : Nat) (c : Byte → Bool) :
    positions bytes off c
      = (List.range' off bytes.length).filter (fun x => c (bytes.getD (x - off) 0)) := by
  unfold positions
  have h : List.range' off bytes.length = (List.range bytes.length).map (off + ·) := by
    rw [List.range_eq_range', List.map_add_range', Nat.add_zero]
  rw [h, List.filter_map, aux]
where
  aux : (List.range bytes.length).filterMap
      (fun i => if (bytes[i]?.map c).getD false then some (off + i) else none)
      = ((List.range bytes.length).filter ((fun x => c (bytes.getD (x - off) 0)) ∘ (off + ·))).map (off + ·) := by
    have key : ∀ l : List Nat, (∀ i ∈ l, i < bytes.length) →
        l.filterMap (fun i => if (bytes[i]?.map c).getD false then some (off + i) else none)
          = (l.filter ((fun x => c (bytes.getD (x - off) 0)) ∘ (off + ·))).map (off + ·) := by
      intro l
      induction l with
      | nil => intro _; rfl
      | cons i l ih =>
        intro hl
        have hi := hl i (by simp)
        have ih := ih (fun j hj => hl j (by simp [hj]))
        have e : (bytes[i]?.map c).getD false = c (bytes.getD (off + i - off) 0) := by
          rw [show off + i - off = i by omega, List.getD_eq_getElem?_getD, List.getElem?_eq_getElem hi]
          rfl
        rw [List.filterMap_cons, List.filter_cons, e]
        simp only [Function.comp_apply]
        by_cases hc : c (bytes.getD (off + i - off) 0) = true
        · rw [if_pos hc, if_pos hc, List.map_cons]
          simp only [ih]
        · rw [if_neg hc, if_neg hc]
          exact ih
    exact key _ (fun i hi => List.mem_range.1 hi)

/-- Equality on a whole column: exactly the records whose byte equals the constant's byte. -/
theorem c37_equal_column (bytes : List Byte) (p : Byte) (off : Nat) (h : off + bytes.length ≤ 2 ^ 32) :
    Buff.eqColumnAll (stored bytes) p off = .ok (positions bytes off (fun b => b == p)) := by
  have hl : (stored bytes).length = bytes.length := by simp [stored]
  rw [Buff.eqColumnAll_eq p (holds_stored bytes off) (by rw [hl]; exact h), positions_eq, hl]
  rfl

/-- Comparison on a whole column: the records to check further are those with an equal byte, the
qualified ones gain exactly those with a larger (smaller) unsigned byte. -/
theorem c37_compare_column (greater : Bool) (bytes : List Byte) (p : Byte) (q : Bitmap) (off : Nat)
    (h : off + bytes.length ≤ 2 ^ 32) :
    ∃ q', Buff.cmpColumnAll greater (stored bytes) p q off
        = .ok (positions bytes off (fun b => b == p), q') ∧
      ∀ x, x ∈ q' ↔ x ∈ q ∨ x ∈ positions bytes off
        (fun b => if greater then decide (p.toNat < b.toNat) else decide (b.toNat < p.toNat)) := by
  have hl : (stored bytes).length = bytes.length := by simp [stored]
  refine ⟨Bitmap.union q (positions bytes off (Buff.qual greater p)), ?_, fun x => ?_⟩
  · rw [Buff.cmpColumnAll_eq greater p q (holds_stored bytes off) (by rw [hl]; exact h), positions_eq, positions_eq, hl]
    rfl
  · rw [Bitmap.mem_union]
    have : Buff.qual greater p
        = (fun b => if greater then decide (p.toNat < b.toNat) else decide (b.toNat < p.toNat)) := by
      funext b
      unfold Buff.qual
      cases greater <;> rfl
    rw [this]

/-- The same restricted to a set of records, whatever the outcome of the density test. -/
theorem c37_compare_masked (useSimd greater : Bool) (bytes : List Byte) (p : Byte) (tc q : Bitmap) (off : Nat)
    (h : off + bytes.length ≤ 2 ^ 32) (hs : tc.Pairwise (· < ·))
    (ht : ∀ x ∈ tc, off ≤ x ∧ x < off + bytes.length) :
    ∃ q', Buff.cmpColumnMask useSimd greater (stored bytes) p tc q off
        = .ok (tc.filter (fun x => bytes.getD (x - off) 0 == p), q') ∧
      ∀ x, x ∈ q' ↔ x ∈ q ∨ (x ∈ tc ∧ (if greater then p.toNat < (bytes.getD (x - off) 0).toNat
        else (bytes.getD (x - off) 0).toNat < p.toNat)) := by
  have hl : (stored bytes).length = bytes.length := by simp [stored]
  refine ⟨Bitmap.union q (tc.filter (fun x => Buff.qual greater p (bytes.getD (x - off) 0))), ?_, fun x => ?_⟩
  · rw [Buff.cmpColumnMask_eq useSimd greater p q (holds_stored bytes off) (by rw [hl]; exact h) hs
      (by rw [hl]; exact ht)]
    rfl
  · rw [Bitmap.mem_union, List.mem_filter]
    unfold Buff.qual
    cases greater <;> simp

example : Buff.cmpColumnAll true (stored [5, 200, 7, 7, 255]) 7#8 [] 8 = .ok ([10, 11], [9, 12]) := by
  decide +kernel

/-! ## The stored integers of a chunk -/

/-- The fixed-point integer of record `x`. -/
def qAt (qs : List (BitVec 64)) (off x : Nat) : Int := (qs.getD (x - off) 0).toInt

/-- The records of the chunk selected by a bitmask. -/
def Selected (bm : Option Bitmap) (off n x : Nat) : Prop :=
  off ≤ x ∧ x < off + n ∧ (∀ b, bm = some b → x ∈ b)

def intCmp : CmpOps Int := ⟨fun a b => decide (a = b), fun a b => decide (a < b), fun a b => decide (a ≤ b)⟩

/-- The predicate with its constants in fixed point, asked of a fixed-point integer. -/
def Answers (F : Nat) (p : Predicate B64) (q : Int) : Bool :=
  (p.map (fun v => (Buff.intoFixed v F).toInt)).eval intCmp q

/-- Everything the proofs need about an encoded chunk. -/
structure Chunk (qs : List (BitVec 64)) (F : Nat) (bytes : List Byte) (base : BitVec 64) (bits : Nat) : Prop where
  stored : Buff.Stored bytes base F bits (qs.map (fun x => (x - base).toNat))
  isMin : Buff.IsMin qs base

theorem chunk_of_encode {qs : List (BitVec 64)} {F : Nat} {bytes : List Byte} (h : Buff.encode qs F = .ok bytes)
    (hn : qs.length < 2 ^ 32) (hF : F < 2 ^ 32) : ∃ base bits, Chunk qs F bytes base bits := by
  have hne : qs ≠ [] := by
    rintro rfl
    rw [show Buff.encode [] F = Res.panic from rfl] at h
    cases h
  obtain ⟨base, bits, h1, h2, h3, h4⟩ := Buff.encode_eq qs F hne hn hF
  rw [h1] at h
  simp only [Res.ok.injEq] at h
  exact ⟨base, bits, ⟨h.symm, by simpa using hn, hF, h3, by simpa using h4⟩, h2⟩

section

variable {qs : List (BitVec 64)} {F : Nat} {bytes : List Byte} {base : BitVec 64} {bits : Nat}

theorem Chunk.dAt (h : Chunk qs F bytes base bits) {off x : Nat} (h1 : off ≤ x) (h2 : x < off + qs.length) :
    (Buff.dAt (qs.map (fun x => (x - base).toNat)) off x : Int) = qAt qs off x - base.toInt := by
  have hi : x - off < qs.length := by omega
  unfold Buff.dAt qAt
  rw [List.getD_eq_getElem?_getD, List.getD_eq_getElem?_getD, List.getElem?_map, List.getElem?_eq_getElem hi]
  simp only [Option.map_some, Option.getD_some]
  exact Buff.sub_toNat (h.isMin.2 _ (List.getElem_mem hi))

theorem qAt_mem {off x : Nat} (h1 : off ≤ x) (h2 : x < off + qs.length) :
    ∃ q ∈ qs, qAt qs off x = q.toInt := by
  have hi : x - off < qs.length := by omega
  refine ⟨qs[x - off], List.getElem_mem hi, ?_⟩
  unfold qAt
  rw [List.getD_eq_getElem?_getD, List.getElem?_eq_getElem hi]
  rfl

theorem Chunk.base_le (h : Chunk qs F bytes base bits) {off x : Nat} (h1 : off ≤ x) (h2 : x < off + qs.length) :
    base.toInt ≤ qAt qs off x := by
  obtain ⟨q, hq, e⟩ := qAt_mem h1 h2
  rw [e]; exact h.isMin.2 q hq

/-- The list of selected records the reader works with. -/
theorem restrict_spec (n : Nat) (bytes : List Byte) (bm : Option Bitmap) (off : Nat)
    (hbm : ∀ b, bm = some b → Bitmap.WF b) (hoff : off + n < 2 ^ 32) :
    Buff.Recs ((((Buff.Reader.new n bytes).restrict bm off)).getD (List.range' off n)) off n ∧
      ∀ x, x ∈ (((Buff.Reader.new n bytes).restrict bm off)).getD (List.range' off n) ↔ Selected bm off n x := by
  unfold Buff.Reader.restrict Buff.Reader.new
  simp only
  cases bm with
  | none =>
    refine ⟨Buff.Recs.all off n, fun x => ?_⟩
    simp only [Option.map_none, Option.getD_none, List.mem_range'_1, Selected]
    constructor
    · intro hx; exact ⟨hx.1, hx.2, by simp⟩
    · intro hx; exact ⟨hx.1, hx.2.1⟩
  | some b =>
    simp only [Option.map_some, Option.getD_some]
    have hm : ∀ x, x ∈ Sprintz.inChunk off n b ↔ x ∈ b ∧ off ≤ x ∧ x < off + n := by
      intro x
      unfold Sprintz.inChunk
      rw [List.mem_filter, Bool.and_eq_true, decide_eq_true_eq, decide_eq_true_eq,
        Nat.mod_eq_of_lt (show off < 2 ^ 32 by omega), Nat.mod_eq_of_lt (show n < 2 ^ 32 by omega),
        Nat.mod_eq_of_lt hoff]
    refine ⟨⟨?_, fun x hx => ((hm x).1 hx).2⟩, fun x => ?_⟩
    · exact (hbm b rfl).1.sublist List.filter_sublist
    · rw [hm, Selected]
      constructor
      · rintro ⟨a, b1, c⟩
        refine ⟨b1, c, ?_⟩
        rintro b' hb'
        simp only [Option.some.injEq] at hb'
        subst hb'
        exact a
      · rintro ⟨b1, c, a⟩
        exact ⟨a b rfl, b1, c⟩

theorem restrict_isSome (n : Nat) (bytes : List Byte) (bm : Option Bitmap) (off : Nat) :
    ((Buff.Reader.new n bytes).restrict bm off = none ↔ bm = none) := by
  unfold Buff.Reader.restrict
  cases bm <;> simp

/-- The comparison in integers. -/
def relInt (greater inclusive : Bool) (c q : Int) : Bool :=
  if greater then (if inclusive then decide (c ≤ q) else decide (c < q))
  else (if inclusive then decide (q ≤ c) else decide (q < c))

theorem Chunk.rel (_ : Chunk qs F bytes base bits) {c : BitVec 64} {g i : Bool} {d : Nat} {q : Int}
    (hc : base.toInt ≤ c.toInt) (hd : (d : Int) = q - base.toInt) :
    Buff.rel g i (c - base).toNat d = relInt g i c.toInt q := by
  have := Buff.sub_toNat hc
  rw [Bool.eq_iff_iff]
  unfold Buff.rel Buff.strict relInt
  cases g <;> cases i <;> simp only [Bool.false_eq_true, if_false, if_true, decide_eq_true_eq] <;> omega

theorem bitsLength_le_of_lt {x : BitVec 64} {n : Nat} (h : x.toNat < 2 ^ n) : Buff.bitsLength x ≤ n := by
  unfold Buff.bitsLength
  split
  · omega
  · rename_i hx
    have hx0 : x.toNat ≠ 0 := fun hc => hx (BitVec.eq_of_toNat_eq (by simpa using hc))
    apply Nat.le_of_not_lt
    intro hc
    have h64 := x.isLt
    have hlo := le_of_lz64 hx0 h64
    have : 2 ^ n ≤ 2 ^ (63 - lz64 x.toNat) := Nat.pow_le_pow_right (by decide) (by omega)
    omega

/-- Where the filters give the exact answer under a bitmask. -/
def Inner (qs : List (BitVec 64)) (c : Int) : Prop :=
  (∃ q ∈ qs, q.toInt ≤ c) ∧ (∃ q ∈ qs, c ≤ q.toInt) ∧ (∃ q ∈ qs, ∃ q' ∈ qs, q ≠ q')

theorem Chunk.inner (h : Chunk qs F bytes base bits) {c : BitVec 64} (hi : Inner qs c.toInt) :
    base.toInt ≤ c.toInt ∧ (c - base).toNat < 2 ^ bits ∧ bits ≠ 0 := by
  obtain ⟨⟨a, ha, ha'⟩, ⟨b, hb, hb'⟩, x, hx, y, hy, hxy⟩ := hi
  have h1 : base.toInt ≤ c.toInt := Int.le_trans (h.isMin.2 a ha) ha'
  have hfit : ∀ q ∈ qs, (q - base).toNat < 2 ^ bits := fun q hq =>
    h.stored.fit _ (List.mem_map_of_mem (f := fun x : BitVec 64 => (x - base).toNat) hq)
  refine ⟨h1, ?_, ?_⟩
  · have e1 := Buff.sub_toNat h1
    have e2 := Buff.sub_toNat (h.isMin.2 b hb)
    have := hfit b hb
    omega
  · intro h0
    rw [h0] at hfit
    have e1 := hfit x hx
    have e2 := hfit y hy
    have e3 := Buff.sub_toNat (h.isMin.2 x hx)
    have e4 := Buff.sub_toNat (h.isMin.2 y hy)
    exact hxy (BitVec.eq_of_toInt_eq (by omega))

/-- The comparison filter: correct on the selected records always, exact on them without a bitmask or
with a constant inside the chunk's range. -/
theorem Chunk.cmp (h : Chunk qs F bytes base bits) (hn : qs.length * 8 < 2 ^ 32) {off : Nat}
    (hoff : off + qs.length < 2 ^ 32) (useSimd : Nat → Nat → Bool) (g i : Bool) (v : B64) (bm : Option Bitmap)
    (hL : Buff.Recs (bm.getD (List.range' off qs.length)) off qs.length) :
    ∃ R, Buff.cmpFilter useSimd g i bytes v bm off = .ok R ∧ Buff.Recs R off qs.length ∧
      (∀ x ∈ bm.getD (List.range' off qs.length),
        (x ∈ R ↔ relInt g i (Buff.intoFixed v F).toInt (qAt qs off x) = true)) ∧
      (Inner qs (Buff.intoFixed v F).toInt → ∀ x ∈ R, x ∈ bm.getD (List.range' off qs.length)) := by
  have hst := h.stored
  have hlen : (qs.map (fun x => (x - base).toNat)).length = qs.length := List.length_map _
  have hall : ∀ b : Bool, Buff.Recs (if b then Buff.allRecords off qs.length else []) off qs.length := by
    intro b; cases b
    · exact ⟨List.Pairwise.nil, by simp⟩
    · exact Buff.Recs.all off qs.length
  have hmemall : ∀ x ∈ bm.getD (List.range' off qs.length), ∀ b : Bool,
      (x ∈ (if b then Buff.allRecords off qs.length else []) ↔ b = true) := by
    intro x hx b
    have := hL.mem x hx
    cases b
    · simp
    · simp only [if_true, iff_true]
      unfold Buff.allRecords
      rw [List.mem_range'_1]
      omega
  by_cases h1 : (Buff.intoFixed v F).slt base = true
  · have hlt : (Buff.intoFixed v F).toInt < base.toInt := BitVec.slt_iff_toInt_lt.1 h1
    refine ⟨if g then Buff.allRecords off qs.length else [], ?_, hall g, ?_, ?_⟩
    · unfold Buff.cmpFilter
      rw [hst.header]
      simp only [h1, if_true, hlen]
    · intro x hx
      rw [hmemall x hx g]
      have hr := hL.mem x hx
      have := h.base_le hr.1 hr.2
      unfold relInt
      cases g <;> cases i <;> simp <;> omega
    · intro hi
      have := (h.inner hi).1
      omega
  · have h1' : (Buff.intoFixed v F).slt base = false := by simpa using h1
    have hge : base.toInt ≤ (Buff.intoFixed v F).toInt := by
      have : ¬ (Buff.intoFixed v F).toInt < base.toInt := fun hc => h1 (BitVec.slt_iff_toInt_lt.2 hc)
      omega
    by_cases h2 : bits = 0
    · refine ⟨if (match g, i with
        | true, true => (Buff.intoFixed v F).sle base
        | true, false => (Buff.intoFixed v F).slt base
        | false, true => base.sle (Buff.intoFixed v F)
        | false, false => base.slt (Buff.intoFixed v F)) then Buff.allRecords off qs.length else [], ?_, hall _, ?_, ?_⟩
      · unfold Buff.cmpFilter
        rw [hst.header]
        simp only [h1', hlen]
        rw [if_neg (by simp), if_pos h2]
        cases g <;> cases i <;> rfl
      · intro x hx
        rw [hmemall x hx]
        have hr := hL.mem x hx
        have hd := h.dAt hr.1 hr.2
        have hlt := Buff.dAt_lt hst off x
        rw [h2] at hlt
        have hq : qAt qs off x = base.toInt := by omega
        rw [hq]
        unfold relInt
        cases g <;> cases i <;> simp [BitVec.sle_iff_toInt_le, BitVec.slt_iff_toInt_lt]
      · intro hi
        exact absurd h2 (h.inner hi).2.2
    · by_cases h3 : Buff.bitsLength (Buff.intoFixed v F - base) ≤ bits
      · have := hst.cmpFilter (by rw [hlen]; exact hn) (off := off) (by rw [hlen]; omega) useSimd g i v bm
          (by rw [hlen]; exact hL) h1' h2 h3
        rw [hlen] at this
        refine ⟨_, this, hL.filter _, ?_, ?_⟩
        · intro x hx
          have hr := hL.mem x hx
          rw [List.mem_filter, h.rel hge (h.dAt hr.1 hr.2)]
          simp [hx]
        · intro _ x hx
          exact (List.mem_filter.1 hx).1
      · refine ⟨if g then [] else Buff.allRecords off qs.length, ?_, ?_, ?_, ?_⟩
        · unfold Buff.cmpFilter
          rw [hst.header]
          simp only [h1', hlen]
          rw [if_neg (by simp), if_neg h2, if_pos (by omega)]
        · have := hall (!g)
          cases g
          · exact this
          · exact this
        · intro x hx
          have := hmemall x hx (!g)
          have hr := hL.mem x hx
          have hd := h.dAt hr.1 hr.2
          have hlt := Buff.dAt_lt hst off x
          have hbig : 2 ^ bits ≤ (Buff.intoFixed v F - base).toNat :=
            Nat.le_of_not_lt (fun hc => h3 (bitsLength_le_of_lt hc))
          have hs := Buff.sub_toNat hge
          have hqc : qAt qs off x < (Buff.intoFixed v F).toInt := by omega
          unfold relInt
          cases g
          · simp only [Bool.not_false, if_true, iff_true] at this
            cases i <;> simp [this] <;> omega
          · cases i <;> simp <;> omega
        · intro hi
          exact absurd (bitsLength_le_of_lt (h.inner hi).2.1) h3

/-- The equality filter, with a constant not above the chunk's maximum. -/
theorem Chunk.eq (h : Chunk qs F bytes base bits) (hn : qs.length * 8 < 2 ^ 32) {off : Nat}
    (hoff : off + qs.length < 2 ^ 32) (v : B64) (bm : Option Bitmap)
    (hL : Buff.Recs (bm.getD (List.range' off qs.length)) off qs.length)
    (htop : ∃ q ∈ qs, (Buff.intoFixed v F).toInt ≤ q.toInt) :
    ∃ R, Buff.equalFilter bytes v bm off = .ok R ∧ Buff.Recs R off qs.length ∧
      (∀ x ∈ bm.getD (List.range' off qs.length),
        (x ∈ R ↔ qAt qs off x = (Buff.intoFixed v F).toInt)) ∧
      ((∃ q ∈ qs, ∃ q' ∈ qs, q ≠ q') → ∀ x ∈ R, x ∈ bm.getD (List.range' off qs.length)) := by
  have hst := h.stored
  have hlen : (qs.map (fun x => (x - base).toNat)).length = qs.length := List.length_map _
  have hfit : ∀ q ∈ qs, (q - base).toNat < 2 ^ bits := fun q hq =>
    h.stored.fit _ (List.mem_map_of_mem (f := fun x : BitVec 64 => (x - base).toNat) hq)
  by_cases h1 : (Buff.intoFixed v F).slt base = true
  · have hlt : (Buff.intoFixed v F).toInt < base.toInt := BitVec.slt_iff_toInt_lt.1 h1
    refine ⟨[], ?_, ⟨List.Pairwise.nil, by simp⟩, ?_, by simp⟩
    · unfold Buff.equalFilter
      rw [hst.header]
      simp only [h1, if_true]
    · intro x hx
      have hr := hL.mem x hx
      have := h.base_le hr.1 hr.2
      simp
      omega
  · have h1' : (Buff.intoFixed v F).slt base = false := by simpa using h1
    have hge : base.toInt ≤ (Buff.intoFixed v F).toInt := by
      have : ¬ (Buff.intoFixed v F).toInt < base.toInt := fun hc => h1 (BitVec.slt_iff_toInt_lt.2 hc)
      omega
    by_cases h2 : bits = 0
    · refine ⟨if Buff.intoFixed v F = base then Buff.allRecords off qs.length else [], ?_, ?_, ?_, ?_⟩
      · unfold Buff.equalFilter
        rw [hst.header]
        simp only [h1', hlen]
        rw [if_neg (by simp), if_pos h2]
      · split
        · exact Buff.Recs.all off qs.length
        · exact ⟨List.Pairwise.nil, by simp⟩
      · intro x hx
        have hr := hL.mem x hx
        have hd := h.dAt hr.1 hr.2
        have hlt := Buff.dAt_lt hst off x
        rw [h2] at hlt
        have hq : qAt qs off x = base.toInt := by omega
        rw [hq]
        split
        · rename_i e
          rw [e]
          unfold Buff.allRecords
          rw [List.mem_range'_1]
          simp
          omega
        · rename_i e
          simp only [List.not_mem_nil, false_iff]
          exact fun hc => e (BitVec.eq_of_toInt_eq hc.symm)
      · rintro ⟨x, hx, y, hy, hxy⟩
        exfalso
        rw [h2] at hfit
        have e1 := hfit x hx
        have e2 := hfit y hy
        have e3 := Buff.sub_toNat (h.isMin.2 x hx)
        have e4 := Buff.sub_toNat (h.isMin.2 y hy)
        exact hxy (BitVec.eq_of_toInt_eq (by omega))
    · have := hst.equalFilter (by rw [hlen]; exact hn) (off := off) (by rw [hlen]; omega) v bm
        (by rw [hlen]; exact hL) h1' h2
      rw [hlen] at this
      refine ⟨_, this, hL.filter _, ?_, fun _ x hx => (List.mem_filter.1 hx).1⟩
      intro x hx
      have hr := hL.mem x hx
      have hd := h.dAt hr.1 hr.2
      have hs := Buff.sub_toNat hge
      have hP : (Buff.intoFixed v F - base).toNat < 2 ^ bits := by
        obtain ⟨q, hq, hle⟩ := htop
        have e1 := hfit q hq
        have e2 := Buff.sub_toNat (h.isMin.2 q hq)
        omega
      have hc : Buff.eqConst bits (Buff.intoFixed v F - base).toNat bm.isSome = (Buff.intoFixed v F - base).toNat := by
        unfold Buff.eqConst
        split
        · rename_i hb
          apply Nat.mod_eq_of_lt
          have : 2 ^ bits ≤ 2 ^ 8 := Nat.pow_le_pow_right (by decide) (by omega)
          omega
        · exact Nat.mod_eq_of_lt hP
      rw [List.mem_filter, hc, decide_eq_true_eq]
      simp only [hx, true_and]
      omega

end

/-! ## C36: filter -/

/-- The constants compared for equality are not above the chunk's maximum. -/
def EqBelowMax (qs : List (BitVec 64)) (F : Nat) : Predicate B64 → Prop
  | .eq v => ∃ q ∈ qs, (Buff.intoFixed v F).toInt ≤ q.toInt
  | .ne v => ∃ q ∈ qs, (Buff.intoFixed v F).toInt ≤ q.toInt
  | .range _ => True

/-- Where the result also stays inside the bitmask: every constant lies within the chunk's range and the
chunk has two different values. -/
def RangeInner (qs : List (BitVec 64)) (F : Nat) : RangeValue B64 → Prop
  | .inclusive v => Inner qs (Buff.intoFixed v F).toInt
  | .exclusive v => Inner qs (Buff.intoFixed v F).toInt
  | .none => True

@[inherit_doc RangeInner] def AllInner (qs : List (BitVec 64)) (F : Nat) : Predicate B64 → Prop
  | .eq _ => ∃ q ∈ qs, ∃ q' ∈ qs, q ≠ q'
  | .ne _ => True
  | .range g => RangeInner qs F g.start ∧ RangeInner qs F g.stop

theorem Chunk.bound {qs : List (BitVec 64)} {F : Nat} {bytes : List Byte} {base : BitVec 64} {bits : Nat}
    (h : Chunk qs F bytes base bits) (hn : qs.length * 8 < 2 ^ 32) {off : Nat}
    (hoff : off + qs.length < 2 ^ 32) (useSimd : Nat → Nat → Bool) (g : Bool) (bm : Option Bitmap)
    (hL : Buff.Recs (bm.getD (List.range' off qs.length)) off qs.length) (rv : RangeValue B64) :
    ∃ R : Option Bitmap, Buff.boundFilter useSimd g bytes bm off rv = .ok R ∧ (R = none ↔ rv = .none) ∧
      ∀ r, R = some r → Buff.Recs r off qs.length ∧
        (∀ x ∈ bm.getD (List.range' off qs.length), (x ∈ r ↔
          (match rv with
            | .inclusive v => relInt g true (Buff.intoFixed v F).toInt (qAt qs off x)
            | .exclusive v => relInt g false (Buff.intoFixed v F).toInt (qAt qs off x)
            | .none => true) = true)) ∧
        (RangeInner qs F rv → ∀ x ∈ r, x ∈ bm.getD (List.range' off qs.length)) := by
  cases rv with
  | none => exact ⟨none, rfl, by simp, by simp⟩
  | inclusive v =>
    obtain ⟨R, e, h1, h2, h3⟩ := h.cmp hn hoff useSimd g true v bm hL
    refine ⟨some R, by simp [Buff.boundFilter, e, Res.map], by simp, ?_⟩
    intro r hr
    simp only [Option.some.injEq] at hr
    subst hr
    exact ⟨h1, h2, h3⟩
  | exclusive v =>
    obtain ⟨R, e, h1, h2, h3⟩ := h.cmp hn hoff useSimd g false v bm hL
    refine ⟨some R, by simp [Buff.boundFilter, e, Res.map], by simp, ?_⟩
    intro r hr
    simp only [Option.some.injEq] at hr
    subst hr
    exact ⟨h1, h2, h3⟩

theorem range_eval (F : Nat) (g : Range B64) (q : Int) :
    Answers F (.range g) q =
      ((match g.start with
        | .inclusive v => relInt true true (Buff.intoFixed v F).toInt q
        | .exclusive v => relInt true false (Buff.intoFixed v F).toInt q
        | .none => true) &&
      (match g.stop with
        | .inclusive v => relInt false true (Buff.intoFixed v F).toInt q
        | .exclusive v => relInt false false (Buff.intoFixed v F).toInt q
        | .none => true)) := by
  obtain ⟨s, e⟩ := g
  unfold Answers Predicate.map Predicate.eval Range.eval intCmp relInt
  cases s <;> cases e <;> simp [RangeValue.map]

/-- The BUFF filter on any chunk, any bitmask, any predicate whose equality constant does not exceed the
chunk's maximum: no error, only records of the chunk, and on the selected records exactly those whose
stored integer satisfies the fixed-point predicate. If moreover the constants lie inside the chunk's
range, nothing outside the bitmask is returned.

Missing for the full claim, and false in the code: `c36_ignores_bitmask`, `c36_equal_aliases`. -/
theorem c36_filter_partial (useSimd : Nat → Nat → Bool) (qs : List (BitVec 64)) (F : Nat) (bytes : List Byte)
    (henc : Buff.encode qs F = .ok bytes) (hF : F < 2 ^ 32) (hn : qs.length * 8 < 2 ^ 32) (off : Nat)
    (hoff : off + qs.length < 2 ^ 32) (p : Predicate B64) (bm : Option Bitmap)
    (hbm : ∀ b, bm = some b → Bitmap.WF b) (hp : EqBelowMax qs F p) :
    ∃ R, (Buff.Reader.new qs.length bytes).filter useSimd p bm off = .ok R ∧
      R.Pairwise (· < ·) ∧ (∀ x ∈ R, off ≤ x ∧ x < off + qs.length) ∧
      (∀ x, Selected bm off qs.length x → (x ∈ R ↔ Answers F p (qAt qs off x) = true)) ∧
      (AllInner qs F p → ∀ x ∈ R, Selected bm off qs.length x) := by
  obtain ⟨base, bits, h⟩ := chunk_of_encode henc (by omega) hF
  obtain ⟨hL, hsel⟩ := restrict_spec qs.length bytes bm off hbm hoff
  have ho : off % 2 ^ 32 = off := Nat.mod_eq_of_lt (by omega)
  have hnn : qs.length % 2 ^ 32 = qs.length := Nat.mod_eq_of_lt (by omega)
  unfold Buff.Reader.filter
  simp only [ho]
  rw [show (Buff.Reader.new qs.length bytes).numberOfRecords = qs.length from rfl,
    show (Buff.Reader.new qs.length bytes).bytes = bytes from rfl, hnn]
  generalize hbm' : (Buff.Reader.new qs.length bytes).restrict bm off = bm' at *
  cases p with
  | eq v =>
    obtain ⟨R, e, h1, h2, h3⟩ := h.eq hn hoff v bm' hL hp
    refine ⟨R, e, h1.sorted, h1.mem, ?_, ?_⟩
    · intro x hx
      rw [h2 x ((hsel x).2 hx)]
      simp [Answers, Predicate.map, Predicate.eval, intCmp]
    · intro hi x hx
      exact (hsel x).1 (h3 hi x hx)
  | ne v =>
    obtain ⟨R, e, h1, h2, h3⟩ := h.eq hn hoff v bm' hL hp
    refine ⟨Buff.diff (bm'.getD (Buff.allRecords off qs.length)) R, by simp [e, Res.map], ?_, ?_, ?_, ?_⟩
    · exact hL.sorted.sublist List.filter_sublist
    · intro x hx
      exact hL.mem x (List.mem_filter.1 hx).1
    · intro x hx
      have hx' := (hsel x).2 hx
      unfold Buff.diff
      rw [List.mem_filter]
      have h2 := h2 x hx'
      have hx'' : x ∈ bm'.getD (Buff.allRecords off qs.length) := hx'
      simp only [hx'', true_and]
      unfold Answers Predicate.map Predicate.eval intCmp
      simp [h2]
    · intro _ x hx
      exact (hsel x).1 (List.mem_filter.1 hx).1
  | range g =>
    obtain ⟨A, eA, hA, rA⟩ := h.bound hn hoff useSimd true bm' hL g.start
    obtain ⟨B, eB, hB, rB⟩ := h.bound hn hoff useSimd false bm' hL g.stop
    simp only [eA, eB]
    refine ⟨_, rfl, ?_⟩
    have hLs : ∀ x, x ∈ bm'.getD (Buff.allRecords off qs.length) ↔ Selected bm off qs.length x := hsel
    cases A with
    | none =>
      have hs := hA.1 rfl
      cases B with
      | none =>
        have ht := hB.1 rfl
        simp only
        refine ⟨hL.sorted, hL.mem, ?_, fun _ x hx => (hsel x).1 hx⟩
        intro x hx
        rw [range_eval, hs, ht]
        simp [hLs x, hx]
      | some b =>
        obtain ⟨q1, q2, q3⟩ := rB b rfl
        simp only
        refine ⟨q1.sorted, q1.mem, ?_, fun hi x hx => (hsel x).1 (q3 hi.2 x hx)⟩
        intro x hx
        rw [range_eval, hs, q2 x ((hsel x).2 hx)]
        simp
    | some a =>
      obtain ⟨p1, p2, p3⟩ := rA a rfl
      cases B with
      | none =>
        have ht := hB.1 rfl
        simp only
        refine ⟨p1.sorted, p1.mem, ?_, fun hi x hx => (hsel x).1 (p3 hi.1 x hx)⟩
        intro x hx
        rw [range_eval, ht, p2 x ((hsel x).2 hx)]
        simp
      | some b =>
        obtain ⟨q1, q2, q3⟩ := rB b rfl
        simp only
        refine ⟨?_, ?_, ?_, ?_⟩
        · exact p1.sorted.sublist List.filter_sublist
        · intro x hx
          exact p1.mem x (Bitmap.mem_inter.1 hx).1
        · intro x hx
          rw [range_eval, Bitmap.mem_inter, p2 x ((hsel x).2 hx), q2 x ((hsel x).2 hx), Bool.and_eq_true]
        · intro hi x hx
          exact (hsel x).1 (p3 hi.1 x (Bitmap.mem_inter.1 hx).1)

/-- Without a bitmask the range filter is exact for every chunk and every range, whatever the outcomes of
the density test. -/
theorem c36_range_unmasked (useSimd : Nat → Nat → Bool) (qs : List (BitVec 64)) (F : Nat) (bytes : List Byte)
    (henc : Buff.encode qs F = .ok bytes) (hF : F < 2 ^ 32) (hn : qs.length * 8 < 2 ^ 32) (off : Nat)
    (hoff : off + qs.length < 2 ^ 32) (g : Range B64) :
    ∃ R, (Buff.Reader.new qs.length bytes).filter useSimd (.range g) none off = .ok R ∧
      ∀ x, x ∈ R ↔ off ≤ x ∧ x < off + qs.length ∧ Answers F (.range g) (qAt qs off x) = true := by
  obtain ⟨R, e, -, h2, h3, -⟩ := c36_filter_partial useSimd qs F bytes henc hF hn off hoff (.range g) none
    (by simp) trivial
  refine ⟨R, e, fun x => ?_⟩
  constructor
  · intro hx
    have := h2 x hx
    exact ⟨this.1, this.2, (h3 x ⟨this.1, this.2, by simp⟩).1 hx⟩
  · rintro ⟨a, b, c⟩
    exact (h3 x ⟨a, b, by simp⟩).2 c

/-- Three records 1.0, 2.0, 4.0 (`F = 0`, width 2). -/
def buffSample : List (BitVec 64) := [1#64, 2#64, 4#64]

/-- The filter returns records that the bitmask excludes: `v > 0` with only record 1 selected. -/
theorem c36_ignores_bitmask :
    (Buff.encode buffSample 0).bind (fun bytes => (Buff.Reader.new 3 bytes).filter (fun _ _ => false)
      (.range ⟨.exclusive 0#64, .none⟩) (some [1]) 0) = .ok [0, 1, 2] := by
  decide +kernel

/-- Equality with a constant above the maximum: `v = 257.0` answers record 0, which holds 1.0 (only the low
byte of `257 - base = 256` is compared). -/
theorem c36_equal_aliases :
    (Buff.encode buffSample 0).bind (fun bytes => (Buff.Reader.new 3 bytes).filter (fun _ _ => false)
      (.eq 0x4070100000000000#64) none 0) = .ok [0] ∧ Buff.intoFixed 0x4070100000000000#64 0 = 257#64 := by
  decide +kernel

/-- Non-trivial instance: constants inside the range, with a bitmask; `2 ≤ v ≤ 4` on records 0 and 2. -/
example : ∃ bytes, Buff.encode buffSample 0 = .ok bytes ∧
    (Buff.Reader.new 3 bytes).filter (fun _ _ => true)
      (.range ⟨.inclusive 0x4000000000000000#64, .inclusive 0x4010000000000000#64⟩) (some [10, 12, 40]) 10
      = .ok [12] := by
  refine ⟨_, rfl, ?_⟩
  decide +kernel

/-! ## C38: minimum, maximum, sum -/

theorem extremum_exists (isMin : Bool) (ds : List Nat) (off : Nat) (L : Bitmap) (h : L ≠ []) :
    ∃ m, Buff.Extremum isMin ds off L m := by
  induction L with
  | nil => exact absurd rfl h
  | cons x L ih =>
    by_cases hL : L = []
    · subst hL
      refine ⟨Buff.dAt ds off x, ⟨x, by simp, rfl⟩, ?_⟩
      intro y hy
      simp only [List.mem_singleton] at hy
      subst hy
      unfold Buff.betterEq; split <;> omega
    · obtain ⟨m, ⟨y, hy, hm⟩, hb⟩ := ih hL
      by_cases hc : Buff.betterEq isMin m (Buff.dAt ds off x)
      · refine ⟨m, ⟨y, by simp [hy], hm⟩, ?_⟩
        intro z hz
        rw [List.mem_cons] at hz
        rcases hz with rfl | hz
        · exact hc
        · exact hb z hz
      · refine ⟨Buff.dAt ds off x, ⟨x, by simp, rfl⟩, ?_⟩
        intro z hz
        rw [List.mem_cons] at hz
        rcases hz with rfl | hz
        · unfold Buff.betterEq; split <;> omega
        · have := hb z hz
          unfold Buff.betterEq at *
          cases isMin <;> simp at * <;> omega

theorem Chunk.value {qs : List (BitVec 64)} {F : Nat} {bytes : List Byte} {base : BitVec 64} {bits : Nat}
    (_ : Chunk qs F bytes base bits) (o : FloatOps) {off x : Nat} (h1 : off ≤ x) (h2 : x < off + qs.length) :
    Buff.dequant o F (base + BitVec.ofNat 64 (Buff.dAt (qs.map (fun x => (x - base).toNat)) off x))
      = fixedValue o F (qs.getD (x - off) 0) := by
  have hi : x - off < qs.length := by omega
  unfold Buff.dAt
  rw [List.getD_eq_getElem?_getD, List.getD_eq_getElem?_getD, List.getElem?_map, List.getElem?_eq_getElem hi]
  simp only [Option.map_some, Option.getD_some, BitVec.ofNat_toNat, BitVec.setWidth_eq]
  rw [BitVec.add_comm, BitVec.sub_add_cancel]
  rfl

/-- Maximum: the value of a selected record whose stored integer is the largest among the selected. -/
theorem c38_max (o : FloatOps) (qs : List (BitVec 64)) (F : Nat) (bytes : List Byte)
    (henc : Buff.encode qs F = .ok bytes) (hF : F < 2 ^ 32) (hn : qs.length * 8 < 2 ^ 32) (off : Nat)
    (hoff : off + qs.length < 2 ^ 32) (bm : Option Bitmap) (hbm : ∀ b, bm = some b → Bitmap.WF b)
    (hne : ∃ x, Selected bm off qs.length x) :
    ∃ x, Selected bm off qs.length x ∧ (∀ y, Selected bm off qs.length y → qAt qs off y ≤ qAt qs off x) ∧
      (Buff.Reader.new qs.length bytes).max o bm off = .ok (fixedValue o F (qs.getD (x - off) 0)) := by
  obtain ⟨base, bits, h⟩ := chunk_of_encode henc (by omega) hF
  obtain ⟨hL, hsel⟩ := restrict_spec qs.length bytes bm off hbm hoff
  have ho : off % 2 ^ 32 = off := Nat.mod_eq_of_lt (by omega)
  have hlen : (qs.map (fun x => (x - base).toNat)).length = qs.length := List.length_map _
  unfold Buff.Reader.max
  simp only [ho]
  rw [show (Buff.Reader.new qs.length bytes).bytes = bytes from rfl]
  generalize hbm' : (Buff.Reader.new qs.length bytes).restrict bm off = bm' at *
  have hLne : bm'.getD (List.range' off qs.length) ≠ [] := by
    obtain ⟨x, hx⟩ := hne
    intro hc
    have := (hsel x).2 hx
    rw [hc] at this
    simp at this
  obtain ⟨m, hm⟩ := extremum_exists false (qs.map (fun x => (x - base).toNat)) off _ hLne
  obtain ⟨x, hx, hxm⟩ := hm.attained
  have hr := hL.mem x hx
  refine ⟨x, (hsel x).1 hx, ?_, ?_⟩
  · intro y hy
    have hy' := (hsel y).2 hy
    have hry := hL.mem y hy'
    have e1 := h.dAt hr.1 hr.2
    have e2 := h.dAt hry.1 hry.2
    have := hm.best y hy'
    simp only [Buff.betterEq, Bool.false_eq_true, if_false] at this
    omega
  · rw [← h.value o hr.1 hr.2, hxm]
    cases bm' with
    | none =>
      simp only
      simp only [Option.getD_none] at hm
      exact h.stored.maxWithoutBitmask (by rw [hlen]; exact hn) o (by rw [hlen]; exact hm)
    | some b =>
      simp only [Option.getD_some] at hLne hm hL ⊢
      rw [if_neg hLne]
      exact h.stored.bestWithBitmask (by rw [hlen]; exact hn) o (by rw [hlen]; exact hL) hm

/-- Minimum. -/
theorem c38_min (o : FloatOps) (qs : List (BitVec 64)) (F : Nat) (bytes : List Byte)
    (henc : Buff.encode qs F = .ok bytes) (hF : F < 2 ^ 32) (hn : qs.length * 8 < 2 ^ 32) (off : Nat)
    (hoff : off + qs.length < 2 ^ 32) (bm : Option Bitmap) (hbm : ∀ b, bm = some b → Bitmap.WF b)
    (hne : ∃ x, Selected bm off qs.length x) :
    ∃ x, Selected bm off qs.length x ∧ (∀ y, Selected bm off qs.length y → qAt qs off x ≤ qAt qs off y) ∧
      (Buff.Reader.new qs.length bytes).min o bm off = .ok (fixedValue o F (qs.getD (x - off) 0)) := by
  obtain ⟨base, bits, h⟩ := chunk_of_encode henc (by omega) hF
  obtain ⟨hL, hsel⟩ := restrict_spec qs.length bytes bm off hbm hoff
  have ho : off % 2 ^ 32 = off := Nat.mod_eq_of_lt (by omega)
  have hlen : (qs.map (fun x => (x - base).toNat)).length = qs.length := List.length_map _
  unfold Buff.Reader.min
  simp only [ho]
  rw [show (Buff.Reader.new qs.length bytes).bytes = bytes from rfl]
  generalize hbm' : (Buff.Reader.new qs.length bytes).restrict bm off = bm' at *
  cases bm' with
  | none =>
    -- the base of the chunk
    obtain ⟨i, hi⟩ := List.getElem?_of_mem h.isMin.1
    have hilt : i < qs.length := (List.getElem?_eq_some_iff.1 hi).1
    have hq : qs.getD (off + i - off) 0 = base := by
      rw [show off + i - off = i by omega, List.getD_eq_getElem?_getD, hi]; rfl
    have hin : Selected bm off qs.length (off + i) := by
      rw [← hsel, Option.getD_none, List.mem_range'_1]; omega
    refine ⟨off + i, hin, ?_, ?_⟩
    · intro y hy
      have hry := hL.mem y ((hsel y).2 hy)
      have := h.base_le hry.1 hry.2
      unfold qAt at this ⊢
      rw [hq]
      exact this
    · simp only
      rw [hq]
      have hh := h.stored.header
      unfold Buff.minWithoutBitmask
      unfold Buff.readHeader at hh
      revert hh
      cases h1 : BitPack.readU32 bytes ⟨0, 0⟩ with
      | none => simp
      | some a =>
        obtain ⟨lo, p1⟩ := a
        cases h2 : BitPack.readU32 bytes p1 with
        | none => simp [h2]
        | some a =>
          obtain ⟨hi2, p2⟩ := a
          cases h3 : BitPack.readU32 bytes p2 with
          | none => simp [h2, h3]
          | some a =>
            obtain ⟨n, p3⟩ := a
            cases h4 : BitPack.readU32 bytes p3 with
            | none => simp [h2, h3, h4]
            | some a =>
              obtain ⟨bb, p4⟩ := a
              cases h5 : BitPack.readU32 bytes p4 with
              | none => simp [h2, h3, h4, h5]
              | some a =>
                obtain ⟨ff, p5⟩ := a
                have q3 : p3 = { p2 with cursor := p2.cursor + 4 } := by
                  unfold BitPack.readU32 at h3
                  split at h3
                  · simp at h3
                  · simp only [Option.some.injEq, Prod.mk.injEq] at h3; exact h3.2.symm
                have q4 : p4 = { p3 with cursor := p3.cursor + 4 } := by
                  unfold BitPack.readU32 at h4
                  split at h4
                  · simp at h4
                  · simp only [Option.some.injEq, Prod.mk.injEq] at h4; exact h4.2.symm
                have hp4 : BitPack.skipNByte p2 8 = p4 := by rw [q4, q3]; rfl
                simp only [h2, h3, h4, h5, hp4, Option.bind_eq_bind, Option.bind_some, Option.pure_def, Res.ok.injEq,
                  Prod.mk.injEq, Buff.Header.mk.injEq]
                rintro ⟨⟨e1, -, -, e4⟩, -⟩
                rw [e1, e4]
                rfl
  | some b =>
    simp only [Option.getD_some] at hL hsel
    have hLne : b ≠ [] := by
      obtain ⟨x, hx⟩ := hne
      rintro rfl
      have := (hsel x).2 hx
      simp at this
    obtain ⟨m, hm⟩ := extremum_exists true (qs.map (fun x => (x - base).toNat)) off b hLne
    obtain ⟨x, hx, hxm⟩ := hm.attained
    have hr := hL.mem x hx
    refine ⟨x, (hsel x).1 hx, ?_, ?_⟩
    · intro y hy
      have hy' := (hsel y).2 hy
      have hry := hL.mem y hy'
      have e1 := h.dAt hr.1 hr.2
      have e2 := h.dAt hry.1 hry.2
      have := hm.best y hy'
      simp only [Buff.betterEq, if_true] at this
      omega
    · simp only
      rw [← h.value o hr.1 hr.2, hxm, if_neg hLne]
      exact h.stored.bestWithBitmask (by rw [hlen]; exact hn) o (by rw [hlen]; exact hL) hm

/-- No selected record: not a number, for both. -/
theorem c38_empty (o : FloatOps) (n : Nat) (bytes : List Byte) (off : Nat) (b : Bitmap) (hb : Bitmap.WF b)
    (hoff : off + n < 2 ^ 32) (h : ∀ x, ¬ Selected (some b) off n x) :
    (Buff.Reader.new n bytes).max o (some b) off = .ok nanBits ∧
      (Buff.Reader.new n bytes).min o (some b) off = .ok nanBits := by
  obtain ⟨hL, hsel⟩ := restrict_spec n bytes (some b) off (by
    intro b' hb'; simp only [Option.some.injEq] at hb'; subst hb'; exact hb) hoff
  have ho : off % 2 ^ 32 = off := Nat.mod_eq_of_lt (by omega)
  unfold Buff.Reader.max Buff.Reader.min
  simp only [ho]
  cases hr : (Buff.Reader.new n bytes).restrict (some b) off with
  | none =>
    have := (restrict_isSome n bytes (some b) off).1 hr
    simp at this
  | some l =>
    rw [hr] at hsel
    simp only [Option.getD_some] at hsel
    have : l = [] := by
      cases l with
      | nil => rfl
      | cons x l => exact absurd ((hsel x).1 (by simp)) (h x)
    subst this
    simp

/-- Integer sum of a list. -/
def intSum : List Int → Int
  | [] => 0
  | x :: xs => x + intSum xs

/-- The selected stored integers, in record order. -/
def selectedInts (qs : List (BitVec 64)) (off : Nat) (bm : Option Bitmap) : List Int :=
  ((List.range' off qs.length).filter (fun x => match bm with | none => true | some b => b.contains x)).map (qAt qs off)

theorem Chunk.sum {qs : List (BitVec 64)} {F : Nat} {bytes : List Byte} {base : BitVec 64} {bits : Nat}
    (h : Chunk qs F bytes base bits) (off : Nat) (L : List Nat)
    (hL : ∀ x ∈ L, off ≤ x ∧ x < off + qs.length) :
    BitVec.ofNat 64 (L.map (Buff.dAt (qs.map (fun x => (x - base).toNat)) off)).sum
        + base * BitVec.ofNat 64 L.length
      = BitVec.ofInt 64 (intSum (L.map (qAt qs off))) := by
  induction L with
  | nil => simp [intSum]
  | cons x L ih =>
    have ih := ih (fun y hy => hL y (by simp [hy]))
    have hr := hL x (by simp)
    have hd := h.dAt hr.1 hr.2
    have e : BitVec.ofNat 64 (Buff.dAt (qs.map (fun x => (x - base).toNat)) off x) + base
        = BitVec.ofInt 64 (qAt qs off x) := by
      have : qAt qs off x = (Buff.dAt (qs.map (fun x => (x - base).toNat)) off x : Int) + base.toInt := by omega
      rw [this, BitVec.ofInt_add, BitVec.ofInt_natCast, BitVec.ofInt_toInt]
    simp only [List.map_cons, List.sum_cons, List.length_cons, intSum]
    rw [BitVec.ofInt_add, ← ih, ← e, BitVec.ofNat_add, BitVec.ofNat_add, BitVec.mul_add]
    generalize BitVec.ofNat 64 (Buff.dAt (qs.map (fun x => (x - base).toNat)) off x) = a
    generalize BitVec.ofNat 64 (L.map (Buff.dAt (qs.map (fun x => (x - base).toNat)) off)).sum = b
    generalize base * BitVec.ofNat 64 L.length = c
    have : base * BitVec.ofNat 64 1 = base := by simp
    rw [this]
    ac_rfl

/-- Sum, chunks with two different values: the integer sum of the selected records (wrapping `i64`) as a
value. If the integer sum fits in an `i64` it is not altered (`c38_sum_no_overflow`).

Missing for the full claim: chunks whose records are all equal, where the code multiplies in floating
point and ignores the bitmask (`c38_sum_constant`, `c38_sum_ignores_bitmask`). -/
theorem c38_sum_partial (o : FloatOps) (qs : List (BitVec 64)) (F : Nat) (bytes : List Byte)
    (henc : Buff.encode qs F = .ok bytes) (hF : F < 2 ^ 32) (hn : qs.length < 2 ^ 32) (off : Nat)
    (hoff : off + qs.length < 2 ^ 32) (bm : Option Bitmap) (hbm : ∀ b, bm = some b → Bitmap.WF b)
    (hne : ∃ q ∈ qs, ∃ q' ∈ qs, q ≠ q') :
    (Buff.Reader.new qs.length bytes).sum o bm off
      = .ok (fixedValue o F (BitVec.ofInt 64 (intSum (selectedInts qs off bm)))) := by
  obtain ⟨base, bits, h⟩ := chunk_of_encode henc hn hF
  obtain ⟨hL, hsel⟩ := restrict_spec qs.length bytes bm off hbm hoff
  have ho : off % 2 ^ 32 = off := Nat.mod_eq_of_lt (by omega)
  have hlen : (qs.map (fun x => (x - base).toNat)).length = qs.length := List.length_map _
  have hb : bits ≠ 0 := by
    obtain ⟨x, hx, y, hy, hxy⟩ := hne
    have hfit : ∀ q ∈ qs, (q - base).toNat < 2 ^ bits := fun q hq =>
      h.stored.fit _ (List.mem_map_of_mem (f := fun x : BitVec 64 => (x - base).toNat) hq)
    intro h0
    rw [h0] at hfit
    have e1 := hfit x hx
    have e2 := hfit y hy
    have e3 := Buff.sub_toNat (h.isMin.2 x hx)
    have e4 := Buff.sub_toNat (h.isMin.2 y hy)
    exact hxy (BitVec.eq_of_toInt_eq (by omega))
  unfold Buff.Reader.sum
  simp only [ho]
  rw [show (Buff.Reader.new qs.length bytes).bytes = bytes from rfl]
  have hs := h.stored.sumWithBitmask o off ((Buff.Reader.new qs.length bytes).restrict bm off)
    (by rw [hlen]; exact hL) hb
  rw [hlen] at hs
  rw [hs, h.sum off _ hL.mem]
  have : (((Buff.Reader.new qs.length bytes).restrict bm off)).getD (List.range' off qs.length)
      = (List.range' off qs.length).filter (fun x => match bm with | none => true | some b => b.contains x) := by
    apply Bitmap.sorted_ext hL.sorted ((Buff.sorted_range' _ _).sublist List.filter_sublist)
    intro x
    rw [hsel, List.mem_filter, List.mem_range'_1, Selected]
    cases bm with
    | none => simp
    | some b => simp [and_assoc]
  rw [this]
  unfold selectedInts
  cases bm <;> rfl

theorem c38_sum_no_overflow (s : Int) (h1 : -2 ^ 63 ≤ s) (h2 : s < 2 ^ 63) : (BitVec.ofInt 64 s).toInt = s := by
  rw [BitVec.toInt_ofInt]
  apply Int.bmod_eq_of_le <;> omega

/-- All records equal: the product in floating point, for every bitmask. -/
theorem c38_sum_constant (o : FloatOps) (q : BitVec 64) (n F : Nat) (bytes : List Byte)
    (henc : Buff.encode (List.replicate (n + 1) q) F = .ok bytes) (hF : F < 2 ^ 32) (hn : n + 1 < 2 ^ 32)
    (off : Nat) (bm : Option Bitmap) :
    (Buff.Reader.new (n + 1) bytes).sum o bm off = .ok (o.mul (fixedValue o F q) (o.ofNat (n + 1))) := by
  have hne : List.replicate (n + 1) q ≠ [] := by simp [List.replicate_succ]
  obtain ⟨base, top, h1, h2, hmin, hmax⟩ := Buff.minMaxIndex_spec (List.replicate (n + 1) q) hne
  have hb : base = q := List.eq_of_mem_replicate hmin.1
  have ht : top = q := List.eq_of_mem_replicate hmax.1
  subst hb
  subst ht
  have hst : Buff.Stored bytes top F 0 ((List.replicate (n + 1) top).map (fun x => (x - top).toNat)) := by
    refine ⟨?_, by simpa using hn, hF, by omega, ?_⟩
    · unfold Buff.encode at henc
      rw [h1, h2] at henc
      simp only at henc
      have hz : Buff.bitsLength (top - top) = 0 := by
        unfold Buff.bitsLength; rw [if_pos (BitVec.sub_self top)]
      rw [hz, List.length_replicate, Nat.mod_eq_of_lt hn] at henc
      have hw := Buff.writeHeader top (n + 1) 0 F hn (by decide) hF
      simp only [Option.bind_eq_bind] at henc hw
      rw [hw] at henc
      simp at henc
      rw [← henc]
      simp [Buff.layout, Buff.columns, Buff.tailBytes, leBytes, Buff.writeByteColumns]
    · intro d hd
      rw [List.mem_map] at hd
      obtain ⟨x, hx, rfl⟩ := hd
      rw [List.eq_of_mem_replicate hx]
      simp
  unfold Buff.Reader.sum Buff.sumWithBitmask
  simp only
  rw [show (Buff.Reader.new (n + 1) bytes).bytes = bytes from rfl, hst.header]
  simp only [if_true, List.length_map, List.length_replicate]
  rfl

/-- Concretely: two records 1.0, only the first selected, sum 2.0. -/
theorem c38_sum_ignores_bitmask :
    (Buff.encode [1#64, 1#64] 0).bind (fun bytes => (Buff.Reader.new 2 bytes).sum Soft.ops (some [0]) 0)
      = .ok 0x4000000000000000#64 := by
  decide +kernel

/-- Non-trivial instances: records 1, 2, 4 at offset 10, records 11 and 12 selected. -/
example : (Buff.encode buffSample 0).bind (fun bytes =>
      (Buff.Reader.new 3 bytes).sum Soft.ops (some [3, 11, 12]) 10) = .ok 0x4018000000000000#64 ∧
    (Buff.encode buffSample 0).bind (fun bytes =>
      (Buff.Reader.new 3 bytes).max Soft.ops (some [3, 11, 12]) 10) = .ok 0x4010000000000000#64 ∧
    (Buff.encode buffSample 0).bind (fun bytes =>
      (Buff.Reader.new 3 bytes).min Soft.ops (some [3, 11, 12]) 10) = .ok 0x4000000000000000#64 := by
  decide +kernel

end Ebi.Props
