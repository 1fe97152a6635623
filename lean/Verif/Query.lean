import Verif.Float

/-!
# Predicates and the default query implementations

`ebi/src/decoder/query.rs`.

A `RoaringBitmap` is a finite set of `u32`, kept here as the strictly increasing list of its
members.
-/

namespace Ebi

/-! ## Bitmaps -/

/-- `RoaringBitmap`: strictly increasing list of members. -/
abbrev Bitmap := List Nat

namespace Bitmap

/-- Strictly increasing, all members `u32`. -/
def WF (b : Bitmap) : Prop := b.Pairwise (· < ·) ∧ ∀ x ∈ b, x < 2 ^ 32

/-- `RoaringBitmap::insert`. -/
def insert (x : Nat) : Bitmap → Bitmap
  | [] => [x]
  | y :: ys => if x < y then x :: y :: ys else if x = y then y :: ys else y :: insert x ys

/-- `a &= b`. -/
def inter (a b : Bitmap) : Bitmap := a.filter (fun x => b.contains x)

/-- `a |= b`. -/
def union (a b : Bitmap) : Bitmap := b.foldl (fun acc x => insert x acc) a

theorem mem_insert {x y : Nat} {b : Bitmap} : y ∈ insert x b ↔ y = x ∨ y ∈ b := by
  induction b with
  | nil => simp [insert]
  | cons z zs ih =>
    simp only [insert]
    split
    · simp
    · split
      · rename_i h1 h2; subst h2; simp
      · simp only [List.mem_cons, ih]
        constructor
        · rintro (h | h | h) <;> simp [h]
        · rintro (h | h | h) <;> simp [h]

theorem insert_sorted {x : Nat} {b : Bitmap} (h : b.Pairwise (· < ·)) :
    (insert x b).Pairwise (· < ·) := by
  induction b with
  | nil => simp [insert]
  | cons z zs ih =>
    rw [List.pairwise_cons] at h
    simp only [insert]
    split
    · rename_i hx
      rw [List.pairwise_cons, List.pairwise_cons]
      refine ⟨?_, h⟩
      intro a ha
      rw [List.mem_cons] at ha
      rcases ha with rfl | ha
      · exact hx
      · exact Nat.lt_trans hx (h.1 a ha)
    · split
      · rw [List.pairwise_cons]; exact h
      · rw [List.pairwise_cons]
        refine ⟨?_, ih h.2⟩
        intro a ha
        rcases mem_insert.1 ha with rfl | ha
        · omega
        · exact h.1 a ha

theorem insert_wf {x : Nat} {b : Bitmap} (h : WF b) (hx : x < 2 ^ 32) : WF (insert x b) := by
  refine ⟨insert_sorted h.1, ?_⟩
  intro y hy
  rcases mem_insert.1 hy with rfl | hy
  · exact hx
  · exact h.2 y hy

theorem mem_union {x : Nat} {a b : Bitmap} : x ∈ union a b ↔ x ∈ a ∨ x ∈ b := by
  unfold union
  induction b generalizing a with
  | nil => simp
  | cons y ys ih =>
    rw [List.foldl_cons, ih, mem_insert, List.mem_cons]
    constructor
    · rintro ((h | h) | h) <;> simp [h]
    · rintro (h | h | h) <;> simp [h]

theorem union_wf {a b : Bitmap} (ha : WF a) (hb : WF b) : WF (union a b) := by
  unfold union
  induction b generalizing a with
  | nil => exact ha
  | cons y ys ih =>
    rw [List.foldl_cons]
    exact ih (insert_wf ha (hb.2 y (by simp)))
      ⟨(List.pairwise_cons.1 hb.1).2, fun x hx => hb.2 x (by simp [hx])⟩

theorem mem_inter {x : Nat} {a b : Bitmap} : x ∈ inter a b ↔ x ∈ a ∧ x ∈ b := by
  simp [inter]

theorem inter_wf {a : Bitmap} (b : Bitmap) (ha : WF a) : WF (inter a b) :=
  ⟨ha.1.filter _, fun x hx => ha.2 x (List.mem_filter.1 hx).1⟩

/-- Two sets with the same members are the same bitmap. -/
theorem ext {a b : Bitmap} (ha : WF a) (hb : WF b) (h : ∀ x, x ∈ a ↔ x ∈ b) : a = b := by
  obtain ⟨ha, -⟩ := ha
  obtain ⟨hb, -⟩ := hb
  induction a generalizing b with
  | nil =>
    cases b with
    | nil => rfl
    | cons y ys => exact absurd ((h y).2 (by simp)) (by simp)
  | cons x xs ih =>
    cases b with
    | nil => exact absurd ((h x).1 (by simp)) (by simp)
    | cons y ys =>
      rw [List.pairwise_cons] at ha hb
      have hxy : x = y := by
        have h1 := (h x).1 (by simp)
        have h2 := (h y).2 (by simp)
        rw [List.mem_cons] at h1 h2
        rcases h1 with h1 | h1
        · exact h1
        · rcases h2 with h2 | h2
          · exact h2.symm
          · have := ha.1 y h2
            have := hb.1 x h1
            omega
      subst hxy
      congr 1
      refine ih ?_ ha.2 hb.2
      intro z
      have hz := h z
      rw [List.mem_cons, List.mem_cons] at hz
      constructor
      · intro h1
        rcases hz.1 (Or.inr h1) with rfl | h2
        · have := ha.1 z h1; omega
        · exact h2
      · intro h1
        rcases hz.2 (Or.inr h1) with rfl | h2
        · have := hb.1 z h1; omega
        · exact h2

/-- Inserting a new maximum appends. -/
theorem insert_max {x : Nat} {b : Bitmap} (h : ∀ y ∈ b, y < x) : insert x b = b ++ [x] := by
  induction b with
  | nil => rfl
  | cons y ys ih =>
    have hy := h y (by simp)
    rw [insert, if_neg (by omega), if_neg (by omega), ih (fun z hz => h z (by simp [hz]))]
    rfl

end Bitmap

/-! ## Predicates -/

/-- The comparison operators of a `PredicateNumber` (query.rs:309-310). -/
structure CmpOps (T : Type) where
  eq : T → T → Bool
  lt : T → T → Bool
  le : T → T → Bool

/-- `f64`. -/
def f64Cmp : CmpOps B64 := ⟨feq, flt, fle⟩

/-- `i64` (as a two's complement pattern). -/
def i64Cmp : CmpOps (BitVec 64) := ⟨fun a b => a == b, fun a b => a.slt b, fun a b => a.sle b⟩

/-- `RangeValueImpl` (query.rs:314-318). -/
inductive RangeValue (T : Type) where
  | inclusive (v : T)
  | exclusive (v : T)
  | none
deriving DecidableEq

/-- `RangeImpl` (query.rs:334-337). -/
structure Range (T : Type) where
  start : RangeValue T
  stop : RangeValue T
deriving DecidableEq

/-- `PredicateImpl` (query.rs:388-392). -/
inductive Predicate (T : Type) where
  | eq (v : T)
  | ne (v : T)
  | range (r : Range T)
deriving DecidableEq

/-- `RangeImpl::eval` (query.rs:358-371): `value >= v` is `v <= value`. -/
def Range.eval {T : Type} (o : CmpOps T) (r : Range T) (value : T) : Bool :=
  let startEval := match r.start with
    | .inclusive v => o.le v value
    | .exclusive v => o.lt v value
    | .none => true
  let endEval := match r.stop with
    | .inclusive v => o.le value v
    | .exclusive v => o.lt value v
    | .none => true
  startEval && endEval

/-- `PredicateImpl::eval` (query.rs:397-403). -/
def Predicate.eval {T : Type} (o : CmpOps T) : Predicate T → T → Bool
  | .eq v, value => o.eq value v
  | .ne v, value => !o.eq value v
  | .range r, value => r.eval o value

/-- `RangeValueImpl::map` (query.rs:321-327). -/
def RangeValue.map {T U : Type} (f : T → U) : RangeValue T → RangeValue U
  | .inclusive v => .inclusive (f v)
  | .exclusive v => .exclusive (f v)
  | .none => .none

/-- `PredicateImpl::map` (query.rs:405-411) with `RangeImpl::map` (373-378). -/
def Predicate.map {T U : Type} (f : T → U) : Predicate T → Predicate U
  | .eq v => .eq (f v)
  | .ne v => .ne (f v)
  | .range r => .range ⟨r.start.map f, r.stop.map f⟩

/-! ## Arithmetic, kept abstract -/

/-- The `f64` arithmetic used by queries. Theorems about queries hold for every interpretation. -/
structure FloatOps where
  add : B64 → B64 → B64
  sub : B64 → B64 → B64
  mul : B64 → B64 → B64
  div : B64 → B64 → B64
  /-- `f64::min` / `f64::max` -/
  fmin : B64 → B64 → B64
  fmax : B64 → B64 → B64
  /-- initial value of `Iterator::sum::<f64>` (0.0 or -0.0 depending on the Rust version) -/
  sumInit : B64
  /-- `i64 as f64` -/
  ofI64 : BitVec 64 → B64
  /-- `v as i64` (saturating) -/
  toI64 : B64 → BitVec 64
  /-- `f64::round` -/
  round : B64 → B64
  /-- `u64 as f64` / `u32 as f64` -/
  ofNat : Nat → B64

/-! ## Default query implementations on the decompressed values -/

/-- `!bitmask.is_some_and(|bm| !bm.contains(record_offset as u32))`. -/
def selected (bm : Option Bitmap) (recordOffset : Nat) : Bool :=
  match bm with
  | none => true
  | some b => b.contains (recordOffset % 2 ^ 32)

/-- `default_materialize` (query.rs:15-34): the doubles written, `off` = `logical_offset + i`. -/
def defaultMaterialize (bm : Option Bitmap) : Nat → List B64 → List B64
  | _, [] => []
  | off, v :: vs =>
    if selected bm off then v :: defaultMaterialize bm (off + 1) vs
    else defaultMaterialize bm (off + 1) vs

/-- `default_filter` (query.rs:36-60). -/
def defaultFilter (p : Predicate B64) (bm : Option Bitmap) (result : Bitmap) :
    Nat → List B64 → Bitmap
  | _, [] => result
  | off, v :: vs =>
    if selected bm off then
      if p.eval f64Cmp v then
        defaultFilter p bm (Bitmap.insert (off % 2 ^ 32) result) (off + 1) vs
      else defaultFilter p bm result (off + 1) vs
    else defaultFilter p bm result (off + 1) vs

/-- `default_filter_materialize` (query.rs:62-86). -/
def defaultFilterMaterialize (p : Predicate B64) (bm : Option Bitmap) : Nat → List B64 → List B64
  | _, [] => []
  | off, v :: vs =>
    if selected bm off then
      if p.eval f64Cmp v then v :: defaultFilterMaterialize p bm (off + 1) vs
      else defaultFilterMaterialize p bm (off + 1) vs
    else defaultFilterMaterialize p bm (off + 1) vs

/-- The common loop of `default_sum` (88-108), `default_min` (110-130), `default_max` (132-152). -/
def defaultFold (f : B64 → B64 → B64) (bm : Option Bitmap) (acc : B64) : Nat → List B64 → B64
  | _, [] => acc
  | off, v :: vs =>
    if selected bm off then defaultFold f bm (f acc v) (off + 1) vs
    else defaultFold f bm acc (off + 1) vs

/-- `default_sum` (88-108). -/
def defaultSum (o : FloatOps) (bm : Option Bitmap) (off : Nat) (vs : List B64) : B64 :=
  defaultFold o.add bm 0#64 off vs

/-- `default_min` (110-130). -/
def defaultMin (o : FloatOps) (bm : Option Bitmap) (off : Nat) (vs : List B64) : B64 :=
  defaultFold o.fmin bm posInf off vs

/-- `default_max` (132-152). -/
def defaultMax (o : FloatOps) (bm : Option Bitmap) (off : Nat) (vs : List B64) : B64 :=
  defaultFold o.fmax bm negInf off vs

/-- `default_distance_squared` (154-172). -/
def defaultDistanceSquared (o : FloatOps) (offsetInChunk : Nat) (target : List B64) (vs : List B64) :
    B64 :=
  let offsetInChunk := min vs.length offsetInChunk
  (((vs.drop offsetInChunk).zip target).map
    (fun (a, b) => o.mul (o.sub a b) (o.sub a b))).foldl o.add o.sumInit

/-- `default_dot_product` (174-192). -/
def defaultDotProduct (o : FloatOps) (offsetInChunk : Nat) (target : List B64) (vs : List B64) : B64 :=
  let offsetInChunk := min vs.length offsetInChunk
  (((vs.drop offsetInChunk).zip target).map (fun (a, b) => o.mul a b)).foldl o.add o.sumInit

/-! ## Lemmas: the loops against list comprehensions -/

theorem defaultMaterialize_eq (bm : Option Bitmap) (off : Nat) (vs : List B64) :
    defaultMaterialize bm off vs
      = ((vs.zipIdx off).filter (fun p => selected bm p.2)).map Prod.fst := by
  induction vs generalizing off with
  | nil => rfl
  | cons v vs ih =>
    simp only [defaultMaterialize, List.zipIdx_cons, List.filter_cons]
    split <;> simp [ih]

theorem defaultFilterMaterialize_eq (p : Predicate B64) (bm : Option Bitmap) (off : Nat)
    (vs : List B64) :
    defaultFilterMaterialize p bm off vs
      = ((vs.zipIdx off).filter (fun q => selected bm q.2 && p.eval f64Cmp q.1)).map Prod.fst := by
  induction vs generalizing off with
  | nil => rfl
  | cons v vs ih =>
    simp only [defaultFilterMaterialize, List.zipIdx_cons, List.filter_cons]
    cases selected bm off <;> cases p.eval f64Cmp v <;> simp [ih]

theorem defaultFold_eq (f : B64 → B64 → B64) (bm : Option Bitmap) (acc : B64) (off : Nat)
    (vs : List B64) :
    defaultFold f bm acc off vs = (defaultMaterialize bm off vs).foldl f acc := by
  induction vs generalizing off acc with
  | nil => rfl
  | cons v vs ih =>
    simp only [defaultFold, defaultMaterialize]
    split <;> simp [ih]

theorem mem_defaultFilter (p : Predicate B64) (bm : Option Bitmap) (res : Bitmap) (off : Nat)
    (vs : List B64) (x : Nat) :
    x ∈ defaultFilter p bm res off vs ↔ x ∈ res ∨
      ∃ v i, (v, i) ∈ vs.zipIdx off ∧ selected bm i ∧ p.eval f64Cmp v ∧ x = i % 2 ^ 32 := by
  induction vs generalizing off res with
  | nil => simp [defaultFilter]
  | cons v vs ih =>
    simp only [defaultFilter, List.zipIdx_cons, List.mem_cons, Prod.mk.injEq]
    have skip : ∀ (h : ¬ (selected bm off = true ∧ p.eval f64Cmp v = true)),
        (x ∈ res ∨ (∃ w i, (w, i) ∈ vs.zipIdx (off + 1) ∧ selected bm i ∧ p.eval f64Cmp w ∧
          x = i % 2 ^ 32)) ↔ (x ∈ res ∨ ∃ w i, (w = v ∧ i = off ∨ (w, i) ∈ vs.zipIdx (off + 1)) ∧
          selected bm i = true ∧ p.eval f64Cmp w = true ∧ x = i % 2 ^ 32) := by
      intro h
      constructor
      · rintro (h1 | ⟨w, i, h1, h2⟩)
        · exact Or.inl h1
        · exact Or.inr ⟨w, i, Or.inr h1, h2⟩
      · rintro (h1 | ⟨w, i, h1 | h1, h2, h3, h4⟩)
        · exact Or.inl h1
        · obtain ⟨rfl, rfl⟩ := h1
          exact absurd ⟨h2, h3⟩ h
        · exact Or.inr ⟨w, i, h1, h2, h3, h4⟩
    by_cases h1 : selected bm off = true
    · rw [if_pos h1]
      by_cases h2 : p.eval f64Cmp v = true
      · rw [if_pos h2, ih, Bitmap.mem_insert]
        constructor
        · rintro ((h | h) | ⟨w, i, h, h'⟩)
          · exact Or.inr ⟨v, off, Or.inl ⟨rfl, rfl⟩, h1, h2, h⟩
          · exact Or.inl h
          · exact Or.inr ⟨w, i, Or.inr h, h'⟩
        · rintro (h | ⟨w, i, h | h, h', h3, h4⟩)
          · exact Or.inl (Or.inr h)
          · obtain ⟨rfl, rfl⟩ := h
            exact Or.inl (Or.inl h4)
          · exact Or.inr ⟨w, i, h, h', h3, h4⟩
      · rw [if_neg h2, ih]
        exact skip (fun h => h2 h.2)
    · rw [if_neg h1, ih]
      exact skip (fun h => h1 h.1)

theorem defaultFilter_wf (p : Predicate B64) (bm : Option Bitmap) (res : Bitmap) (off : Nat)
    (vs : List B64) (h : Bitmap.WF res) : Bitmap.WF (defaultFilter p bm res off vs) := by
  induction vs generalizing off res with
  | nil => exact h
  | cons v vs ih =>
    simp only [defaultFilter]
    split
    · split
      · exact ih _ _ (Bitmap.insert_wf h (Nat.mod_lt _ (by decide)))
      · exact ih _ _ h
    · exact ih _ _ h

theorem wf_nil : Bitmap.WF [] := ⟨List.Pairwise.nil, by simp⟩

end Ebi
