import Verif.DecoderLemmas
import Verif.Schemes

/-!
# Queries over an encoded file, reduced to folds over the visited chunks
-/

namespace Ebi

abbrev Chunk := List B64 × List Byte

/-- Chunks with their logical offset. -/
def placed : Nat → List Chunk → List (Nat × Chunk)
  | _, [] => []
  | off, c :: cs => (off, c) :: placed (off + c.1.length) cs

/-- The chunks a query looks at. -/
def visited (bm : Option Bitmap) (cid : Option Nat) : Nat → Nat → List Chunk → List (Nat × Chunk)
  | _, _, [] => []
  | i, off, c :: cs =>
    if cid.all (· == i) && !rangeDisjoint bm (off, off + c.1.length) then
      (off, c) :: visited bm cid (i + 1) (off + c.1.length) cs
    else visited bm cid (i + 1) (off + c.1.length) cs

theorem visited_subset {bm : Option Bitmap} {cid : Option Nat} {i off : Nat} {cs : List Chunk}
    {p : Nat × Chunk} (h : p ∈ visited bm cid i off cs) : p ∈ placed off cs := by
  induction cs generalizing i off with
  | nil => simp [visited] at h
  | cons c cs ih =>
    rw [visited] at h
    rw [placed, List.mem_cons]
    split at h
    · rcases List.mem_cons.1 h with h | h
      · exact Or.inl h
      · exact Or.inr (ih h)
    · exact Or.inr (ih h)

theorem visited_none (bm : Option Bitmap) (i off : Nat) (cs : List Chunk) :
    visited bm none i off cs
      = (placed off cs).filter fun p => !rangeDisjoint bm (p.1, p.1 + p.2.1.length) := by
  induction cs generalizing i off with
  | nil => rfl
  | cons c cs ih => simp [visited, placed, List.filter_cons, ih]

theorem visited_some_of_lt (bm : Option Bitmap) (k i off : Nat) (cs : List Chunk) (h : k < i) :
    visited bm (some k) i off cs = [] := by
  induction cs generalizing i off with
  | nil => rfl
  | cons c cs ih =>
    rw [visited, if_neg, ih (i + 1) _ (by omega)]
    simp
    omega

/-- With a chunk id at most that chunk is looked at. -/
theorem visited_some (bm : Option Bitmap) (k i off : Nat) (cs : List Chunk) :
    visited bm (some (i + k)) i off cs
      = ((placed off cs)[k]?.toList).filter fun p => !rangeDisjoint bm (p.1, p.1 + p.2.1.length) := by
  induction cs generalizing i off k with
  | nil => simp [visited, placed]
  | cons c cs ih =>
    cases k with
    | zero =>
      rw [visited, visited_some_of_lt _ _ _ _ _ (by omega)]
      simp [placed, List.filter_cons]
    | succ k =>
      rw [visited, if_neg (by simp), show i + (k + 1) = i + 1 + k by omega, ih]
      simp [placed]

theorem walk_eq {A : Type} (bm : Option Bitmap) (cid : Option Nat) (g : Nat → Chunk → A → Res A)
    (i off : Nat) (cs : List Chunk) (a : A) :
    walk bm cid g i off cs a = (visited bm cid i off cs).foldlM (fun a p => g p.1 p.2 a) a := by
  induction cs generalizing i off a with
  | nil => rfl
  | cons c cs ih =>
    rw [walk, visited]
    cases h1 : cid.all (· == i)
    · simp [ih]
    · cases h2 : rangeDisjoint bm (off, off + c.1.length)
      · simp [ih, List.foldlM_cons]
      · simp [ih]

theorem foldlM_ok {A B : Type} {f : A → B → Res A} {h : A → B → A} (xs : List B)
    (H : ∀ x ∈ xs, ∀ a, f a x = .ok (h a x)) (a : A) : xs.foldlM f a = .ok (xs.foldl h a) := by
  induction xs generalizing a with
  | nil => rfl
  | cons x xs ih =>
    rw [List.foldlM_cons, H x (by simp) a, Res.bind_ok, ih (fun y hy => H y (by simp [hy]))]
    rfl

theorem placed_split {off : Nat} {cs : List Chunk} {p : Nat × Chunk} (h : p ∈ placed off cs) :
    ∃ pre suf, cs = pre ++ p.2 :: suf ∧ p.1 = off + recordCount pre := by
  induction cs generalizing off with
  | nil => simp [placed] at h
  | cons c cs ih =>
    rw [placed, List.mem_cons] at h
    rcases h with rfl | h
    · exact ⟨[], cs, rfl, by simp [recordCount]⟩
    · obtain ⟨pre, suf, e1, e2⟩ := ih h
      obtain ⟨cv, cb⟩ := c
      exact ⟨(cv, cb) :: pre, suf, by simp [e1], by rw [recordCount_cons, e2, Nat.add_assoc]⟩

theorem placed_append (off : Nat) (xs ys : List Chunk) :
    placed off (xs ++ ys) = placed off xs ++ placed (off + recordCount xs) ys := by
  induction xs generalizing off with
  | nil => simp [placed, recordCount]
  | cons c xs ih =>
    obtain ⟨cv, cb⟩ := c
    simp [placed, ih, recordCount_cons, Nat.add_assoc]

theorem placed_getElem (off : Nat) (cs : List Chunk) (k : Nat) :
    (placed off cs)[k]? = (cs[k]?).map fun c => (off + recordCount (cs.take k), c) := by
  induction cs generalizing off k with
  | nil => simp [placed]
  | cons c cs ih =>
    obtain ⟨cv, cb⟩ := c
    cases k with
    | zero => simp [placed, recordCount]
    | succ k => simp [placed, ih, recordCount_cons, Nat.add_assoc]

section

variable {cfg : Config} {opt : ChunkOption} {version : Nat × Nat × Nat} {times : Times}
  {elapsed : Duration} {cs : List Chunk}

/-- A query over the file is a fold over the visited chunks, given what it does with one chunk. -/
theorem query_eq (S : Scheme) (hf : Fits cfg opt version times elapsed cs)
    {A : Type} (bm : Option Bitmap) (hr : bm = none ∨ recordCount cs < 2 ^ 32) (cid : Option Nat)
    (op : Nat → List Byte → Nat → A → Res A) (h : A → Nat × Chunk → A)
    (hop : ∀ p ∈ visited bm cid 0 0 cs, ∀ a, op p.2.1.length p.2.2 p.1 a = .ok (h a p)) (a : A) :
    chunkLoop (metadataOf cfg opt version times elapsed cs) bm cid (fun i a => do
      let (n, bs, off) ← loadChunk S (layout cfg opt version times elapsed cs)
        (metadataOf cfg opt version times elapsed cs) i
      op n bs off a) (List.range cs.length) a
      = .ok ((visited bm cid 0 0 cs).foldl h a) := by
  rw [chunkLoop_walk bm hr cid _ (fun off c a => op c.1.length c.2 off a), walk_eq, foldlM_ok]
  · exact hop
  · rintro pre ⟨c, b⟩ suf a rfl
    simp only [loadChunk_layout S hf, Res.bind_ok]

end

/-! ## Selection -/

/-- Values of a chunk chosen by a bitmask, given the offset of the first. -/
theorem defaultMaterialize_append (bm : Option Bitmap) (off : Nat) (xs ys : List B64) :
    defaultMaterialize bm off (xs ++ ys)
      = defaultMaterialize bm off xs ++ defaultMaterialize bm (off + xs.length) ys := by
  induction xs generalizing off with
  | nil => simp [defaultMaterialize]
  | cons x xs ih =>
    simp only [List.cons_append, defaultMaterialize, ih, List.length_cons,
      show off + 1 + xs.length = off + (xs.length + 1) by omega]
    split <;> simp

theorem defaultMaterialize_disjoint {bm : Option Bitmap} {off : Nat} {vs : List B64}
    (h : rangeDisjoint bm (off, off + vs.length) = true)
    (hr : bm = none ∨ off + vs.length < 2 ^ 32) :
    defaultMaterialize bm off vs = [] := by
  induction vs generalizing off with
  | nil => rfl
  | cons v vs ih =>
    cases bm with
    | none => simp [rangeDisjoint] at h
    | some b =>
      replace hr : off + (v :: vs).length < 2 ^ 32 := by
        rcases hr with hr | hr
        · cases hr
        · exact hr
      simp only [List.length_cons] at h hr
      have h0 : ∀ x ∈ b, ¬ (off ≤ x ∧ x < off + (vs.length + 1)) := by
        simpa [rangeDisjoint] using h
      rw [defaultMaterialize, if_neg, ih _ (Or.inr (by omega))]
      · simp only [rangeDisjoint, Bool.not_eq_true', List.any_eq_false, decide_eq_true_eq]
        intro x hx h1
        exact h0 x hx ⟨by omega, by omega⟩
      · simp only [selected, List.contains_iff_mem]
        intro hm
        rw [Nat.mod_eq_of_lt (by omega)] at hm
        exact h0 off hm ⟨by omega, by omega⟩

theorem defaultFilterMaterialize_append (p : Predicate B64) (bm : Option Bitmap) (off : Nat)
    (xs ys : List B64) :
    defaultFilterMaterialize p bm off (xs ++ ys)
      = defaultFilterMaterialize p bm off xs ++ defaultFilterMaterialize p bm (off + xs.length) ys := by
  induction xs generalizing off with
  | nil => simp [defaultFilterMaterialize]
  | cons x xs ih =>
    simp only [List.cons_append, defaultFilterMaterialize, ih, List.length_cons,
      show off + 1 + xs.length = off + (xs.length + 1) by omega]
    split
    · split <;> simp
    · rfl

theorem defaultFilterMaterialize_filter (p : Predicate B64) (bm : Option Bitmap) (off : Nat)
    (vs : List B64) : defaultFilterMaterialize p bm off vs
      = (defaultMaterialize bm off vs).filter fun v => p.eval f64Cmp v := by
  induction vs generalizing off with
  | nil => rfl
  | cons v vs ih =>
    simp only [defaultFilterMaterialize, defaultMaterialize, ih]
    split
    · rw [List.filter_cons]
    · rfl

/-- All chunks, skipped or not, contribute what they select. -/
theorem flatMap_visited_none {bm : Option Bitmap} (view : B64 → B64) {off : Nat} (cs : List Chunk) (i : Nat)
    (hr : bm = none ∨ off + recordCount cs < 2 ^ 32) :
    (visited bm none i off cs).flatMap (fun p => defaultMaterialize bm p.1 (p.2.1.map view))
      = defaultMaterialize bm off ((cs.flatMap Prod.fst).map view) := by
  induction cs generalizing off i with
  | nil => rfl
  | cons c cs ih =>
    obtain ⟨cv, cb⟩ := c
    rw [recordCount_cons] at hr
    simp only [List.flatMap_cons, List.map_append, defaultMaterialize_append, List.length_map]
    rw [← ih (i + 1) (hr.imp id (fun h => by omega)), visited]
    cases h : rangeDisjoint bm (off, off + cv.length)
    · simp [h]
    · have := defaultMaterialize_disjoint (bm := bm) (off := off) (vs := cv.map view)
        (by simpa using h)
        (hr.imp id (fun h => by simp; omega))
      simp [this, h]

theorem flatMap_visited_some {bm : Option Bitmap} (view : B64 → B64) {off : Nat} (cs : List Chunk) (k : Nat)
    (hr : bm = none ∨ off + recordCount cs < 2 ^ 32) :
    (visited bm (some k) 0 off cs).flatMap (fun p => defaultMaterialize bm p.1 (p.2.1.map view))
      = defaultMaterialize bm (off + recordCount (cs.take k)) (((cs[k]?.map Prod.fst).getD []).map view) := by
  have := visited_some bm k 0 off cs
  rw [Nat.zero_add] at this
  rw [this, placed_getElem]
  cases hk : cs[k]? with
  | none => simp [defaultMaterialize]
  | some c =>
    have hs : recordCount (cs.take k) + c.1.length ≤ recordCount cs := by
      obtain ⟨hlt, he⟩ := List.getElem?_eq_some_iff.1 hk
      have h1 : cs.take k ++ (c :: cs.drop (k + 1)) = cs := by
        rw [← he, ← List.drop_eq_getElem_cons hlt, List.take_append_drop]
      have h2 := congrArg recordCount h1
      obtain ⟨cv, cb⟩ := c
      rw [recordCount_append, recordCount_cons] at h2
      simp only
      omega
    simp only [Option.map_some, Option.toList_some, Option.getD_some]
    cases h : rangeDisjoint bm (off + recordCount (cs.take k), off + recordCount (cs.take k) + c.1.length)
    · simp [h]
    · have := defaultMaterialize_disjoint (bm := bm) (off := off + recordCount (cs.take k))
        (vs := c.1.map view) (by simpa using h)
        (hr.imp id (fun h => by simp; omega))
      simp [this, h]

end Ebi
