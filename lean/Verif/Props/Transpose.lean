import Verif.Transpose
import Verif.Props.Table

/-!
# C78: the table by compression method holds the same results
-/

namespace Ebi.Props

open Ebi Ebi.Table

variable {V W : Type}

/-- What a `HashMap` guarantees: distinct keys, inside too. -/
def IsTable (t : HMap (HMap V)) : Prop := (t.map Prod.fst).Nodup ∧ ∀ e ∈ t, (e.2.map Prod.fst).Nodup

/-- The spec: the cells of a table, as triples. -/
def cells (t : HMap (HMap V)) : List (String × String × V) := t.flatMap fun e => e.2.map fun c => (e.1, c.1, c.2)

/-! ### Helpers -/

theorem hget_cons (k k' : String) (v : V) (t : HMap V) :
    HMap.get ((k', v) :: t) k = if k' = k then some v else HMap.get t k := by
  unfold HMap.get
  rw [List.find?_cons]
  by_cases h : k' = k
  · subst h; simp
  · have hb : (k' == k) = false := by simpa using h
    simp only [hb, if_neg h]

theorem hget_insert (t : HMap V) (k x : String) (v : V) :
    HMap.get (t.insert k v) x = if k = x then some v else HMap.get t x := by
  induction t with
  | nil => rw [HMap.insert, hget_cons]
  | cons e t ih =>
    obtain ⟨k', v'⟩ := e
    rw [HMap.insert]
    split
    · rename_i h
      subst h
      rw [hget_cons, hget_cons]
      split <;> rfl
    · rename_i h
      rw [hget_cons, ih, hget_cons]
      by_cases h1 : k' = x
      · subst h1
        rw [if_pos rfl, if_pos rfl, if_neg fun e => h e.symm]
      · rw [if_neg h1, if_neg h1]

theorem hget_mem {t : HMap V} (h : (t.map Prod.fst).Nodup) (k : String) (v : V) :
    HMap.get t k = some v ↔ (k, v) ∈ t := by
  induction t with
  | nil => simp [HMap.get]
  | cons e t ih =>
    obtain ⟨k', v'⟩ := e
    simp only [List.map_cons, List.nodup_cons] at h
    rw [hget_cons, List.mem_cons]
    split
    · rename_i hk
      subst hk
      constructor
      · intro e
        cases e
        exact .inl rfl
      · rintro (e | e)
        · cases e; rfl
        · exact absurd (List.mem_map.2 ⟨_, e, rfl⟩) h.1
    · rename_i hk
      rw [ih h.2]
      constructor
      · exact .inr
      · rintro (e | e)
        · cases e; exact absurd rfl hk
        · exact e

theorem hinsert_keys (t : HMap V) (k : String) (v : V) (x : String) :
    x ∈ (t.insert k v).map Prod.fst ↔ x = k ∨ x ∈ t.map Prod.fst := by
  induction t with
  | nil => simp [HMap.insert]
  | cons e t ih =>
    obtain ⟨k', v'⟩ := e
    rw [HMap.insert]
    split
    · rename_i h
      subst h
      simp
    · simp only [List.map_cons, List.mem_cons, ih]
      constructor
      · rintro (h | h | h) <;> simp [h]
      · rintro (h | h | h) <;> simp [h]

theorem hinsert_nodup {t : HMap V} (h : (t.map Prod.fst).Nodup) (k : String) (v : V) :
    ((t.insert k v).map Prod.fst).Nodup := by
  induction t with
  | nil => simp [HMap.insert]
  | cons e t ih =>
    obtain ⟨k', v'⟩ := e
    simp only [List.map_cons, List.nodup_cons] at h
    rw [HMap.insert]
    split
    · rename_i hk
      subst hk
      simpa using h
    · rename_i hk
      simp only [List.map_cons, List.nodup_cons, hinsert_keys]
      refine ⟨?_, ih h.2⟩
      rintro (e | e)
      · exact hk e
      · exact h.1 e

theorem hinsert_mem {t : HMap V} {k : String} {v : V} {e : String × V} (h : e ∈ t.insert k v) : e = (k, v) ∨ e ∈ t := by
  induction t with
  | nil => simpa [HMap.insert] using h
  | cons e' t ih =>
    obtain ⟨k', v'⟩ := e'
    rw [HMap.insert] at h
    split at h
    · rcases List.mem_cons.1 h with h | h
      · exact .inl h
      · exact .inr (List.mem_cons_of_mem _ h)
    · rcases List.mem_cons.1 h with h | h
      · exact .inr (by rw [h]; exact List.mem_cons_self ..)
      · rcases ih h with h | h
        · exact .inl h
        · exact .inr (List.mem_cons_of_mem _ h)

/-- A cell of a table. -/
def cell (t : HMap (HMap V)) (a b : String) : Option V := (HMap.get t a).bind fun r => HMap.get r b

theorem cell_put (r : HMap (HMap V)) (m d x y : String) (v : V) :
    cell (putCell r m d v) x y = if m = x ∧ d = y then some v else cell r x y := by
  unfold cell putCell
  rw [hget_insert]
  by_cases hm : m = x
  · subst hm
    rw [if_pos rfl, Option.bind_some, hget_insert]
    by_cases hd : d = y
    · rw [if_pos hd, if_pos ⟨rfl, hd⟩]
    · rw [if_neg hd, if_neg fun h => hd h.2]
      cases h : HMap.get r m with
      | none => simp [HMap.get]
      | some row => rfl
  · rw [if_neg hm, if_neg fun h => hm h.1]

theorem isTable_put {r : HMap (HMap V)} (h : IsTable r) (m d : String) (v : V) : IsTable (putCell r m d v) := by
  refine ⟨hinsert_nodup h.1 _ _, fun e he => ?_⟩
  rcases hinsert_mem he with he | he
  · rw [he]
    apply hinsert_nodup
    cases hg : HMap.get r m with
    | none => simp
    | some row => exact h.2 (m, row) ((hget_mem h.1 _ _).1 hg)
  · exact h.2 e he

theorem isTable_row (d : String) (row : HMap V) {r : HMap (HMap V)} (h : IsTable r) : IsTable (transposeRow d r row) := by
  induction row generalizing r with
  | nil => exact h
  | cons e es ih => exact ih (isTable_put h _ _ _)

theorem cell_row (d : String) (row : HMap V) (hn : (row.map Prod.fst).Nodup) (r : HMap (HMap V)) (x y : String) :
    cell (transposeRow d r row) x y = if d = y then (HMap.get row x).or (cell r x y) else cell r x y := by
  induction row generalizing r with
  | nil => simp [transposeRow, HMap.get]
  | cons e es ih =>
    obtain ⟨m, v⟩ := e
    simp only [List.map_cons, List.nodup_cons] at hn
    rw [transposeRow, ih hn.2, cell_put, hget_cons]
    by_cases hd : d = y
    · by_cases hm : m = x
      · subst hm
        have : HMap.get es m = none := by
          cases hg : HMap.get es m with
          | none => rfl
          | some w => exact absurd (List.mem_map.2 ⟨_, (hget_mem hn.2 _ _).1 hg, rfl⟩) hn.1
        simp [hd, this]
      · simp [hd, hm]
    · simp [hd]

theorem cell_from (t : HMap (HMap V)) (ht : IsTable t) (r : HMap (HMap V)) (x y : String) :
    cell (transposeFrom r t) x y = (cell t y x).or (cell r x y) := by
  induction t generalizing r with
  | nil => simp [transposeFrom, cell, HMap.get]
  | cons e t ih =>
    obtain ⟨d, row⟩ := e
    have hr : (row.map Prod.fst).Nodup := ht.2 (d, row) (List.mem_cons_self ..)
    have h1 := ht.1
    simp only [List.map_cons, List.nodup_cons] at h1
    rw [transposeFrom, ih ⟨h1.2, fun e he => ht.2 e (List.mem_cons_of_mem _ he)⟩, cell_row d row hr]
    show _ = ((HMap.get ((d, row) :: t) y).bind _).or _
    rw [hget_cons]
    by_cases hd : d = y
    · subst hd
      have : HMap.get t d = none := by
        cases hg : HMap.get t d with
        | none => rfl
        | some w => exact absurd (List.mem_map.2 ⟨_, (hget_mem h1.2 _ _).1 hg, rfl⟩) h1.1
      simp [cell, this]
    · simp [hd, cell]

theorem isTable_from (t : HMap (HMap V)) {r : HMap (HMap V)} (h : IsTable r) : IsTable (transposeFrom r t) := by
  induction t generalizing r with
  | nil => exact h
  | cons e t ih => exact ih (isTable_row _ _ h)

theorem cell_mem {t : HMap (HMap V)} (h : IsTable t) (a b : String) (v : V) :
    cell t a b = some v ↔ (a, b, v) ∈ cells t := by
  unfold cell cells
  rw [List.mem_flatMap]
  constructor
  · intro hc
    cases hg : HMap.get t a with
    | none => rw [hg] at hc; cases hc
    | some row =>
      rw [hg] at hc
      have hm := (hget_mem h.1 _ _).1 hg
      exact ⟨_, hm, List.mem_map.2 ⟨_, (hget_mem (h.2 _ hm) _ _).1 hc, rfl⟩⟩
  · rintro ⟨⟨a', row⟩, hm, hc⟩
    obtain ⟨⟨b', v'⟩, hb, he⟩ := List.mem_map.1 hc
    cases he
    rw [(hget_mem h.1 _ _).2 hm]
    exact (hget_mem (h.2 _ hm) _ _).2 hb

/-- Rows of the transposed table are never empty. -/
theorem rows_from (t : HMap (HMap V)) (r : HMap (HMap V)) (h : ∀ e ∈ r, e.2 ≠ []) : ∀ e ∈ transposeFrom r t, e.2 ≠ [] := by
  have hins : ∀ (s : HMap V) (k : String) (v : V), s.insert k v ≠ [] := by
    intro s k v
    cases s with
    | nil => simp [HMap.insert]
    | cons e s => rw [HMap.insert]; split <;> simp
  have hrow : ∀ (row : HMap V) (d : String) (r : HMap (HMap V)), (∀ e ∈ r, e.2 ≠ []) →
      ∀ e ∈ transposeRow d r row, e.2 ≠ [] := by
    intro row d
    induction row with
    | nil => exact fun r h => h
    | cons e es ih =>
      intro r h
      apply ih
      intro e' he'
      rcases hinsert_mem he' with he | he
      · rw [he]; exact hins _ _ _
      · exact h _ he
  induction t generalizing r with
  | nil => exact h
  | cons e t ih => exact ih _ (hrow _ _ _ h)

/-! ### The claims -/

/-- A result is under method and data set afterwards if and only if it was under data set and method before, in
whatever order the maps are walked; the result is a table again. -/
theorem c78_transpose (t : HMap (HMap V)) (h : IsTable t) :
    IsTable (transpose t) ∧ ∀ m d v, (m, d, v) ∈ cells (transpose t) ↔ (d, m, v) ∈ cells t := by
  have hT : IsTable (transpose t) := isTable_from t ⟨by simp, by simp⟩
  refine ⟨hT, fun m d v => ?_⟩
  rw [← cell_mem hT, ← cell_mem h]
  unfold transpose
  rw [cell_from t h]
  have : cell ([] : HMap (HMap V)) m d = none := rfl
  rw [this, Option.or_none]

theorem cells_nodup {t : HMap (HMap V)} (h : IsTable t) : ((cells t).map fun c => (c.1, c.2.1)).Nodup := by
  obtain ⟨h1, h2⟩ := h
  induction t with
  | nil => simp [cells]
  | cons e t ih =>
    simp only [List.map_cons, List.nodup_cons] at h1
    show List.Nodup (((e.2.map fun c => (e.1, c.1, c.2)) ++ cells t).map _)
    rw [List.map_append, List.nodup_append]
    refine ⟨?_, ih h1.2 fun e' he' => h2 e' (List.mem_cons_of_mem _ he'), ?_⟩
    · rw [List.map_map]
      have := h2 e (List.mem_cons_self ..)
      show List.Nodup (e.2.map fun c => (e.1, c.1))
      have heq : (e.2.map fun c => (e.1, c.1)) = (e.2.map Prod.fst).map fun b => (e.1, b) := by
        rw [List.map_map]; rfl
      rw [heq]
      exact List.Pairwise.map (R := (· ≠ ·)) _ (fun a b hab hc => hab (by cases hc; rfl)) this
    · intro a ha b hb hab
      subst hab
      simp only [List.mem_map] at ha hb
      obtain ⟨_, ⟨c, hc, rfl⟩, rfl⟩ := ha
      obtain ⟨x, hx, he⟩ := hb
      obtain ⟨e', he', hx'⟩ := List.mem_flatMap.1 hx
      obtain ⟨c', _, rfl⟩ := List.mem_map.1 hx'
      have : e'.1 = e.1 := (Prod.mk.injEq .. ▸ he).1
      exact h1.1 (List.mem_map.2 ⟨e', he', this⟩)

/-- No result is lost or doubled: as many cells as before. -/
theorem c78_count (t : HMap (HMap V)) (h : IsTable t) : (cells (transpose t)).length = (cells t).length := by
  obtain ⟨hT, hc⟩ := c78_transpose t h
  have n1 := cells_nodup h
  have n2 := cells_nodup hT
  apply Nat.le_antisymm
  · have hsub : ((cells (transpose t)).map fun c => (c.2.1, c.1)) ⊆ (cells t).map fun c => (c.1, c.2.1) := by
      intro x hx
      obtain ⟨⟨m, d, v⟩, hm, rfl⟩ := List.mem_map.1 hx
      exact List.mem_map.2 ⟨(d, m, v), (hc m d v).1 hm, rfl⟩
    have hnd : ((cells (transpose t)).map fun c => (c.2.1, c.1)).Nodup := by
      have heq : ((cells (transpose t)).map fun c => (c.2.1, c.1)) =
          ((cells (transpose t)).map fun c => (c.1, c.2.1)).map fun p => (p.2, p.1) := by
        rw [List.map_map]; rfl
      rw [heq]
      exact List.Pairwise.map (R := (· ≠ ·)) _ (fun a b hab hc => hab (by
        cases a; cases b; simp only [Prod.mk.injEq] at hc; rw [hc.1, hc.2])) n2
    simpa using hnd.length_le_of_subset hsub
  · have hsub : ((cells t).map fun c => (c.2.1, c.1)) ⊆ (cells (transpose t)).map fun c => (c.1, c.2.1) := by
      intro x hx
      obtain ⟨⟨d, m, v⟩, hm, rfl⟩ := List.mem_map.1 hx
      exact List.mem_map.2 ⟨(m, d, v), (hc m d v).2 hm, rfl⟩
    have hnd : ((cells t).map fun c => (c.2.1, c.1)).Nodup := by
      have heq : ((cells t).map fun c => (c.2.1, c.1)) = ((cells t).map fun c => (c.1, c.2.1)).map fun p => (p.2, p.1) := by
        rw [List.map_map]; rfl
      rw [heq]
      exact List.Pairwise.map (R := (· ≠ ·)) _ (fun a b hab hc => hab (by
        cases a; cases b; simp only [Prod.mk.injEq] at hc; rw [hc.1, hc.2])) n1
    simpa using hnd.length_le_of_subset hsub

/-- The methods of the transposed table are those under which some data set has a result, which is what
`compression_methods` lists. A data set without results is in `dataset_names` and in no row of the transposed table. -/
theorem c78_methods (t : HMap (HMap V)) (h : IsTable t) (m : String) :
    (m ∈ HMap.keys (transpose t) ↔ ∃ d v, (d, m, v) ∈ cells t) ∧ (m ∈ methods t ↔ ∃ d v, (d, m, v) ∈ cells t) := by
  obtain ⟨hT, hc⟩ := c78_transpose t h
  constructor
  · constructor
    · intro hm
      obtain ⟨e, he, rfl⟩ := List.mem_map.1 hm
      have hne := rows_from t [] (by simp) e he
      obtain ⟨c, hcm⟩ := List.exists_mem_of_ne_nil _ hne
      exact ⟨c.1, c.2, (hc e.1 c.1 c.2).1 (List.mem_flatMap.2 ⟨e, he, List.mem_map.2 ⟨c, hcm, rfl⟩⟩)⟩
    · rintro ⟨d, v, hm⟩
      obtain ⟨e, he, hx⟩ := List.mem_flatMap.1 ((hc m d v).2 hm)
      obtain ⟨c, _, hx⟩ := List.mem_map.1 hx
      cases hx
      exact List.mem_map.2 ⟨e, he, rfl⟩
  · unfold methods
    rw [List.mem_flatMap]
    constructor
    · rintro ⟨e, he, hm⟩
      obtain ⟨c, hcm, rfl⟩ := List.mem_map.1 hm
      exact ⟨e.1, c.2, List.mem_flatMap.2 ⟨e, he, List.mem_map.2 ⟨c, hcm, rfl⟩⟩⟩
    · rintro ⟨d, v, hm⟩
      obtain ⟨e, he, hx⟩ := List.mem_flatMap.1 hm
      obtain ⟨c, hcm, hx⟩ := List.mem_map.1 hx
      cases hx
      exact ⟨e, he, List.mem_map.2 ⟨c, hcm, rfl⟩⟩

/-- Twice gives every result back. -/
theorem c78_involution (t : HMap (HMap V)) (h : IsTable t) (c : String × String × V) :
    c ∈ cells (transpose (transpose t)) ↔ c ∈ cells t := by
  obtain ⟨hT, hc⟩ := c78_transpose t h
  obtain ⟨_, hc'⟩ := c78_transpose _ hT
  exact (hc' c.1 c.2.1 c.2.2).trans (hc _ _ _)

/-- `map` changes each result where it is. -/
theorem c78_map (f : V → W) (t : HMap (HMap V)) :
    cells (mapCells f t) = (cells t).map fun c => (c.1, c.2.1, f c.2.2) := by
  unfold cells mapCells
  induction t with
  | nil => rfl
  | cons e t ih =>
    simp only [List.map_cons, List.flatMap_cons, List.map_append, ih]
    rw [List.map_map, List.map_map]
    rfl

/-- An aggregate is computed once for each method, from all results of the method and from no others. -/
theorem c78_aggregate (f : HMap V → W) (t : HMap (HMap V)) (h : IsTable t) (m : String) (w : W) :
    (m, w) ∈ aggregate f t → ∃ column : HMap V, w = f column ∧ (column.map Prod.fst).Nodup ∧ column ≠ [] ∧
      ∀ d v, (d, v) ∈ column ↔ (d, m, v) ∈ cells t := by
  obtain ⟨hT, hc⟩ := c78_transpose t h
  intro hm
  obtain ⟨e, he, hx⟩ := List.mem_map.1 hm
  cases hx
  refine ⟨e.2, rfl, hT.2 e he, rows_from t [] (by simp) e he, fun d v => ?_⟩
  rw [← hc, ← cell_mem hT]
  unfold cell
  rw [(hget_mem hT.1 e.1 e.2).2 he]
  exact (hget_mem (hT.2 e he) d v).symm

theorem c78_aggregate_all (f : HMap V → W) (t : HMap (HMap V)) (h : IsTable t) :
    ((aggregate f t).map Prod.fst).Nodup ∧ ∀ d m v, (d, m, v) ∈ cells t → ∃ w, (m, w) ∈ aggregate f t := by
  obtain ⟨hT, _⟩ := c78_transpose t h
  constructor
  · have : (aggregate f t).map Prod.fst = (transpose t).map Prod.fst := by
      unfold aggregate
      rw [List.map_map]
      rfl
    rw [this]
    exact hT.1
  · intro d m v hm
    obtain ⟨e, he, hx⟩ := List.mem_map.1 ((c78_methods t h m).1.2 ⟨d, v, hm⟩)
    exact ⟨f e.2, List.mem_map.2 ⟨e, he, by rw [hx]⟩⟩

/-- The averages depend on the order in which the map is walked, which differs from process to process: ratios 0.1, 0.2
and 0.3 give 0.20000000000000004 or 0.19999999999999998. -/
theorem c78_average_order :
    averageRatio Soft.ops [[⟨0x3fb999999999999a#64, 0, 0⟩], [⟨0x3fc999999999999a#64, 0, 0⟩], [⟨0x3fd3333333333333#64, 0, 0⟩]]
      ≠ averageRatio Soft.ops
        [[⟨0x3fd3333333333333#64, 0, 0⟩], [⟨0x3fc999999999999a#64, 0, 0⟩], [⟨0x3fb999999999999a#64, 0, 0⟩]] := by
  decide +kernel

/-- A data set whose method has no run makes the average decompression throughput of the method NaN. -/
theorem c78_decompression_nan (ds : List Decompression) (h : ⟨[], []⟩ ∈ ds) :
    isNaN (averageDecompression Soft.ops ds) = true :=
  div_nan (total_nan ⟨_, List.mem_map.2 ⟨_, h, rfl⟩, by decide +kernel⟩)

/-- Like the compression throughput it divides by the number of runs once too often: 16 bytes in 4 ns, twice, give 2. -/
theorem c78_decompression_halved :
    averageDecompression Soft.ops
      [⟨List.replicate 2 0x4030000000000000#64, List.replicate 2 0x4010000000000000#64⟩] = 0x4000000000000000#64 ∧
    averageDecompression Soft.ops
      [⟨List.replicate 1 0x4030000000000000#64, List.replicate 1 0x4010000000000000#64⟩] = 0x4010000000000000#64 := by
  decide +kernel

/-- The runs are counted by the compressions: 16 bytes compressed once and materialized twice, in 4 ns each time, give 2,
compressed twice and materialized once 4 (32 bytes, 4 ns, two runs). -/
theorem c78_decompression_counted :
    averageDecompression Soft.ops
      [⟨List.replicate 1 0x4030000000000000#64, List.replicate 2 0x4010000000000000#64⟩] = 0x4000000000000000#64 ∧
    averageDecompression Soft.ops
      [⟨List.replicate 2 0x4030000000000000#64, List.replicate 1 0x4010000000000000#64⟩] = 0x4010000000000000#64 := by
  decide +kernel

/-! ### Examples -/

def sampleTable : HMap (HMap Nat) := [("a", [("RLE", 1), ("Gorilla", 2)]), ("b", [("Gorilla", 3)]), ("c", [])]

example : IsTable sampleTable := ⟨by decide, by simp [sampleTable]⟩
example : transpose sampleTable = [("RLE", [("a", 1)]), ("Gorilla", [("a", 2), ("b", 3)])] := by decide
example : aggregate List.length sampleTable = [("RLE", 1), ("Gorilla", 2)] := by decide

end Ebi.Props
