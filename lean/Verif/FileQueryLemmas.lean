import Verif.FileLemmas

/-!
# Helper lemmas for the file-level query properties
-/

namespace Ebi

/-- A finished file and the metadata the decoder gets from it. -/
structure EncodedFile (S : Scheme) (a : Args) (file : List Byte) (m : Metadata) : Prop where
  encoded : a.encode S = some (.ok file)
  small : file.length < 2 ^ 63
  opened : openFile file = .ok m

theorem EncodedFile.chunks {S : Scheme} {a : Args} {file : List Byte} {m : Metadata}
    (hf : EncodedFile S a file m) {view : B64 → B64} {Ok : B64 → Prop} {maxLen : Nat}
    (L : S.Law view Ok maxLen) (ha : a.Valid) (hok : ∀ v ∈ a.records, Ok v)
    (hlen : a.records.length < maxLen) :
    ∃ cs, file = a.layout cs ∧ m = a.metadata cs ∧ Fits a.cfg a.opt a.version a.times a.elapsed cs ∧
      Split a.opt.recordsPerChunk a.records (cs.map Prod.fst) ∧
      (∀ p ∈ cs, S.decode p.1.length p.2 = .ok (p.1.map view) ∧ S.Produces p.1 p.2) ∧
      cs.flatMap Prod.fst = a.records ∧ recordCount cs = a.records.length := by
  obtain ⟨cs, h1, h2, h3, h4, h5, h6⟩ := a.opened ha L hok hlen
  have he := hf.encoded
  rw [h1] at he
  have e : a.layout cs = file := by simpa using he
  subst e
  obtain ⟨hfit, hopen⟩ := h6 hf.small
  have hr : a.records ≠ [] := by
    intro e
    have hcs : cs = [] := by simpa using h2.eq_nil_iff.2 e
    subst hcs
    have := openFile_layout_nil hfit
    have h7 := hf.opened
    rw [show a.layout [] = layout a.cfg a.opt a.version a.times a.elapsed [] from rfl, this] at h7
    cases h7
  have h8 := hopen hr
  rw [hf.opened] at h8
  cases h8
  exact ⟨cs, rfl, rfl, hfit, h2, h3, h4, h5⟩

/-- Values whose position (counted from `off`) is in the bitmask. -/
def pickFrom (bm : Option Bitmap) (off : Nat) (vs : List B64) : List B64 :=
  ((vs.zipIdx off).filter fun p => bm.all fun b => b.contains p.2).map Prod.fst

theorem pickFrom_eq {bm : Option Bitmap} {off : Nat} {vs : List B64}
    (h : bm = none ∨ off + vs.length ≤ 2 ^ 32) : defaultMaterialize bm off vs = pickFrom bm off vs := by
  rw [defaultMaterialize_eq, pickFrom]
  congr 1
  apply List.filter_congr
  rintro ⟨v, i⟩ hi
  have := List.mk_mem_zipIdx_iff_le_and_getElem?_sub.1 hi
  cases bm with
  | none => rfl
  | some b =>
    rcases h with h | h
    · cases h
    · have h2 := (List.getElem?_eq_some_iff.1 this.2).1
      simp [selected, Nat.mod_eq_of_lt (show i < 2 ^ 32 by omega)]

/-- A chunk ends within the data. -/
theorem placed_sum {off : Nat} {cs : List Chunk} {p : Nat × Chunk} (h : p ∈ placed off cs) :
    p.1 + p.2.1.length ≤ off + recordCount cs := by
  obtain ⟨pre, suf, e, h1⟩ := placed_split h
  obtain ⟨o, c, b⟩ := p
  rw [e, recordCount_append]
  simp only at h1 ⊢
  rw [recordCount_cons, h1]
  omega

/-- Nothing selected means nothing picked, and conversely. -/
theorem rangeDisjoint_iff {bm : Option Bitmap} {off : Nat} {vs : List B64} (hne : vs ≠ [])
    (h : bm = none ∨ off + vs.length < 2 ^ 32) :
    rangeDisjoint bm (off, off + vs.length) = true ↔ defaultMaterialize bm off vs = [] := by
  constructor
  · intro hd; exact defaultMaterialize_disjoint hd h
  · intro hd
    cases bm with
    | none =>
      rw [defaultMaterialize_none] at hd
      exact absurd hd hne
    | some b =>
      have h : off + vs.length < 2 ^ 32 := by rcases h with h | h; · cases h
                                              · exact h
      simp only [rangeDisjoint, Bool.not_eq_true', List.any_eq_false, decide_eq_true_eq]
      rintro x hx ⟨h1, h2⟩
      rw [pickFrom_eq (Or.inr (by omega)), pickFrom, List.map_eq_nil_iff, List.filter_eq_nil_iff] at hd
      have hlt : x - off < vs.length := by omega
      refine hd (vs[x - off], x) ?_ (by simpa using hx)
      rw [List.mk_mem_zipIdx_iff_le_and_getElem?_sub]
      exact ⟨h1, List.getElem?_eq_getElem hlt⟩

/-! ## Aggregates -/

/-- Fold of the selected values, chunk by chunk. -/
theorem foldl_visited {bm : Option Bitmap} (view : B64 → B64) {off : Nat} {A : Type} (f : A → B64 → A)
    (cs : List Chunk) (i : Nat) (hr : bm = none ∨ off + recordCount cs < 2 ^ 32) (a : A) :
    (visited bm none i off cs).foldl
      (fun a p => (defaultMaterialize bm p.1 (p.2.1.map view)).foldl f a) a
      = (defaultMaterialize bm off ((cs.flatMap Prod.fst).map view)).foldl f a := by
  rw [← flatMap_visited_none view cs i hr, List.flatMap_def, List.foldl_flatten, List.foldl_map]

section

variable {a : Args} {cs : List Chunk}

theorem filter_layout (hf : Fits a.cfg a.opt a.version a.times a.elapsed cs) (S : Scheme)
    {ops : ChunkOps} {sat : B64 → Bool} (p : Predicate B64) (bm : Option Bitmap)
    (hr : recordCount cs < 2 ^ 32)
    (hops : ∀ q ∈ cs, ∀ off, off + q.1.length < 2 ^ 32 → ∃ res,
      ops.filter q.1.length q.2 p bm off = .ok res ∧ Bitmap.WF res ∧
        ∀ x, x ∈ res ↔ ∃ (i : Nat) (v : B64), q.1[i]? = some v ∧ x = off + i ∧
          (∀ b, bm = some b → x ∈ b) ∧ sat v = true) :
    ∃ res, Query.filter S ops (a.layout cs) (a.metadata cs) bm none p = .ok res ∧ Bitmap.WF res ∧
      ∀ x, x ∈ res ↔ ∃ v, (cs.flatMap Prod.fst)[x]? = some v ∧ (∀ b, bm = some b → x ∈ b) ∧
        sat v = true := by
  classical
  let h : Bitmap → Nat × Chunk → Bitmap := fun acc q =>
    match ops.filter q.2.1.length q.2.2 p bm q.1 with
    | .ok r => Bitmap.union acc r
    | _ => acc
  have hpl : ∀ q ∈ placed 0 cs, ∃ res, ops.filter q.2.1.length q.2.2 p bm q.1 = .ok res ∧
      Bitmap.WF res ∧ ∀ x, x ∈ res ↔ ∃ (i : Nat) (v : B64), q.2.1[i]? = some v ∧ x = q.1 + i ∧
          (∀ b, bm = some b → x ∈ b) ∧ sat v = true := by
    intro q hq
    have h1 := placed_sum hq
    obtain ⟨pre, suf, e, -⟩ := placed_split hq
    exact hops q.2 (by rw [e]; simp) q.1 (by omega)
  have hq := query_eq S hf bm (Or.inr hr) none (A := Bitmap)
    (fun n bs off result => do
      let filtered ← ops.filter n bs p bm off
      .ok (Bitmap.union result filtered)) h
    (by
      intro q hq acc
      obtain ⟨res, e, -, -⟩ := hpl q (visited_subset hq)
      simp only [h, e, Res.bind_ok]) []
  refine ⟨_, hq, ?_, ?_⟩
  · have : ∀ (xs : List (Nat × Chunk)) (acc : Bitmap), (∀ q ∈ xs, q ∈ placed 0 cs) → Bitmap.WF acc →
        Bitmap.WF (xs.foldl h acc) := by
      intro xs
      induction xs with
      | nil => exact fun acc _ hw => hw
      | cons q xs ih =>
        intro acc hx hw
        obtain ⟨res, e, w, -⟩ := hpl q (hx q (by simp))
        rw [List.foldl_cons]
        refine ih _ (fun y hy => hx y (by simp [hy])) ?_
        simp only [h, e]
        exact Bitmap.union_wf hw w
    exact this _ _ (fun q hq => visited_subset hq) wf_nil
  · have key : ∀ (xs : List (Nat × Chunk)) (acc : Bitmap), (∀ q ∈ xs, q ∈ placed 0 cs) → ∀ x,
        (x ∈ xs.foldl h acc ↔ x ∈ acc ∨ ∃ q ∈ xs, ∃ (i : Nat) (v : B64), q.2.1[i]? = some v ∧
          x = q.1 + i ∧ (∀ b, bm = some b → x ∈ b) ∧ sat v = true) := by
      intro xs
      induction xs with
      | nil => intro acc _ x; simp
      | cons q xs ih =>
        intro acc hx x
        obtain ⟨res, e, w, hm⟩ := hpl q (hx q (by simp))
        have hh : h acc q = Bitmap.union acc res := by simp only [h, e]
        rw [List.foldl_cons, ih _ (fun y hy => hx y (by simp [hy])), hh, Bitmap.mem_union, hm x]
        simp only [List.mem_cons, exists_eq_or_imp, or_assoc]
    intro x
    rw [key _ _ (fun q hq => visited_subset hq)]
    simp only [List.not_mem_nil, false_or]
    have hget : ∀ (cs : List Chunk) (off x : Nat) (v : B64), (cs.flatMap Prod.fst)[x]? = some v ↔
        ∃ q ∈ placed off cs, ∃ i, q.2.1[i]? = some v ∧ off + x = q.1 + i := by
      intro cs
      induction cs with
      | nil => intro off x v; simp [placed]
      | cons c cs ih =>
        intro off x v
        rw [List.flatMap_cons, placed]
        simp only [List.mem_cons, exists_eq_or_imp]
        by_cases hx : x < c.1.length
        · rw [List.getElem?_append_left hx]
          constructor
          · intro h; exact Or.inl ⟨x, h, rfl⟩
          · rintro (⟨i, h1, h2⟩ | ⟨q, h1, i, h2, h3⟩)
            · have : x = i := by omega
              subst this; exact h1
            · obtain ⟨pre, suf, -, e⟩ := placed_split h1
              omega
        · rw [List.getElem?_append_right (by omega), ih (off + c.1.length)]
          constructor
          · rintro ⟨q, h1, i, h2, h3⟩
            exact Or.inr ⟨q, h1, i, h2, by omega⟩
          · rintro (⟨i, h1, h2⟩ | ⟨q, h1, i, h2, h3⟩)
            · have := (List.getElem?_eq_some_iff.1 h1).1
              omega
            · exact ⟨q, h1, i, h2, by omega⟩
    constructor
    · rintro ⟨q, hq, i, v, h1, h2, h3, h4⟩
      exact ⟨v, (hget cs 0 x v).2 ⟨q, visited_subset hq, i, h1, by omega⟩, h3, h4⟩
    · rintro ⟨v, h1, h3, h4⟩
      obtain ⟨q, hq, i, h5, h6⟩ := (hget cs 0 x v).1 h1
      refine ⟨q, ?_, i, v, h5, by omega, h3, h4⟩
      rw [visited_none, List.mem_filter]
      refine ⟨hq, ?_⟩
      cases bm with
      | none => rfl
      | some b =>
        have := (List.getElem?_eq_some_iff.1 h5).1
        simp only [rangeDisjoint, Bool.not_not, List.any_eq_true, decide_eq_true_eq]
        exact ⟨x, h3 b rfl, by omega, by omega⟩

/-- An aggregate: the per-chunk results of the visited chunks, folded. -/
theorem fold_layout (hf : Fits a.cfg a.opt a.version a.times a.elapsed cs) (S : Scheme)
    (bm : Option Bitmap) (hr : bm = none ∨ recordCount cs < 2 ^ 32) (cid : Option Nat)
    (op : Nat → List Byte → Option Bitmap → Nat → Res B64) (g : B64 → B64 → B64)
    (val : Nat → List B64 → B64)
    (hop : ∀ p ∈ cs, ∀ off, rangeDisjoint bm (off, off + p.1.length) = false →
      off + p.1.length ≤ recordCount cs →
      op p.1.length p.2 bm off = .ok (val off p.1)) (init : B64) :
    chunkLoop (a.metadata cs) bm cid (fun i result => do
      let (n, bs, off) ← loadChunk S (a.layout cs) (a.metadata cs) i
      let v ← op n bs bm off
      .ok (g result v)) (Query.handles (a.metadata cs)) init
      = .ok ((visited bm cid 0 0 cs).foldl (fun r p => g r (val p.1 p.2.1)) init) := by
  refine query_eq S hf bm hr cid (A := B64)
    (fun n bs off result => do
      let v ← op n bs bm off
      .ok (g result v)) _ ?_ init
  intro p hp r
  have hs := visited_subset hp
  obtain ⟨pre, suf, e, -⟩ := placed_split hs
  have hsum := placed_sum hs
  have hd : rangeDisjoint bm (p.1, p.1 + p.2.1.length) = false := by
    cases cid with
    | none =>
      rw [visited_none, List.mem_filter] at hp
      simpa using hp.2
    | some k =>
      have := visited_some bm k 0 0 cs
      rw [Nat.zero_add] at this
      rw [this, List.mem_filter] at hp
      simpa using hp.2
  rw [hop p.2 (by rw [e]; simp) p.1 hd (by omega)]
  rfl

end

end Ebi
