import Verif.ApiLemmas
import Verif.SoftRound
import Verif.Props.Registry
import Verif.Props.BuffQuery
import Verif.Props.Sprintz

/-!
# Helper lemmas for the in-situ queries of BUFF and DeltaSprintz files
-/

namespace Ebi

/-! ## Division by a positive integer -/

namespace Soft

attribute [local irreducible] roundMag magVal

/-- Magnitude pattern of the integer `n` converted and divided by the integer `d`. -/
def quotMag (d n : Nat) : Nat :=
  roundMag (magVal (roundMag (n * 2 ^ 1074) 1) * 2 ^ 1074) (magVal (roundMag (d * 2 ^ 1074) 1))

theorem quotMag_mono {d n m : Nat} (h : n ≤ m) : quotMag d n ≤ quotMag d m := by
  unfold quotMag
  apply roundMag_mono
  exact Nat.mul_le_mul_right _ (magVal_mono (roundMag_mono (Nat.mul_le_mul_right _ h)))

theorem quot_mk {q : Int} {d : Nat} (hq : q.natAbs ≤ 2 ^ 63) (h0 : 0 < d) (hd : d ≤ 2 ^ 63) :
    div (ofInt q) (ofInt d) = mk (decide (q < 0)) (quotMag d q.natAbs) := by
  have m1 := roundMag_int hd
  have m2 := roundMag_int hq
  have m3 : 0 < roundMag (d * 2 ^ 1074) 1 := roundMag_pos (Nat.mul_pos h0 (Nat.two_pow_pos _))
  have hb : ofInt d = mk false (roundMag (d * 2 ^ 1074) 1) := by
    unfold ofInt rnd
    rw [Int.natAbs_natCast]
    congr 1
  rw [hb]
  unfold ofInt rnd quotMag
  generalize roundMag (q.natAbs * 2 ^ 1074) 1 = ma at *
  generalize roundMag (d * 2 ^ 1074) 1 = mb at *
  have g1 : mag (mk (decide (q < 0)) ma) = ma := mag_mk _ (by omega)
  have g2 : mag (mk false mb) = mb := mag_mk _ (by omega)
  have g3 : sgn (mk (decide (q < 0)) ma) = decide (q < 0) := sgn_mk _ (by omega)
  have g4 : sgn (mk false mb) = false := sgn_mk _ (by omega)
  unfold div
  simp only [isNaN, isInf, g1, g2, g3, g4, absVal]
  rw [if_neg (by simp; omega), if_neg (by simp; omega), if_neg (by simp; omega), if_neg (by omega)]
  unfold rnd
  rw [Bool.bne_false]

theorem quot_mono {p q : Int} {d : Nat} (hp : p.natAbs ≤ 2 ^ 63) (hq : q.natAbs ≤ 2 ^ 63) (h0 : 0 < d)
    (hd : d ≤ 2 ^ 63) (h : p ≤ q) : fle (div (ofInt p) (ofInt d)) (div (ofInt q) (ofInt d)) = true := by
  rw [quot_mk hp h0 hd, quot_mk hq h0 hd]
  have b1 : quotMag d p.natAbs ≤ 0x7ff0000000000000 := roundMag_le _ _
  have b2 : quotMag d q.natAbs ≤ 0x7ff0000000000000 := roundMag_le _ _
  have c1 : 0 ≤ p → quotMag d p.natAbs ≤ quotMag d q.natAbs := fun h0 => quotMag_mono (by omega)
  have c2 : q < 0 → quotMag d q.natAbs ≤ quotMag d p.natAbs := fun h0 => quotMag_mono (by omega)
  unfold fle key
  rw [not_isNaN_mk _ b1, not_isNaN_mk _ b2, mag_mk _ (by omega), mag_mk _ (by omega), sgn_mk _ (by omega),
    sgn_mk _ (by omega)]
  simp
  split <;> split <;> omega

end Soft

/-! ## Compressor states -/

theorem Scheme.Reach.inv {S : Scheme} {P : S.Comp → Prop} (h0 : P S.build)
    (h1 : ∀ c c' c'' vs, P c → S.compress (S.reset c) vs = .ok c' → S.prepare c' = .ok c'' → P c'')
    {c : S.Comp} (h : S.Reach c) : P c := by
  induction h with
  | build => exact h0
  | chunk _ e1 e2 ih => exact h1 _ _ _ _ ih e1 e2

/-! ## Positions in chunks -/

theorem placed_getElem_iff (cs : List Chunk) (off x : Nat) (v : B64) : (cs.flatMap Prod.fst)[x]? = some v ↔
    ∃ q ∈ placed off cs, ∃ i, q.2.1[i]? = some v ∧ off + x = q.1 + i := by
  induction cs generalizing off x with
  | nil => simp [placed]
  | cons c cs ih =>
    rw [List.flatMap_cons, placed]
    simp only [List.mem_cons, exists_eq_or_imp]
    by_cases hx : x < c.1.length
    · rw [List.getElem?_append_left hx]
      constructor
      · intro h; exact Or.inl ⟨x, h, rfl⟩
      · rintro (⟨i, h1, h2⟩ | ⟨q, h1, i, h2, h3⟩)
        · have : x = i := by omega
          subst this; exact h1
        · obtain ⟨pre, suf, -, e⟩ := placed_split h1
          omega
    · rw [List.getElem?_append_right (by omega), ih (off + c.1.length)]
      constructor
      · rintro ⟨q, h1, i, h2, h3⟩
        exact Or.inr ⟨q, h1, i, h2, by omega⟩
      · rintro (⟨i, h1, h2⟩ | ⟨q, h1, i, h2, h3⟩)
        · have := (List.getElem?_eq_some_iff.1 h1).1
          omega
        · exact ⟨q, h1, i, h2, by omega⟩

/-- A position lies in one chunk only. -/
theorem placed_unique {cs : List Chunk} {off x : Nat} {p q : Nat × Chunk} (hp : p ∈ placed off cs)
    (hq : q ∈ placed off cs) (p1 : p.1 ≤ x) (p2 : x < p.1 + p.2.1.length) (q1 : q.1 ≤ x)
    (q2 : x < q.1 + q.2.1.length) : p = q := by
  induction cs generalizing off with
  | nil => simp [placed] at hp
  | cons c cs ih =>
    rw [placed, List.mem_cons] at hp hq
    have hlow : ∀ r ∈ placed (off + c.1.length) cs, off + c.1.length ≤ r.1 := by
      intro r hr
      obtain ⟨pre, suf, -, e⟩ := placed_split hr
      omega
    rcases hp with rfl | hp
    · rcases hq with rfl | hq
      · rfl
      · have := hlow q hq
        simp only at p2
        omega
    · rcases hq with rfl | hq
      · have := hlow p hp
        simp only at q2
        omega
      · exact ih hp hq

theorem mem_pickFrom {bm : Option Bitmap} {off : Nat} {vs : List B64} {v : B64} :
    v ∈ pickFrom bm off vs ↔ ∃ i, vs[i]? = some v ∧ ∀ b, bm = some b → off + i ∈ b := by
  unfold pickFrom
  rw [List.mem_map]
  constructor
  · rintro ⟨⟨w, x⟩, h1, rfl⟩
    rw [List.mem_filter] at h1
    obtain ⟨h1, h2⟩ := h1
    obtain ⟨h3, h4⟩ := List.mk_mem_zipIdx_iff_le_and_getElem?_sub.1 h1
    refine ⟨x - off, h4, ?_⟩
    rintro b rfl
    rw [show off + (x - off) = x by omega]
    simpa using h2
  · rintro ⟨i, h1, h2⟩
    refine ⟨(v, off + i), ?_, rfl⟩
    rw [List.mem_filter]
    refine ⟨List.mk_mem_zipIdx_iff_le_and_getElem?_sub.2 ⟨by omega, by simpa using h1⟩, ?_⟩
    cases bm with
    | none => rfl
    | some b => simpa using h2 b rfl

/-- A visited chunk has a selected record. -/
theorem rangeDisjoint_false {bm : Option Bitmap} {off n : Nat} (hn : 0 < n)
    (h : rangeDisjoint bm (off, off + n) = false) : ∃ x, Props.Selected bm off n x := by
  cases bm with
  | none => exact ⟨off, by omega, by omega, by simp⟩
  | some b =>
    simp only [rangeDisjoint, Bool.not_eq_false', List.any_eq_true, decide_eq_true_eq] at h
    obtain ⟨x, hx, h1, h2⟩ := h
    exact ⟨x, h1, h2, by rintro b' ⟨⟩; exact hx⟩

section

variable {a : Args} {cs : List Chunk}

theorem visited_disjoint {bm : Option Bitmap} {p : Nat × Chunk} (hp : p ∈ visited bm none 0 0 cs) :
    rangeDisjoint bm (p.1, p.1 + p.2.1.length) = false := by
  rw [visited_none, List.mem_filter] at hp
  simpa using hp.2

/-- An extremum over the file from extrema of the visited chunks. -/
theorem extremum_layout (hf : Fits a.cfg a.opt a.version a.times a.elapsed cs) (S : Scheme)
    (bm : Option Bitmap) (hr : bm = none ∨ recordCount cs < 2 ^ 32)
    (op : Nat → List Byte → Option Bitmap → Nat → Res B64) (view : B64 → B64)
    {le : B64 → B64 → Bool} {init : B64} {f : B64 → B64 → B64}
    (htrans : ∀ a b c, le a b = true → le b c = true → le a c = true)
    (hmin : ∀ a b, isNaN a = false → isNaN b = false →
      (f a b = a ∧ le a b = true) ∨ (f a b = b ∧ le b a = true))
    (hi : Props.Extremum le init [] init)
    (hop : ∀ p ∈ cs, ∀ off, rangeDisjoint bm (off, off + p.1.length) = false →
      off + p.1.length ≤ recordCount cs →
      ∃ r, op p.1.length p.2 bm off = .ok r ∧ Props.Extremum le init (pickFrom bm off (p.1.map view)) r) :
    ∃ r, chunkLoop (a.metadata cs) bm none (fun i result => do
      let (n, bs, off) ← loadChunk S (a.layout cs) (a.metadata cs) i
      let v ← op n bs bm off
      .ok (f result v)) (Query.handles (a.metadata cs)) init = .ok r ∧
      Props.Extremum le init (pickFrom bm 0 ((cs.flatMap Prod.fst).map view)) r := by
  let h : B64 → Nat × Chunk → B64 := fun acc q =>
    match op q.2.1.length q.2.2 bm q.1 with
    | .ok r => f acc r
    | _ => acc
  have hv : ∀ p ∈ visited bm none 0 0 cs, ∃ r, op p.2.1.length p.2.2 bm p.1 = .ok r ∧
      Props.Extremum le init (defaultMaterialize bm p.1 (p.2.1.map view)) r := by
    intro p hp
    have hs := visited_subset hp
    obtain ⟨pre, suf, e, -⟩ := placed_split hs
    have hsum := placed_sum hs
    rw [Nat.zero_add] at hsum
    rw [pickFrom_eq (hr.imp id (fun h => by rw [List.length_map]; omega))]
    exact hop p.2 (by rw [e]; simp) p.1 (visited_disjoint hp) hsum
  have hq := query_eq S hf bm hr none (A := B64)
    (fun n bs off result => do
      let v ← op n bs bm off
      .ok (f result v)) h
    (by
      intro p hp acc
      obtain ⟨r, e, -⟩ := hv p hp
      simp only [h, e, Res.bind_ok]) init
  refine ⟨_, hq, ?_⟩
  have hall := flatMap_visited_none (bm := bm) view cs 0 (off := 0) (hr.imp id (fun h => by omega))
  have hlen : (cs.flatMap Prod.fst).length = recordCount cs := by
    rw [recordCount_eq, List.flatMap_def]
  rw [← pickFrom_eq (hr.imp id (fun h => by rw [List.length_map, hlen]; omega)), ← hall]
  have key : ∀ (xs : List (Nat × Chunk)) (us : List B64) (r : B64), (∀ p ∈ xs, p ∈ visited bm none 0 0 cs) →
      Props.Extremum le init us r → Props.Extremum le init
        (us ++ xs.flatMap (fun p => defaultMaterialize bm p.1 (p.2.1.map view))) (xs.foldl h r) := by
    intro xs
    induction xs with
    | nil => intro us r _ hu; simpa using hu
    | cons p xs ih =>
      intro us r hx hu
      obtain ⟨s, e, hs⟩ := hv p (hx p (by simp))
      rw [List.foldl_cons, List.flatMap_cons, ← List.append_assoc]
      refine ih _ _ (fun q hq => hx q (by simp [hq])) ?_
      have : h r p = f r s := by simp only [h, e]
      rw [this]
      exact Props.Extremum.step htrans hmin hu hs
  simpa using key _ [] init (fun p hp => hp) hi

/-- The filter over a file is the union of what the visited chunks answer. -/
theorem filter_layout_union (hf : Fits a.cfg a.opt a.version a.times a.elapsed cs) (S : Scheme)
    {ops : ChunkOps} (p : Predicate B64) (bm : Option Bitmap) (hr : bm = none ∨ recordCount cs < 2 ^ 32)
    (hops : ∀ q ∈ cs, ∀ off, off + q.1.length ≤ recordCount cs → ∃ res,
      ops.filter q.1.length q.2 p bm off = .ok res ∧ Bitmap.WF res) :
    ∃ res, Query.filter S ops (a.layout cs) (a.metadata cs) bm none p = .ok res ∧ Bitmap.WF res ∧
      ∀ x, x ∈ res ↔ ∃ q ∈ visited bm none 0 0 cs, ∃ r,
        ops.filter q.2.1.length q.2.2 p bm q.1 = .ok r ∧ x ∈ r := by
  let h : Bitmap → Nat × Chunk → Bitmap := fun acc q =>
    match ops.filter q.2.1.length q.2.2 p bm q.1 with
    | .ok r => Bitmap.union acc r
    | _ => acc
  have hv : ∀ q ∈ visited bm none 0 0 cs, ∃ res, ops.filter q.2.1.length q.2.2 p bm q.1 = .ok res ∧
      Bitmap.WF res := by
    intro q hq
    have hs := visited_subset hq
    have h1 := placed_sum hs
    obtain ⟨pre, suf, e, -⟩ := placed_split hs
    exact hops q.2 (by rw [e]; simp) q.1 (by omega)
  have hq := query_eq S hf bm hr none (A := Bitmap)
    (fun n bs off result => do
      let filtered ← ops.filter n bs p bm off
      .ok (Bitmap.union result filtered)) h
    (by
      intro q hq acc
      obtain ⟨res, e, -⟩ := hv q hq
      simp only [h, e, Res.bind_ok]) []
  have key : ∀ (xs : List (Nat × Chunk)) (acc : Bitmap), (∀ q ∈ xs, q ∈ visited bm none 0 0 cs) →
      Bitmap.WF acc → Bitmap.WF (xs.foldl h acc) ∧ ∀ x, (x ∈ xs.foldl h acc ↔ x ∈ acc ∨
        ∃ q ∈ xs, ∃ r, ops.filter q.2.1.length q.2.2 p bm q.1 = .ok r ∧ x ∈ r) := by
    intro xs
    induction xs with
    | nil => intro acc _ hw; exact ⟨hw, by simp⟩
    | cons q xs ih =>
      intro acc hx hw
      obtain ⟨res, e, w⟩ := hv q (hx q (by simp))
      have hh : h acc q = Bitmap.union acc res := by simp only [h, e]
      obtain ⟨k1, k2⟩ := ih (h acc q) (fun y hy => hx y (by simp [hy])) (by rw [hh]; exact Bitmap.union_wf hw w)
      rw [List.foldl_cons]
      refine ⟨k1, fun x => ?_⟩
      rw [k2 x, hh, Bitmap.mem_union]
      simp only [List.mem_cons, exists_eq_or_imp, e, Res.ok.injEq, exists_eq_left', or_assoc]
  obtain ⟨k1, k2⟩ := key _ [] (fun q hq => hq) wf_nil
  refine ⟨_, hq, k1, fun x => ?_⟩
  rw [k2 x]
  simp

/-- Sums of the chunks that have a selected record, in order. -/
def sumsPerChunk (g : Nat → List B64 → B64) (bm : Option Bitmap) : Nat → List (List B64) → List B64
  | _, [] => []
  | off, c :: cs => (if pickFrom bm off c = [] then [] else [g off c]) ++ sumsPerChunk g bm (off + c.length) cs

theorem visited_sums (g : Nat → List B64 → B64) (f : B64 → B64 → B64) {bm : Option Bitmap} {off : Nat} (i : Nat)
    (cs : List Chunk) (hne : ∀ p ∈ cs, p.1 ≠ []) (hr : bm = none ∨ off + recordCount cs < 2 ^ 32) (r : B64) :
    (visited bm none i off cs).foldl (fun r p => f r (g p.1 p.2.1)) r
      = (sumsPerChunk g bm off (cs.map Prod.fst)).foldl f r := by
  induction cs generalizing off i r with
  | nil => rfl
  | cons c cs ih =>
    obtain ⟨cv, cb⟩ := c
    rw [recordCount_cons] at hr
    have hd := rangeDisjoint_iff (bm := bm) (off := off) (hne (cv, cb) (by simp)) (hr.imp id (fun h => by
      simp only; omega))
    rw [pickFrom_eq (hr.imp id (fun h => by simp only; omega))] at hd
    have hi := fun r => ih (off := off + cv.length) (i + 1) (fun p hp => hne p (by simp [hp]))
      (hr.imp id (fun h => by omega)) r
    simp only at hd
    simp only [visited, List.map_cons, sumsPerChunk, Option.all_none, Bool.true_and]
    cases h : rangeDisjoint bm (off, off + cv.length)
    · have hp : ¬ pickFrom bm off cv = [] := by rw [← hd, h]; simp
      simp only [hp, Bool.not_false, if_true, if_false, List.foldl_cons, hi, List.cons_append, List.nil_append]
    · have hp := hd.1 h
      simp only [hp, Bool.not_true, Bool.false_eq_true, if_false, if_true, hi, List.nil_append]

/-- The values a fresh reader on each chunk gives, where they depend on the chunk. -/
theorem materialize_layout_chunks (hf : Fits a.cfg a.opt a.version a.times a.elapsed cs) (S : Scheme)
    {ops : ChunkOps} (bm : Option Bitmap) (hr : bm = none ∨ recordCount cs < 2 ^ 32)
    (W : Chunk → List B64) (hW : ∀ p ∈ cs, (W p).length = p.1.length)
    (hops : ∀ p ∈ cs, ∀ off, ops.materialize p.1.length p.2 bm off = .ok (defaultMaterialize bm off (W p))) :
    Query.materialize S ops (a.layout cs) (a.metadata cs) bm none
      = .ok (defaultMaterialize bm 0 (cs.flatMap W)) := by
  have h := query_eq S hf bm hr none (A := List B64)
    (fun n bs off out => do
      let vs ← ops.materialize n bs bm off
      .ok (out ++ vs))
    (fun out p => out ++ defaultMaterialize bm p.1 (W p.2))
    (by
      intro p hp out
      obtain ⟨pre, suf, e, -⟩ := placed_split (visited_subset hp)
      rw [hops p.2 (by rw [e]; simp)]
      rfl) []
  rw [← List.flatMap_eq_foldl] at h
  have hm : ∀ (cs : List Chunk) (i off : Nat), (∀ p ∈ cs, (W p).length = p.1.length) →
      visited bm none i off (cs.map fun p => (W p, p.2))
        = (visited bm none i off cs).map fun q => (q.1, (W q.2, q.2.2)) := by
    intro cs
    induction cs with
    | nil => intro i off _; rfl
    | cons c cs ih =>
      intro i off hl
      simp only [List.map_cons, visited, hl c (by simp), ih _ _ (fun p hp => hl p (by simp [hp]))]
      split <;> rfl
  have hc : ∀ (cs : List Chunk), (∀ p ∈ cs, (W p).length = p.1.length) →
      recordCount (cs.map fun p => (W p, p.2)) = recordCount cs := by
    intro cs
    induction cs with
    | nil => intro _; rfl
    | cons c cs ih =>
      intro hl
      obtain ⟨cv, cb⟩ := c
      rw [List.map_cons, recordCount_cons, recordCount_cons, ih (fun p hp => hl p (by simp [hp])),
        hl (cv, cb) (by simp)]
  have hfl := flatMap_visited_none (bm := bm) id (cs.map fun p => (W p, p.2)) 0 (off := 0) (by
    rw [hc cs hW]; exact hr.imp id (fun h => by omega))
  rw [hm cs 0 0 hW] at hfl
  simp only [List.flatMap_map, List.map_id] at hfl
  rw [← hfl]
  exact h

end

end Ebi
