import Verif.Props.Expr

/-!
# C44: aggregations over expressions
-/

namespace Ebi.Props

open Ebi

/-! ## Specification -/

/-- What aggregating the pointwise values gives, chunk by chunk: all of them, or the extrema of the
chunks' extrema, or the sum of the chunks' sums. -/
def aggregated (o : FloatOps) : AggKind → List (List B64) → AggResult
  | .none, vss => .array vss.flatten
  | .max, vss => .scalar (vss.foldl (fun r vs => o.fmax r (vs.foldl o.fmax negInf)) negInf)
  | .min, vss => .scalar (vss.foldl (fun r vs => o.fmin r (vs.foldl o.fmin posInf)) posInf)
  | .sum, vss => .scalar (vss.foldl (fun r vs => o.add r (vs.foldl o.add o.sumInit)) 0#64)

/-- The pointwise values of each chunk. -/
def chunkValues (o : FloatOps) (bm : Option Bitmap) (sizes : List Nat) (ts : List (List (List B64))) (e : Expr) :
    List (List B64) :=
  (List.range sizes.length).map fun i =>
    pointwise o bm (startOf sizes i) (sizes.getD i 0) (chunkColumns ts i) e

/-- Not a bare column. -/
def compound : Expr → Prop
  | .index _ => False
  | _ => True

/-! ## One aggregation -/

theorem concat_aggregated (o : FloatOps) (k : AggKind) (vss : List (List B64)) (vs : List B64) :
    AggResult.concat o k (aggregated o k vss) (k.dispatchOnVec o vs) = .ok (aggregated o k (vss ++ [vs])) := by
  cases k <;> simp [aggregated, AggKind.dispatchOnVec, AggResult.concat]

theorem zero_aggregated (o : FloatOps) (k : AggKind) : AggResult.zero k = aggregated o k [] := by
  cases k <;> rfl

section

variable {E : Env} {bm : Option Bitmap} {sizes : List Nat} {ds : List Decoder} {ts : List (List (List B64))}

theorem getD_sizes {i : Nat} (hi : i < sizes.length) : sizes.getD i 0 = sizes[i] := by
  simp [List.getD, List.getElem?_eq_getElem hi]

theorem startOf_le {i : Nat} (hi : i < sizes.length) : startOf sizes i + sizes[i] ≤ sizes.sum := by
  have h : sizes.take i ++ sizes[i] :: sizes.drop (i + 1) = sizes := by
    rw [← List.drop_eq_getElem_cons hi, List.take_append_drop]
  have h2 := congrArg List.sum h
  rw [List.sum_append, List.sum_cons] at h2
  unfold startOf
  omega

theorem in32_chunk (hr : In32 bm 0 sizes.sum) {i : Nat} (hi : i < sizes.length) :
    In32 bm (startOf sizes i) sizes[i] :=
  hr.imp id fun h => by have := startOf_le hi; omega

/-- Evaluating on readers of chunk `i`. -/
theorem evaluate_chunk (hr : In32 bm 0 sizes.sum) (ht : Tables E sizes ds ts) (e : Expr)
    (hidx : ∀ j ∈ columnsOf e, j < ds.length) {i : Nat} (hi : i < sizes.length) (hs : List Handle)
    (hc : Columns E (startOf sizes i) sizes[i] (chunkColumns ts i) hs) :
    (columnsOf e ≠ [] → NoConstantPart e → ∃ hs', e.computeChunk E bm hs
        = .ok (pointwise E.o bm (startOf sizes i) (sizes.getD i 0) (chunkColumns ts i) e, hs') ∧
      Columns E (startOf sizes i) sizes[i] (chunkColumns ts i) hs') ∧
    (¬ (columnsOf e ≠ [] ∧ NoConstantPart e) → e.computeChunk E bm hs = .err) := by
  have hl : ∀ j ∈ columnsOf e, j < (chunkColumns ts i).length := by
    intro j hj
    rw [chunkColumns, List.length_map, ht.length]
    exact hidx j hj
  have h := evaluate E bm e (in32_chunk hr hi) hl hs hc
  rw [getD_sizes hi]
  refine ⟨h.1, fun hn => ?_⟩
  by_cases hcol : columnsOf e = []
  · exact c43_literals_rejected E bm e hcol hs
  · exact h.2 fun h2 => hn ⟨hcol, h2⟩

theorem aggLoop_ok (hr : In32 bm 0 sizes.sum) (ht : Tables E sizes ds ts) (a : Aggregation)
    (hidx : ∀ j ∈ columnsOf a.expr, j < ds.length) (hcol : columnsOf a.expr ≠ []) (hn : NoConstantPart a.expr)
    (is : List Nat) (hi : ∀ i ∈ is, i < sizes.length) (vss : List (List B64)) :
    aggLoop E a ds bm is (aggregated E.o a.kind vss) = .ok (aggregated E.o a.kind (vss ++ is.map fun i =>
      pointwise E.o bm (startOf sizes i) (sizes.getD i 0) (chunkColumns ts i) a.expr)) := by
  induction is generalizing vss with
  | nil => simp [aggLoop]
  | cons i is ih =>
    have hii := hi i (List.mem_cons_self ..)
    obtain ⟨hs, e1, hc⟩ := openReaders_columns hii ht
    obtain ⟨hs', e2, -⟩ := (evaluate_chunk hr ht a.expr hidx hii hs hc).1 hcol hn
    rw [aggLoop, e1]
    simp only [Res.bind_ok, e2, concat_aggregated]
    rw [ih (fun j hj => hi j (List.mem_cons_of_mem _ hj)), List.map_cons, List.append_assoc]
    rfl

theorem aggLoop_err (hr : In32 bm 0 sizes.sum) (ht : Tables E sizes ds ts) (a : Aggregation)
    (hidx : ∀ j ∈ columnsOf a.expr, j < ds.length)
    (hn : ¬ (columnsOf a.expr ≠ [] ∧ NoConstantPart a.expr)) (i : Nat) (is : List Nat) (hi : i < sizes.length)
    (acc : AggResult) : aggLoop E a ds bm (i :: is) acc = .err := by
  obtain ⟨hs, e1, hc⟩ := openReaders_columns hi ht
  rw [aggLoop, e1]
  simp only [Res.bind_ok, (evaluate_chunk hr ht a.expr hidx hi hs hc).2 hn]
  rfl

theorem decoderAt_zero (ht : Tables E sizes ds ts) (hne : ds ≠ []) :
    ∃ d, decoderAt ds 0 = .ok d ∧ d.info.footer.chunks = sizes.length := by
  cases ds with
  | nil => exact absurd rfl hne
  | cons d ds =>
    cases ts with
    | nil => exact ht.elim
    | cons css ts => exact ⟨d, rfl, by rw [ht.1.chunks, ← ht.2.1, List.length_map]⟩

theorem compute_compound (ht : Tables E sizes ds ts) (hne : ds ≠ []) (a : Aggregation) (hcomp : compound a.expr) :
    a.compute E ds bm = aggLoop E a ds bm (List.range sizes.length) (aggregated E.o a.kind []) := by
  obtain ⟨d, h1, h2⟩ := decoderAt_zero ht hne
  unfold Aggregation.compute
  cases he : a.expr with
  | index i => rw [he] at hcomp; exact hcomp.elim
  | literal v => simp only [h1, Res.bind_ok, h2, zero_aggregated E.o]
  | binary op l r => simp only [h1, Res.bind_ok, h2, zero_aggregated E.o]

/-- Aggregating a compound expression over files with the same chunks gives the aggregate of its
pointwise values. -/
theorem c44_compound (hr : In32 bm 0 sizes.sum) (ht : Tables E sizes ds ts) (hne : ds ≠ []) (a : Aggregation)
    (hcomp : compound a.expr) (hidx : ∀ j ∈ columnsOf a.expr, j < ds.length) (hcol : columnsOf a.expr ≠ [])
    (hn : NoConstantPart a.expr) :
    a.compute E ds bm = .ok (aggregated E.o a.kind (chunkValues E.o bm sizes ts a.expr)) := by
  rw [compute_compound ht hne a hcomp,
    aggLoop_ok hr ht a hidx hcol hn _ (fun i hi => List.mem_range.1 hi), List.nil_append]
  rfl

/-- Otherwise (and if there is a chunk) it is an error. -/
theorem c44_rejected (hr : In32 bm 0 sizes.sum) (ht : Tables E sizes ds ts) (hne : ds ≠ []) (a : Aggregation)
    (hcomp : compound a.expr) (hidx : ∀ j ∈ columnsOf a.expr, j < ds.length)
    (hn : ¬ (columnsOf a.expr ≠ [] ∧ NoConstantPart a.expr)) (hs : sizes ≠ []) : a.compute E ds bm = .err := by
  rw [compute_compound ht hne a hcomp]
  cases sizes with
  | nil => exact absurd rfl hs
  | cons n sizes =>
    rw [List.length_cons, List.range_succ_eq_map]
    exact aggLoop_err hr ht a hidx hn 0 _ (by simp) _

end

/-! ## The chunks' values together -/

/-- The chunks' values are the pointwise values of the whole columns. -/
theorem chunkValues_flatten (o : FloatOps) (bm : Option Bitmap) (e : Expr) (ts : List (List (List B64)))
    (sizes : List Nat) (hs : ∀ css ∈ ts, css.map List.length = sizes)
    (hidx : ∀ j ∈ columnsOf e, j < ts.length) :
    (chunkValues o bm sizes ts e).flatten = pointwise o bm 0 sizes.sum (ts.map List.flatten) e := by
  have hcol : ∀ (f g : Nat → B64), (∀ i ∈ columnsOf e, f i = g i) → evalAt o f e = evalAt o g e := by
    intro f g
    induction e with
    | literal v => intro _; rfl
    | index i => intro h; exact h i (by simp [columnsOf])
    | binary op l r ihl ihr =>
      intro h
      rw [evalAt_binary, evalAt_binary, ihl (fun j hj => hidx j (by simp [columnsOf, hj])) (fun i hi => h i (by simp [columnsOf, hi])),
        ihr (fun j hj => hidx j (by simp [columnsOf, hj])) (fun i hi => h i (by simp [columnsOf, hi]))]
  -- up to chunk `k`
  have key : ∀ k, k ≤ sizes.length →
      ((List.range k).map fun i => pointwise o bm (startOf sizes i) (sizes.getD i 0) (chunkColumns ts i) e).flatten
        = pointwise o bm 0 (startOf sizes k) (ts.map List.flatten) e := by
    intro k
    induction k with
    | zero => intro _; simp [startOf, pointwise, chosenPositions]
    | succ k ih =>
      intro hk
      have hk' : k < sizes.length := hk
      rw [List.range_succ, List.map_append, List.flatten_append, ih (by omega)]
      have hst : startOf sizes (k + 1) = startOf sizes k + sizes.getD k 0 := by
        unfold startOf
        rw [List.take_add_one, List.getElem?_eq_getElem hk', List.sum_append, getD_sizes hk']
        simp
      rw [hst]
      unfold pointwise chosenPositions
      rw [List.range_add, List.filter_append, List.map_append]
      congr 1
      simp only [List.map_cons, List.map_nil, List.flatten_cons, List.flatten_nil, List.append_nil]
      rw [List.filter_map, List.map_map]
      have hp : ((fun j => bm.all fun b => b.contains (0 + j)) ∘ fun x => startOf sizes k + x)
          = fun j => bm.all fun b => b.contains (startOf sizes k + j) := by
        funext j; simp [Function.comp]
      rw [hp]
      apply List.map_congr_left
      intro j hj
      have hj := List.mem_range.1 (List.mem_filter.1 hj).1
      simp only [Function.comp]
      apply hcol
      intro i hi
      have hi := hidx i hi
      have hcss := hs ts[i] (List.getElem_mem hi)
      have hkc : k < ts[i].length := by rw [← hcss, List.length_map] at hk'; exact hk'
      have hsplit : ts[i].flatten = (ts[i].take k).flatten ++ (ts[i][k] ++ (ts[i].drop (k + 1)).flatten) := by
        rw [← List.flatten_cons, ← List.drop_eq_getElem_cons hkc, ← List.flatten_append, List.take_append_drop]
      have hst2 : startOf sizes k = (ts[i].take k).flatten.length := by
        rw [startOf, ← hcss, ← List.map_take, List.length_flatten]
      have hkl : sizes.getD k 0 = ts[i][k].length := by
        rw [getD_sizes hk']; simp [← hcss]
      have e1 : (chunkColumns ts k).getD i [] = ts[i][k] := by
        simp [chunkColumns, List.getD, List.getElem?_eq_getElem hi, List.getElem?_eq_getElem hkc]
      have e2 : (ts.map List.flatten).getD i [] = ts[i].flatten := by
        simp [List.getD, List.getElem?_eq_getElem hi]
      rw [e1, e2, hsplit, hst2]
      simp only [List.getD]
      rw [List.getElem?_append_right (by omega), Nat.add_sub_cancel_left, List.getElem?_append_left (by omega)]
  have h := key sizes.length (Nat.le_refl _)
  rw [show startOf sizes sizes.length = sizes.sum by rw [startOf, List.take_length]] at h
  exact h

theorem Tables.sizes {E : Env} {sizes : List Nat} : ∀ {ds : List Decoder} {ts : List (List (List B64))},
    Tables E sizes ds ts → ∀ css ∈ ts, css.map List.length = sizes
  | [], [], _, css, h => by cases h
  | _ :: _, _ :: _, ⟨_, h2, h3⟩, css, h => by
    rcases List.mem_cons.1 h with rfl | h
    · exact h2
    · exact h3.sizes css h
  | [], _ :: _, h, _, _ => h.elim
  | _ :: _, [], h, _, _ => h.elim

section

variable {E : Env} {bm : Option Bitmap} {sizes : List Nat} {ds : List Decoder} {ts : List (List (List B64))}
  (hr : In32 bm 0 sizes.sum) (ht : Tables E sizes ds ts) (hne : ds ≠ []) (e : Expr) (hcomp : compound e)
  (hidx : ∀ j ∈ columnsOf e, j < ds.length) (hcol : columnsOf e ≠ []) (hn : NoConstantPart e)

include hr ht hne hcomp hidx hcol hn

/-- Without aggregation: the pointwise values of the whole columns. -/
theorem c44_none : (Aggregation.mk .none e).compute E ds bm
    = .ok (.array (pointwise E.o bm 0 sizes.sum (ts.map List.flatten) e)) := by
  rw [c44_compound hr ht hne _ hcomp hidx hcol hn,
    ← chunkValues_flatten E.o bm e ts sizes ht.sizes (by rw [ht.length]; exact hidx)]
  rfl

/-- Maximum: the largest of them that is not a NaN; `-inf` when there is none. -/
theorem c44_max (ho : MinMaxLaw E.o) : ∃ r, (Aggregation.mk .max e).compute E ds bm = .ok (.scalar r) ∧
    isNaN r = false ∧ (r = negInf ∨ r ∈ pointwise E.o bm 0 sizes.sum (ts.map List.flatten) e) ∧
    ∀ v ∈ pointwise E.o bm 0 sizes.sum (ts.map List.flatten) e, isNaN v = false → fle v r = true := by
  have hx := Extremum.chunks (le := fun a b => fle b a) (init := negInf) (f := E.o.fmax)
    (fun a b c h1 h2 => fle_trans h2 h1) (fun a b h1 h2 => (ho.max_nan a b h1 h2).1) ho.max
    ⟨by decide, Or.inl rfl, by decide, by simp⟩ id (chunkValues E.o bm sizes ts e)
    (us := []) (r := negInf) ⟨by decide, Or.inl rfl, by decide, by simp⟩
  rw [List.nil_append, List.flatMap_id,
    chunkValues_flatten E.o bm e ts sizes ht.sizes (by rw [ht.length]; exact hidx)] at hx
  exact ⟨_, c44_compound hr ht hne ⟨.max, e⟩ hcomp hidx hcol hn, hx.num, hx.mem, hx.bound⟩

/-- Minimum. -/
theorem c44_min (ho : MinMaxLaw E.o) : ∃ r, (Aggregation.mk .min e).compute E ds bm = .ok (.scalar r) ∧
    isNaN r = false ∧ (r = posInf ∨ r ∈ pointwise E.o bm 0 sizes.sum (ts.map List.flatten) e) ∧
    ∀ v ∈ pointwise E.o bm 0 sizes.sum (ts.map List.flatten) e, isNaN v = false → fle r v = true := by
  have hx := Extremum.chunks (le := fle) (init := posInf) (f := E.o.fmin)
    (fun a b c h1 h2 => fle_trans h1 h2) (fun a b h1 h2 => (ho.min_nan a b h1 h2).1) ho.min
    ⟨by decide, Or.inl rfl, by decide, by simp⟩ id (chunkValues E.o bm sizes ts e)
    (us := []) (r := posInf) ⟨by decide, Or.inl rfl, by decide, by simp⟩
  rw [List.nil_append, List.flatMap_id,
    chunkValues_flatten E.o bm e ts sizes ht.sizes (by rw [ht.length]; exact hidx)] at hx
  exact ⟨_, c44_compound hr ht hne ⟨.min, e⟩ hcomp hidx hcol hn, hx.num, hx.mem, hx.bound⟩

/-- Sum: the values of each chunk are added up in order, then the partial sums from 0 in chunk order. -/
theorem c44_sum : ∃ vss : List (List B64), vss.length = sizes.length ∧
    vss.flatten = pointwise E.o bm 0 sizes.sum (ts.map List.flatten) e ∧
    (Aggregation.mk .sum e).compute E ds bm
      = .ok (.scalar ((vss.map fun vs => vs.foldl E.o.add E.o.sumInit).foldl E.o.add 0#64)) := by
  refine ⟨chunkValues E.o bm sizes ts e, by simp [chunkValues],
    chunkValues_flatten E.o bm e ts sizes ht.sizes (by rw [ht.length]; exact hidx), ?_⟩
  rw [c44_compound hr ht hne _ hcomp hidx hcol hn, List.foldl_map]
  rfl

end

/-! ## Several aggregations -/

/-- Acceptable for evaluation. -/
def Good (e : Expr) : Prop := columnsOf e ≠ [] ∧ NoConstantPart e

section

variable {E : Env} {bm : Option Bitmap} {sizes : List Nat} {ds : List Decoder} {ts : List (List (List B64))}

/-- The results after the chunks `seen`. -/
def State (E : Env) (bm : Option Bitmap) (sizes : List Nat) (ds : List Decoder) (ts : List (List (List B64)))
    (seen : List Nat) : List Aggregation → List (AggResult × Bool) → Prop
  | [], [] => True
  | a :: as, r :: rs =>
    ((r.2 = true ∧ ¬ compound a.expr ∧ a.compute E ds bm = .ok r.1) ∨
      (r.2 = false ∧ compound a.expr ∧ r.1 = aggregated E.o a.kind (seen.map fun i =>
        pointwise E.o bm (startOf sizes i) (sizes.getD i 0) (chunkColumns ts i) a.expr))) ∧
    State E bm sizes ds ts seen as rs
  | _, _ => False

theorem startAll_cons (a : Aggregation) (as : List Aggregation) :
    (∃ i, a.expr = .index i ∧ startAll E ds bm (a :: as)
        = (a.compute E ds bm).bind fun r => (startAll E ds bm as).bind fun rs => .ok ((r, true) :: rs)) ∨
    (compound a.expr ∧ startAll E ds bm (a :: as)
        = (startAll E ds bm as).bind fun rs => .ok ((AggResult.zero a.kind, false) :: rs)) := by
  rw [startAll]
  unfold Aggregation.compute
  cases he : a.expr with
  | index i =>
    left
    refine ⟨i, rfl, ?_⟩
    simp only
    cases decoderAt ds i with
    | err => rfl
    | panic => rfl
    | ok d =>
      simp only [Res.bind_ok]
      cases a.kind.dispatch E d bm <;> rfl
  | literal v => exact Or.inr ⟨trivial, rfl⟩
  | binary op l r => exact Or.inr ⟨trivial, rfl⟩

theorem startAll_state {as : List Aggregation} {rs : List (AggResult × Bool)}
    (h : startAll E ds bm as = .ok rs) : State E bm sizes ds ts [] as rs := by
  induction as generalizing rs with
  | nil => cases h; trivial
  | cons a as ih =>
    rcases startAll_cons (E := E) (ds := ds) (bm := bm) a as with ⟨i, he, e⟩ | ⟨hc, e⟩
    · rw [e] at h
      obtain ⟨r, h1, h2⟩ := Res.bind_eq_ok h
      obtain ⟨rs', h3, h4⟩ := Res.bind_eq_ok h2
      cases h4
      exact ⟨Or.inl ⟨rfl, by rw [he]; exact id, h1⟩, ih h3⟩
    · rw [e] at h
      obtain ⟨rs', h3, h4⟩ := Res.bind_eq_ok h
      cases h4
      exact ⟨Or.inr ⟨rfl, hc, zero_aggregated E.o a.kind⟩, ih h3⟩

theorem startAll_ok {as : List Aggregation}
    (h : ∀ a ∈ as, ¬ compound a.expr → ∃ r, a.compute E ds bm = .ok r) :
    ∃ rs, startAll E ds bm as = .ok rs := by
  induction as with
  | nil => exact ⟨[], rfl⟩
  | cons a as ih =>
    obtain ⟨rs, h1⟩ := ih fun b hb => h b (List.mem_cons_of_mem _ hb)
    rcases startAll_cons (E := E) (ds := ds) (bm := bm) a as with ⟨i, he, e⟩ | ⟨hc, e⟩
    · obtain ⟨r, h2⟩ := h a (List.mem_cons_self ..) (by rw [he]; exact id)
      rw [e, h2, h1]
      exact ⟨_, rfl⟩
    · rw [e, h1]
      exact ⟨_, rfl⟩

theorem stepAll_ok (hr : In32 bm 0 sizes.sum) (ht : Tables E sizes ds ts) {i : Nat} (hi : i < sizes.length)
    {seen : List Nat} {as : List Aggregation} {rs : List (AggResult × Bool)}
    (hst : State E bm sizes ds ts seen as rs) (hidx : ∀ a ∈ as, ∀ j ∈ columnsOf a.expr, j < ds.length)
    (hgood : ∀ a ∈ as, compound a.expr → Good a.expr) (hs : List Handle)
    (hc : Columns E (startOf sizes i) sizes[i] (chunkColumns ts i) hs) :
    ∃ rs', stepAll E bm as rs hs = .ok rs' ∧ State E bm sizes ds ts (seen ++ [i]) as rs' := by
  induction as generalizing rs hs with
  | nil =>
    cases rs with
    | nil => exact ⟨[], rfl, trivial⟩
    | cons r rs => exact hst.elim
  | cons a as ih =>
    cases rs with
    | nil => exact hst.elim
    | cons r rs =>
      obtain ⟨acc, done⟩ := r
      have hidx' := fun b hb => hidx b (List.mem_cons_of_mem a hb)
      have hgood' := fun b hb => hgood b (List.mem_cons_of_mem a hb)
      rcases hst.1 with ⟨h1, h2, h3⟩ | ⟨h1, h2, h3⟩
      · obtain ⟨rs', e1, e2⟩ := ih hst.2 hidx' hgood' hs hc
        obtain rfl : done = true := h1
        refine ⟨(acc, true) :: rs', ?_, Or.inl ⟨rfl, h2, h3⟩, e2⟩
        rw [stepAll, if_pos rfl, e1]
        rfl
      · obtain rfl : done = false := h1
        obtain ⟨g1, g2⟩ := hgood a (List.mem_cons_self ..) h2
        obtain ⟨hs', e0, hc'⟩ := (evaluate_chunk hr ht a.expr (hidx a (List.mem_cons_self ..)) hi hs hc).1 g1 g2
        obtain ⟨rs', e1, e2⟩ := ih hst.2 hidx' hgood' hs' hc'
        obtain rfl : acc = _ := h3
        refine ⟨(aggregated E.o a.kind ((seen ++ [i]).map fun i =>
          pointwise E.o bm (startOf sizes i) (sizes.getD i 0) (chunkColumns ts i) a.expr), false) :: rs', ?_,
          Or.inr ⟨rfl, h2, rfl⟩, e2⟩
        rw [stepAll, if_neg (by simp), e0]
        simp only [Res.bind_ok, concat_aggregated, e1, List.map_append, List.map_cons, List.map_nil]

theorem stepAll_err (hr : In32 bm 0 sizes.sum) (ht : Tables E sizes ds ts) {i : Nat} (hi : i < sizes.length)
    {seen : List Nat} {as : List Aggregation} {rs : List (AggResult × Bool)}
    (hst : State E bm sizes ds ts seen as rs) (hidx : ∀ a ∈ as, ∀ j ∈ columnsOf a.expr, j < ds.length)
    (hbad : ∃ a ∈ as, compound a.expr ∧ ¬ Good a.expr) (hs : List Handle)
    (hc : Columns E (startOf sizes i) sizes[i] (chunkColumns ts i) hs) :
    stepAll E bm as rs hs = .err := by
  induction as generalizing rs hs with
  | nil => obtain ⟨a, h, -⟩ := hbad; cases h
  | cons a as ih =>
    cases rs with
    | nil => exact hst.elim
    | cons r rs =>
      obtain ⟨acc, done⟩ := r
      have hidx' := fun b hb => hidx b (List.mem_cons_of_mem a hb)
      have hrest : (compound a.expr → Good a.expr) → ∃ b ∈ as, compound b.expr ∧ ¬ Good b.expr := by
        intro hg
        obtain ⟨b, hb, h1, h2⟩ := hbad
        rcases List.mem_cons.1 hb with rfl | hb
        · exact absurd (hg h1) h2
        · exact ⟨b, hb, h1, h2⟩
      rcases hst.1 with ⟨h1, h2, h3⟩ | ⟨h1, h2, h3⟩
      · obtain rfl : done = true := h1
        rw [stepAll, if_pos rfl, ih hst.2 hidx' (hrest fun h => absurd h h2) hs hc]
        rfl
      · obtain rfl : done = false := h1
        have hev := evaluate_chunk hr ht a.expr (hidx a (List.mem_cons_self ..)) hi hs hc
        rw [stepAll, if_neg (by simp)]
        by_cases hg : Good a.expr
        · obtain ⟨hs', e0, hc'⟩ := hev.1 hg.1 hg.2
          obtain rfl : acc = _ := h3
          rw [e0]
          simp only [Res.bind_ok, concat_aggregated, ih hst.2 hidx' (hrest fun _ => hg) hs' hc']
          rfl
        · rw [hev.2 hg]
          rfl

theorem multiLoop_ok (hr : In32 bm 0 sizes.sum) (ht : Tables E sizes ds ts) (is : List Nat)
    (hi : ∀ i ∈ is, i < sizes.length) {seen : List Nat} {as : List Aggregation} {rs : List (AggResult × Bool)}
    (hst : State E bm sizes ds ts seen as rs) (hidx : ∀ a ∈ as, ∀ j ∈ columnsOf a.expr, j < ds.length)
    (hgood : is = [] ∨ ∀ a ∈ as, compound a.expr → Good a.expr) :
    ∃ rs', multiLoop E as ds bm is rs = .ok rs' ∧ State E bm sizes ds ts (seen ++ is) as rs' := by
  induction is generalizing seen rs with
  | nil => exact ⟨rs, rfl, by rw [List.append_nil]; exact hst⟩
  | cons i is ih =>
    have hg := hgood.resolve_left (by simp)
    have hii := hi i (List.mem_cons_self ..)
    obtain ⟨hs, e1, hc⟩ := openReaders_columns hii ht
    obtain ⟨rs1, e2, h2⟩ := stepAll_ok hr ht hii hst hidx hg hs hc
    obtain ⟨rs2, e3, h3⟩ := ih (fun j hj => hi j (List.mem_cons_of_mem _ hj)) h2 (Or.inr hg)
    refine ⟨rs2, ?_, by rw [List.append_assoc] at h3; exact h3⟩
    rw [multiLoop, e1]
    simp only [Res.bind_ok, e2, e3]

theorem State.results {as : List Aggregation} {rs : List (AggResult × Bool)} {seen : List Nat}
    (h : State E bm sizes ds ts seen as rs)
    (hc : ∀ a ∈ as, compound a.expr → a.compute E ds bm = .ok (aggregated E.o a.kind (seen.map fun i =>
        pointwise E.o bm (startOf sizes i) (sizes.getD i 0) (chunkColumns ts i) a.expr))) :
    rs.length = as.length ∧ ∀ (k : Nat) (a : Aggregation), as[k]? = some a →
      ∃ r, (rs.map Prod.fst)[k]? = some r ∧ a.compute E ds bm = .ok r := by
  induction as generalizing rs with
  | nil =>
    cases rs with
    | nil => exact ⟨rfl, fun k a h => by simp at h⟩
    | cons r rs => exact h.elim
  | cons a as ih =>
    cases rs with
    | nil => exact h.elim
    | cons r rs =>
      obtain ⟨h1, h2⟩ := ih h.2 fun b hb => hc b (List.mem_cons_of_mem _ hb)
      refine ⟨congrArg (· + 1) h1, fun k b hk => ?_⟩
      cases k with
      | zero =>
        obtain rfl : a = b := by simpa using hk
        refine ⟨r.1, rfl, ?_⟩
        rcases h.1 with ⟨-, -, h3⟩ | ⟨-, h3, h4⟩
        · exact h3
        · rw [hc a (List.mem_cons_self ..) h3, h4]
      | succ k =>
        obtain ⟨x, h3, h4⟩ := h2 k b (by simpa using hk)
        exact ⟨x, by simpa using h3, h4⟩

/-- Computing several aggregations together succeeds exactly when each of them does alone, with the same
results: on a non-empty list of files with the same chunk sizes. -/
theorem c44_together (hr : In32 bm 0 sizes.sum) (ht : Tables E sizes ds ts) (hne : ds ≠ [])
    (as : List Aggregation) (hidx : ∀ a ∈ as, ∀ j ∈ columnsOf a.expr, j < ds.length) (rs : List AggResult) :
    Aggregation.computeMultiple E as ds bm = .ok rs ↔
      rs.length = as.length ∧ ∀ (k : Nat) (a : Aggregation), as[k]? = some a →
        ∃ r, rs[k]? = some r ∧ a.compute E ds bm = .ok r := by
  obtain ⟨d, hd, hch⟩ := decoderAt_zero ht hne
  -- what a run gives once it has started, when all expressions can be evaluated
  have run : (sizes = [] ∨ ∀ a ∈ as, compound a.expr → Good a.expr) → ∀ rs0, startAll E ds bm as = .ok rs0 →
      ∃ rs, Aggregation.computeMultiple E as ds bm = .ok rs ∧ rs.length = as.length ∧
        ∀ (k : Nat) (a : Aggregation), as[k]? = some a → ∃ r, rs[k]? = some r ∧ a.compute E ds bm = .ok r := by
    intro hg rs0 h0
    obtain ⟨rs1, h1, h2⟩ := multiLoop_ok hr ht (List.range sizes.length) (fun i hi => List.mem_range.1 hi)
      (startAll_state (sizes := sizes) (ts := ts) h0) hidx (hg.imp (fun h => by simp [h]) id)
    rw [List.nil_append] at h2
    have h3 := h2.results fun a ha hc => by
      rcases hg with rfl | hg
      · rw [compute_compound ht hne a hc]; rfl
      · have hg' := hg a ha hc
        exact c44_compound hr ht hne a hc (hidx a ha) hg'.1 hg'.2
    refine ⟨rs1.map Prod.fst, ?_, by rw [List.length_map]; exact h3.1, h3.2⟩
    unfold Aggregation.computeMultiple
    rw [h0]
    simp only [Res.bind_ok, hd, hch, h1]
  constructor
  · intro h
    obtain ⟨rs0, h0, -⟩ := Res.bind_eq_ok (by unfold Aggregation.computeMultiple at h; exact h)
    by_cases hg : sizes = [] ∨ ∀ a ∈ as, compound a.expr → Good a.expr
    · obtain ⟨rs', e1, e2⟩ := run hg rs0 h0
      rw [h] at e1
      cases e1
      exact e2
    · exfalso
      have hs : sizes ≠ [] := fun h => hg (Or.inl h)
      have hbad : ∃ a ∈ as, compound a.expr ∧ ¬ Good a.expr := by
        apply Classical.byContradiction
        intro hno
        exact hg (Or.inr fun a ha hc => Classical.byContradiction fun hn => hno ⟨a, ha, hc, hn⟩)
      cases hsz : sizes with
      | nil => exact hs hsz
      | cons n sizes' =>
        have hi : 0 < sizes.length := by rw [hsz]; simp
        obtain ⟨hs0, e1, hc⟩ := openReaders_columns hi ht
        have e2 := stepAll_err hr ht hi (startAll_state (sizes := sizes) (ts := ts) h0) hidx hbad hs0 hc
        unfold Aggregation.computeMultiple at h
        rw [h0] at h
        simp only [Res.bind_ok, hd, hch] at h
        rw [show sizes.length = sizes'.length + 1 by rw [hsz]; rfl, List.range_succ_eq_map, multiLoop, e1] at h
        simp only [Res.bind_ok, e2] at h
        cases h
  · rintro ⟨hl, hall⟩
    have hone : ∀ a ∈ as, ∃ r, a.compute E ds bm = .ok r := by
      intro a ha
      obtain ⟨k, hk⟩ := List.getElem?_of_mem ha
      obtain ⟨r, -, h⟩ := hall k a hk
      exact ⟨r, h⟩
    have hg : sizes = [] ∨ ∀ a ∈ as, compound a.expr → Good a.expr := by
      by_cases hs : sizes = []
      · exact Or.inl hs
      · refine Or.inr fun a ha hc => Classical.byContradiction fun hn => ?_
        obtain ⟨r, h⟩ := hone a ha
        rw [c44_rejected hr ht hne a hc (hidx a ha) hn hs] at h
        cases h
    obtain ⟨rs0, h0⟩ := startAll_ok (E := E) (ds := ds) (bm := bm) (as := as) fun a ha _ => hone a ha
    obtain ⟨rs', e1, e2, e3⟩ := run hg rs0 h0
    have : rs' = rs := by
      apply List.ext_getElem?
      intro k
      by_cases hk : k < as.length
      · obtain ⟨r1, f1, f2⟩ := e3 k as[k] (List.getElem?_eq_getElem hk)
        obtain ⟨r2, f3, f4⟩ := hall k as[k] (List.getElem?_eq_getElem hk)
        rw [f2] at f4
        cases f4
        rw [f1, f3]
      · rw [List.getElem?_eq_none (by omega), List.getElem?_eq_none (by omega)]
    rw [← this]
    exact e1

end

/-! ## A bare column -/

/-- A bare column is answered by the file's own query. -/
theorem c44_bare (E : Env) (ds : List Decoder) (bm : Option Bitmap) (i : Nat) (d : Decoder) (h : ds[i]? = some d) :
    (Aggregation.mk .max (.index i)).compute E ds bm = (d.max E bm none).map .scalar ∧
    (Aggregation.mk .min (.index i)).compute E ds bm = (d.min E bm none).map .scalar ∧
    (Aggregation.mk .sum (.index i)).compute E ds bm = (d.sum E bm none).map .scalar := by
  simp [Aggregation.compute, decoderAt, h, AggKind.dispatch]

/-- Without aggregation a bare column panics (`todo!()`), where any other expression gives its values. -/
theorem c44_bare_none_panics (E : Env) (ds : List Decoder) (bm : Option Bitmap) (i : Nat) :
    (Aggregation.mk .none (.index i)).compute E ds bm = .panic := by
  cases h : ds[i]? <;> simp [Aggregation.compute, decoderAt, h, AggKind.dispatch, Bind.bind, Res.bind]

/-- Maximum of a bare column of a file that stores its values unchanged or through an adaptor without
queries of its own. -/
theorem c44_bare_max {E : Env} {a : Args} {file : List Byte} {m : Metadata} (h : Written E a file m)
    (h1 : a.cfg.scheme ≠ .buff) (h2 : a.cfg.scheme ≠ .deltaSprintz) (prec : Option Nat) (ho : MinMaxLaw E.o)
    (bm : Option Bitmap) (hr : bm = none ∨ a.records.length < 2 ^ 32) (ds : List Decoder) (i : Nat)
    (hd : ds[i]? = some ⟨file, m, prec⟩) :
    ∃ r, (Aggregation.mk .max (.index i)).compute E ds bm = .ok (.scalar r) ∧ isNaN r = false ∧
      (r = negInf ∨ r ∈ pick bm (a.records.map (readBack E a.cfg))) ∧
      ∀ v ∈ pick bm (a.records.map (readBack E a.cfg)), isNaN v = false → fle v r = true := by
  obtain ⟨r, e, h⟩ := c33_decoder_max h h1 h2 prec ho bm hr
  exact ⟨r, by rw [(c44_bare E ds bm i _ hd).1, e]; rfl, h⟩

/-- Minimum. -/
theorem c44_bare_min {E : Env} {a : Args} {file : List Byte} {m : Metadata} (h : Written E a file m)
    (h1 : a.cfg.scheme ≠ .buff) (h2 : a.cfg.scheme ≠ .deltaSprintz) (prec : Option Nat) (ho : MinMaxLaw E.o)
    (bm : Option Bitmap) (hr : bm = none ∨ a.records.length < 2 ^ 32) (ds : List Decoder) (i : Nat)
    (hd : ds[i]? = some ⟨file, m, prec⟩) :
    ∃ r, (Aggregation.mk .min (.index i)).compute E ds bm = .ok (.scalar r) ∧ isNaN r = false ∧
      (r = posInf ∨ r ∈ pick bm (a.records.map (readBack E a.cfg))) ∧
      ∀ v ∈ pick bm (a.records.map (readBack E a.cfg)), isNaN v = false → fle r v = true := by
  obtain ⟨r, e, h⟩ := c33_decoder_min h h1 h2 prec ho bm hr
  exact ⟨r, by rw [(c44_bare E ds bm i _ hd).2.1, e]; rfl, h⟩

/-- Sum. -/
theorem c44_bare_sum {E : Env} {a : Args} {file : List Byte} {m : Metadata} (h : Written E a file m)
    (h1 : a.cfg.scheme ≠ .buff) (h2 : a.cfg.scheme ≠ .deltaSprintz) (prec : Option Nat)
    (bm : Option Bitmap) (hr : bm = none ∨ a.records.length < 2 ^ 32) (ds : List Decoder) (i : Nat)
    (hd : ds[i]? = some ⟨file, m, prec⟩) :
    ∃ chunks : List (List B64), chunks.flatten = a.records.map (readBack E a.cfg) ∧
      chunks.length = m.footer.chunks ∧
      (∀ (i : Nat) (c : List B64), chunks[i]? = some c → m.numberOfRecords i = .ok c.length) ∧
      (Aggregation.mk .sum (.index i)).compute E ds bm
        = .ok (.scalar ((partialSums E.o bm 0 chunks).foldl E.o.add 0#64)) := by
  obtain ⟨cs, e1, e2, e3, e4⟩ := c33_decoder_sum h h1 h2 prec bm hr
  exact ⟨cs, e1, e2, e3, by rw [(c44_bare E ds bm i _ hd).2.2, e4]; rfl⟩

/-! ## Examples -/

/-- The hypotheses of `c44_compound` and `c44_together` on two files of the same shape. -/
example : ∃ ds ts, Tables sampleEnv [4, 2] ds ts ∧ ds ≠ [] ∧ ds.length = 2 ∧ compound sampleExpr ∧
    Good sampleExpr ∧ In32 (some [1, 4]) 0 [4, 2].sum := by
  obtain ⟨d1, d2, -, -, ht⟩ := sample_tables
  refine ⟨_, _, ht, by simp, rfl, trivial, ⟨by simp [sampleExpr, columnsOf], ?_⟩, Or.inr (by simp)⟩
  intro s hs
  simp only [sampleExpr, subexprs, List.cons_append, List.nil_append, List.mem_cons, List.not_mem_nil,
    or_false] at hs
  rcases hs with rfl | rfl | rfl | rfl | rfl <;> simp [isLiteral, columnsOf]

/-- Two columns of different lengths (hence numbers of chunks): asking for each maximum alone works, asking
for both together panics, since the readers of the second file are opened for every chunk of the first. -/
theorem c44_together_panics : ∃ d1 d2, plainDecoder knnData 2 = some d1 ∧ plainDecoder knnData 4 = some d2 ∧
    (∃ r, (Aggregation.mk .max (.index 0)).compute sampleEnv [d1, d2] none = .ok r) ∧
    (∃ r, (Aggregation.mk .max (.index 1)).compute sampleEnv [d1, d2] none = .ok r) ∧
    Aggregation.computeMultiple sampleEnv [⟨.max, .index 0⟩, ⟨.max, .index 1⟩] [d1, d2] none = .panic := by
  have h : (do
      let d1 ← plainDecoder knnData 2
      let d2 ← plainDecoder knnData 4
      some (((Aggregation.mk .max (.index 0)).compute sampleEnv [d1, d2] none).map fun _ => (),
        ((Aggregation.mk .max (.index 1)).compute sampleEnv [d1, d2] none).map fun _ => (),
        Aggregation.computeMultiple sampleEnv [⟨.max, .index 0⟩, ⟨.max, .index 1⟩] [d1, d2] none))
      = some (.ok (), .ok (), .panic) := by decide +kernel
  obtain ⟨d1, e1, h⟩ := Option.bind_eq_some_iff.1 h
  obtain ⟨d2, e2, h⟩ := Option.bind_eq_some_iff.1 h
  simp only [Option.some.injEq, Prod.mk.injEq] at h
  obtain ⟨r1, f1, -⟩ := Res.map_eq_ok h.1
  obtain ⟨r2, f2, -⟩ := Res.map_eq_ok h.2.1
  exact ⟨d1, d2, e1, e2, ⟨r1, f1⟩, ⟨r2, f2⟩, h.2.2⟩

/-- And no aggregation at all over no files. -/
theorem c44_nothing_panics (E : Env) (bm : Option Bitmap) : Aggregation.computeMultiple E [] [] bm = .panic := rfl

end Ebi.Props
