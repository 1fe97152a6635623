import Verif.Props.Aggregation

/-!
# C59: expressions over columns that are cut into chunks differently
-/

namespace Ebi.Props

open Ebi

/-! ## Specification -/

/-- The selected values of a chunk whose first record is number `lo` of its file. -/
def chosenValues (bm : Option Bitmap) (lo : Nat) (c : List B64) : List B64 :=
  (chosenPositions bm lo c.length).map fun j => c.getD j 0#64

/-- `m` is the least of the numbers `f j`, `j` in `js`. -/
def IsLeast (f : Nat → Nat) (js : List Nat) (m : Nat) : Prop := (∃ j ∈ js, f j = m) ∧ ∀ j ∈ js, m ≤ f j

/-- The expression by rank: its `k`-th value is computed from the `k`-th selected value of every column, whatever
the record numbers; there are as many as the column with the fewest has. -/
def ByRank (o : FloatOps) (sel : Nat → List B64) (e : Expr) (vs : List B64) : Prop :=
  IsLeast (fun j => (sel j).length) (columnsOf e) vs.length ∧
  ∀ k v, vs[k]? = some v → v = evalAt o (fun j => (sel j).getD k 0#64) e

/-- Readers of one chunk of each column; the chunks need not cover the same records. -/
def Pieces (E : Env) (ps : List (Nat × List B64)) (hs : List Handle) : Prop :=
  hs.length = ps.length ∧
  ∀ (i lo : Nat) (c : List B64), ps[i]? = some (lo, c) → ∃ h, hs[i]? = some h ∧ h.Holds E lo c

/-- Chunk `i` of every file, with the number of its first record. -/
def piecesAt (ts : List (List (List B64))) (i : Nat) : List (Nat × List B64) :=
  ts.map fun css => ((css.take i).flatten.length, css.getD i [])

/-- What column `j` contributes. -/
def contribution (bm : Option Bitmap) (ps : List (Nat × List B64)) (j : Nat) : List B64 :=
  chosenValues bm (ps.getD j (0, [])).1 (ps.getD j (0, [])).2

/-- Open files, each cut in its own way. -/
def Files (E : Env) : List Decoder → List (List (List B64)) → Prop
  | [], [] => True
  | d :: ds, css :: ts => Opens E d css ∧ d.info.footer.chunkFooters.length = css.length ∧ Files E ds ts
  | _, _ => False

/-- Record numbers of the chunks fit the bitmap. -/
def AllIn32 (bm : Option Bitmap) (ts : List (List (List B64))) : Prop :=
  bm = none ∨ ∀ css ∈ ts, css.flatten.length ≤ 2 ^ 32

/-! ## Lemmas -/

theorem getD_of_some {α : Type} {l : List α} {i : Nat} {x d : α} (h : l[i]? = some x) : l.getD i d = x := by
  rw [List.getD, h]; rfl

theorem ByRank.unique {o : FloatOps} {sel : Nat → List B64} {e : Expr} {vs ws : List B64} (h1 : ByRank o sel e vs)
    (h2 : ByRank o sel e ws) : vs = ws := by
  obtain ⟨⟨⟨j, hj, e1⟩, l1⟩, v1⟩ := h1
  obtain ⟨⟨⟨j', hj', e2⟩, l2⟩, v2⟩ := h2
  have hl : vs.length = ws.length := by
    have := l1 j' hj'
    have := l2 j hj
    omega
  apply List.ext_getElem hl
  intro k hk1 hk2
  rw [v1 k _ (List.getElem?_eq_getElem hk1), v2 k _ (List.getElem?_eq_getElem hk2)]

theorem byRank_index (o : FloatOps) (sel : Nat → List B64) (i : Nat) : ByRank o sel (.index i) (sel i) :=
  ⟨⟨⟨i, by simp [columnsOf], rfl⟩, fun j hj => by
      simp only [columnsOf, List.mem_singleton] at hj
      rw [hj]; exact Nat.le_refl _⟩,
    fun k v h => (getD_of_some h).symm⟩

theorem byRank_both {o : FloatOps} {sel : Nat → List B64} {op : Op} {l r : Expr} {vs ws : List B64}
    (h1 : ByRank o sel l vs) (h2 : ByRank o sel r ws) :
    ByRank o sel (.binary op l r) (List.zipWith (op.doit o) vs ws) := by
  obtain ⟨⟨⟨j, hj, e1⟩, l1⟩, v1⟩ := h1
  obtain ⟨⟨⟨j', hj', e2⟩, l2⟩, v2⟩ := h2
  refine ⟨⟨?_, ?_⟩, ?_⟩
  · rw [List.length_zipWith]
    by_cases hm : vs.length ≤ ws.length
    · exact ⟨j, by simp [columnsOf, hj], by rw [e1]; omega⟩
    · exact ⟨j', by simp [columnsOf, hj'], by rw [e2]; omega⟩
  · intro i hi
    rw [List.length_zipWith]
    simp only [columnsOf, List.mem_append] at hi
    rcases hi with hi | hi
    · have := l1 i hi; omega
    · have := l2 i hi; omega
  · intro k v hv
    rw [List.getElem?_zipWith] at hv
    cases ha : vs[k]? with
    | none => simp [ha] at hv
    | some a =>
      cases hb : ws[k]? with
      | none => simp [ha, hb] at hv
      | some b =>
        simp only [ha, hb, Option.some.injEq] at hv
        rw [← hv, evalAt_binary, v1 k a ha, v2 k b hb]

theorem byRank_left {o : FloatOps} {sel : Nat → List B64} {op : Op} {l : Expr} {x : B64} {vs : List B64}
    (h1 : ByRank o sel l vs) : ByRank o sel (.binary op l (.literal x)) (vs.map fun v => op.doit o v x) := by
  obtain ⟨h, v1⟩ := h1
  refine ⟨by simpa only [columnsOf, List.append_nil, List.length_map] using h, ?_⟩
  intro k v hv
  rw [List.getElem?_map] at hv
  obtain ⟨a, ha, rfl⟩ := Option.map_eq_some_iff.1 hv
  rw [evalAt_binary, v1 k a ha]
  rfl

theorem byRank_right {o : FloatOps} {sel : Nat → List B64} {op : Op} {r : Expr} {x : B64} {vs : List B64}
    (h1 : ByRank o sel r vs) : ByRank o sel (.binary op (.literal x) r) (vs.map fun v => op.doit o x v) := by
  obtain ⟨h, v1⟩ := h1
  refine ⟨by simpa only [columnsOf, List.nil_append, List.length_map] using h, ?_⟩
  intro k v hv
  rw [List.getElem?_map] at hv
  obtain ⟨a, ha, rfl⟩ := Option.map_eq_some_iff.1 hv
  rw [evalAt_binary, v1 k a ha]
  rfl

theorem noConstantPart_ne {x : Expr} (hx : NoConstantPart x) (hn : x.asLiteral = none) : columnsOf x ≠ [] :=
  (hx _ (mem_subexprs_self _)).resolve_left (asLiteral_none hn)

/-! ## One chunk of each column -/

/-- On readers of any chunks, an expression combines the selected values by rank. -/
theorem c59_chunk (E : Env) (bm : Option Bitmap) {ps : List (Nat × List B64)} (e : Expr)
    (hr : ∀ p ∈ ps, In32 bm p.1 p.2.length) (hidx : ∀ i ∈ columnsOf e, i < ps.length) (hcol : columnsOf e ≠ [])
    (hn : NoConstantPart e) (hs : List Handle) (hc : Pieces E ps hs) :
    ∃ vs hs', e.computeChunk E bm hs = .ok (vs, hs') ∧ ByRank E.o (contribution bm ps) e vs ∧ Pieces E ps hs' := by
  induction e generalizing hs with
  | literal v => exact absurd rfl hcol
  | index i =>
    have hi := hidx i (by simp [columnsOf])
    have hp : ps[i]? = some (ps[i].1, ps[i].2) := List.getElem?_eq_getElem hi
    obtain ⟨h, h2, h3⟩ := hc.2 i _ _ hp
    obtain ⟨h', h4, h5⟩ := h3.exec (q := .materialize bm) rfl
    have h6 := Handle.values_of_exec h4
    have h7 := materialize_positions (hr ps[i] (List.getElem_mem hi))
    have hcn : contribution bm ps i = defaultMaterialize bm ps[i].1 ps[i].2 := by
      rw [h7]
      unfold contribution chosenValues
      rw [getD_of_some hp]
    refine ⟨contribution bm ps i, hs.set i h', ?_, byRank_index .., ?_, ?_⟩
    · rw [Expr.computeChunk]
      simp only [h2, h6]
      rw [if_neg, hcn]
      rw [h7, List.length_map, h3.records]; exact Nat.not_lt.2 (positions_length ..)
    · rw [List.length_set]; exact hc.1
    · intro j lo c hj
      obtain ⟨g, e2, e3⟩ := hc.2 j lo c hj
      by_cases hij : i = j
      · subst hij
        rw [List.getElem?_eq_getElem hi, Option.some.injEq] at hj
        rw [hj] at h5
        exact ⟨h', by rw [List.getElem?_set_self (by rw [hc.1]; exact hi)], h5⟩
      · exact ⟨g, by rw [List.getElem?_set_ne hij]; exact e2, e3⟩
  | binary op l r ihl ihr =>
    have hil : ∀ i ∈ columnsOf l, i < ps.length := fun i hi => hidx i (by simp [columnsOf, hi])
    have hir : ∀ i ∈ columnsOf r, i < ps.length := fun i hi => hidx i (by simp [columnsOf, hi])
    obtain ⟨-, hnl, hnr⟩ := noConstantPart_binary.1 hn
    rw [Expr.computeChunk]
    cases hl : l.asLiteral with
    | none =>
      obtain ⟨vs1, hs1, e1, b1, c1⟩ := ihl hil (noConstantPart_ne hnl hl) hnl hs hc
      cases hr' : r.asLiteral with
      | none =>
        obtain ⟨vs2, hs2, e2, b2, c2⟩ := ihr hir (noConstantPart_ne hnr hr') hnr hs1 c1
        exact ⟨_, hs2, by simp only [e1, e2, Res.bind_ok], byRank_both b1 b2, c2⟩
      | some v =>
        obtain rfl := asLiteral_some hr'
        exact ⟨_, hs1, by simp only [e1, Res.bind_ok], byRank_left b1, c1⟩
    | some v =>
      obtain rfl := asLiteral_some hl
      cases hr' : r.asLiteral with
      | none =>
        obtain ⟨vs2, hs2, e2, b2, c2⟩ := ihr hir (noConstantPart_ne hnr hr') hnr hs hc
        exact ⟨_, hs2, by simp only [e2, Res.bind_ok], byRank_right b2, c2⟩
      | some w =>
        obtain rfl := asLiteral_some hr'
        exact absurd rfl hcol

/-- Chunks that cover the same records: by rank is pointwise. -/
theorem c59_aligned (o : FloatOps) (bm : Option Bitmap) (lo n : Nat) (cols : List (List B64)) (e : Expr)
    (hlen : ∀ c ∈ cols, c.length = n) (hidx : ∀ i ∈ columnsOf e, i < cols.length) (vs : List B64)
    (h : ByRank o (contribution bm (cols.map fun c => (lo, c))) e vs) : vs = pointwise o bm lo n cols e := by
  have hc : ∀ i ∈ columnsOf e, contribution bm (cols.map fun c => (lo, c)) i =
      (chosenPositions bm lo n).map fun j => (cols.getD i []).getD j 0#64 := by
    intro i hi
    have hi' := hidx i hi
    have h1 : (cols.map fun c => (lo, c))[i]? = some (lo, cols[i]) := by
      rw [List.getElem?_map, List.getElem?_eq_getElem hi']; rfl
    unfold contribution chosenValues
    rw [getD_of_some h1, getD_of_some (List.getElem?_eq_getElem hi'), hlen _ (List.getElem_mem hi')]
  obtain ⟨⟨⟨j, hj, e1⟩, -⟩, hv⟩ := h
  simp only [hc j hj, List.length_map] at e1
  unfold pointwise
  apply List.ext_getElem (by rw [List.length_map, e1])
  intro k hk1 hk2
  have hk : k < (chosenPositions bm lo n).length := by rw [e1]; exact hk1
  rw [hv k _ (List.getElem?_eq_getElem hk1), List.getElem_map]
  have key : ∀ e' : Expr, (∀ i ∈ columnsOf e', i ∈ columnsOf e) →
      evalAt o (fun j => (contribution bm (cols.map fun c => (lo, c)) j).getD k 0#64) e' =
        evalAt o (fun i => (cols.getD i []).getD (chosenPositions bm lo n)[k] 0#64) e' := by
    intro e'
    induction e' with
    | literal v => intro _; rfl
    | index i =>
      intro hsub
      have hi := hsub i (by simp [columnsOf])
      simp only [evalAt]
      rw [hc i hi]
      apply getD_of_some
      rw [List.getElem?_map, List.getElem?_eq_getElem hk]
      rfl
    | binary op l r ihl ihr =>
      intro hsub
      rw [evalAt_binary, evalAt_binary, ihl fun i hi => hsub i (by simp [columnsOf, hi]),
        ihr fun i hi => hsub i (by simp [columnsOf, hi])]
  exact key e fun _ h => h

/-! ## Whole files -/

theorem Files.length {E : Env} : ∀ {ds : List Decoder} {ts : List (List (List B64))}, Files E ds ts → ts.length = ds.length
  | [], [], _ => rfl
  | _ :: _, _ :: _, ⟨_, _, h⟩ => congrArg (· + 1) h.length
  | [], _ :: _, h => h.elim
  | _ :: _, [], h => h.elim

theorem openReaders_pieces {E : Env} {i : Nat} : ∀ {ds : List Decoder} {ts : List (List (List B64))}, Files E ds ts →
    (∀ css ∈ ts, i < css.length) → ∃ hs, openReaders E i ds = .ok hs ∧ Pieces E (piecesAt ts i) hs
  | [], [], _, _ => ⟨[], rfl, rfl, fun i lo c h => by simp [piecesAt] at h⟩
  | d :: ds, css :: ts, ⟨h1, _, h3⟩, hi => by
    obtain ⟨hs, e1, e2, e3⟩ := openReaders_pieces (i := i) h3 fun c hc => hi c (List.mem_cons_of_mem _ hc)
    have hlen : i < css.length := hi css (List.mem_cons_self ..)
    obtain ⟨h, e4, e5⟩ := h1.reader i css[i] (List.getElem?_eq_getElem hlen)
    refine ⟨h :: hs, ?_, ?_, ?_⟩
    · rw [openReaders, e4]
      simp only [Res.bind_ok, e1]
    · simp [e2, piecesAt]
    · intro j lo c hj
      cases j with
      | zero =>
        simp only [piecesAt, List.map_cons, List.getElem?_cons_zero, Option.some.injEq, Prod.mk.injEq] at hj
        obtain ⟨rfl, rfl⟩ := hj
        rw [getD_of_some (List.getElem?_eq_getElem hlen)]
        exact ⟨h, rfl, e5⟩
      | succ j => exact e3 j lo c (by simpa [piecesAt] using hj)
  | [], _ :: _, h, _ => h.elim
  | _ :: _, [], h, _ => h.elim

theorem chunkReader_missing (E : Env) (d : Decoder) {i : Nat} (h : d.info.footer.chunkFooters.length ≤ i) :
    d.chunkReader E i = .panic := by
  unfold Decoder.chunkReader loadChunk Metadata.chunkFooter
  rw [List.getElem?_eq_none h]
  rfl

/-- A file without chunk `i`: opening the readers panics. -/
theorem openReaders_missing {E : Env} {i : Nat} : ∀ {ds : List Decoder} {ts : List (List (List B64))}, Files E ds ts →
    (∃ css ∈ ts, css.length ≤ i) → openReaders E i ds = .panic
  | [], [], _, ⟨_, h, _⟩ => by cases h
  | d :: ds, css :: ts, ⟨h1, h2, h3⟩, hx => by
    rw [openReaders]
    by_cases hl : i < css.length
    · obtain ⟨h, e4, _⟩ := h1.reader i css[i] (List.getElem?_eq_getElem hl)
      obtain ⟨c, hc, hci⟩ := hx
      rcases List.mem_cons.1 hc with rfl | hc
      · omega
      · rw [e4, Res.bind_ok, openReaders_missing h3 ⟨c, hc, hci⟩]; rfl
    · rw [chunkReader_missing E d (by omega)]; rfl
  | [], _ :: _, h, _ => h.elim
  | _ :: _, [], h, _ => h.elim

theorem pieces_in32 {bm : Option Bitmap} {ts : List (List (List B64))} (hr : AllIn32 bm ts) {i : Nat}
    (hi : ∀ css ∈ ts, i < css.length) : ∀ p ∈ piecesAt ts i, In32 bm p.1 p.2.length := by
  intro p hp
  obtain ⟨css, hc, rfl⟩ := List.mem_map.1 hp
  rcases hr with h | h
  · exact .inl h
  · right
    have hl := hi css hc
    have h2 : css.take i ++ css[i] :: css.drop (i + 1) = css := by
      rw [← List.drop_eq_getElem_cons hl, List.take_append_drop]
    have h3 := congrArg (fun l => l.flatten.length) h2
    simp only [List.flatten_append, List.flatten_cons, List.length_append] at h3
    have := h css hc
    simp only
    rw [getD_of_some (List.getElem?_eq_getElem hl)]
    omega

section

variable {E : Env} {bm : Option Bitmap} {ds : List Decoder} {ts : List (List (List B64))}

theorem aggLoop_rank (hr : AllIn32 bm ts) (ht : Files E ds ts) (a : Aggregation)
    (hidx : ∀ j ∈ columnsOf a.expr, j < ds.length) (hcol : columnsOf a.expr ≠ []) (hn : NoConstantPart a.expr)
    (is : List Nat) (hi : ∀ i ∈ is, ∀ css ∈ ts, i < css.length) (vss : List (List B64)) :
    ∃ wss : List (List B64), wss.length = is.length ∧
      (∀ (k i : Nat) (vs : List B64), is[k]? = some i → wss[k]? = some vs → ByRank E.o (contribution bm (piecesAt ts i)) a.expr vs) ∧
      ∀ tail, aggLoop E a ds bm (is ++ tail) (aggregated E.o a.kind vss) =
        aggLoop E a ds bm tail (aggregated E.o a.kind (vss ++ wss)) := by
  induction is generalizing vss with
  | nil => exact ⟨[], rfl, fun k i vs h => by simp at h, fun tail => by simp⟩
  | cons i is ih =>
    have hii := hi i (List.mem_cons_self ..)
    obtain ⟨hs, e1, hc⟩ := openReaders_pieces ht hii
    obtain ⟨vs, hs', e2, b, -⟩ := c59_chunk E bm a.expr (pieces_in32 hr hii)
      (by rw [piecesAt, List.length_map, ht.length]; exact hidx) hcol hn hs hc
    obtain ⟨wss, h1, h2, h3⟩ := ih (fun j hj => hi j (List.mem_cons_of_mem _ hj)) (vss ++ [vs])
    refine ⟨vs :: wss, by simp [h1], ?_, ?_⟩
    · intro k j ws hk hw
      cases k with
      | zero =>
        simp only [List.getElem?_cons_zero, Option.some.injEq] at hk hw
        subst hk hw
        exact b
      | succ k => exact h2 k j ws (by simpa using hk) (by simpa using hw)
    · intro tail
      rw [List.cons_append, aggLoop, e1]
      simp only [Res.bind_ok, e2, concat_aggregated]
      rw [h3 tail, List.append_assoc]
      rfl

theorem compute_files (d0 : Decoder) (css0 : List (List B64)) (ht : Files E (d0 :: ds) (css0 :: ts)) (a : Aggregation)
    (hcomp : compound a.expr) : a.compute E (d0 :: ds) bm =
      aggLoop E a (d0 :: ds) bm (List.range css0.length) (aggregated E.o a.kind []) := by
  unfold Aggregation.compute
  have h1 : decoderAt (d0 :: ds) 0 = .ok d0 := rfl
  have h2 := ht.1.chunks
  cases he : a.expr with
  | index i => rw [he] at hcomp; exact hcomp.elim
  | literal v => simp only [h1, Res.bind_ok, h2, zero_aggregated E.o]
  | binary op l r => simp only [h1, Res.bind_ok, h2, zero_aggregated E.o]

/-- C59 in part: what is computed over files cut in any way, as long as none has fewer chunks than the first. Chunk
`i` of every file is combined by rank; chunks beyond the number of the first file's are ignored. Missing: that
this is the expression on the records of the same number, which is so only if the files are cut alike
(`c59_aligned`, `c44_compound`). -/
theorem c59_files_partial (d0 : Decoder) (css0 : List (List B64)) (ht : Files E (d0 :: ds) (css0 :: ts))
    (hr : AllIn32 bm (css0 :: ts)) (hlen : ∀ css ∈ ts, css0.length ≤ css.length) (a : Aggregation)
    (hcomp : compound a.expr) (hidx : ∀ j ∈ columnsOf a.expr, j < (d0 :: ds).length) (hcol : columnsOf a.expr ≠ [])
    (hn : NoConstantPart a.expr) :
    ∃ vss : List (List B64), vss.length = css0.length ∧
      (∀ (i : Nat) (vs : List B64), vss[i]? = some vs → ByRank E.o (contribution bm (piecesAt (css0 :: ts) i)) a.expr vs) ∧
      a.compute E (d0 :: ds) bm = .ok (aggregated E.o a.kind vss) := by
  obtain ⟨vss, h1, h2, h3⟩ := aggLoop_rank hr ht a hidx hcol hn (List.range css0.length) (fun i hi css hc => by
    have := List.mem_range.1 hi
    rcases List.mem_cons.1 hc with rfl | hc
    · exact this
    · have := hlen css hc; omega) []
  rw [List.length_range] at h1
  refine ⟨vss, h1, ?_, ?_⟩
  · intro i vs hv
    have hi : i < css0.length := by rw [← h1]; exact (List.getElem?_eq_some_iff.1 hv).1
    exact h2 i i vs (by simp [hi]) hv
  · have := h3 []
    rw [List.append_nil] at this
    rw [compute_files d0 css0 ht a hcomp, this]
    rfl

/-- If some file has fewer chunks than the first, the computation panics, even if the expression does not mention
that file. -/
theorem c59_short_panics (d0 : Decoder) (css0 : List (List B64)) (ht : Files E (d0 :: ds) (css0 :: ts))
    (hr : AllIn32 bm (css0 :: ts)) (hlen : ∃ css ∈ ts, css.length < css0.length) (a : Aggregation)
    (hcomp : compound a.expr) (hidx : ∀ j ∈ columnsOf a.expr, j < (d0 :: ds).length) (hcol : columnsOf a.expr ≠ [])
    (hn : NoConstantPart a.expr) : a.compute E (d0 :: ds) bm = .panic := by
  -- the first chunk that is missing somewhere
  have hfirst : ∃ m, m < css0.length ∧ (∃ css ∈ css0 :: ts, css.length ≤ m) ∧
      ∀ i, i < m → ∀ css ∈ css0 :: ts, i < css.length := by
    have key : ∀ n, (∃ css ∈ css0 :: ts, css.length ≤ n) → ∃ m, m ≤ n ∧ (∃ css ∈ css0 :: ts, css.length ≤ m) ∧
        ∀ i, i < m → ∀ css ∈ css0 :: ts, i < css.length := by
      intro n
      induction n with
      | zero => exact fun h => ⟨0, Nat.le_refl _, h, fun i hi => absurd hi (Nat.not_lt_zero i)⟩
      | succ n ih =>
        intro h
        by_cases hn : ∃ css ∈ css0 :: ts, css.length ≤ n
        · obtain ⟨m, h1, h2⟩ := ih hn
          exact ⟨m, by omega, h2⟩
        · refine ⟨n + 1, Nat.le_refl _, h, fun i hi css hc => ?_⟩
          have : ¬ css.length ≤ n := fun hx => hn ⟨css, hc, hx⟩
          omega
    obtain ⟨css, hc, hl⟩ := hlen
    obtain ⟨m, h1, h2, h3⟩ := key css.length ⟨css, List.mem_cons_of_mem _ hc, Nat.le_refl _⟩
    exact ⟨m, by omega, h2, h3⟩
  obtain ⟨m, hm, hmiss, hall⟩ := hfirst
  obtain ⟨wss, -, -, h3⟩ := aggLoop_rank hr ht a hidx hcol hn (List.range m)
    (fun i hi css hc => hall i (List.mem_range.1 hi) css hc) []
  have hsplit : List.range css0.length = List.range m ++ m :: (List.range' (m + 1) (css0.length - (m + 1))) := by
    have h := List.range'_append_1 (s := 0) (m := m) (n := css0.length - (m + 1) + 1)
    rw [Nat.zero_add] at h
    rw [List.range_eq_range', List.range_eq_range', ← List.range'_succ, h]
    congr 1
    omega
  rw [compute_files d0 css0 ht a hcomp, hsplit, h3, aggLoop, openReaders_missing ht hmiss]
  rfl

end

/-! ## Examples and witness -/

theorem sample_files : ∃ d1 d2 cs1 cs2, plainDecoder matData 4 = some d1 ∧ plainDecoder matData 2 = some d2 ∧
    Files sampleEnv [d1, d2] [cs1, cs2] ∧ cs1.length = 2 ∧ cs2.length = 3 := by
  have g1 : (plainDecoder matData 4).map (fun d => (decide (d.file.length < 1000), d.info.footer.chunks,
      d.info.footer.chunkFooters.length)) = some (true, 2, 2) := by decide +kernel
  have g2 : (plainDecoder matData 2).map (fun d => (decide (d.file.length < 1000), d.info.footer.chunks,
      d.info.footer.chunkFooters.length)) = some (true, 3, 3) := by decide +kernel
  obtain ⟨d1, e1, f1⟩ := Option.map_eq_some_iff.1 g1
  obtain ⟨d2, e2, f2⟩ := Option.map_eq_some_iff.1 g2
  simp only [Prod.mk.injEq, decide_eq_true_eq] at f1 f2
  obtain ⟨c1, -, o1⟩ := plain_tables e1 (by simp [matData]) (by omega) (by omega) (by simp [matData]) (by omega)
  obtain ⟨c2, -, o2⟩ := plain_tables e2 (by simp [matData]) (by omega) (by omega) (by simp [matData]) (by omega)
  have l1 := o1.chunks
  have l2 := o2.chunks
  exact ⟨d1, d2, c1, c2, e1, e2, ⟨o1, by omega, o2, by omega, trivial⟩, by omega, by omega⟩

-- the hypotheses of `c59_files_partial` with two and three chunks, those of `c59_short_panics` in the other order
example : ∃ d1 d2 cs1 cs2, Files sampleEnv [d1, d2] [cs1, cs2] ∧ Files sampleEnv [d2, d1] [cs2, cs1] ∧
    cs1.length < cs2.length ∧ AllIn32 none [cs1, cs2] ∧ compound sampleExpr ∧ Good sampleExpr := by
  obtain ⟨d1, d2, c1, c2, -, -, h, h1, h2⟩ := sample_files
  refine ⟨d1, d2, c1, c2, h, ⟨h.2.2.1, h.2.2.2.1, h.1, h.2.1, trivial⟩, by omega, .inl rfl, trivial,
    by simp [sampleExpr, columnsOf], ?_⟩
  intro s hs
  simp only [sampleExpr, subexprs, List.cons_append, List.nil_append, List.mem_cons, List.not_mem_nil,
    or_false] at hs
  rcases hs with rfl | rfl | rfl | rfl | rfl <;> simp [isLiteral, columnsOf]

/-- `x0 - x1`. -/
def difference : Expr := .binary .sub (.index 0) (.index 1)

/-- The same six records (1 … 6) twice, four to a chunk and two to a chunk. `x0 - x1` should be six zeros. It is four
numbers, without any error: 1-1, 2-2 from the first chunks, 5-3, 6-4 from the second; the third chunk of the
second file is not read. -/
theorem c59_silently_wrong : ∃ d1 d2, plainDecoder matData 4 = some d1 ∧ plainDecoder matData 2 = some d2 ∧
    (Aggregation.mk .none difference).compute sampleEnv [d1, d2] none =
      .ok (.array [0#64, 0#64, 0x4000000000000000#64, 0x4000000000000000#64]) ∧
    pointwise Soft.ops none 0 6 [matData, matData] difference = [0#64, 0#64, 0#64, 0#64, 0#64, 0#64] := by
  have h : (do
      let d1 ← plainDecoder matData 4
      let d2 ← plainDecoder matData 2
      some ((Aggregation.mk .none difference).compute sampleEnv [d1, d2] none))
      = some (.ok (.array [0#64, 0#64, 0x4000000000000000#64, 0x4000000000000000#64])) := by decide +kernel
  obtain ⟨d1, e1, h⟩ := Option.bind_eq_some_iff.1 h
  obtain ⟨d2, e2, h⟩ := Option.bind_eq_some_iff.1 h
  simp only [Option.some.injEq] at h
  exact ⟨d1, d2, e1, e2, h, by decide +kernel⟩

/-- A column alone: the sum of twice its values 1 … 6 is 42. With another file before it that has fewer chunks (and is
not mentioned in the expression) it is 20. -/
theorem c59_unrelated_file : ∃ d1 d2, plainDecoder matData 4 = some d1 ∧ plainDecoder matData 2 = some d2 ∧
    (Aggregation.mk .sum (.binary .mul (.index 1) (.literal 0x4000000000000000#64))).compute sampleEnv [d1, d2] none =
      .ok (.scalar 0x4034000000000000#64) ∧
    (Aggregation.mk .sum (.binary .mul (.index 0) (.literal 0x4000000000000000#64))).compute sampleEnv [d2] none =
      .ok (.scalar 0x4045000000000000#64) := by
  have h : (do
      let d1 ← plainDecoder matData 4
      let d2 ← plainDecoder matData 2
      some ((Aggregation.mk .sum (.binary .mul (.index 1) (.literal 0x4000000000000000#64))).compute sampleEnv [d1, d2] none,
        (Aggregation.mk .sum (.binary .mul (.index 0) (.literal 0x4000000000000000#64))).compute sampleEnv [d2] none))
      = some (.ok (.scalar 0x4034000000000000#64), .ok (.scalar 0x4045000000000000#64)) := by decide +kernel
  obtain ⟨d1, e1, h⟩ := Option.bind_eq_some_iff.1 h
  obtain ⟨d2, e2, h⟩ := Option.bind_eq_some_iff.1 h
  simp only [Option.some.injEq, Prod.mk.injEq] at h
  exact ⟨d1, d2, e1, e2, h.1, h.2⟩

end Ebi.Props
