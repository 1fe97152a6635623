import Verif.Props.Matmul

/-!
# C43: expressions over columns
-/

namespace Ebi.Props

open Ebi

/-! ## Specification -/

/-- Value of an expression where column `i` has the value `col i`. -/
def evalAt (o : FloatOps) (col : Nat → B64) : Expr → B64
  | .literal v => v
  | .index i => col i
  | .binary .add l r => o.add (evalAt o col l) (evalAt o col r)
  | .binary .sub l r => o.sub (evalAt o col l) (evalAt o col r)
  | .binary .mul l r => o.mul (evalAt o col l) (evalAt o col r)
  | .binary .div l r => o.div (evalAt o col l) (evalAt o col r)

/-- The columns an expression mentions. -/
def columnsOf : Expr → List Nat
  | .literal _ => []
  | .index i => [i]
  | .binary _ l r => columnsOf l ++ columnsOf r

/-- All subexpressions, itself included. -/
def subexprs : Expr → List Expr
  | .binary op l r => .binary op l r :: (subexprs l ++ subexprs r)
  | e => [e]

def isLiteral : Expr → Prop
  | .literal _ => True
  | _ => False

/-- No compound subexpression consists of literals only. -/
def NoConstantPart (e : Expr) : Prop := ∀ s ∈ subexprs e, isLiteral s ∨ columnsOf s ≠ []

/-- The selected positions of a chunk of `n` records whose first record is number `lo` of the file. -/
def chosenPositions (bm : Option Bitmap) (lo n : Nat) : List Nat :=
  (List.range n).filter fun j => bm.all fun b => b.contains (lo + j)

/-- The expression at every selected position. -/
def pointwise (o : FloatOps) (bm : Option Bitmap) (lo n : Nat) (cols : List (List B64)) (e : Expr) : List B64 :=
  (chosenPositions bm lo n).map fun j => evalAt o (fun i => (cols.getD i []).getD j 0#64) e

/-- Readers of one chunk of each column: `n` records from record `lo` on, with the values `cols`. -/
def Columns (E : Env) (lo n : Nat) (cols : List (List B64)) (hs : List Handle) : Prop :=
  hs.length = cols.length ∧
  ∀ (i : Nat) (c : List B64), cols[i]? = some c → c.length = n ∧ ∃ h, hs[i]? = some h ∧ h.Holds E lo c

/-! ## Lemmas -/

theorem filter_positions (p : Nat → Bool) (lo : Nat) (c : List B64) :
    ((c.zipIdx lo).filter fun x => p x.2).map Prod.fst
      = ((List.range c.length).filter fun j => p (lo + j)).map fun j => c.getD j 0#64 := by
  induction c generalizing lo with
  | nil => rfl
  | cons v c ih =>
    have h2 : ((fun j => p (lo + j)) ∘ Nat.succ) = fun j => p (lo + 1 + j) := by
      funext j
      simp only [Function.comp]
      rw [show lo + j.succ = lo + 1 + j by omega]
    have h1 : ((List.map Nat.succ ((List.range c.length).filter fun j => p (lo + 1 + j))).map
        fun j => (v :: c).getD j 0#64)
        = ((List.range c.length).filter fun j => p (lo + 1 + j)).map fun j => c.getD j 0#64 := by
      rw [List.map_map]
      rfl
    rw [List.zipIdx_cons, List.length_cons, List.range_succ_eq_map, List.filter_cons, List.filter_cons,
      List.filter_map, Nat.add_zero, h2]
    cases p lo with
    | true =>
      simp only [if_true]
      rw [List.map_cons, List.map_cons, h1, ih]
      rfl
    | false =>
      simp only [Bool.false_eq_true, if_false]
      rw [h1, ih]

/-- Bitmaps hold 32-bit positions. -/
def In32 (bm : Option Bitmap) (lo n : Nat) : Prop := bm = none ∨ lo + n ≤ 2 ^ 32

theorem materialize_positions {bm : Option Bitmap} {lo : Nat} {c : List B64} (h : In32 bm lo c.length) :
    defaultMaterialize bm lo c = (chosenPositions bm lo c.length).map fun j => c.getD j 0#64 := by
  rw [defaultMaterialize_eq, filter_positions]
  congr 1
  unfold chosenPositions
  apply List.filter_congr
  intro j hj
  have hj := List.mem_range.1 hj
  rcases h with rfl | h
  · rfl
  · cases bm with
    | none => rfl
    | some b =>
      simp only [selected, Option.all_some]
      rw [Nat.mod_eq_of_lt (by omega)]

theorem positions_length (bm : Option Bitmap) (lo n : Nat) : (chosenPositions bm lo n).length ≤ n := by
  unfold chosenPositions
  exact Nat.le_trans (List.length_filter_le _ _) (by simp)

theorem evalAt_binary (o : FloatOps) (col : Nat → B64) (op : Op) (l r : Expr) :
    evalAt o col (.binary op l r) = op.doit o (evalAt o col l) (evalAt o col r) := by
  cases op <;> rfl

theorem zipWith_map_same {A B : Type} (f : B → B → B) (g h : A → B) (xs : List A) :
    List.zipWith f (xs.map g) (xs.map h) = xs.map fun x => f (g x) (h x) := by
  induction xs with
  | nil => rfl
  | cons x xs ih => simp [ih]

theorem asLiteral_some {e : Expr} {v : B64} (h : e.asLiteral = some v) : e = .literal v := by
  cases e <;> simp [Expr.asLiteral] at h
  rw [h]

theorem asLiteral_none {e : Expr} (h : e.asLiteral = none) : ¬ isLiteral e := by
  cases e <;> simp_all [Expr.asLiteral, isLiteral]

theorem mem_subexprs_self (e : Expr) : e ∈ subexprs e := by cases e <;> simp [subexprs]

theorem noConstantPart_binary {op : Op} {l r : Expr} :
    NoConstantPart (.binary op l r) ↔
      columnsOf (.binary op l r) ≠ [] ∧ NoConstantPart l ∧ NoConstantPart r := by
  unfold NoConstantPart
  simp only [subexprs, List.mem_cons, List.mem_append]
  constructor
  · intro h
    exact ⟨(h _ (Or.inl rfl)).resolve_left id, fun s hs => h s (Or.inr (Or.inl hs)),
      fun s hs => h s (Or.inr (Or.inr hs))⟩
  · rintro ⟨h1, h2, h3⟩ s (rfl | hs | hs)
    · exact Or.inr h1
    · exact h2 s hs
    · exact h3 s hs

/-! ## C43 -/

/-- An expression with nothing but literals is rejected with an error, whatever the readers. -/
theorem c43_literals_rejected (E : Env) (bm : Option Bitmap) (e : Expr) (h : columnsOf e = []) (hs : List Handle) :
    e.computeChunk E bm hs = .err := by
  induction e with
  | literal v => rfl
  | index i => simp [columnsOf] at h
  | binary op l r ihl ihr =>
    simp only [columnsOf, List.append_eq_nil_iff] at h
    rw [Expr.computeChunk]
    split
    · rw [ihl h.1]; rfl
    · rw [ihl h.1]; rfl
    · rw [ihr h.2]; rfl
    · rfl

/-- What evaluating does on readers of one chunk of each column: an expression without constant parts
gives its values at the selected positions, and leaves readers that still hold the columns; any other is
rejected with an error. -/
theorem evaluate (E : Env) (bm : Option Bitmap) {lo n : Nat} {cols : List (List B64)} (e : Expr)
    (hr32 : In32 bm lo n) (hidx : ∀ i ∈ columnsOf e, i < cols.length) (hs : List Handle)
    (hc : Columns E lo n cols hs) :
    (columnsOf e ≠ [] → NoConstantPart e → ∃ hs',
      e.computeChunk E bm hs = .ok (pointwise E.o bm lo n cols e, hs') ∧ Columns E lo n cols hs') ∧
    (¬ NoConstantPart e → e.computeChunk E bm hs = .err) := by
  induction e generalizing hs with
  | literal v =>
    refine ⟨fun h => absurd rfl h, fun h => rfl⟩
  | index i =>
    constructor
    · intro _ _
      have hi := hidx i (by simp [columnsOf])
      obtain ⟨h1, h, h2, h3⟩ := hc.2 i cols[i] (List.getElem?_eq_getElem hi)
      obtain ⟨h', h4, h5⟩ := h3.exec (q := .materialize bm) rfl
      have h6 := Handle.values_of_exec h4
      have hg : cols.getD i [] = cols[i] := by simp [List.getD, List.getElem?_eq_getElem hi]
      refine ⟨hs.set i h', ?_, ?_, ?_⟩
      · rw [Expr.computeChunk]
        simp only [h2, h6]
        rw [materialize_positions (by rw [h1]; exact hr32), if_neg (by
          rw [List.length_map, h3.records]; exact Nat.not_lt.2 (positions_length ..)), h1]
        unfold pointwise
        simp only [evalAt, hg]
      · rw [List.length_set]; exact hc.1
      · intro j c hj
        obtain ⟨e1, g, e2, e3⟩ := hc.2 j c hj
        refine ⟨e1, ?_⟩
        by_cases hij : i = j
        · subst hij
          rw [List.getElem?_eq_getElem hi] at hj
          cases hj
          refine ⟨h', ?_, h5⟩
          rw [List.getElem?_set_self (by rw [hc.1]; exact hi)]
        · exact ⟨g, by rw [List.getElem?_set_ne hij]; exact e2, e3⟩
    · intro h
      exact absurd (fun s hs => Or.inr (by
        simp only [subexprs, List.mem_singleton] at hs
        rw [hs]; simp [columnsOf])) h
  | binary op l r ihl ihr =>
    have hil : ∀ i ∈ columnsOf l, i < cols.length := fun i hi => hidx i (by simp [columnsOf, hi])
    have hir : ∀ i ∈ columnsOf r, i < cols.length := fun i hi => hidx i (by simp [columnsOf, hi])
    rw [noConstantPart_binary]
    have hne : ∀ {x : Expr}, NoConstantPart x → x.asLiteral = none → columnsOf x ≠ [] :=
      fun hx hn => (hx _ (mem_subexprs_self _)).resolve_left (asLiteral_none hn)
    have hlit : ∀ v, NoConstantPart (.literal v) := fun v s hs => by
      simp only [subexprs, List.mem_singleton] at hs
      rw [hs]; exact Or.inl trivial
    rw [Expr.computeChunk]
    cases hl : l.asLiteral with
    | none =>
      cases hr : r.asLiteral with
      | none =>
        simp only
        constructor
        · rintro - ⟨-, hnl, hnr⟩
          obtain ⟨hs1, e1, hc1⟩ := (ihl hil hs hc).1 (hne hnl hl) hnl
          obtain ⟨hs2, e2, hc2⟩ := (ihr hir hs1 hc1).1 (hne hnr hr) hnr
          refine ⟨hs2, ?_, hc2⟩
          simp only [e1, e2, Res.bind_ok, pointwise, zipWith_map_same, evalAt_binary]
        · intro h
          by_cases hnl : NoConstantPart l
          · obtain ⟨hs1, e1, hc1⟩ := (ihl hil hs hc).1 (hne hnl hl) hnl
            have hnr : ¬ NoConstantPart r := fun hnr => h
              ⟨fun e => hne hnl hl (List.append_eq_nil_iff.1 e).1, hnl, hnr⟩
            rw [e1, Res.bind_ok]
            simp only [(ihr hir hs1 hc1).2 hnr]
            rfl
          · rw [(ihl hil hs hc).2 hnl]; rfl
      | some v =>
        obtain rfl := asLiteral_some hr
        simp only
        constructor
        · rintro - ⟨-, hnl, -⟩
          obtain ⟨hs1, e1, hc1⟩ := (ihl hil hs hc).1 (hne hnl hl) hnl
          refine ⟨hs1, ?_, hc1⟩
          simp only [e1, Res.bind_ok, pointwise, List.map_map, evalAt_binary]
          rfl
        · intro h
          have hnl : ¬ NoConstantPart l := fun hnl => h
            ⟨fun e => hne hnl hl (List.append_eq_nil_iff.1 e).1, hnl, hlit v⟩
          rw [(ihl hil hs hc).2 hnl]; rfl
    | some v =>
      obtain rfl := asLiteral_some hl
      cases hr : r.asLiteral with
      | none =>
        simp only
        constructor
        · rintro - ⟨-, -, hnr⟩
          obtain ⟨hs1, e1, hc1⟩ := (ihr hir hs hc).1 (hne hnr hr) hnr
          refine ⟨hs1, ?_, hc1⟩
          simp only [e1, Res.bind_ok, pointwise, List.map_map, evalAt_binary]
          rfl
        · intro h
          have hnr : ¬ NoConstantPart r := fun hnr => h
            ⟨fun e => hne hnr hr (List.append_eq_nil_iff.1 e).2, hlit v, hnr⟩
          rw [(ihr hir hs hc).2 hnr]; rfl
      | some w =>
        obtain rfl := asLiteral_some hr
        simp only
        exact ⟨fun _ h => absurd rfl h.1, fun _ => by trivial⟩

/-- C43 for expressions without constant parts, over readers of one chunk of each column. Missing: an
expression such as `(1 + 2) * x`, which has a column but is rejected (`c43_constant_part_rejected`). -/
theorem c43_pointwise_partial (E : Env) (bm : Option Bitmap) {lo n : Nat} {cols : List (List B64)} (e : Expr)
    (hr : In32 bm lo n) (hidx : ∀ i ∈ columnsOf e, i < cols.length) (hcol : columnsOf e ≠ []) (hn : NoConstantPart e)
    (hs : List Handle) (hc : Columns E lo n cols hs) :
    ∃ hs', e.computeChunk E bm hs = .ok (pointwise E.o bm lo n cols e, hs') ∧ Columns E lo n cols hs' :=
  (evaluate E bm e hr hidx hs hc).1 hcol hn

/-- The expressions with a constant part are all rejected with an error; none panics. -/
theorem c43_constant_part_rejected (E : Env) (bm : Option Bitmap) {lo n : Nat} {cols : List (List B64)} (e : Expr)
    (hr : In32 bm lo n) (hidx : ∀ i ∈ columnsOf e, i < cols.length) (hn : ¬ NoConstantPart e) (hs : List Handle)
    (hc : Columns E lo n cols hs) : e.computeChunk E bm hs = .err :=
  (evaluate E bm e hr hidx hs hc).2 hn

/-- `max_chunk_reader_index` is the largest column mentioned, and absent when there is none. -/
theorem c43_max_index (e : Expr) :
    (e.maxIndex = none ↔ columnsOf e = []) ∧
    ∀ m, e.maxIndex = some m ↔ m ∈ columnsOf e ∧ ∀ i ∈ columnsOf e, i ≤ m := by
  have key : ∀ e : Expr, match e.maxIndex with
      | none => columnsOf e = []
      | some m => m ∈ columnsOf e ∧ ∀ i ∈ columnsOf e, i ≤ m := by
    intro e
    induction e with
    | literal v => rfl
    | index i => simp [Expr.maxIndex, columnsOf]
    | binary op l r ihl ihr =>
      rw [Expr.maxIndex]
      cases hl : l.maxIndex <;> cases hr : r.maxIndex <;> rw [hl] at ihl <;> rw [hr] at ihr <;>
        simp only [columnsOf] at ihl ihr ⊢
      · rw [ihl, ihr]; rfl
      · rw [ihl]; exact ihr
      · rw [ihr, List.append_nil]; exact ihl
      · rename_i x y
        refine ⟨List.mem_append.2 ?_, fun i hi => ?_⟩
        · rcases Nat.le_total x y with h | h
          · rw [show Nat.max x y = y from Nat.max_eq_right h]; exact Or.inr ihr.1
          · rw [show Nat.max x y = x from Nat.max_eq_left h]; exact Or.inl ihl.1
        · rcases List.mem_append.1 hi with h | h
          · exact Nat.le_trans (ihl.2 i h) (Nat.le_max_left x y)
          · exact Nat.le_trans (ihr.2 i h) (Nat.le_max_right x y)
  have k := key e
  cases he : e.maxIndex with
  | none =>
    rw [he] at k
    refine ⟨⟨fun _ => k, fun _ => rfl⟩, fun m => ⟨fun h => (by cases h), fun h => ?_⟩⟩
    simp only at k
    rw [k] at h
    cases h.1
  | some x =>
    rw [he] at k
    refine ⟨⟨fun h => (by cases h), fun h => ?_⟩, fun m => ⟨fun h => (by cases h; exact k), fun h => ?_⟩⟩
    · simp only at k
      rw [h] at k
      cases k.1
    · rw [Nat.le_antisymm (k.2 m h.1) (h.2 x k.1)]

/-! ## Readers of files -/

/-- Open files with the same chunk sizes: `ts` lists the chunks of each. -/
def Tables (E : Env) (sizes : List Nat) : List Decoder → List (List (List B64)) → Prop
  | [], [] => True
  | d :: ds, css :: ts => Opens E d css ∧ css.map List.length = sizes ∧ Tables E sizes ds ts
  | _, _ => False

/-- Chunk `i` of every file. -/
def chunkColumns (ts : List (List (List B64))) (i : Nat) : List (List B64) := ts.map fun css => css.getD i []

/-- Number of the first record of chunk `i`. -/
def startOf (sizes : List Nat) (i : Nat) : Nat := (sizes.take i).sum

theorem Tables.length {E : Env} {sizes : List Nat} : ∀ {ds : List Decoder} {ts : List (List (List B64))},
    Tables E sizes ds ts → ts.length = ds.length
  | [], [], _ => rfl
  | _ :: _, _ :: _, ⟨_, _, h⟩ => congrArg (· + 1) h.length
  | [], _ :: _, h => h.elim
  | _ :: _, [], h => h.elim

theorem openReaders_columns {E : Env} {sizes : List Nat} {i : Nat} (hi : i < sizes.length) :
    ∀ {ds : List Decoder} {ts : List (List (List B64))}, Tables E sizes ds ts →
      ∃ hs, openReaders E i ds = .ok hs ∧ Columns E (startOf sizes i) sizes[i] (chunkColumns ts i) hs
  | [], [], _ => ⟨[], rfl, rfl, fun i c h => by simp [chunkColumns] at h⟩
  | d :: ds, css :: ts, ⟨h1, h2, h3⟩ => by
    obtain ⟨hs, e1, e2, e3⟩ := openReaders_columns hi h3
    have hlen : i < css.length := by rw [← h2, List.length_map] at hi; exact hi
    obtain ⟨h, e4, e5⟩ := h1.reader i css[i] (List.getElem?_eq_getElem hlen)
    refine ⟨h :: hs, ?_, ?_, ?_⟩
    · rw [openReaders, e4]
      simp only [Res.bind_ok, e1]
    · simp [e2, chunkColumns]
    · intro j c hj
      cases j with
      | zero =>
        have hc : css[i] = c := by simpa [chunkColumns, List.getD, List.getElem?_eq_getElem hlen] using hj
        subst hc
        refine ⟨by simp [← h2], h, rfl, ?_⟩
        have : startOf sizes i = (css.take i).flatten.length := by
          rw [startOf, ← h2, ← List.map_take, List.length_flatten]
        rw [this]
        exact e5
      | succ j => exact e3 j c (by simpa [chunkColumns] using hj)
  | [], _ :: _, h => h.elim
  | _ :: _, [], h => h.elim

/-- C43 on files: chunk `i` of each column. -/
theorem c43_files_partial (E : Env) (bm : Option Bitmap) {sizes : List Nat} {ds : List Decoder}
    {ts : List (List (List B64))} (ht : Tables E sizes ds ts) {i : Nat} (hi : i < sizes.length) (e : Expr)
    (hr : In32 bm (startOf sizes i) sizes[i]) (hidx : ∀ j ∈ columnsOf e, j < ds.length)
    (hcol : columnsOf e ≠ []) (hn : NoConstantPart e) :
    ∃ hs hs', openReaders E i ds = .ok hs ∧
      e.computeChunk E bm hs = .ok (pointwise E.o bm (startOf sizes i) sizes[i] (chunkColumns ts i) e, hs') := by
  obtain ⟨hs, h1, h2⟩ := openReaders_columns hi ht
  have hl : hs.length = ds.length := by rw [h2.1, chunkColumns, List.length_map, ht.length]
  obtain ⟨hs', h3, -⟩ := c43_pointwise_partial E bm e hr (by rw [← h2.1, hl]; exact hidx) hcol hn hs h2
  exact ⟨hs, hs', h1, h3⟩

/-! ## Examples -/

/-- `(x0 - 2) * x1`. -/
def sampleExpr : Expr := .binary .mul (.binary .sub (.index 0) (.literal 0x4000000000000000#64)) (.index 1)

example : columnsOf sampleExpr = [0, 1] ∧ NoConstantPart sampleExpr := by
  refine ⟨rfl, ?_⟩
  intro s hs
  simp only [sampleExpr, subexprs, List.cons_append, List.nil_append, List.mem_cons, List.not_mem_nil,
    or_false] at hs
  rcases hs with rfl | rfl | rfl | rfl | rfl <;> simp [isLiteral, columnsOf]

/-- Any two files written with the same record count and chunk size are such tables. -/
theorem plain_tables {vs : List B64} {k : Nat} {d : Decoder} (h : plainDecoder vs k = some d) (h0 : vs ≠ [])
    (h1 : 0 < k) (h2 : k < 2 ^ 60) (h3 : vs.length < 2 ^ 60) (h4 : d.file.length < 2 ^ 63) :
    ∃ cs, Split (some k) vs cs ∧ Opens sampleEnv d cs := by
  have hw := plainDecoder_written h h0 h1 h2 h3 h4
  obtain ⟨cs, e1, e2⟩ := hw.encoded.opens hw.law hw.valid hw.accepts hw.len d.precision (Or.inr (by simp [plainArgs, Config.scheme]))
  rw [plainArgs_records] at e1
  refine ⟨cs, e1, ?_⟩
  have : (cs.map fun c => c.map (readBack sampleEnv (plainArgs vs k).cfg)) = cs := by
    have h5 : (fun c : List B64 => c.map (readBack sampleEnv (plainArgs vs k).cfg)) = id := by
      funext c
      show c.map (fun v => v) = c
      simp
    rw [h5, List.map_id]
  rw [this] at e2
  exact e2

/-- The hypotheses on two columns of six records, four per chunk: 5 5 0 0 | 9 9 and 1 2 3 4 | 5 6. -/
theorem sample_tables : ∃ d1 d2, plainDecoder knnData 4 = some d1 ∧ plainDecoder matData 4 = some d2 ∧
    Tables sampleEnv [4, 2] [d1, d2]
      [[knnData.take 4, knnData.drop 4], [matData.take 4, matData.drop 4]] := by
  have g1 : (plainDecoder knnData 4).map (fun d => decide (d.file.length < 1000)) = some true := by
    decide +kernel
  have g2 : (plainDecoder matData 4).map (fun d => decide (d.file.length < 1000)) = some true := by
    decide +kernel
  obtain ⟨d1, e1, f1⟩ := Option.map_eq_some_iff.1 g1
  obtain ⟨d2, e2, f2⟩ := Option.map_eq_some_iff.1 g2
  have l1 : d1.file.length < 1000 := of_decide_eq_true f1
  have l2 : d2.file.length < 1000 := of_decide_eq_true f2
  have key : ∀ (vs : List B64), vs.length = 6 → ∀ cs, Split (some 4) vs cs → cs = [vs.take 4, vs.drop 4] := by
    intro vs hl cs hs
    have hd : (vs.drop 4).length = 2 := by rw [List.length_drop, hl]
    generalize hk : some 4 = k at hs
    cases hs with
    | nil => simp at hl
    | @cons _ cs hv hs =>
      subst hk
      simp only [firstPart, restPart] at hs ⊢
      generalize hw : vs.drop 4 = w at hs hd
      generalize hk : some 4 = k at hs
      cases hs with
      | nil => simp at hd
      | @cons _ cs hv hs =>
        subst hk
        simp only [firstPart, restPart] at hs ⊢
        have hn : w.drop 4 = [] := List.drop_of_length_le (by omega)
        rw [hn] at hs
        rw [List.take_of_length_le (show w.length ≤ 4 by omega)]
        generalize hz : ([] : List B64) = z at hs
        cases hs with
        | nil => rfl
        | cons hv _ => exact absurd hz.symm hv
  obtain ⟨c1, s1, o1⟩ := plain_tables e1 (by simp [knnData]) (by omega) (by omega) (by simp [knnData]) (by omega)
  obtain ⟨c2, s2, o2⟩ := plain_tables e2 (by simp [matData]) (by omega) (by omega) (by simp [matData]) (by omega)
  rw [key knnData rfl c1 s1] at o1
  rw [key matData rfl c2 s2] at o2
  exact ⟨d1, d2, e1, e2, o1, rfl, o2, rfl, trivial⟩

/-- `(1 + 2) * x0` has a column, but every set of readers rejects it. -/
theorem c43_constant_part_witness :
    columnsOf (.binary .mul (.binary .add (.literal 0x3ff0000000000000#64) (.literal 0x4000000000000000#64))
      (.index 0)) ≠ [] ∧
    ∀ (E : Env) (bm : Option Bitmap) (hs : List Handle),
      Expr.computeChunk E bm (.binary .mul
        (.binary .add (.literal 0x3ff0000000000000#64) (.literal 0x4000000000000000#64)) (.index 0)) hs = .err :=
  ⟨by simp [columnsOf], fun _ _ _ => rfl⟩

end Ebi.Props
