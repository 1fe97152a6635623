import Verif.Props.Aggregation
import Verif.Props.InSitu
import Verif.Tpch

/-!
# C62: what the TPC-H driver computes
-/

namespace Ebi.Props

open Ebi Ebi.Tpch

/-! ## Specification -/

/-- A column, by name. -/
def Table.Has (t : Table) (i : Nat) (name : Name) (vs : List B64) : Prop :=
  t[i]? = some (name, vs) ∧ ∀ j c, t[j]? = some c → c.1 = name → j = i

/-- What a comparison is done on: the stored integers in the quantizing schemes, otherwise the value. -/
def Meets (E : Env) : Config → Predicate B64 → B64 → Bool
  | .buff s, p, v => Answers (buffBits E s) p (Buff.intoFixed v (buffBits E s)).toInt
  | .deltaSprintz _ s, p, v => (p.map (rounded E.o s.toNat)).eval i64Cmp (rounded E.o s.toNat v)
  | _, p, v => p.eval f64Cmp v

/-- The rows of query 6: discount from 0.05 to 0.07 and quantity below 24. -/
def q6Rows (E : Env) (cfg : Config) (n : Nat) (discount quantity : List B64) : List Nat :=
  (List.range n).filter fun x =>
    Meets E cfg discountRange (discount.getD x 0#64) && Meets E cfg quantityBelow (quantity.getD x 0#64)

/-- The sum of a chunk: doubles from 0 on, or integers that wrap, converted once. BUFF multiplies where all stored
integers are equal. -/
def chunkSum (E : Env) : Config → List B64 → B64
  | .buff s, c =>
    let qs := c.map fun v => Buff.intoFixed v (buffBits E s)
    if ∀ q ∈ qs, q = qs.headD 0 then E.o.mul (fixedValue E.o (buffBits E s) (qs.headD 0)) (E.o.ofNat c.length)
    else fixedValue E.o (buffBits E s) (BitVec.ofInt 64 (qs.map BitVec.toInt).sum)
  | .deltaSprintz _ s, c =>
    E.o.div (E.o.ofI64 (BitVec.ofInt 64 ((c.map (rounded E.o s.toNat)).map BitVec.toInt).sum)) (E.o.ofNat s.toNat)
  | _, c => c.foldl E.o.add 0#64

/-- The sum of a column: its chunks of 2^24 records one after the other. -/
def ColumnSum (E : Env) (cfg : Config) (vs : List B64) (r : B64) : Prop :=
  ∃ chunks, Split (some 16777216) vs chunks ∧ r = (chunks.map (chunkSum E cfg)).foldl E.o.add 0#64

/-- The sum of a computed column: within parts, then over the parts. -/
def PartedSum (o : FloatOps) (vs : List B64) (r : B64) : Prop :=
  ∃ parts : List (List B64), parts.flatten = vs ∧
    r = (parts.map fun p => p.foldl o.add o.sumInit).foldl o.add 0#64

/-- A table the configuration carries: columns of `n` records each, none of them with values it loses. -/
structure Carried (E : Env) (cfg : Config) (clock : Nat → Stamp) (t : Table) (n : Nat) : Prop where
  libraries : LosslessLibraries E
  supported : Supported E cfg
  columns : t ≠ []
  length : ∀ c ∈ t, c.2.length = n
  nonempty : 0 < n
  small : n * 8 < 2 ^ 32
  accepts : ∀ c ∈ t, ∀ v ∈ c.2, Accepts E cfg v
  version : ∀ i, (clock i).version.1 < 2 ^ 16 ∧ (clock i).version.2.1 < 2 ^ 16 ∧ (clock i).version.2.2 < 2 ^ 16
  times : ∀ i, (clock i).times.WF
  elapsed : ∀ i, (clock i).elapsed.WF
  files : ∀ i c file, c ∈ t → (encoderArgs cfg (clock i) c.2).encode (E.scheme cfg) = some (.ok file) →
    file.length < 2 ^ 63
  scale : ∀ c s, cfg = .deltaSprintz c s → s.toNat < 2 ^ 32

/-! ## Columns -/

theorem encoderArgs_records (cfg : Config) (s : Stamp) (vs : List B64) : (encoderArgs cfg s vs).records = vs := by
  unfold Args.records encoderArgs
  by_cases h : vs = []
  · subst h; rfl
  · simp [h, Source.data]

theorem encoderArgs_valid {E : Env} {cfg : Config} {clock : Nat → Stamp} {t : Table} {n : Nat}
    (h : Carried E cfg clock t n) (i : Nat) {c : Name × List B64} (hc : c ∈ t) :
    (encoderArgs cfg (clock i) c.2).Valid := by
  have hn := h.nonempty
  have hs := h.small
  have hl := h.length c hc
  have hne : c.2 ≠ [] := by intro e; rw [e] at hl; simp at hl; omega
  have hb : ofF64s c.2 ≠ [] := by
    intro e
    have h6 := congrArg List.length e
    simp at h6
    omega
  refine ⟨?_, ?_, (h.version i).1, (h.version i).2.1, (h.version i).2.2, h.times i, h.elapsed i, ?_, ?_⟩
  · show (ChunkOption.recordCount _).Positive
    exact ⟨by omega, by omega⟩
  · show (ChunkOption.recordCount _).WF
    simp only [ChunkOption.WF, ChunkOption.value]; omega
  · simp [encoderArgs, hne, Source.Clean, hb]
  · simp [encoderArgs, hne, Source.data, hl]; omega

/-- Writing and opening one column. -/
theorem openColumn_written {E : Env} {cfg : Config} {clock : Nat → Stamp} {t : Table} {n : Nat}
    (h : Carried E cfg clock t n) (i : Nat) {c : Name × List B64} (hc : c ∈ t) :
    ∃ file m, openColumn E cfg (clock i) c.2 = .ok ⟨file, m, none⟩ ∧
      Written E (encoderArgs cfg (clock i) c.2) file m := by
  have hrec := encoderArgs_records cfg (clock i) c.2
  have hn := h.nonempty
  have hs := h.small
  have hl := h.length c hc
  have hlen : 8 ≤ (encoderArgs cfg (clock i) c.2).src.data.length := by
    have := (encoderArgs cfg (clock i) c.2).records_length
    rw [hrec] at this
    omega
  obtain ⟨file, h1, h2⟩ := written E h.libraries (encoderArgs cfg (clock i) c.2) h.supported (encoderArgs_valid h i hc)
    (by rw [hrec]; exact h.accepts c hc) (by rw [hrec]; intro _; omega) hlen
  obtain ⟨m, hw⟩ := h2 (h.files i c file hc h1)
  refine ⟨file, m, ?_, hw⟩
  unfold openColumn
  rw [show (encoderArgs cfg (clock i) c.2).encode (E.scheme cfg) = some (.ok file) from h1]
  simp only [hw.encoded.opened, Res.map_ok]

/-- The number of records decides how they are cut. -/
theorem Split.same_sizes {k : Option Nat} {vs ws : List B64} {cs ds : List (List B64)} (h1 : Split k vs cs)
    (h2 : Split k ws ds) (hl : vs.length = ws.length) : cs.map List.length = ds.map List.length := by
  induction h1 generalizing ws ds with
  | nil =>
    cases h2 with
    | nil => rfl
    | cons hne _ => exact absurd (List.length_eq_zero_iff.1 hl.symm) hne
  | @cons vs cs hne hs ih =>
    cases h2 with
    | nil => exact absurd (List.length_eq_zero_iff.1 hl) hne
    | @cons _ ds hne' hs' =>
      have e1 : (firstPart k vs).length = (firstPart k ws).length := by
        cases k <;> simp [firstPart, hl]
      have e2 : (restPart k vs).length = (restPart k ws).length := by
        cases k <;> simp [restPart, hl]
      rw [List.map_cons, List.map_cons, e1, ih hs' e2]

/-- All columns: files written from them, cut alike. -/
theorem openColumns_tables {E : Env} {cfg : Config} {clock : Nat → Stamp} {t : Table} {n : Nat}
    (h : Carried E cfg clock t n) :
    ∃ ds sizes ts, openColumns E cfg clock 0 t = .ok ds ∧ ds.length = t.length ∧ Tables E sizes ds ts ∧
      sizes.sum = n ∧ ts.map List.flatten = t.map (fun c => c.2.map (readBack E cfg)) ∧
      (∀ (i : Nat) (c : Name × List B64), t[i]? = some c → ∃ file m, ds[i]? = some ⟨file, m, none⟩ ∧
        Written E (encoderArgs cfg (clock i) c.2) file m) := by
  -- the sizes of some column
  obtain ⟨c0, t0, e0⟩ := List.exists_cons_of_ne_nil h.columns
  have hc0 : c0 ∈ t := by rw [e0]; simp
  have hsplit : ∀ i, ∀ c ∈ t, ∃ file m cs, openColumn E cfg (clock i) c.2 = .ok ⟨file, m, none⟩ ∧
      Written E (encoderArgs cfg (clock i) c.2) file m ∧ Split (some 16777216) c.2 cs ∧
      Opens E ⟨file, m, none⟩ (cs.map fun x => x.map (readBack E cfg)) := by
    intro i c hc
    obtain ⟨file, m, h1, h2⟩ := openColumn_written h i hc
    obtain ⟨cs, h3, h4⟩ := h2.encoded.opens h2.law h2.valid h2.accepts h2.len none (Or.inl rfl)
    rw [encoderArgs_records] at h3
    exact ⟨file, m, cs, h1, h2, h3, h4⟩
  obtain ⟨_, _, cs0, _, _, hs0, _⟩ := hsplit 0 c0 hc0
  have hsum : (cs0.map List.length).sum = n := by
    rw [← h.length c0 hc0, ← List.length_flatten, hs0.flatten]
  have key : ∀ (t' : Table) (i : Nat), (∀ c ∈ t', c ∈ t) →
      ∃ ds ts, openColumns E cfg clock i t' = .ok ds ∧ ds.length = t'.length ∧ Tables E (cs0.map List.length) ds ts ∧
      ts.map List.flatten = t'.map (fun c => c.2.map (readBack E cfg)) ∧
      (∀ (j : Nat) (c : Name × List B64), t'[j]? = some c → ∃ file m, ds[j]? = some ⟨file, m, none⟩ ∧
        Written E (encoderArgs cfg (clock (i + j)) c.2) file m) := by
    intro t'
    induction t' with
    | nil => exact fun i _ => ⟨[], [], rfl, rfl, trivial, rfl, by simp⟩
    | cons c t' ih =>
      intro i hm
      obtain ⟨file, m, cs, e1, e2, e3, e4⟩ := hsplit i c (hm c (by simp))
      obtain ⟨ds, ts, f1, f2, f3, f4, f5⟩ := ih (i + 1) (fun c hc => hm c (by simp [hc]))
      refine ⟨⟨file, m, none⟩ :: ds, (cs.map fun x => x.map (readBack E cfg)) :: ts, ?_, by simp [f2],
        ⟨e4, ?_, f3⟩, ?_, ?_⟩
      · obtain ⟨nm, vs⟩ := c
        simp only [openColumns, e1, Res.bind_ok, f1]
      · rw [List.map_map, ← Split.same_sizes e3 hs0 (by rw [h.length c (hm c (by simp)), h.length c0 hc0])]
        apply List.map_congr_left
        intro x _
        simp
      · rw [List.map_cons, List.map_cons, f4, ← List.map_flatten, e3.flatten]
      · intro j c' hj
        cases j with
        | zero =>
          cases hj
          exact ⟨file, m, rfl, e2⟩
        | succ j =>
          obtain ⟨file', m', g1, g2⟩ := f5 j c' (by simpa using hj)
          exact ⟨file', m', by simpa using g1, by rw [show i + (j + 1) = i + 1 + j by omega]; exact g2⟩
  obtain ⟨ds, ts, f1, f2, f3, f4, f5⟩ := key t 0 (fun _ h => h)
  refine ⟨ds, _, ts, f1, f2, f3, hsum, f4, fun i c hc => ?_⟩
  have := f5 i c hc
  rwa [Nat.zero_add] at this

theorem Table.index_of {t : Table} {i : Nat} {name : Name} {vs : List B64} (h : Table.Has t i name vs) :
    t.index name = .ok i := by
  unfold Tpch.Table.index
  have : t.findIdx? (fun c => c.1 = name) = some i := by
    rw [List.findIdx?_eq_some_iff_getElem]
    obtain ⟨h1, h2⟩ := h
    obtain ⟨hi, h3⟩ := List.getElem?_eq_some_iff.1 h1
    refine ⟨hi, by simp [h3], ?_⟩
    intro j hj
    have hj' : j < t.length := by omega
    have := h2 j t[j] (List.getElem?_eq_getElem hj')
    simp only [decide_eq_true_eq]
    intro e
    have := this e
    omega
  rw [this]

/-! ## Query 6 -/

/-- Filters of all schemes. With BUFF and a bitmask the constants have to lie inside the range of every chunk. -/
theorem filter_meets {E : Env} {a : Args} {file : List Byte} {m : Metadata} (h : Written E a file m)
    (hsc : ∀ c s, a.cfg = .deltaSprintz c s → s.toNat < 2 ^ 32) (g : Range B64) (bm : Option Bitmap)
    (hbm : ∀ b, bm = some b → Bitmap.WF b) (hr : a.records.length * 8 < 2 ^ 32)
    (hb : ∀ s, a.cfg = .buff s → bm = none ∨ InsideRanges (buffBits E s) a (.range g)) :
    ∃ R, Decoder.filter E ⟨file, m, none⟩ (.range g) bm none = .ok R ∧ Bitmap.WF R ∧
      ∀ x, x ∈ R ↔ ∃ v, a.records[x]? = some v ∧ (∀ b, bm = some b → x ∈ b) ∧ Meets E a.cfg (.range g) v = true := by
  by_cases h1 : a.cfg.scheme = .buff
  · obtain ⟨s, hs⟩ : ∃ s, a.cfg = .buff s := by
      cases hc : a.cfg <;> rw [hc] at h1 <;> first | exact ⟨_, rfl⟩ | cases h1
    obtain ⟨R, e1, e2, e3, e4, e5⟩ := c36_decoder_filter_partial h hs none (.range g) bm hbm hr
      (fun cs _ c _ => trivial)
    refine ⟨R, e1, e2, fun x => ?_⟩
    rw [hs]
    constructor
    · intro hx
      have hv := List.getElem?_eq_getElem (e3 x hx)
      have hin : ∀ b, bm = some b → x ∈ b := by
        rcases hb s hs with rfl | hin
        · simp
        · exact e5 hin x hx
      exact ⟨_, hv, hin, (e4 x _ hv hin).1 hx⟩
    · rintro ⟨v, hv, hin, ha⟩
      exact (e4 x v hv hin).2 ha
  · by_cases h2 : a.cfg.scheme = .deltaSprintz
    · obtain ⟨n, s, hs⟩ : ∃ n s, a.cfg = .deltaSprintz n s := by
        cases hc : a.cfg <;> rw [hc] at h2 <;> first | exact ⟨_, _, rfl⟩ | cases h2
      obtain ⟨R, e1, e2, e3⟩ := c39_decoder_filter h hs (hsc n s hs) none (.range g) bm (by omega)
      refine ⟨R, e1, e2, fun x => ?_⟩
      rw [e3, hs]
      rfl
    · obtain ⟨R, e1, e2, e3⟩ := c31_decoder_filter h h1 h2 none (.range g) bm (by omega)
      refine ⟨R, e1, e2, fun x => ?_⟩
      rw [e3]
      have hv : ∀ v, readBack E a.cfg v = v := by
        intro v
        cases hc : a.cfg <;> rw [hc] at h1 h2 <;> first | exact absurd rfl h1 | exact absurd rfl h2 | rfl
      have hm : ∀ v, Meets E a.cfg (.range g) v = (Predicate.range g).eval f64Cmp v := by
        intro v
        cases hc : a.cfg <;> rw [hc] at h1 h2 <;> first | exact absurd rfl h1 | exact absurd rfl h2 | rfl
      simp only [List.getElem?_map, Option.map_eq_some_iff, hv, hm]
      constructor
      · rintro ⟨v, ⟨w, hw, rfl⟩, h3, h4⟩
        exact ⟨w, hw, h3, h4⟩
      · rintro ⟨v, hw, h3, h4⟩
        exact ⟨v, ⟨v, hw, rfl⟩, h3, h4⟩

theorem quantityBelow_range : quantityBelow = .range ⟨.none, .exclusive 0x4038000000000000#64⟩ := rfl
theorem discountRange_range :
    discountRange = .range ⟨.inclusive 0x3fa999999999999a#64, .inclusive 0x3fb1eb851eb851ec#64⟩ := rfl

/-- Query 6 with every configuration: the products of price and discount, as they are read back, of exactly the
rows with a discount from 0.05 to 0.07 and a quantity below 24, added up within the chunks and then over the chunks.

With BUFF this needs 24 inside the range of quantities of every chunk; `c62_buff_wrong` shows what happens
otherwise. -/
theorem c62_h06_partial {E : Env} {cfg : Config} {clock : Nat → Stamp} {t : Table} {n : Nat}
    (h : Carried E cfg clock t n) {qi pi di : Nat} {quantity price discount : List B64}
    (hq : Table.Has t qi lQuantity quantity) (hp : Table.Has t pi lExtendedprice price)
    (hd : Table.Has t di lDiscount discount)
    (hbuff : ∀ s, cfg = .buff s → InsideRanges (buffBits E s) (encoderArgs cfg (clock qi) quantity) quantityBelow) :
    ∃ r, PartedSum E.o ((q6Rows E cfg n discount quantity).map (fun x =>
        E.o.mul (readBack E cfg (price.getD x 0#64)) (readBack E cfg (discount.getD x 0#64)))) r ∧
      h06 E cfg clock t = .ok [.scalar r] := by
  obtain ⟨ds, sizes, ts, e1, e2, e3, e4, e5, e6⟩ := openColumns_tables h
  have hsm := h.small
  have lq := h.length _ (List.mem_of_getElem? hq.1)
  have lp := h.length _ (List.mem_of_getElem? hp.1)
  have ld := h.length _ (List.mem_of_getElem? hd.1)
  simp only at lq lp ld
  obtain ⟨fd, md, d1, d2⟩ := e6 di _ hd.1
  obtain ⟨fq, mq, q1, q2⟩ := e6 qi _ hq.1
  simp only at d2 q2
  have rd := encoderArgs_records cfg (clock di) discount
  have rq := encoderArgs_records cfg (clock qi) quantity
  obtain ⟨R0, f1, f2, f3⟩ := filter_meets d2 h.scale
    ⟨.inclusive 0x3fa999999999999a#64, .inclusive 0x3fb1eb851eb851ec#64⟩ none (by simp) (by rw [rd]; omega)
    (fun _ _ => Or.inl rfl)
  obtain ⟨R1, g1, g2, g3⟩ := filter_meets q2 h.scale ⟨.none, .exclusive 0x4038000000000000#64⟩ (some R0)
    (by intro b hb; cases hb; exact f2) (by rw [rq]; omega) (fun s hs => Or.inr (hbuff s hs))
  rw [rd] at f3
  rw [rq] at g3
  have hne : ds ≠ [] := by
    intro e
    rw [e] at e2
    exact h.columns (List.length_eq_zero_iff.1 e2.symm)
  have hil : ∀ {i : Nat} {c : Name × List B64}, t[i]? = some c → i < ds.length := by
    intro i c hc
    rw [e2]
    exact (List.getElem?_eq_some_iff.1 hc).1
  have hidx : ∀ j ∈ columnsOf (.binary .mul (.index pi) (.index di)), j < ds.length := by
    intro j hj
    simp only [columnsOf, List.cons_append, List.nil_append, List.mem_cons, List.not_mem_nil, or_false] at hj
    rcases hj with rfl | rfl
    · exact hil hp.1
    · exact hil hd.1
  obtain ⟨vss, v1, v2, v3⟩ := c44_sum (E := E) (bm := some R1) (e := .binary .mul (.index pi) (.index di))
    (by right; rw [e4]; omega) e3 hne trivial hidx (by simp [columnsOf])
    (by intro s hs; simp only [subexprs, List.cons_append, List.nil_append, List.mem_cons, List.not_mem_nil,
          or_false] at hs; rcases hs with rfl | rfl | rfl <;> simp [columnsOf])
  refine ⟨_, ⟨vss, ?_, rfl⟩, ?_⟩
  · rw [v2, e4, e5]
    unfold pointwise q6Rows chosenPositions
    have hrow : ∀ x, x < n → (R1.contains (0 + x) = (Meets E cfg discountRange (discount.getD x 0#64) &&
        Meets E cfg quantityBelow (quantity.getD x 0#64))) := by
      intro x hx
      have hdx : discount[x]? = some (discount.getD x 0#64) := by
        rw [List.getD, List.getElem?_eq_getElem (by omega)]; rfl
      have hqx : quantity[x]? = some (quantity.getD x 0#64) := by
        rw [List.getD, List.getElem?_eq_getElem (by omega)]; rfl
      rw [Bool.eq_iff_iff, List.contains_iff_mem, Nat.zero_add, Bool.and_eq_true, g3]
      constructor
      · rintro ⟨v, a1, a2, a3⟩
        obtain ⟨w, b1, -, b3⟩ := (f3 x).1 (a2 R0 rfl)
        rw [hqx] at a1
        rw [hdx] at b1
        cases a1
        cases b1
        exact ⟨b3, a3⟩
      · rintro ⟨a1, a2⟩
        refine ⟨_, hqx, ?_, a2⟩
        intro b hb
        cases hb
        exact (f3 x).2 ⟨_, hdx, by simp, a1⟩
    have hf : (List.range n).filter (fun j => (some R1).all fun b => b.contains (0 + j)) =
        (List.range n).filter (fun x => Meets E cfg discountRange (discount.getD x 0#64) &&
          Meets E cfg quantityBelow (quantity.getD x 0#64)) := by
      apply List.filter_congr
      intro x hx
      simp only [Option.all_some]
      exact hrow x (List.mem_range.1 hx)
    rw [hf]
    apply List.map_congr_left
    intro x hx
    have hx' := List.mem_range.1 (List.mem_filter.1 hx).1
    have hcol : ∀ {i : Nat} {nm : Name} {vs : List B64}, t[i]? = some (nm, vs) → vs.length = n →
        ((t.map fun c => c.2.map (readBack E cfg)).getD i []).getD x 0#64 = readBack E cfg (vs.getD x 0#64) := by
      intro i nm vs hi hl
      have hg : (t.map fun c => c.2.map (readBack E cfg)).getD i [] = vs.map (readBack E cfg) := by
        rw [List.getD, List.getElem?_map, hi]; rfl
      rw [hg, List.getD, List.getElem?_map, List.getD, List.getElem?_eq_getElem (by omega)]
      rfl
    simp only [evalAt]
    rw [hcol hp.1 lp, hcol hd.1 ld]
  · have hm : Aggregation.computeMultiple E (h06Aggregations pi di) ds (some R1)
        = .ok [.scalar ((vss.map fun vs => vs.foldl E.o.add E.o.sumInit).foldl E.o.add 0#64)] := by
      rw [c44_together (by right; rw [e4]; omega) e3 hne _ (by
        intro a ha; simp only [h06Aggregations, List.mem_cons, List.not_mem_nil, or_false] at ha; subst ha; exact hidx)]
      refine ⟨rfl, ?_⟩
      intro k a ha
      cases k with
      | zero =>
        cases ha
        exact ⟨_, rfl, v3⟩
      | succ k => simp [h06Aggregations] at ha
    unfold h06
    rw [e1]
    simp only [Res.bind_ok, Table.index_of hq, Table.index_of hp, Table.index_of hd, decoderAt, d1, q1, Res.bind_ok]
    rw [discountRange_range, f1]
    simp only [Res.bind_ok, quantityBelow_range, g1, hm]

/-! ## Query 1 -/

theorem pickFrom_all (off : Nat) (vs : List B64) : pickFrom none off vs = vs := by
  unfold pickFrom
  have h : (vs.zipIdx off).filter (fun p => (none : Option Bitmap).all fun b => b.contains p.2) = vs.zipIdx off :=
    List.filter_eq_self.2 (fun _ _ => rfl)
  rw [h]
  exact List.zipIdx_map_fst off vs

theorem sumsPerChunk_all (g : Nat → List B64 → B64) (f : List B64 → B64) (hg : ∀ off c, g off c = f c)
    (chunks : List (List B64)) (hne : ∀ c ∈ chunks, c ≠ []) (off : Nat) :
    sumsPerChunk g none off chunks = chunks.map f := by
  induction chunks generalizing off with
  | nil => rfl
  | cons c cs ih =>
    rw [sumsPerChunk, pickFrom_all, if_neg (hne c (by simp)), ih (fun c hc => hne c (by simp [hc])), hg]
    rfl

theorem partialSums_all (o : FloatOps) (chunks : List (List B64)) (hne : ∀ c ∈ chunks, c ≠ []) (off : Nat) :
    partialSums o none off chunks = chunks.map fun c => c.foldl o.add 0#64 := by
  induction chunks generalizing off with
  | nil => rfl
  | cons c cs ih =>
    rw [partialSums, pickFrom_all, if_neg (hne c (by simp)), ih (fun c hc => hne c (by simp [hc]))]
    rfl

theorem intSum_eq (xs : List Int) : intSum xs = xs.sum := by
  induction xs with
  | nil => rfl
  | cons x xs ih => rw [intSum, ih, List.sum_cons]

theorem selectedInts_all (qs : List (BitVec 64)) (off : Nat) : selectedInts qs off none = qs.map BitVec.toInt := by
  unfold selectedInts
  simp only
  rw [List.filter_eq_self.2 (fun _ _ => rfl)]
  apply List.ext_getElem
  · simp
  · intro i h1 h2
    simp only [List.length_map, List.length_range'] at h1
    simp [qAt, List.getElem_range', List.getD, List.getElem?_eq_getElem h1]

theorem pickFrom_ints (o : FloatOps) (scale off : Nat) (vs : List B64) :
    pickFrom none off (vs.map (rounded o scale)) = vs.map (rounded o scale) := pickFrom_all _ _

/-- Sum of a whole column in every scheme. -/
theorem sum_column {E : Env} {a : Args} {file : List Byte} {m : Metadata} (h : Written E a file m)
    (hsc : ∀ c s, a.cfg = .deltaSprintz c s → s.toNat < 2 ^ 32) (hr : a.records.length < 2 ^ 32) :
    ∃ chunks, Split a.opt.recordsPerChunk a.records chunks ∧ Decoder.sum E ⟨file, m, none⟩ none none
      = .ok ((chunks.map (chunkSum E a.cfg)).foldl E.o.add 0#64) := by
  by_cases h1 : a.cfg.scheme = .buff
  · obtain ⟨s, hs⟩ : ∃ s, a.cfg = .buff s := by
      cases hc : a.cfg <;> rw [hc] at h1 <;> first | exact ⟨_, rfl⟩ | cases h1
    obtain ⟨chunks, e1, e2⟩ := c38_decoder_sum h hs none none (by simp) hr
    refine ⟨chunks, e1, ?_⟩
    rw [e2, sumsPerChunk_all _ (chunkSum E a.cfg) ?_ chunks (e1.ne_nil h.valid.positive)]
    intro off c
    rw [hs]
    simp only [buffSum, chunkSum, selectedInts_all, intSum_eq, List.all_eq_true, beq_iff_eq]
  · by_cases h2 : a.cfg.scheme = .deltaSprintz
    · obtain ⟨n, s, hs⟩ : ∃ n s, a.cfg = .deltaSprintz n s := by
        cases hc : a.cfg <;> rw [hc] at h2 <;> first | exact ⟨_, _, rfl⟩ | cases h2
      obtain ⟨chunks, e1, e2⟩ := c39_decoder_sum h hs (hsc n s hs) none none (by simp) hr
      refine ⟨chunks, e1, ?_⟩
      rw [e2, sumsPerChunk_all _ (chunkSum E a.cfg) ?_ chunks (e1.ne_nil h.valid.positive)]
      intro off c
      rw [hs]
      simp only [sprintzSum, chunkSum, pickFrom_ints]
    · have hop := decoder_default h h1 h2 none
      obtain ⟨cs, rfl, rfl, hfit, k2, k3, k4, k5⟩ := h.encoded.chunks h.law h.valid h.accepts h.len
      refine ⟨_, k2, ?_⟩
      have hv : ∀ v, readBack E a.cfg v = v := by
        intro v
        cases hc : a.cfg <;> rw [hc] at h1 h2 <;> first | exact absurd rfl h1 | exact absurd rfl h2 | rfl
      have hm : chunkSum E a.cfg = fun c => c.foldl E.o.add 0#64 := by
        funext c
        cases hc : a.cfg <;> rw [hc] at h1 h2 <;> first | exact absurd rfl h1 | exact absurd rfl h2 | rfl
      have hne := k2.ne_nil h.valid.positive
      have e := fold_layout (a := a) hfit (E.scheme a.cfg) none (Or.inl rfl) none
        (defaultOps E.o (E.scheme a.cfg).decode).sum E.o.add
        (fun off vs => (defaultMaterialize none off (vs.map (readBack E a.cfg))).foldl E.o.add 0#64)
        (fun p hp off _ _ => by
          simp only [defaultOps, (k3 p hp).1, Res.map, defaultSum, defaultFold_eq]) 0#64
      rw [visited_partialSums E.o (readBack E a.cfg) 0 cs (fun p hp => hne p.1 (List.mem_map_of_mem hp))
        (Or.inl rfl)] at e
      unfold Decoder.sum
      rw [hop.1, hop.2]
      have hcs : (cs.map fun p => p.1.map (readBack E a.cfg)) = cs.map Prod.fst := by
        apply List.map_congr_left
        intro p _
        rw [List.map_congr_left (g := id) (fun v _ => hv v), List.map_id]
      rw [hcs, partialSums_all _ _ hne] at e
      rw [hm]
      exact e

/-- The values of a computed column. -/
theorem computed_column {E : Env} {cfg : Config} {clock : Nat → Stamp} {t : Table} {n : Nat}
    (h : Carried E cfg clock t n) {ds : List Decoder} {sizes : List Nat} {ts : List (List (List B64))}
    (e2 : ds.length = t.length) (e3 : Tables E sizes ds ts) (e4 : sizes.sum = n)
    (e5 : ts.map List.flatten = t.map (fun c => c.2.map (readBack E cfg))) (e : Expr) (hcomp : compound e)
    (hidx : ∀ j ∈ columnsOf e, j < t.length) (hcol : columnsOf e ≠ []) (hn : NoConstantPart e) :
    ∃ r, PartedSum E.o ((List.range n).map fun x => evalAt E.o (fun i =>
        readBack E cfg ((t.getD i ([], [])).2.getD x 0#64)) e) r ∧
      (Aggregation.mk .sum e).compute E ds none = .ok (.scalar r) := by
  have hne : ds ≠ [] := by
    intro e
    rw [e] at e2
    exact h.columns (List.length_eq_zero_iff.1 e2.symm)
  obtain ⟨vss, v1, v2, v3⟩ := c44_sum (E := E) (bm := none) (e := e) (Or.inl rfl) e3 hne hcomp
    (by rw [e2]; exact hidx) hcol hn
  refine ⟨_, ⟨vss, ?_, rfl⟩, v3⟩
  rw [v2, e4, e5]
  unfold pointwise chosenPositions
  have hf : (List.range n).filter (fun j => (none : Option Bitmap).all fun b => b.contains (0 + j)) = List.range n :=
    List.filter_eq_self.2 (fun _ _ => rfl)
  rw [hf]
  apply List.map_congr_left
  intro x hx
  have hx' := List.mem_range.1 hx
  have hcol : ∀ i ∈ columnsOf e, ((t.map fun c => c.2.map (readBack E cfg)).getD i []).getD x 0#64
      = readBack E cfg ((t.getD i ([], [])).2.getD x 0#64) := by
    intro i hi
    have hi' := hidx i hi
    have hl := h.length t[i] (List.getElem_mem hi')
    have hg : (t.map fun c => c.2.map (readBack E cfg)).getD i [] = t[i].2.map (readBack E cfg) := by
      rw [List.getD, List.getElem?_map, List.getElem?_eq_getElem hi']; rfl
    have hg' : t.getD i ([], []) = t[i] := by rw [List.getD, List.getElem?_eq_getElem hi']; rfl
    rw [hg, hg', List.getD, List.getElem?_map, List.getD, List.getElem?_eq_getElem (by omega)]
    rfl
  clear hcomp hidx hn v1 v2 v3
  have key : ∀ e : Expr, (∀ i ∈ columnsOf e, ((t.map fun c => c.2.map (readBack E cfg)).getD i []).getD x 0#64
      = readBack E cfg ((t.getD i ([], [])).2.getD x 0#64)) →
      evalAt E.o (fun i => ((t.map fun c => c.2.map (readBack E cfg)).getD i []).getD x 0#64) e
        = evalAt E.o (fun i => readBack E cfg ((t.getD i ([], [])).2.getD x 0#64)) e := by
    intro e
    induction e with
    | literal v => intro _; rfl
    | index i => intro h; exact h i (by simp [columnsOf])
    | binary op l r ihl ihr =>
      intro h
      have h1 := ihl (fun i hi => h i (by simp [columnsOf, hi]))
      have h2 := ihr (fun i hi => h i (by simp [columnsOf, hi]))
      cases op <;> simp only [evalAt, h1, h2]
  exact key e hcol

theorem h01Arrange_eq (o : FloatOps) (n : Nat) (a b c d e : B64) :
    h01Arrange o n [.scalar a, .scalar b, .scalar c, .scalar d, .scalar e] =
      .ok [.result (.scalar a), .result (.scalar b), .result (.scalar c), .result (.scalar d),
        .result (.scalar (o.div b (o.ofNat n))), .result (.scalar (o.div a (o.ofNat n))),
        .result (.scalar (o.div e (o.ofNat n))), .integer n] := rfl

theorem simplifiedArrange_eq (o : FloatOps) (n : Nat) (a b c : B64) :
    simplifiedArrange o n [.scalar a, .scalar b, .scalar c] =
      .ok [.result (.scalar a), .result (.scalar b), .result (.scalar (o.div c (o.ofNat n))),
        .result (.scalar (o.div a (o.ofNat n))), .result (.scalar (o.div b (o.ofNat n))), .integer n] := rfl

/-- Sum of a column of the table. -/
theorem table_sum {E : Env} {cfg : Config} {clock : Nat → Stamp} {t : Table} {n : Nat}
    (h : Carried E cfg clock t n) {ds : List Decoder}
    (e6 : ∀ (i : Nat) (c : Name × List B64), t[i]? = some c → ∃ file m, ds[i]? = some ⟨file, m, none⟩ ∧
        Written E (encoderArgs cfg (clock i) c.2) file m)
    {i : Nat} {name : Name} {vs : List B64} (hi : t[i]? = some (name, vs)) :
    ∃ r, ColumnSum E cfg vs r ∧ (Aggregation.mk .sum (.index i)).compute E ds none = .ok (.scalar r) := by
  obtain ⟨file, m, h1, h2⟩ := e6 i _ hi
  have hl := h.length _ (List.mem_of_getElem? hi)
  have hs := h.small
  simp only at h2 hl
  obtain ⟨chunks, e1, e2⟩ := sum_column h2 h.scale (by rw [encoderArgs_records]; omega)
  rw [encoderArgs_records] at e1
  refine ⟨_, ⟨chunks, e1, rfl⟩, ?_⟩
  rw [(c44_bare E ds none i _ h1).2.2, e2]
  rfl

/-- Query 1 with every configuration: four sums, then the averages of price, quantity and discount in this order,
then the count. -/
theorem c62_h01_partial {E : Env} {cfg : Config} {clock : Nat → Stamp} {t : Table} {n : Nat}
    (h : Carried E cfg clock t n) {qi pi di ti : Nat} {quantity price discount tax : List B64}
    (hq : Table.Has t qi lQuantity quantity) (hp : Table.Has t pi lExtendedprice price)
    (hd : Table.Has t di lDiscount discount) (ht : Table.Has t ti lTax tax) :
    ∃ sq sp sdp sch sd, ColumnSum E cfg quantity sq ∧ ColumnSum E cfg price sp ∧ ColumnSum E cfg discount sd ∧
      PartedSum E.o ((List.range n).map fun x => E.o.mul (readBack E cfg (price.getD x 0#64))
        (E.o.sub 0x3ff0000000000000#64 (readBack E cfg (discount.getD x 0#64)))) sdp ∧
      PartedSum E.o ((List.range n).map fun x => E.o.mul (E.o.mul (readBack E cfg (price.getD x 0#64))
        (E.o.sub 0x3ff0000000000000#64 (readBack E cfg (discount.getD x 0#64))))
        (E.o.add 0x3ff0000000000000#64 (readBack E cfg (tax.getD x 0#64)))) sch ∧
      h01 E cfg clock t = .ok [.result (.scalar sq), .result (.scalar sp), .result (.scalar sdp), .result (.scalar sch),
        .result (.scalar (E.o.div sp (E.o.ofNat n))), .result (.scalar (E.o.div sq (E.o.ofNat n))),
        .result (.scalar (E.o.div sd (E.o.ofNat n))), .integer n] := by
  obtain ⟨ds, sizes, ts, e1, e2, e3, e4, e5, e6⟩ := openColumns_tables h
  have hne : ds ≠ [] := by
    intro e
    rw [e] at e2
    exact h.columns (List.length_eq_zero_iff.1 e2.symm)
  have hg : ∀ {i : Nat} {nm : Name} {vs : List B64}, t[i]? = some (nm, vs) → (t.getD i ([], [])).2 = vs := by
    intro i nm vs hi
    rw [List.getD, hi]; rfl
  have hil : ∀ {i : Nat} {c : Name × List B64}, t[i]? = some c → i < t.length :=
    fun hc => (List.getElem?_eq_some_iff.1 hc).1
  have lq := hil hq.1
  have lp := hil hp.1
  have ld := hil hd.1
  have lt := hil ht.1
  obtain ⟨sq, q1, q2⟩ := table_sum h e6 hq.1
  obtain ⟨sp, p1, p2⟩ := table_sum h e6 hp.1
  obtain ⟨sd, d1, d2⟩ := table_sum h e6 hd.1
  obtain ⟨sdp, x1, x2⟩ := computed_column h e2 e3 e4 e5 (discPrice pi di) trivial
    (by simp [discPrice, columnsOf]; omega) (by simp [discPrice, columnsOf])
    (by intro s hs; simp [discPrice, subexprs] at hs; rcases hs with rfl | rfl | rfl | rfl | rfl <;>
          simp [columnsOf, isLiteral])
  obtain ⟨sch, y1, y2⟩ := computed_column h e2 e3 e4 e5 (charge pi di ti) trivial
    (by simp [charge, discPrice, columnsOf]; omega) (by simp [charge, discPrice, columnsOf])
    (by intro s hs; simp [charge, discPrice, subexprs] at hs
        rcases hs with rfl | rfl | rfl | rfl | rfl | rfl | rfl | rfl | rfl <;> simp [columnsOf, isLiteral])
  refine ⟨sq, sp, sdp, sch, sd, q1, p1, d1, ?_, ?_, ?_⟩
  · simpa only [discPrice, evalAt, hg hp.1, hg hd.1] using x1
  · simpa only [charge, discPrice, evalAt, hg hp.1, hg hd.1, hg ht.1] using y1
  · have hm : Aggregation.computeMultiple E (h01Aggregations qi pi di ti) ds none
        = .ok [.scalar sq, .scalar sp, .scalar sdp, .scalar sch, .scalar sd] := by
      rw [c44_together (Or.inl rfl) e3 hne _ (by
        intro a ha
        simp only [h01Aggregations, List.mem_cons, List.not_mem_nil, or_false] at ha
        rw [e2]
        rcases ha with rfl | rfl | rfl | rfl | rfl <;> simp [charge, discPrice, columnsOf] <;> omega)]
      refine ⟨rfl, ?_⟩
      intro k a ha
      rcases k with _ | _ | _ | _ | _ | k
      · cases ha; exact ⟨_, rfl, q2⟩
      · cases ha; exact ⟨_, rfl, p2⟩
      · cases ha; exact ⟨_, rfl, x2⟩
      · cases ha; exact ⟨_, rfl, y2⟩
      · cases ha; exact ⟨_, rfl, d2⟩
      · simp [h01Aggregations] at ha
    obtain ⟨d, hd0, hrec⟩ : ∃ d, decoderAt ds 0 = .ok d ∧ d.info.footer.records = n := by
      cases ds with
      | nil => exact absurd rfl hne
      | cons d ds =>
        refine ⟨d, rfl, ?_⟩
        cases ts with
        | nil => exact e3.elim
        | cons css ts =>
          rw [e3.1.records, List.length_flatten, e3.2.1, e4]
    unfold h01
    rw [e1]
    simp only [Res.bind_ok, Table.index_of hq, Table.index_of hp, Table.index_of hd, Table.index_of ht, hd0, hm, hrec]
    exact h01Arrange_eq _ _ _ _ _ _ _

/-- The names given to the results: the entries 1 to 3 are meant for the results 4 to 6 (`query_names.swap(4 - 3, 6 - 3)`).
Result 4 is the average price and is called the average discount, result 5 is the average quantity and is called the
average price, result 6 is the average discount and is called the average quantity. SQL has quantity, price,
discount. -/
theorem c62_h01_mislabelled {E : Env} {cfg : Config} {clock : Nat → Stamp} {t : Table} {n : Nat}
    (h : Carried E cfg clock t n) {qi pi di ti : Nat} {quantity price discount tax : List B64}
    (hq : Table.Has t qi lQuantity quantity) (hp : Table.Has t pi lExtendedprice price)
    (hd : Table.Has t di lDiscount discount) (ht : Table.Has t ti lTax tax) :
    ∃ cells names sq sp sd, h01 E cfg clock t = .ok cells ∧ h01Names = .ok names ∧
      ColumnSum E cfg quantity sq ∧ ColumnSum E cfg price sp ∧ ColumnSum E cfg discount sd ∧
      (names[4 - 3]? = some [.avgDiscount] ∧ cells[4]? = some (.result (.scalar (E.o.div sp (E.o.ofNat n))))) ∧
      (names[5 - 3]? = some [.avgPrice] ∧ cells[5]? = some (.result (.scalar (E.o.div sq (E.o.ofNat n))))) ∧
      (names[6 - 3]? = some [.avgQuantity] ∧ cells[6]? = some (.result (.scalar (E.o.div sd (E.o.ofNat n))))) := by
  obtain ⟨sq, sp, sdp, sch, sd, h1, h2, h3, -, -, h6⟩ := c62_h01_partial h hq hp hd ht
  exact ⟨_, _, sq, sp, sd, h6, rfl, h1, h2, h3, ⟨rfl, rfl⟩, ⟨rfl, rfl⟩, rfl, rfl⟩

/-- The simplified query 1: two sums, the average of the discount, those of quantity and price, the count. The sum of
the discount that the names announce is overwritten. -/
theorem c62_h01_simplified {E : Env} {cfg : Config} {clock : Nat → Stamp} {t : Table} {n : Nat}
    (h : Carried E cfg clock t n) {qi pi di : Nat} {quantity price discount : List B64}
    (hq : Table.Has t qi lQuantity quantity) (hp : Table.Has t pi lExtendedprice price)
    (hd : Table.Has t di lDiscount discount) :
    ∃ sq sp sd, ColumnSum E cfg quantity sq ∧ ColumnSum E cfg price sp ∧ ColumnSum E cfg discount sd ∧
      h01Simplified E cfg clock t = .ok [.result (.scalar sq), .result (.scalar sp),
        .result (.scalar (E.o.div sd (E.o.ofNat n))), .result (.scalar (E.o.div sq (E.o.ofNat n))),
        .result (.scalar (E.o.div sp (E.o.ofNat n))), .integer n] := by
  obtain ⟨ds, sizes, ts, e1, e2, e3, e4, e5, e6⟩ := openColumns_tables h
  have hne : ds ≠ [] := by
    intro e
    rw [e] at e2
    exact h.columns (List.length_eq_zero_iff.1 e2.symm)
  have hil : ∀ {i : Nat} {c : Name × List B64}, t[i]? = some c → i < t.length :=
    fun hc => (List.getElem?_eq_some_iff.1 hc).1
  have lq := hil hq.1
  have lp := hil hp.1
  have ld := hil hd.1
  obtain ⟨sq, q1, q2⟩ := table_sum h e6 hq.1
  obtain ⟨sp, p1, p2⟩ := table_sum h e6 hp.1
  obtain ⟨sd, d1, d2⟩ := table_sum h e6 hd.1
  refine ⟨sq, sp, sd, q1, p1, d1, ?_⟩
  have hm : Aggregation.computeMultiple E (simplifiedAggregations qi pi di) ds none
      = .ok [.scalar sq, .scalar sp, .scalar sd] := by
    rw [c44_together (Or.inl rfl) e3 hne _ (by
      intro a ha
      simp only [simplifiedAggregations, List.mem_cons, List.not_mem_nil, or_false] at ha
      rw [e2]
      rcases ha with rfl | rfl | rfl <;> simp [columnsOf] <;> omega)]
    refine ⟨rfl, ?_⟩
    intro k a ha
    rcases k with _ | _ | _ | k
    · cases ha; exact ⟨_, rfl, q2⟩
    · cases ha; exact ⟨_, rfl, p2⟩
    · cases ha; exact ⟨_, rfl, d2⟩
    · simp [simplifiedAggregations] at ha
  obtain ⟨d, hd0, hrec⟩ : ∃ d, decoderAt ds 0 = .ok d ∧ d.info.footer.records = n := by
    cases ds with
    | nil => exact absurd rfl hne
    | cons d ds =>
      refine ⟨d, rfl, ?_⟩
      cases ts with
      | nil => exact e3.elim
      | cons css ts =>
        rw [e3.1.records, List.length_flatten, e3.2.1, e4]
  unfold h01Simplified
  rw [e1]
  simp only [Res.bind_ok, Table.index_of hq, Table.index_of hp, Table.index_of hd, hd0, hm, hrec]
  exact simplifiedArrange_eq _ _ _ _ _

/-! ## Reading the columns -/

/-- What the batches hold under a name: their decimals in order, nulls as NaN. -/
def columnOf (conv : Int → Int → B64) (batches : List Batch) (name : Name) : List B64 :=
  batches.flatMap fun b => b.flatMap fun f =>
    match f.2 with
    | .decimal scale values => if f.1 = name then values.map (fun v => v.elim nanBits (conv scale)) else []
    | .other => []

/-- A decimal column of that name occurs. -/
def Occurs (batches : List Batch) (name : Name) : Prop := ∃ b ∈ batches, ∃ scale values, (name, Field.decimal scale values) ∈ b

/-- Only the two flag columns may be something else than decimals. -/
def Readable (batches : List Batch) : Prop :=
  ∀ b ∈ batches, ∀ name, (name, Field.other) ∈ b → name = lReturnflag ∨ name = lLinestatus

def Sorted (t : Table) : Prop := t.Pairwise fun a b => a.1 < b.1

/-- The value under a key; nothing without one. -/
def under (t : Table) (name : Name) : List B64 := (t.filter fun c => c.1 = name).flatMap Prod.snd

theorem name_trichotomy {a b : Name} (h1 : a ≠ b) (h2 : ¬ a < b) : b < a := by
  apply Decidable.byContradiction
  intro h3
  exact h1 (List.le_antisymm (List.not_lt.1 h3) (List.not_lt.1 h2))

theorem extend_spec (n : Name) (vs : List B64) : ∀ (t : Table), Sorted t → Sorted (t.extend n vs) ∧
    (∀ m, m ∈ (t.extend n vs).map Prod.fst ↔ m = n ∨ m ∈ t.map Prod.fst) ∧
    ∀ m, under (t.extend n vs) m = under t m ++ if n = m then vs else []
  | [], _ => by
    refine ⟨by simp [Tpch.Table.extend, Sorted], by simp [Tpch.Table.extend], fun m => ?_⟩
    by_cases h : n = m <;> simp [Tpch.Table.extend, under, h]
  | (k, ws) :: t, hs => by
    obtain ⟨h1, h2⟩ := List.pairwise_cons.1 hs
    unfold Tpch.Table.extend
    by_cases hk : n = k
    · subst hk
      rw [if_pos rfl]
      refine ⟨List.pairwise_cons.2 ⟨h1, h2⟩, by simp, fun m => ?_⟩
      have hz : under t n = [] := by
        unfold under
        rw [List.filter_eq_nil_iff.2]; rfl
        intro c hc
        simp only [decide_eq_true_eq]
        intro e
        have := h1 c hc
        rw [e] at this
        exact List.lt_irrefl _ this
      by_cases h : n = m
      · subst h
        unfold under at hz ⊢
        simp [hz]
      · simp [under, h]
    · rw [if_neg hk]
      by_cases hl : n < k
      · rw [if_pos hl]
        have hall : ∀ c ∈ (k, ws) :: t, n < c.1 := by
          intro c hc
          rcases List.mem_cons.1 hc with rfl | hc
          · exact hl
          · exact List.lt_trans hl (h1 c hc)
        refine ⟨List.pairwise_cons.2 ⟨hall, hs⟩, by simp, fun m => ?_⟩
        by_cases h : n = m
        · subst h
          have hz : ((k, ws) :: t).filter (fun c => c.1 = n) = [] := by
            rw [List.filter_eq_nil_iff]
            intro c hc
            simp only [decide_eq_true_eq]
            intro e
            have := hall c hc
            rw [e] at this
            exact List.lt_irrefl _ this
          unfold under
          rw [List.filter_cons, if_pos (by simp), List.flatMap_cons, hz]
          simp
        · simp [under, h]
      · rw [if_neg hl]
        obtain ⟨i1, i2, i3⟩ := extend_spec n vs t h2
        refine ⟨List.pairwise_cons.2 ⟨?_, i1⟩, ?_, fun m => ?_⟩
        · intro c hc
          have : c.1 = n ∨ c.1 ∈ t.map Prod.fst := (i2 c.1).1 (List.mem_map_of_mem hc)
          rcases this with e | e
          · rw [e]; exact name_trichotomy hk hl
          · obtain ⟨c', hc', e'⟩ := List.mem_map.1 e
            rw [← e']
            exact h1 c' hc'
        · intro m
          rw [List.map_cons, List.mem_cons, i2, List.map_cons, List.mem_cons]
          constructor
          · rintro (h | h | h)
            · exact Or.inr (Or.inl h)
            · exact Or.inl h
            · exact Or.inr (Or.inr h)
          · rintro (h | h | h)
            · exact Or.inr (Or.inl h)
            · exact Or.inl h
            · exact Or.inr (Or.inr h)
        · have := i3 m
          unfold under at this ⊢
          by_cases h : k = m
          · rw [List.filter_cons, if_pos (by simpa using h), List.filter_cons, if_pos (by simpa using h),
              List.flatMap_cons, List.flatMap_cons, this, List.append_assoc]
          · rw [List.filter_cons, if_neg (by simpa using h), List.filter_cons, if_neg (by simpa using h), this]

theorem extractDecimal_eq (conv : Int → Int → B64) (scale : Int) (values : List (Option Int)) :
    extractDecimal conv scale values = values.map fun v => v.elim nanBits (conv scale) := by
  unfold extractDecimal
  apply List.map_congr_left
  intro v _
  cases v <;> rfl

theorem extractBatch_spec (conv : Int → Int → B64) : ∀ (b : Batch) (t : Table), Sorted t →
    ((∃ name, (name, Field.other) ∈ b ∧ ¬ (name = lReturnflag ∨ name = lLinestatus)) → extractBatch conv b t = .err) ∧
    ((∀ name, (name, Field.other) ∈ b → name = lReturnflag ∨ name = lLinestatus) → ∃ t', extractBatch conv b t = .ok t' ∧
      Sorted t' ∧ (∀ m, m ∈ t'.map Prod.fst ↔ m ∈ t.map Prod.fst ∨ ∃ scale values, (m, Field.decimal scale values) ∈ b) ∧
      ∀ m, under t' m = under t m ++ columnOf conv [b] m)
  | [], t, hs => ⟨by simp, fun _ => ⟨t, rfl, hs, by simp, by simp [columnOf]⟩⟩
  | (name, .other) :: fs, t, hs => by
    obtain ⟨h1, h2⟩ := extractBatch_spec conv fs t hs
    unfold extractBatch
    constructor
    · rintro ⟨nm, hm, hn⟩
      by_cases hc : name = lReturnflag ∨ name = lLinestatus
      · rw [if_pos hc]
        refine h1 ⟨nm, ?_, hn⟩
        rcases List.mem_cons.1 hm with e | e
        · cases e; exact absurd hc hn
        · exact e
      · rw [if_neg hc]
    · intro h
      rw [if_pos (h name (by simp))]
      obtain ⟨t', k1, k2, k3, k4⟩ := h2 (fun nm hm => h nm (by simp [hm]))
      refine ⟨t', k1, k2, fun m => ?_, fun m => ?_⟩
      · rw [k3]; simp
      · rw [k4]; simp [columnOf]
  | (name, .decimal scale values) :: fs, t, hs => by
    obtain ⟨e1, e2, e3⟩ := extend_spec name (extractDecimal conv scale values) t hs
    obtain ⟨h1, h2⟩ := extractBatch_spec conv fs _ e1
    unfold extractBatch
    constructor
    · rintro ⟨nm, hm, hn⟩
      exact h1 ⟨nm, by simpa using hm, hn⟩
    · intro h
      obtain ⟨t', k1, k2, k3, k4⟩ := h2 (fun nm hm => h nm (by simp [hm]))
      refine ⟨t', k1, k2, fun m => ?_, fun m => ?_⟩
      · rw [k3, e2]
        constructor
        · rintro ((rfl | h) | ⟨s, v, h⟩)
          · exact Or.inr ⟨scale, values, by simp⟩
          · exact Or.inl h
          · exact Or.inr ⟨s, v, by simp [h]⟩
        · rintro (h | ⟨s, v, h⟩)
          · exact Or.inl (Or.inr h)
          · rcases List.mem_cons.1 h with e | e
            · cases e; exact Or.inl (Or.inl rfl)
            · exact Or.inr ⟨s, v, e⟩
      · rw [k4, e3, List.append_assoc, extractDecimal_eq]
        simp [columnOf]

/-- Reading the columns: an error unless all columns but the two flags are decimals; otherwise the columns in the
order of their names, each with all its batches in order. -/
theorem c62_extract (conv : Int → Int → B64) (batches : List Batch) :
    (¬ Readable batches → extractColumns conv batches = .err) ∧
    (Readable batches → ∃ t, extractColumns conv batches = .ok t ∧ Sorted t ∧
      (∀ m, m ∈ t.map Prod.fst ↔ Occurs batches m) ∧ ∀ m, under t m = columnOf conv batches m) := by
  have key : ∀ (bs : List Batch) (t : Table), Sorted t →
      (¬ Readable bs → extractFrom conv bs t = .err) ∧
      (Readable bs → ∃ t', extractFrom conv bs t = .ok t' ∧ Sorted t' ∧
        (∀ m, m ∈ t'.map Prod.fst ↔ m ∈ t.map Prod.fst ∨ Occurs bs m) ∧
        ∀ m, under t' m = under t m ++ columnOf conv bs m) := by
    intro bs
    induction bs with
    | nil =>
      intro t hs
      exact ⟨fun h => absurd (fun b hb => absurd hb (by simp)) h,
        fun _ => ⟨t, rfl, hs, by simp [Occurs], by simp [columnOf]⟩⟩
    | cons b bs ih =>
      intro t hs
      obtain ⟨h1, h2⟩ := extractBatch_spec conv b t hs
      by_cases hb : ∀ name, (name, Field.other) ∈ b → name = lReturnflag ∨ name = lLinestatus
      · obtain ⟨t1, k1, k2, k3, k4⟩ := h2 hb
        obtain ⟨i1, i2⟩ := ih t1 k2
        unfold extractFrom
        simp only [k1, Res.bind_ok]
        constructor
        · intro hr
          apply i1
          intro hr'
          apply hr
          intro b' hb' nm hm
          rcases List.mem_cons.1 hb' with rfl | hb'
          · exact hb nm hm
          · exact hr' b' hb' nm hm
        · intro hr
          obtain ⟨t', j1, j2, j3, j4⟩ := i2 (fun b' hb' => hr b' (by simp [hb']))
          refine ⟨t', j1, j2, fun m => ?_, fun m => ?_⟩
          · rw [j3, k3]
            constructor
            · rintro ((h | ⟨s, v, h⟩) | ⟨b', hb', h⟩)
              · exact Or.inl h
              · exact Or.inr ⟨b, by simp, s, v, h⟩
              · exact Or.inr ⟨b', by simp [hb'], h⟩
            · rintro (h | ⟨b', hb', s, v, h⟩)
              · exact Or.inl (Or.inl h)
              · rcases List.mem_cons.1 hb' with rfl | hb'
                · exact Or.inl (Or.inr ⟨s, v, h⟩)
                · exact Or.inr ⟨b', hb', s, v, h⟩
          · rw [j4, k4, List.append_assoc]
            congr 1
            simp [columnOf]
      · have hex : ∃ name, (name, Field.other) ∈ b ∧ ¬ (name = lReturnflag ∨ name = lLinestatus) := by
          apply Classical.byContradiction
          intro hn
          apply hb
          intro nm hm
          apply Classical.byContradiction
          intro hn'
          exact hn ⟨nm, hm, hn'⟩
        unfold extractFrom
        rw [h1 hex]
        exact ⟨fun _ => rfl, fun hr => absurd (hr b (by simp)) hb⟩
  obtain ⟨h1, h2⟩ := key batches [] (by simp [Sorted])
  refine ⟨h1, fun hr => ?_⟩
  obtain ⟨t, k1, k2, k3, k4⟩ := h2 hr
  exact ⟨t, k1, k2, by simpa using k3, by simpa [under] using k4⟩

/-- In such a table every column has one place. -/
theorem has_of_sorted {t : Table} (hs : Sorted t) {name : Name} (hn : name ∈ t.map Prod.fst) :
    ∃ i, Table.Has t i name (under t name) := by
  induction t with
  | nil => simp at hn
  | cons c t ih =>
    obtain ⟨h1, h2⟩ := List.pairwise_cons.1 hs
    by_cases hc : c.1 = name
    · have hne : ∀ c' ∈ t, c'.1 ≠ name := by
        intro c' hc' e
        have := h1 c' hc'
        rw [hc, e] at this
        exact List.lt_irrefl _ this
      have hz : t.filter (fun c => c.1 = name) = [] := by
        rw [List.filter_eq_nil_iff]
        intro c' hc'
        simpa using hne c' hc'
      refine ⟨0, ?_, ?_⟩
      · unfold under
        rw [List.filter_cons, if_pos (by simpa using hc), hz]
        obtain ⟨a, b⟩ := c
        simp at hc
        simp [hc]
      · intro j c' hj e
        cases j with
        | zero => rfl
        | succ j => exact absurd e (hne c' (List.mem_of_getElem? (by simpa using hj)))
    · have hn' : name ∈ t.map Prod.fst := by
        rcases List.mem_cons.1 hn with e | e
        · exact absurd e.symm hc
        · exact e
      obtain ⟨i, k1, k2⟩ := ih h2 hn'
      refine ⟨i + 1, ?_, ?_⟩
      · unfold under
        rw [List.filter_cons, if_neg (by simpa using hc)]
        simpa [under] using k1
      · intro j c' hj e
        cases j with
        | zero =>
          cases hj
          exact absurd e hc
        | succ j =>
          rw [k2 j c' (by simpa using hj) e]

/-- Where values are compared as doubles, the rows are those with `0.05 <= discount <= 0.07` and `quantity < 24`. -/
theorem c62_q6_rows {E : Env} {cfg : Config} (h1 : cfg.scheme ≠ .buff) (h2 : cfg.scheme ≠ .deltaSprintz) {n x : Nat}
    {discount quantity : List B64} :
    x ∈ q6Rows E cfg n discount quantity ↔ x < n ∧
      fle (Soft.ops.div (Soft.ops.ofNat 5) (Soft.ops.ofNat 100)) (discount.getD x 0#64) = true ∧
      fle (discount.getD x 0#64) (Soft.ops.div (Soft.ops.ofNat 7) (Soft.ops.ofNat 100)) = true ∧
      flt (quantity.getD x 0#64) (Soft.ops.ofNat 24) = true := by
  have e1 : Soft.ops.div (Soft.ops.ofNat 5) (Soft.ops.ofNat 100) = 0x3fa999999999999a#64 := by decide +kernel
  have e2 : Soft.ops.div (Soft.ops.ofNat 7) (Soft.ops.ofNat 100) = 0x3fb1eb851eb851ec#64 := by decide +kernel
  have e3 : Soft.ops.ofNat 24 = 0x4038000000000000#64 := by decide +kernel
  rw [e1, e2, e3]
  have hm : ∀ p v, Meets E cfg p v = p.eval f64Cmp v := by
    intro p v
    cases cfg <;> first | exact absurd rfl h1 | exact absurd rfl h2 | rfl
  simp only [q6Rows, List.mem_filter, List.mem_range, hm, discountRange_range, quantityBelow_range, Predicate.eval, Range.eval, f64Cmp,
    Bool.and_eq_true, Bool.true_and, and_assoc]

/-- The configurations are one for each scheme. -/
theorem c62_all_schemes (scale : BitVec 64) (id : SchemeId) :
    ((allConfigs scale).filter fun c => c.scheme = id).length = 1 := by
  cases id <;> rfl

/-! ## Examples and failures -/

/-- Soft floats; `log10` of the scale 100. -/
def tpchEnv : Env := { sampleEnv with log10Scale := fun _ => 2 }

theorem tpchEnv_lossless : LosslessLibraries tpchEnv where
  zstd := fun bs => ⟨bs, rfl, rfl⟩
  gzip := fun bs => ⟨bs, rfl, rfl⟩
  snappy := fun bs => ⟨bs, rfl, rfl⟩
  alp := fun vs => by simp [tpchEnv, sampleEnv]

def tpchClock : Nat → Stamp := fun _ => ⟨(0, 1, 0), Times.zero, ⟨0, 0⟩⟩

/-- Discounts 0.06 and 0.02, prices 1000 and 2000, the given quantities, taxes 0.5 and 0.25. -/
def tpchTable (q1 q2 : B64) : Table :=
  [(lDiscount, [0x3faeb851eb851eb8#64, 0x3f947ae147ae147b#64]),
   (lExtendedprice, [0x408f400000000000#64, 0x409f400000000000#64]),
   (lQuantity, [q1, q2]), (lTax, [0x3fe0000000000000#64, 0x3fd0000000000000#64])]

/-- The places of the columns. -/
theorem tpch_has (q1 q2 : B64) : Table.Has (tpchTable q1 q2) 2 lQuantity [q1, q2] ∧
    Table.Has (tpchTable q1 q2) 1 lExtendedprice [0x408f400000000000#64, 0x409f400000000000#64] ∧
    Table.Has (tpchTable q1 q2) 0 lDiscount [0x3faeb851eb851eb8#64, 0x3f947ae147ae147b#64] ∧
    Table.Has (tpchTable q1 q2) 3 lTax [0x3fe0000000000000#64, 0x3fd0000000000000#64] := by
  have key : ∀ (k : Nat) (name : Name), name ∈ [lDiscount, lExtendedprice, lQuantity, lTax] →
      (tpchTable q1 q2)[k]?.map Prod.fst = some name →
      ∀ j c, (tpchTable q1 q2)[j]? = some c → c.1 = name → j = k := by
    intro k name hm hk j c hj hc
    rcases k with _ | _ | _ | _ | k <;> simp [tpchTable] at hk <;> subst hk <;>
    rcases j with _ | _ | _ | _ | j <;> simp [tpchTable] at hj <;> subst hj <;> first | rfl | exact absurd hc (by dsimp only; decide)
  exact ⟨⟨rfl, key 2 _ (by simp) rfl⟩, ⟨rfl, key 1 _ (by simp) rfl⟩, ⟨rfl, key 0 _ (by simp) rfl⟩,
    ⟨rfl, key 3 _ (by simp) rfl⟩⟩

/-- Such a table is carried by the configurations that carry every value. -/
theorem tpch_carried {cfg : Config} (hs : Supported tpchEnv cfg) (ha : ∀ v, Accepts tpchEnv cfg v)
    (hsc : ∀ c s, cfg = .deltaSprintz c s → s.toNat < 2 ^ 32) (q1 q2 : B64)
    (hf : (tpchTable q1 q2).all (fun c => match (encoderArgs cfg (tpchClock 0) c.2).encode (tpchEnv.scheme cfg) with
      | some (.ok file) => decide (file.length < 1000)
      | _ => true) = true) :
    Carried tpchEnv cfg tpchClock (tpchTable q1 q2) 2 where
  libraries := tpchEnv_lossless
  supported := hs
  columns := by simp [tpchTable]
  length := by
    intro c hc
    simp only [tpchTable, List.mem_cons, List.not_mem_nil, or_false] at hc
    rcases hc with rfl | rfl | rfl | rfl <;> rfl
  nonempty := by omega
  small := by omega
  accepts := fun _ _ v _ => ha v
  version := fun _ => by simp [tpchClock]
  times := fun _ => by simp [tpchClock, Times.WF, Times.zero, Duration.WF]
  elapsed := fun _ => by simp [tpchClock, Duration.WF]
  files := by
    intro i c file hc he
    have := List.all_eq_true.1 hf c hc
    rw [show (encoderArgs cfg (tpchClock 0) c.2).encode (tpchEnv.scheme cfg) = some (.ok file) from he] at this
    have := of_decide_eq_true this
    omega
  scale := hsc

/-- 17 and 30: the hypotheses hold for the uncompressed configuration … -/
example : Carried tpchEnv (.uncompressed 8192#64) tpchClock (tpchTable 0x4031000000000000#64 0x403e000000000000#64) 2 :=
  tpch_carried (cfg := .uncompressed 8192#64) trivial (fun _ => trivial) (by simp) _ _ (by decide +kernel)

/-- … for DeltaSprintz … -/
example : Carried tpchEnv (.deltaSprintz 8192#64 100#64) tpchClock
    (tpchTable 0x4031000000000000#64 0x403e000000000000#64) 2 :=
  tpch_carried (cfg := .deltaSprintz 8192#64 100#64) trivial (fun _ => trivial) (by intro c s h; cases h; decide) _ _ (by decide +kernel)

theorem supported_buff_100 : Supported tpchEnv (.buff 100#64) := by
  show (Buff.fractionBits tpchEnv.log10Scale (100#64 : BitVec 64).toNat).isSome = true
  decide +kernel

theorem split_two {k : Nat} (hk : 2 ≤ k) (x y : B64) {cs : List (List B64)} (h : Split (some k) [x, y] cs) : cs = [[x, y]] := by
  generalize hv : [x, y] = vs at h
  cases h with
  | nil => cases hv
  | @cons _ cs hne hs =>
    subst hv
    have h1 : restPart (some k) [x, y] = [] := by
      simp only [restPart]
      exact List.drop_of_length_le (by simpa using hk)
    have h2 : firstPart (some k) [x, y] = [x, y] := by
      simp only [firstPart]
      exact List.take_of_length_le (by simpa using hk)
    rw [h1] at hs
    generalize hz : ([] : List B64) = z at hs
    cases hs with
    | nil => rw [h2]
    | cons hne _ => exact absurd hz.symm hne

/-- … and for BUFF, where 24 lies between the quantities. -/
example : Carried tpchEnv (.buff 100#64) tpchClock (tpchTable 0x4031000000000000#64 0x403e000000000000#64) 2 ∧
    InsideRanges (buffBits tpchEnv 100#64)
      (encoderArgs (.buff 100#64) (tpchClock 2) [0x4031000000000000#64, 0x403e000000000000#64]) quantityBelow := by
  refine ⟨tpch_carried supported_buff_100 (fun _ => trivial) (by simp) _ _ (by decide +kernel), ?_⟩
  intro cs hs c hc
  rw [encoderArgs_records] at hs
  have := split_two (k := 128 * 1024 * 1024 / 8) (by omega) _ _ hs
  subst this
  rw [List.mem_singleton] at hc
  subst hc
  refine ⟨trivial, ?_⟩
  show Inner _ _
  refine ⟨⟨_, List.mem_map_of_mem (List.mem_cons_self ..), ?_⟩,
    ⟨_, List.mem_map_of_mem (List.mem_cons_of_mem _ (List.mem_cons_self ..)), ?_⟩,
    ⟨_, List.mem_map_of_mem (List.mem_cons_self ..), _, List.mem_map_of_mem (List.mem_cons_of_mem _ (List.mem_cons_self ..)), ?_⟩⟩
  · decide +kernel
  · decide +kernel
  · decide +kernel

/-- Quantities 17 and 10: both below 24, only the first row has a matching discount. Uncompressed, the answer is
1000 * 0.06 = 60; with BUFF it is 97.65625, the price and discount of the other row added. -/
theorem c62_buff_wrong :
    h06 tpchEnv (.uncompressed 8192#64) tpchClock (tpchTable 0x4031000000000000#64 0x4024000000000000#64)
      = .ok [.scalar 0x404e000000000000#64] ∧
    h06 tpchEnv (.buff 100#64) tpchClock (tpchTable 0x4031000000000000#64 0x4024000000000000#64)
      = .ok [.scalar 0x40586a0000000000#64] := by
  decide +kernel

/-- The averages of that table: 1500, 13.5 and 0.04, called average discount, price and quantity. -/
example : (h01 tpchEnv (.uncompressed 8192#64) tpchClock (tpchTable 0x4031000000000000#64 0x4024000000000000#64)).map
      (fun cells => (cells.drop 4).take 3)
    = .ok [.result (.scalar 0x4097700000000000#64), .result (.scalar 0x402b000000000000#64),
        .result (.scalar 0x3fa47ae147ae147b#64)] := by
  decide +kernel

/-- A null as first quantity becomes `f64::NAN`, the end mark of Gorilla: the column that should add up to NaN adds
up to 0, and the row with the quantity 10 is not found. -/
theorem c62_null_lost :
    extractDecimal (fun _ v => Soft.ops.ofI64 (BitVec.ofInt 64 v)) 0 [none, some 10] = [nanBits, 0x4024000000000000#64] ∧
    (h01 tpchEnv (.uncompressed 8192#64) tpchClock (tpchTable nanBits 0x4024000000000000#64)).map (fun c => c.take 1)
      = .ok [.result (.scalar nanBits)] ∧
    (h01 tpchEnv (.gorilla 8192#64) tpchClock (tpchTable nanBits 0x4024000000000000#64)).map (fun c => c.take 1)
      = .ok [.result (.scalar 0#64)] := by
  decide +kernel

end Ebi.Props
