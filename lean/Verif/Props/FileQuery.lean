import Verif.FileQueryLemmas
import Verif.Props.File
import Verif.SoftLemmas

/-!
# Queries over encoded files: C30-C34

All statements are about a file produced by the encoder (`EncodedFile S a file m`) for any chunk option
and any delivery of the input; `a.records.map view` are the values the scheme's reader gives back
(`view` is the identity for lossless schemes). Record indices are `u32` in the code, so a bitmask or a
filter result only makes sense below `2 ^ 32` records; the hypotheses say so.
-/

namespace Ebi.Props

open Ebi

/-! ## C30 -/

/-- The values whose position is in the bitmask (all without one), in order. -/
def pick (bm : Option Bitmap) (vs : List B64) : List B64 :=
  ((vs.zipIdx).filter fun p => bm.all fun b => b.contains p.2).map Prod.fst

/-- materialize outputs the selected values in record order, however the records were chunked. -/
theorem c30_materialize {S : Scheme} {view : B64 → B64} {Ok : B64 → Prop} {maxLen : Nat}
    (L : S.Law view Ok maxLen) (a : Args) (ha : a.Valid) (hok : ∀ v ∈ a.records, Ok v)
    (hlen : a.records.length < maxLen) (o : FloatOps) {file : List Byte} {m : Metadata}
    (hf : EncodedFile S a file m) (bm : Option Bitmap) (hr : bm = none ∨ a.records.length < 2 ^ 32) :
    Query.materialize S (defaultOps o S.decode) file m bm none
      = .ok (pick bm (a.records.map view)) := by
  obtain ⟨cs, rfl, rfl, hfit, h2, h3, h4, h5⟩ := hf.chunks L ha hok hlen
  rw [← h5] at hr
  rw [materialize_layout (a := a) hfit S (ops := defaultOps o S.decode) (view := view) bm hr
    (fun p hp off => by simp only [defaultOps, (h3 p hp).1, Res.map]), h4,
    pickFrom_eq (hr.imp id (fun h => by rw [List.length_map, ← h5]; omega))]
  rfl

/-- With a chunk id: only that chunk's share. -/
theorem c30_materialize_chunk {S : Scheme} {view : B64 → B64} {Ok : B64 → Prop} {maxLen : Nat}
    (L : S.Law view Ok maxLen) (a : Args) (ha : a.Valid) (hok : ∀ v ∈ a.records, Ok v)
    (hlen : a.records.length < maxLen) (o : FloatOps) {file : List Byte} {m : Metadata}
    (hf : EncodedFile S a file m) (bm : Option Bitmap) (hr : bm = none ∨ a.records.length < 2 ^ 32)
    (k : Nat) (hk : k < m.footer.chunks) :
    ∃ f n, m.footer.chunkFooters[k]? = some f ∧ m.numberOfRecords k = .ok n ∧
      Query.materialize S (defaultOps o S.decode) file m bm (some k)
        = .ok (pickFrom bm f.logical (((a.records.drop f.logical).take n).map view)) := by
  obtain ⟨cs, rfl, rfl, hfit, h2, h3, h4, h5⟩ := hf.chunks L ha hok hlen
  rw [← h5] at hr
  have hk' : k < cs.length := hk
  have hm := materialize_layout_chunk (a := a) hfit S (ops := defaultOps o S.decode) (view := view) bm
    hr k (fun p hp off => by simp only [defaultOps, (h3 p hp).1, Res.map])
  have hsplit : cs = cs.take k ++ cs[k] :: cs.drop (k + 1) := by
    rw [← List.drop_eq_getElem_cons hk', List.take_append_drop]
  have hget : cs[k]? = some cs[k] := List.getElem?_eq_getElem hk'
  generalize cs[k] = c at hsplit hget
  obtain ⟨c, b⟩ := c
  have hi : (cs.take k).length = k := by rw [List.length_take]; omega
  generalize hpre : cs.take k = pre at *
  generalize cs.drop (k + 1) = suf at hsplit
  have hfit' : Fits a.cfg a.opt a.version a.times a.elapsed (pre ++ (c, b) :: suf) := hsplit ▸ hfit
  have hs := (sizes_layout hfit').2
  have hst : (a.metadata cs).footer.chunkFooters[k]?
      = some ⟨headerSize + (blobs pre).length, recordCount pre⟩ := by
    show (stored cs)[k]? = _
    rw [hsplit, ← hi]
    exact stored_getElem pre c b suf
  have hnum : (a.metadata cs).numberOfRecords k = .ok c.length := by
    rw [hsplit, ← hi]
    exact hs
  refine ⟨_, _, hst, hnum, ?_⟩
  rw [hm, hget]
  simp only [Option.map_some, Option.getD_some]
  have hcnt : recordCount cs = recordCount pre + c.length + recordCount suf := by
    conv => lhs; rw [hsplit]
    rw [recordCount_append, recordCount_cons]
    omega
  rw [pickFrom_eq (hr.imp id (fun h => by rw [List.length_map]; omega))]
  congr 3
  rw [← h4]
  conv => rhs; rw [hsplit]
  rw [List.flatMap_append, List.flatMap_cons,
    List.drop_append_of_le_length (by simp [recordCount]),
    List.drop_of_length_le (by simp [recordCount]), List.nil_append,
    List.take_append_of_le_length (by simp), List.take_of_length_le (by simp)]

/-- The file of the sample run (Gorilla, three records in two chunks). -/
def sampleFile : List Byte :=
  match sampleArgs.encode (Gorilla.codec.scheme false) with
  | some (.ok file) => file
  | _ => []

/-- Its metadata. -/
def sampleMeta : Option Metadata :=
  match openFile sampleFile with
  | .ok m => some m
  | _ => none

/-- The hypotheses of the theorems in this file are met, with two chunks and a bitmask that leaves the
second chunk unvisited and reaches beyond the data. -/
example : ∃ m, EncodedFile (Gorilla.codec.scheme false) sampleArgs sampleFile m ∧ m.footer.chunks = 2 ∧
    Query.materialize (Gorilla.codec.scheme false)
      (defaultOps Soft.ops (Gorilla.codec.scheme false).decode) sampleFile m (some [1, 9]) none
      = .ok [0x0707070707070707#64] ∧
    pick (some [1, 9]) sampleArgs.records = [0x0707070707070707#64] := by
  have h1 : sampleArgs.encode (Gorilla.codec.scheme false) = some (.ok sampleFile) := by decide +kernel
  have h2 : sampleMeta.isSome := by decide +kernel
  obtain ⟨m, hm⟩ := Option.isSome_iff_exists.1 h2
  have h3 : openFile sampleFile = .ok m := by
    unfold sampleMeta at hm
    split at hm
    · rename_i e; rw [e]; cases hm; rfl
    · cases hm
  have h4 : sampleMeta.map (fun m => m.footer.chunks) = some 2 := by decide +kernel
  have h5 : sampleMeta.map (fun m => Query.materialize (Gorilla.codec.scheme false)
      (defaultOps Soft.ops (Gorilla.codec.scheme false).decode) sampleFile m (some [1, 9]) none)
      = some (.ok [0x0707070707070707#64]) := by decide +kernel
  rw [hm] at h4 h5
  exact ⟨m, ⟨h1, by decide +kernel, h3⟩, by simpa using h4, by simpa using h5, by decide +kernel⟩

/-! ## C31 -/

/-- filter returns exactly the positions inside the bitmask whose value satisfies the predicate. -/
theorem c31_filter {S : Scheme} {view : B64 → B64} {Ok : B64 → Prop} {maxLen : Nat}
    (L : S.Law view Ok maxLen) (a : Args) (ha : a.Valid) (hok : ∀ v ∈ a.records, Ok v)
    (hlen : a.records.length < maxLen) (o : FloatOps) {file : List Byte} {m : Metadata}
    (hf : EncodedFile S a file m) (p : Predicate B64) (bm : Option Bitmap)
    (hr : a.records.length < 2 ^ 32) :
    ∃ res, Query.filter S (defaultOps o S.decode) file m bm none p = .ok res ∧ Bitmap.WF res ∧
      ∀ x, x ∈ res ↔ ∃ v, (a.records.map view)[x]? = some v ∧ (∀ b, bm = some b → x ∈ b) ∧
        p.eval f64Cmp v = true := by
  obtain ⟨cs, rfl, rfl, hfit, h2, h3, h4, h5⟩ := hf.chunks L ha hok hlen
  obtain ⟨res, e1, e2, e3⟩ := filter_layout (a := a) hfit S (ops := defaultOps o S.decode)
    (sat := fun v => p.eval f64Cmp (view v)) p bm (by omega) (by
      intro q hq off hoff
      refine ⟨_, by simp only [defaultOps, (h3 q hq).1, Res.map]; rfl,
        defaultFilter_wf _ _ _ _ _ wf_nil, ?_⟩
      intro x
      rw [mem_defaultFilter]
      simp only [List.not_mem_nil, false_or]
      constructor
      · rintro ⟨w, i, hm, hs, hp, rfl⟩
        rw [List.mk_mem_zipIdx_iff_le_and_getElem?_sub, List.getElem?_map] at hm
        obtain ⟨v, hv, rfl⟩ := Option.map_eq_some_iff.1 hm.2
        have hlt := (List.getElem?_eq_some_iff.1 hv).1
        have hi : i % 2 ^ 32 = i := Nat.mod_eq_of_lt (by omega)
        refine ⟨i - off, v, hv, by omega, ?_, hp⟩
        rintro b rfl
        simpa [selected] using hs
      · rintro ⟨i, v, hv, rfl, hb, hp⟩
        have hlt := (List.getElem?_eq_some_iff.1 hv).1
        have hi : (off + i) % 2 ^ 32 = off + i := Nat.mod_eq_of_lt (by omega)
        refine ⟨view v, off + i, ?_, ?_, hp, hi.symm⟩
        · rw [List.mk_mem_zipIdx_iff_le_and_getElem?_sub, List.getElem?_map,
            show off + i - off = i by omega, hv]
          exact ⟨by omega, rfl⟩
        · cases bm with
          | none => rfl
          | some b => simpa [selected, hi] using hb b rfl)
  refine ⟨res, e1, e2, fun x => ?_⟩
  rw [e3, h4, List.getElem?_map]
  constructor
  · rintro ⟨v, h1, h2, h3⟩; exact ⟨view v, by rw [h1]; rfl, h2, h3⟩
  · rintro ⟨v, h1, h2, h3⟩
    obtain ⟨w, hw, rfl⟩ := Option.map_eq_some_iff.1 h1
    exact ⟨w, hw, h2, h3⟩

/-! ## C32 -/

/-- filter_materialize outputs what materialize outputs for the bitmask returned by filter: the
selected values that satisfy the predicate. -/
theorem c32_filter_then_materialize {S : Scheme} {view : B64 → B64} {Ok : B64 → Prop} {maxLen : Nat}
    (L : S.Law view Ok maxLen) (a : Args) (ha : a.Valid) (hok : ∀ v ∈ a.records, Ok v)
    (hlen : a.records.length < maxLen) (o : FloatOps) {file : List Byte} {m : Metadata}
    (hf : EncodedFile S a file m) (p : Predicate B64) (bm : Option Bitmap)
    (hr : a.records.length < 2 ^ 32) :
    ∃ res out, Query.filter S (defaultOps o S.decode) file m bm none p = .ok res ∧
      Query.filterMaterialize S (defaultOps o S.decode) file m bm none p = .ok out ∧
      Query.materialize S (defaultOps o S.decode) file m (some res) none = .ok out ∧
      out = (pick bm (a.records.map view)).filter fun v => p.eval f64Cmp v := by
  obtain ⟨res, e1, e2, e3⟩ := c31_filter L a ha hok hlen o hf p bm hr
  have e4 := c30_materialize L a ha hok hlen o hf (some res) (Or.inr hr)
  refine ⟨res, _, e1, ?_, e4, ?_⟩
  · obtain ⟨cs, rfl, rfl, hfit, h2, h3, h4, h5⟩ := hf.chunks L ha hok hlen
    have h := query_eq S hfit bm (Or.inr (by omega)) none (A := List B64)
      (fun n bs off out => do
        let vs ← (defaultOps o S.decode).filterMaterialize n bs p bm off
        .ok (out ++ vs))
      (fun out q => out ++ (defaultMaterialize bm q.1 (q.2.1.map view)).filter fun v => p.eval f64Cmp v)
      (by
        intro q hq out
        obtain ⟨pre, suf, e, -⟩ := placed_split (visited_subset hq)
        simp only [defaultOps, (h3 q.2 (by rw [e]; simp)).1, Res.map, Res.bind_ok,
          defaultFilterMaterialize_filter]) []
    rw [← List.flatMap_eq_foldl] at h
    have hx : ∀ xs : List (Nat × Chunk),
        xs.flatMap (fun q => (defaultMaterialize bm q.1 (q.2.1.map view)).filter fun v => p.eval f64Cmp v)
          = (xs.flatMap fun q => defaultMaterialize bm q.1 (q.2.1.map view)).filter
              fun v => p.eval f64Cmp v := by
      intro xs
      induction xs with
      | nil => rfl
      | cons x xs ih => rw [List.flatMap_cons, List.flatMap_cons, List.filter_append, ih]
    rw [hx, flatMap_visited_none view cs 0 (Or.inr (by omega)), h4,
      pickFrom_eq (Or.inr (by rw [List.length_map]; omega))] at h
    refine Eq.trans h ?_
    congr 1
    simp only [pickFrom, pick, List.filter_map, List.filter_filter]
    congr 1
    apply List.filter_congr
    rintro ⟨v, i⟩ hi
    rw [List.mk_mem_zipIdx_iff_getElem?] at hi
    rw [Bool.eq_iff_iff]
    simp only [Function.comp_apply, Option.all_some, List.contains_iff_mem, e3, hi, Bool.and_eq_true]
    constructor
    · rintro ⟨h1, h2⟩
      refine ⟨v, rfl, ?_, h1⟩
      rintro b rfl
      simpa using h2
    · rintro ⟨w, h1, h2, h3⟩
      cases h1
      refine ⟨h3, ?_⟩
      cases bm with
      | none => rfl
      | some b => simpa using h2 b rfl
  · simp only [pick, List.filter_map, List.filter_filter]
    congr 1
    apply List.filter_congr
    rintro ⟨v, i⟩ hi
    rw [List.mk_mem_zipIdx_iff_getElem?] at hi
    rw [Bool.eq_iff_iff]
    simp only [Function.comp_apply, Option.all_some, List.contains_iff_mem, e3, hi, Bool.and_eq_true]
    constructor
    · rintro ⟨w, h1, h2, h3⟩
      cases h1
      refine ⟨h3, ?_⟩
      cases bm with
      | none => rfl
      | some b => simpa using h2 b rfl
    · rintro ⟨h1, h2⟩
      refine ⟨v, rfl, ?_, h1⟩
      rintro b rfl
      simpa using h2

/-! ## C33 -/

/-- What is assumed of `f64::min` / `f64::max`: a NaN operand is ignored, otherwise the result is an
operand that bounds the other. (Which zero is returned for `-0` and `+0` is left open, as in Rust.) -/
structure MinMaxLaw (o : FloatOps) : Prop where
  min_nan : ∀ a b, isNaN a = false → isNaN b = true → o.fmin a b = a ∧ o.fmin b a = a
  min : ∀ a b, isNaN a = false → isNaN b = false →
    (o.fmin a b = a ∧ fle a b = true) ∨ (o.fmin a b = b ∧ fle b a = true)
  max_nan : ∀ a b, isNaN a = false → isNaN b = true → o.fmax a b = a ∧ o.fmax b a = a
  max : ∀ a b, isNaN a = false → isNaN b = false →
    (o.fmax a b = a ∧ fle b a = true) ∨ (o.fmax a b = b ∧ fle a b = true)

theorem soft_minMax : MinMaxLaw Soft.ops := by
  refine ⟨?_, ?_, ?_, ?_⟩
  · intro a b h1 h2; simp [Soft.ops, Soft.fmin, h1, h2]
  · intro a b h1 h2
    simp only [Soft.ops, Soft.fmin, h1, h2, Bool.false_eq_true, if_false, flt, fle, Bool.not_false,
      Bool.true_and, decide_eq_true_eq]
    split
    · exact Or.inr ⟨rfl, by omega⟩
    · exact Or.inl ⟨rfl, by omega⟩
  · intro a b h1 h2; simp [Soft.ops, Soft.fmax, h1, h2]
  · intro a b h1 h2
    simp only [Soft.ops, Soft.fmax, h1, h2, Bool.false_eq_true, if_false, flt, fle, Bool.not_false,
      Bool.true_and, decide_eq_true_eq]
    split
    · exact Or.inr ⟨rfl, by omega⟩
    · exact Or.inl ⟨rfl, by omega⟩

/-- `r` is the extremum of `vs` with respect to `le`, NaNs aside, or the start value `init` which must
then bound all of them. -/
structure Extremum (le : B64 → B64 → Bool) (init : B64) (vs : List B64) (r : B64) : Prop where
  num : isNaN r = false
  mem : r = init ∨ r ∈ vs
  init : le r init = true
  bound : ∀ v ∈ vs, isNaN v = false → le r v = true

theorem fle_trans {a b c : B64} (h1 : fle a b = true) (h2 : fle b c = true) : fle a c = true := by
  simp only [fle, Bool.and_eq_true, Bool.not_eq_true', decide_eq_true_eq] at *
  exact ⟨⟨h1.1.1, h2.1.2⟩, by omega⟩

/-- One more operand, itself an extremum. -/
theorem Extremum.step {le : B64 → B64 → Bool} {init : B64} {f : B64 → B64 → B64}
    (htrans : ∀ a b c, le a b = true → le b c = true → le a c = true)
    (hf : ∀ a b, isNaN a = false → isNaN b = false →
      (f a b = a ∧ le a b = true) ∨ (f a b = b ∧ le b a = true))
    {us vs : List B64} {r s : B64} (h1 : Extremum le init us r) (h2 : Extremum le init vs s) :
    Extremum le init (us ++ vs) (f r s) := by
  rcases hf r s h1.num h2.num with ⟨e, hl⟩ | ⟨e, hl⟩ <;> rw [e]
  · refine ⟨h1.num, ?_, h1.init, ?_⟩
    · rcases h1.mem with h | h
      · exact Or.inl h
      · exact Or.inr (by simp [h])
    · intro v hv hn
      rcases List.mem_append.1 hv with hv | hv
      · exact h1.bound v hv hn
      · exact htrans _ _ _ hl (h2.bound v hv hn)
  · refine ⟨h2.num, ?_, h2.init, ?_⟩
    · rcases h2.mem with h | h
      · exact Or.inl h
      · exact Or.inr (by simp [h])
    · intro v hv hn
      rcases List.mem_append.1 hv with hv | hv
      · exact htrans _ _ _ hl (h1.bound v hv hn)
      · exact h2.bound v hv hn

theorem Extremum.fold {le : B64 → B64 → Bool} {init : B64} {f : B64 → B64 → B64}
    (htrans : ∀ a b c, le a b = true → le b c = true → le a c = true)
    (hnan : ∀ a b, isNaN a = false → isNaN b = true → f a b = a)
    (hf : ∀ a b, isNaN a = false → isNaN b = false →
      (f a b = a ∧ le a b = true) ∨ (f a b = b ∧ le b a = true))
    {us : List B64} (vs : List B64) {r : B64} (h : Extremum le init us r) :
    Extremum le init (us ++ vs) (vs.foldl f r) := by
  induction vs generalizing us r with
  | nil => simpa using h
  | cons v vs ih =>
    rw [List.foldl_cons, List.append_cons]
    refine ih ?_
    cases hn : isNaN v with
    | true =>
      rw [hnan r v h.num hn]
      refine ⟨h.num, ?_, h.init, ?_⟩
      · rcases h.mem with h | h
        · exact Or.inl h
        · exact Or.inr (by simp [h])
      · intro w hw hwn
        rcases List.mem_append.1 hw with hw | hw
        · exact h.bound w hw hwn
        · rw [List.mem_singleton] at hw
          subst hw
          rw [hn] at hwn
          cases hwn
    | false =>
      rcases hf r v h.num hn with ⟨e, hl⟩ | ⟨e, hl⟩ <;> rw [e]
      · refine ⟨h.num, ?_, h.init, ?_⟩
        · rcases h.mem with h | h
          · exact Or.inl h
          · exact Or.inr (by simp [h])
        · intro w hw hwn
          rcases List.mem_append.1 hw with hw | hw
          · exact h.bound w hw hwn
          · rw [List.mem_singleton] at hw
            subst hw
            exact hl
      · refine ⟨hn, Or.inr (by simp), htrans _ _ _ hl h.init, ?_⟩
        intro w hw hwn
        rcases List.mem_append.1 hw with hw | hw
        · exact htrans _ _ _ hl (h.bound w hw hwn)
        · rw [List.mem_singleton] at hw
          subst hw
          rcases hf w w hwn hwn with ⟨-, h⟩ | ⟨-, h⟩ <;> exact h

/-- Chunk by chunk. -/
theorem Extremum.chunks {le : B64 → B64 → Bool} {init : B64} {f : B64 → B64 → B64}
    (htrans : ∀ a b c, le a b = true → le b c = true → le a c = true)
    (hnan : ∀ a b, isNaN a = false → isNaN b = true → f a b = a)
    (hf : ∀ a b, isNaN a = false → isNaN b = false →
      (f a b = a ∧ le a b = true) ∨ (f a b = b ∧ le b a = true))
    (hi : Extremum le init [] init) {X : Type} (g : X → List B64) (xs : List X) {us : List B64} {r : B64}
    (h : Extremum le init us r) :
    Extremum le init (us ++ xs.flatMap g) (xs.foldl (fun r x => f r ((g x).foldl f init)) r) := by
  induction xs generalizing us r with
  | nil => simpa using h
  | cons x xs ih =>
    rw [List.foldl_cons, List.flatMap_cons, ← List.append_assoc]
    refine ih (Extremum.step htrans hf h ?_)
    simpa using Extremum.fold htrans hnan hf (g x) hi

/-- min: the smallest selected value that is not a NaN; `+inf` when there is none. -/
theorem c33_min {S : Scheme} {view : B64 → B64} {Ok : B64 → Prop} {maxLen : Nat}
    (L : S.Law view Ok maxLen) (a : Args) (ha : a.Valid) (hok : ∀ v ∈ a.records, Ok v)
    (hlen : a.records.length < maxLen) (o : FloatOps) (ho : MinMaxLaw o) {file : List Byte}
    {m : Metadata} (hf : EncodedFile S a file m) (bm : Option Bitmap)
    (hr : bm = none ∨ a.records.length < 2 ^ 32) :
    ∃ r, Query.min S (defaultOps o S.decode) o file m bm none = .ok r ∧ isNaN r = false ∧
      (r = posInf ∨ r ∈ pick bm (a.records.map view)) ∧
      ∀ v ∈ pick bm (a.records.map view), isNaN v = false → fle r v = true := by
  obtain ⟨cs, rfl, rfl, hfit, h2, h3, h4, h5⟩ := hf.chunks L ha hok hlen
  rw [← h5] at hr
  have h := fold_layout (a := a) hfit S bm hr none (defaultOps o S.decode).min o.fmin
    (fun off vs => (defaultMaterialize bm off (vs.map view)).foldl o.fmin posInf)
    (fun p hp off _ _ => by
      simp only [defaultOps, (h3 p hp).1, Res.map, defaultMin, defaultFold_eq]) posInf
  have e := Extremum.chunks (le := fle) (init := posInf) (f := o.fmin) (fun a b c => fle_trans)
    (fun a b h1 h2 => (ho.min_nan a b h1 h2).1) ho.min
    ⟨by decide, Or.inl rfl, by decide, by simp⟩
    (fun p : Nat × Chunk => defaultMaterialize bm p.1 (p.2.1.map view)) (visited bm none 0 0 cs)
    (us := []) ⟨by decide, Or.inl rfl, by decide, by simp⟩
  rw [List.nil_append, flatMap_visited_none view cs 0 (hr.imp id (fun h => by omega)), h4,
    pickFrom_eq (hr.imp id (fun h => by rw [List.length_map]; omega))] at e
  exact ⟨_, h, e.num, e.mem, e.bound⟩

/-- max: the largest selected value that is not a NaN; `-inf` when there is none. -/
theorem c33_max {S : Scheme} {view : B64 → B64} {Ok : B64 → Prop} {maxLen : Nat}
    (L : S.Law view Ok maxLen) (a : Args) (ha : a.Valid) (hok : ∀ v ∈ a.records, Ok v)
    (hlen : a.records.length < maxLen) (o : FloatOps) (ho : MinMaxLaw o) {file : List Byte}
    {m : Metadata} (hf : EncodedFile S a file m) (bm : Option Bitmap)
    (hr : bm = none ∨ a.records.length < 2 ^ 32) :
    ∃ r, Query.max S (defaultOps o S.decode) o file m bm none = .ok r ∧ isNaN r = false ∧
      (r = negInf ∨ r ∈ pick bm (a.records.map view)) ∧
      ∀ v ∈ pick bm (a.records.map view), isNaN v = false → fle v r = true := by
  obtain ⟨cs, rfl, rfl, hfit, h2, h3, h4, h5⟩ := hf.chunks L ha hok hlen
  rw [← h5] at hr
  have h := fold_layout (a := a) hfit S bm hr none (defaultOps o S.decode).max o.fmax
    (fun off vs => (defaultMaterialize bm off (vs.map view)).foldl o.fmax negInf)
    (fun p hp off _ _ => by
      simp only [defaultOps, (h3 p hp).1, Res.map, defaultMax, defaultFold_eq]) negInf
  have e := Extremum.chunks (le := fun a b => fle b a) (init := negInf) (f := o.fmax)
    (fun a b c h1 h2 => fle_trans h2 h1)
    (fun a b h1 h2 => (ho.max_nan a b h1 h2).1) ho.max
    ⟨by decide, Or.inl rfl, by decide, by simp⟩
    (fun p : Nat × Chunk => defaultMaterialize bm p.1 (p.2.1.map view)) (visited bm none 0 0 cs)
    (us := []) ⟨by decide, Or.inl rfl, by decide, by simp⟩
  rw [List.nil_append, flatMap_visited_none view cs 0 (hr.imp id (fun h => by omega)), h4,
    pickFrom_eq (hr.imp id (fun h => by rw [List.length_map]; omega))] at e
  exact ⟨_, h, e.num, e.mem, e.bound⟩

/-- Sums of the selected values of each chunk, in order; a chunk without selected value contributes
nothing. -/
def partialSums (o : FloatOps) (bm : Option Bitmap) : Nat → List (List B64) → List B64
  | _, [] => []
  | off, c :: cs =>
    (if pickFrom bm off c = [] then [] else [(pickFrom bm off c).foldl o.add 0#64]) ++
      partialSums o bm (off + c.length) cs

theorem visited_partialSums (o : FloatOps) (view : B64 → B64) {bm : Option Bitmap} {off : Nat} (i : Nat)
    (cs : List Chunk) (hne : ∀ p ∈ cs, p.1 ≠ []) (hr : bm = none ∨ off + recordCount cs < 2 ^ 32)
    (r : B64) :
    (visited bm none i off cs).foldl
      (fun r p => o.add r ((defaultMaterialize bm p.1 (p.2.1.map view)).foldl o.add 0#64)) r
      = (partialSums o bm off (cs.map fun p => p.1.map view)).foldl o.add r := by
  induction cs generalizing off i r with
  | nil => rfl
  | cons c cs ih =>
    obtain ⟨cv, cb⟩ := c
    rw [recordCount_cons] at hr
    rw [List.map_cons, partialSums, visited]
    have hcv : cv.map view ≠ [] := by simpa using hne (cv, cb) (by simp)
    have hd := rangeDisjoint_iff (bm := bm) (off := off) (vs := cv.map view) hcv
      (hr.imp id (fun h => by rw [List.length_map]; omega))
    rw [List.length_map, pickFrom_eq (hr.imp id (fun h => by rw [List.length_map]; omega))] at hd
    have ih' := fun r => ih (off := off + cv.length) (i + 1) (fun p hp => hne p (by simp [hp]))
      (hr.imp id (fun h => by omega)) r
    simp only [List.length_map]
    by_cases h : pickFrom bm off (cv.map view) = []
    · simp [hd.2 h, h, ih']
    · have : rangeDisjoint bm (off, off + cv.length) = false := by
        rw [Bool.eq_false_iff]; exact fun hc => h (hd.1 hc)
      simp [this, h, ih', pickFrom_eq (bm := bm) (off := off) (vs := cv.map view)
        (hr.imp id (fun h => by rw [List.length_map]; omega))]

/-- sum: the selected values of each chunk are added up from 0 in record order, then the partial sums
from 0 in chunk order. -/
theorem c33_sum {S : Scheme} {view : B64 → B64} {Ok : B64 → Prop} {maxLen : Nat}
    (L : S.Law view Ok maxLen) (a : Args) (ha : a.Valid) (hok : ∀ v ∈ a.records, Ok v)
    (hlen : a.records.length < maxLen) (o : FloatOps) {file : List Byte}
    {m : Metadata} (hf : EncodedFile S a file m) (bm : Option Bitmap)
    (hr : bm = none ∨ a.records.length < 2 ^ 32) :
    ∃ chunks : List (List B64), chunks.flatten = a.records.map view ∧
      chunks.length = m.footer.chunks ∧
      (∀ (i : Nat) (c : List B64), chunks[i]? = some c → m.numberOfRecords i = .ok c.length) ∧
      Query.sum S (defaultOps o S.decode) o file m bm none
        = .ok ((partialSums o bm 0 chunks).foldl o.add 0#64) := by
  obtain ⟨cs, rfl, rfl, hfit, h2, h3, h4, h5⟩ := hf.chunks L ha hok hlen
  rw [← h5] at hr
  have h := fold_layout (a := a) hfit S bm hr none (defaultOps o S.decode).sum o.add
    (fun off vs => (defaultMaterialize bm off (vs.map view)).foldl o.add 0#64)
    (fun p hp off _ _ => by
      simp only [defaultOps, (h3 p hp).1, Res.map, defaultSum, defaultFold_eq]) 0#64
  rw [visited_partialSums o view 0 cs
    (fun p hp => h2.ne_nil ha.positive p.1 (List.mem_map_of_mem hp))
    (hr.imp id (fun h => by omega))] at h
  refine ⟨_, ?_, ?_, ?_, h⟩
  · rw [← h4, List.map_flatMap, List.flatMap_def]
  · simp [Args.metadata, metadataOf]
  · intro i c hc
    rw [List.getElem?_map] at hc
    obtain ⟨⟨c', b⟩, hcs, rfl⟩ := Option.map_eq_some_iff.1 hc
    obtain ⟨hlt, hge⟩ := List.getElem?_eq_some_iff.1 hcs
    have hsplit : cs = cs.take i ++ (c', b) :: cs.drop (i + 1) := by
      rw [← hge, ← List.drop_eq_getElem_cons hlt, List.take_append_drop]
    have hi : (cs.take i).length = i := by rw [List.length_take]; omega
    generalize cs.take i = pre at hsplit hi
    generalize cs.drop (i + 1) = suf at hsplit
    subst hi
    rw [hsplit, List.length_map]
    exact (sizes_layout (hsplit ▸ hfit)).2

/-- An empty selection gives 0, `+inf` and `-inf`. -/
theorem c33_empty_selection {S : Scheme} {view : B64 → B64} {Ok : B64 → Prop} {maxLen : Nat}
    (L : S.Law view Ok maxLen) (a : Args) (ha : a.Valid) (hok : ∀ v ∈ a.records, Ok v)
    (hlen : a.records.length < maxLen) (o : FloatOps) (ho : MinMaxLaw o) {file : List Byte}
    {m : Metadata} (hf : EncodedFile S a file m) (bm : Option Bitmap)
    (hr : bm = none ∨ a.records.length < 2 ^ 32) (he : pick bm (a.records.map view) = []) :
    Query.sum S (defaultOps o S.decode) o file m bm none = .ok 0#64 ∧
      Query.min S (defaultOps o S.decode) o file m bm none = .ok posInf ∧
      Query.max S (defaultOps o S.decode) o file m bm none = .ok negInf := by
  refine ⟨?_, ?_, ?_⟩
  · obtain ⟨chunks, h1, -, -, h2⟩ := c33_sum L a ha hok hlen o hf bm hr
    rw [h2]
    have key : ∀ (cs : List (List B64)) (off : Nat), pickFrom bm off cs.flatten = [] →
        partialSums o bm off cs = [] := by
      intro cs
      induction cs with
      | nil => intro off _; rfl
      | cons c cs ih =>
        intro off h
        rw [List.flatten_cons] at h
        simp only [pickFrom, List.zipIdx_append, List.filter_append, List.map_append,
          List.append_eq_nil_iff] at h
        have h1 : pickFrom bm off c = [] := h.1
        have h2 := ih (off + c.length) h.2
        rw [partialSums, if_pos h1, h2]
        rfl
    rw [key chunks 0 (by rw [h1]; exact he)]
    rfl
  · obtain ⟨r, h1, -, h2, -⟩ := c33_min L a ha hok hlen o ho hf bm hr
    rw [he] at h2
    rcases h2 with rfl | h2
    · exact h1
    · cases h2
  · obtain ⟨r, h1, -, h2, -⟩ := c33_max L a ha hok hlen o ho hf bm hr
    rw [he] at h2
    rcases h2 with rfl | h2
    · exact h1
    · cases h2

/-! ## C34 -/

/-- The same query without skipping: every chunk is loaded and asked. -/
def visitAll {A : Type} (m : Metadata) (body : Nat → A → Res A) (a : A) : Res A :=
  (List.range m.footer.chunks).foldlM (fun a i => body i a) a

theorem chunkLoop_none {A : Type} (m : Metadata) (body : Nat → A → Res A) (is : List Nat) (a : A)
    (h : ∀ i ∈ is, ∃ r, m.recordRangeU32 i = .ok r) :
    chunkLoop m none none body is a = is.foldlM (fun a i => body i a) a := by
  induction is generalizing a with
  | nil => rfl
  | cons i is ih =>
    obtain ⟨r, hr⟩ := h i (by simp)
    rw [chunkLoop, List.foldlM_cons]
    simp only [Option.all_none, if_true, hr, Res.bind_ok, rangeDisjoint, Bool.false_eq_true, if_false]
    congr 1
    funext a
    exact ih a (fun j hj => h j (by simp [hj]))

theorem foldl_filter_skip {A B : Type} (Inv : A → Prop) (keep : B → Bool) (h : A → B → A) (xs : List B)
    (hinv : ∀ a, Inv a → ∀ x ∈ xs, Inv (h a x))
    (hskip : ∀ a, Inv a → ∀ x ∈ xs, keep x = false → h a x = a) (a : A) (ha : Inv a) :
    (xs.filter keep).foldl h a = xs.foldl h a := by
  induction xs generalizing a with
  | nil => rfl
  | cons x xs ih =>
    have ih' := ih (fun a ha x hx => hinv a ha x (by simp [hx]))
      (fun a ha x hx => hskip a ha x (by simp [hx]))
    rw [List.filter_cons, List.foldl_cons]
    cases hk : keep x
    · rw [hskip a ha x (by simp) hk]
      exact ih' a ha
    · simp only [if_true, List.foldl_cons]
      exact ih' _ (hinv a ha x (by simp))

/-- The common argument: a chunk without selected record leaves the accumulator as it is. -/
theorem skip_layout {a : Args} {cs : List Chunk}
    (hfit : Fits a.cfg a.opt a.version a.times a.elapsed cs) (S : Scheme) {A : Type}
    (bm : Option Bitmap) (hr : bm = none ∨ recordCount cs < 2 ^ 32)
    (op : Nat → List Byte → Nat → A → Res A) (h : A → Nat × Chunk → A)
    (hop : ∀ p ∈ placed 0 cs, ∀ a, op p.2.1.length p.2.2 p.1 a = .ok (h a p))
    (Inv : A → Prop) (hinv : ∀ a, Inv a → ∀ p ∈ placed 0 cs, Inv (h a p))
    (hskip : ∀ a, Inv a → ∀ p ∈ placed 0 cs,
      rangeDisjoint bm (p.1, p.1 + p.2.1.length) = true → h a p = a) (x : A) (hx : Inv x) :
    chunkLoop (a.metadata cs) bm none (fun i x => do
      let (n, bs, off) ← loadChunk S (a.layout cs) (a.metadata cs) i
      op n bs off x) (Query.handles (a.metadata cs)) x
    = visitAll (a.metadata cs) (fun i x => do
      let (n, bs, off) ← loadChunk S (a.layout cs) (a.metadata cs) i
      op n bs off x) x := by
  have h1 := query_eq S hfit bm hr none op h (fun p hp => hop p (visited_subset hp)) x
  have h2 := query_eq S hfit none (Or.inl rfl) none op h (fun p hp => hop p (visited_subset hp)) x
  rw [visited_none, foldl_filter_skip Inv _ h _ hinv
    (fun a ha p hp hd => hskip a ha p hp (by simpa using hd)) x hx] at h1
  rw [visited_none, List.filter_eq_self.2 (by simp [rangeDisjoint])] at h2
  refine Eq.trans h1 (Eq.trans h2.symm ?_)
  refine chunkLoop_none _ _ _ _ ?_
  intro i hi
  have hi' : i < cs.length := by simpa using hi
  obtain ⟨pre, c, b, suf, e, rfl⟩ : ∃ pre c b suf, cs = pre ++ (c, b) :: suf ∧ i = pre.length :=
    ⟨cs.take i, cs[i].1, cs[i].2, cs.drop (i + 1),
      by rw [← List.drop_eq_getElem_cons hi', List.take_append_drop], by rw [List.length_take]; omega⟩
  have : (metadataOf a.cfg a.opt a.version a.times a.elapsed cs).footer.chunkFooters[pre.length]?
      = some ⟨headerSize + (blobs pre).length, recordCount pre⟩ := by
    show (stored cs)[pre.length]? = _
    rw [e]
    exact stored_getElem pre c b suf
  exact ⟨(recordCount pre % 2 ^ 32, (a.metadata cs).nextLogical pre.length % 2 ^ 32),
    by rw [Metadata.recordRangeU32, Metadata.chunkFooter, this]; rfl⟩

/-- What is assumed of addition: a sum started from `+0` does not change when `+0` is added. -/
def ZeroLaw (o : FloatOps) : Prop :=
  ∃ P : B64 → Prop, P 0#64 ∧ (∀ a b, P a → P (o.add a b)) ∧ ∀ a, P a → o.add a 0#64 = a

theorem soft_zeroLaw : ZeroLaw Soft.ops :=
  ⟨Soft.Plain, Soft.plain_zero, fun _ b h => Soft.plain_add h b, fun _ h => Soft.add_zero h⟩

theorem posInf_of_fle {r : B64} (h : fle posInf r = true) : r = posInf := by
  simp only [fle, key, isNaN, Bool.and_eq_true, Bool.not_eq_true', decide_eq_true_eq,
    decide_eq_false_iff_not, show sgn posInf = false by decide, show mag posInf = 0x7ff0000000000000 by decide,
    Bool.false_eq_true, if_false] at h
  have h1 := h.1.2
  have h2 := h.2
  have hs : sgn r = false := by
    cases hs : sgn r
    · rfl
    · rw [hs] at h2; simp only [if_true] at h2; omega
  rw [hs] at h2
  simp only [Bool.false_eq_true, if_false] at h2
  rw [← Soft.mk_sgn_mag r, hs, show mag r = 0x7ff0000000000000 by omega]
  decide

theorem negInf_of_fle {r : B64} (h : fle r negInf = true) : r = negInf := by
  simp only [fle, key, isNaN, Bool.and_eq_true, Bool.not_eq_true', decide_eq_true_eq,
    decide_eq_false_iff_not, show sgn negInf = true by decide, show mag negInf = 0x7ff0000000000000 by decide,
    if_true] at h
  have h1 := h.1.1
  have h2 := h.2
  have hs : sgn r = true := by
    cases hs : sgn r
    · rw [hs] at h2; simp only [Bool.false_eq_true, if_false] at h2; omega
    · rfl
  rw [hs] at h2
  simp only [if_true] at h2
  rw [← Soft.mk_sgn_mag r, hs, show mag r = 0x7ff0000000000000 by omega]
  decide

section

variable {S : Scheme} {view : B64 → B64} {Ok : B64 → Prop} {maxLen : Nat}
  (L : S.Law view Ok maxLen) (a : Args) (ha : a.Valid) (hok : ∀ v ∈ a.records, Ok v)
  (hlen : a.records.length < maxLen) (o : FloatOps) {file : List Byte} {m : Metadata}
  (hf : EncodedFile S a file m) (bm : Option Bitmap) (hr : bm = none ∨ a.records.length < 2 ^ 32)

include L ha hok hlen hf hr

/-- Skipping does not change what materialize outputs. -/
theorem c34_materialize :
    Query.materialize S (defaultOps o S.decode) file m bm none
      = visitAll m (fun i out => do
          let (n, bs, off) ← loadChunk S file m i
          let vs ← (defaultOps o S.decode).materialize n bs bm off
          .ok (out ++ vs)) [] := by
  obtain ⟨cs, rfl, rfl, hfit, h2, h3, h4, h5⟩ := hf.chunks L ha hok hlen
  rw [← h5] at hr
  refine skip_layout (A := List B64) hfit S bm hr (fun n bs off out => do
      let vs ← (defaultOps o S.decode).materialize n bs bm off
      .ok (out ++ vs)) (fun out p => out ++ defaultMaterialize bm p.1 (p.2.1.map view)) ?_
    (fun _ => True) (fun _ _ _ _ => trivial) ?_ [] trivial
  · intro p hp out
    obtain ⟨pre, suf, e, -⟩ := placed_split hp
    simp only [defaultOps, (h3 p.2 (by rw [e]; simp)).1, Res.map, Res.bind_ok]
  · intro out _ p hp hd
    have := placed_sum hp
    rw [defaultMaterialize_disjoint (by simpa using hd)
      (hr.imp id (fun h => by rw [List.length_map]; omega)), List.append_nil]

/-- Skipping does not change what filter_materialize outputs. -/
theorem c34_filter_materialize (p : Predicate B64) :
    Query.filterMaterialize S (defaultOps o S.decode) file m bm none p
      = visitAll m (fun i out => do
          let (n, bs, off) ← loadChunk S file m i
          let vs ← (defaultOps o S.decode).filterMaterialize n bs p bm off
          .ok (out ++ vs)) [] := by
  obtain ⟨cs, rfl, rfl, hfit, h2, h3, h4, h5⟩ := hf.chunks L ha hok hlen
  rw [← h5] at hr
  refine skip_layout (A := List B64) hfit S bm hr (fun n bs off out => do
      let vs ← (defaultOps o S.decode).filterMaterialize n bs p bm off
      .ok (out ++ vs))
    (fun out q => out ++ (defaultMaterialize bm q.1 (q.2.1.map view)).filter fun v => p.eval f64Cmp v) ?_
    (fun _ => True) (fun _ _ _ _ => trivial) ?_ [] trivial
  · intro q hq out
    obtain ⟨pre, suf, e, -⟩ := placed_split hq
    simp only [defaultOps, (h3 q.2 (by rw [e]; simp)).1, Res.map, Res.bind_ok,
      defaultFilterMaterialize_filter]
  · intro out _ q hq hd
    have := placed_sum hq
    rw [defaultMaterialize_disjoint (by simpa using hd)
      (hr.imp id (fun h => by rw [List.length_map]; omega)), List.filter_nil, List.append_nil]

/-- Skipping does not change min. -/
theorem c34_min (ho : MinMaxLaw o) :
    Query.min S (defaultOps o S.decode) o file m bm none
      = visitAll m (fun i r => do
          let (n, bs, off) ← loadChunk S file m i
          let v ← (defaultOps o S.decode).min n bs bm off
          .ok (o.fmin r v)) posInf := by
  obtain ⟨cs, rfl, rfl, hfit, h2, h3, h4, h5⟩ := hf.chunks L ha hok hlen
  rw [← h5] at hr
  have hi : Extremum fle posInf [] posInf := ⟨by decide, Or.inl rfl, by decide, by simp⟩
  refine skip_layout (A := B64) hfit S bm hr (fun n bs off r => do
      let v ← (defaultOps o S.decode).min n bs bm off
      .ok (o.fmin r v))
    (fun r q => o.fmin r ((defaultMaterialize bm q.1 (q.2.1.map view)).foldl o.fmin posInf)) ?_
    (fun r => ∃ us, Extremum fle posInf us r) ?_ ?_ _ ⟨_, hi⟩
  · intro q hq r
    obtain ⟨pre, suf, e, -⟩ := placed_split hq
    simp only [defaultOps, (h3 q.2 (by rw [e]; simp)).1, Res.map, Res.bind_ok, defaultMin,
      defaultFold_eq]
  · rintro r ⟨us, hu⟩ q hq
    exact ⟨_, Extremum.step (le := fle) (init := posInf) (fun a b c h1 h2 => fle_trans h1 h2) ho.min hu
      (Extremum.fold (le := fle) (fun a b c h1 h2 => fle_trans h1 h2) (fun a b h1 h2 => (ho.min_nan a b h1 h2).1) ho.min _ hi)⟩
  · rintro r ⟨us, hu⟩ q hq hd
    have := placed_sum hq
    rw [defaultMaterialize_disjoint (by simpa using hd)
      (hr.imp id (fun h => by rw [List.length_map]; omega)), List.foldl_nil]
    rcases ho.min r posInf hu.num (by decide) with ⟨e, -⟩ | ⟨e, h⟩
    · exact e
    · rw [e, posInf_of_fle h]

/-- Skipping does not change max. -/
theorem c34_max (ho : MinMaxLaw o) :
    Query.max S (defaultOps o S.decode) o file m bm none
      = visitAll m (fun i r => do
          let (n, bs, off) ← loadChunk S file m i
          let v ← (defaultOps o S.decode).max n bs bm off
          .ok (o.fmax r v)) negInf := by
  obtain ⟨cs, rfl, rfl, hfit, h2, h3, h4, h5⟩ := hf.chunks L ha hok hlen
  rw [← h5] at hr
  have hi : Extremum (fun a b => fle b a) negInf [] negInf := ⟨by decide, Or.inl rfl, by decide, by simp⟩
  refine skip_layout (A := B64) hfit S bm hr (fun n bs off r => do
      let v ← (defaultOps o S.decode).max n bs bm off
      .ok (o.fmax r v))
    (fun r q => o.fmax r ((defaultMaterialize bm q.1 (q.2.1.map view)).foldl o.fmax negInf)) ?_
    (fun r => ∃ us, Extremum (fun a b => fle b a) negInf us r) ?_ ?_ _ ⟨_, hi⟩
  · intro q hq r
    obtain ⟨pre, suf, e, -⟩ := placed_split hq
    simp only [defaultOps, (h3 q.2 (by rw [e]; simp)).1, Res.map, Res.bind_ok, defaultMax,
      defaultFold_eq]
  · rintro r ⟨us, hu⟩ q hq
    exact ⟨_, Extremum.step (le := fun a b => fle b a) (init := negInf) (fun a b c h1 h2 => fle_trans h2 h1) ho.max hu
      (Extremum.fold (le := fun a b => fle b a) (fun a b c h1 h2 => fle_trans h2 h1) (fun a b h1 h2 => (ho.max_nan a b h1 h2).1)
        ho.max _ hi)⟩
  · rintro r ⟨us, hu⟩ q hq hd
    have := placed_sum hq
    rw [defaultMaterialize_disjoint (by simpa using hd)
      (hr.imp id (fun h => by rw [List.length_map]; omega)), List.foldl_nil]
    rcases ho.max r negInf hu.num (by decide) with ⟨e, -⟩ | ⟨e, h⟩
    · exact e
    · rw [e, negInf_of_fle h]

/-- Skipping does not change the sum. -/
theorem c34_sum (ho : ZeroLaw o) :
    Query.sum S (defaultOps o S.decode) o file m bm none
      = visitAll m (fun i r => do
          let (n, bs, off) ← loadChunk S file m i
          let v ← (defaultOps o S.decode).sum n bs bm off
          .ok (o.add r v)) 0#64 := by
  obtain ⟨cs, rfl, rfl, hfit, h2, h3, h4, h5⟩ := hf.chunks L ha hok hlen
  rw [← h5] at hr
  obtain ⟨P, p0, pa, pz⟩ := ho
  refine skip_layout (A := B64) hfit S bm hr (fun n bs off r => do
      let v ← (defaultOps o S.decode).sum n bs bm off
      .ok (o.add r v))
    (fun r q => o.add r ((defaultMaterialize bm q.1 (q.2.1.map view)).foldl o.add 0#64)) ?_
    P (fun r h q _ => pa _ _ h) ?_ _ p0
  · intro q hq r
    obtain ⟨pre, suf, e, -⟩ := placed_split hq
    simp only [defaultOps, (h3 q.2 (by rw [e]; simp)).1, Res.map, Res.bind_ok, defaultSum,
      defaultFold_eq]
  · intro r hz q hq hd
    have := placed_sum hq
    rw [defaultMaterialize_disjoint (by simpa using hd)
      (hr.imp id (fun h => by rw [List.length_map]; omega)), List.foldl_nil, pz r hz]

end

/-- Skipping does not change what filter returns. -/
theorem c34_filter {S : Scheme} {view : B64 → B64} {Ok : B64 → Prop} {maxLen : Nat}
    (L : S.Law view Ok maxLen) (a : Args) (ha : a.Valid) (hok : ∀ v ∈ a.records, Ok v)
    (hlen : a.records.length < maxLen) (o : FloatOps) {file : List Byte} {m : Metadata}
    (hf : EncodedFile S a file m) (bm : Option Bitmap) (hr : bm = none ∨ a.records.length < 2 ^ 32)
    (p : Predicate B64) :
    Query.filter S (defaultOps o S.decode) file m bm none p
      = visitAll m (fun i r => do
          let (n, bs, off) ← loadChunk S file m i
          let v ← (defaultOps o S.decode).filter n bs p bm off
          .ok (Bitmap.union r v)) [] := by
  obtain ⟨cs, rfl, rfl, hfit, h2, h3, h4, h5⟩ := hf.chunks L ha hok hlen
  rw [← h5] at hr
  refine skip_layout (A := Bitmap) hfit S bm hr (fun n bs off r => do
      let v ← (defaultOps o S.decode).filter n bs p bm off
      .ok (Bitmap.union r v))
    (fun r q => Bitmap.union r (defaultFilter p bm [] q.1 (q.2.1.map view))) ?_
    (fun _ => True) (fun _ _ _ _ => trivial) ?_ [] trivial
  · intro q hq r
    obtain ⟨pre, suf, e, -⟩ := placed_split hq
    simp only [defaultOps, (h3 q.2 (by rw [e]; simp)).1, Res.map, Res.bind_ok]
  · intro r _ q hq hd
    have := placed_sum hq
    have he : defaultFilter p bm [] q.1 (q.2.1.map view) = [] := by
      apply List.eq_nil_iff_forall_not_mem.2
      intro x hx
      rw [mem_defaultFilter] at hx
      simp only [List.not_mem_nil, false_or] at hx
      obtain ⟨v, i, hm, hs, -⟩ := hx
      have h0 := defaultMaterialize_disjoint (bm := bm) (off := q.1) (vs := q.2.1.map view)
        (by simpa using hd) (hr.imp id (fun h => by rw [List.length_map]; omega))
      rw [defaultMaterialize_eq, List.map_eq_nil_iff, List.filter_eq_nil_iff] at h0
      exact h0 _ hm hs
    rw [he]
    rfl

end Ebi.Props
