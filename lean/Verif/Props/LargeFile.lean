import Verif.Props.FileQuery

/-!
# C54: files of `2^32` records and more

Record numbers in bitmasks are `u32`. Without a bitmask the values come out right for every size; with one the
code goes wrong silently as soon as the file has `2^32` records, although all record numbers still fit.
-/

namespace Ebi.Props

open Ebi

/-! ## What holds for every size -/

/-- Without a bitmask materialize and filter_materialize are right for every number of records; filter reports
record numbers modulo `2^32`. (For sum, min and max see C33, whose theorems need no bound without a bitmask.)
Missing from the full statement: bitmasks, for which it is false, see below. -/
theorem c54_no_bitmask_partial {S : Scheme} {view : B64 → B64} {Ok : B64 → Prop} {maxLen : Nat}
    (L : S.Law view Ok maxLen) (a : Args) (ha : a.Valid) (hok : ∀ v ∈ a.records, Ok v)
    (hlen : a.records.length < maxLen) (o : FloatOps) {file : List Byte} {m : Metadata}
    (hf : EncodedFile S a file m) (p : Predicate B64) :
    Query.materialize S (defaultOps o S.decode) file m none none = .ok (a.records.map view) ∧
    Query.filterMaterialize S (defaultOps o S.decode) file m none none p
      = .ok ((a.records.map view).filter fun v => p.eval f64Cmp v) ∧
    ∃ res, Query.filter S (defaultOps o S.decode) file m none none p = .ok res ∧ Bitmap.WF res ∧
      ∀ x, x ∈ res ↔ ∃ i v, (a.records.map view)[i]? = some v ∧ p.eval f64Cmp v = true ∧ x = i % 2 ^ 32 := by
  obtain ⟨cs, rfl, rfl, hfit, h2, h3, h4, h5⟩ := hf.chunks L ha hok hlen
  have hdec : ∀ q ∈ visited none none 0 0 cs, S.decode q.2.1.length q.2.2 = .ok (q.2.1.map view) := by
    intro q hq
    obtain ⟨pre, suf, e, -⟩ := placed_split (visited_subset hq)
    exact (h3 q.2 (by rw [e]; simp)).1
  refine ⟨?_, ?_, ?_⟩
  · rw [materialize_layout (a := a) hfit S (ops := defaultOps o S.decode) (view := view) none (Or.inl rfl)
      (fun p hp off => by simp only [defaultOps, (h3 p hp).1, Res.map]), h4, defaultMaterialize_none]
  · have h := query_eq S hfit none (Or.inl rfl) none (A := List B64)
      (fun n bs off out => do
        let vs ← (defaultOps o S.decode).filterMaterialize n bs p none off
        .ok (out ++ vs))
      (fun out q => out ++ (q.2.1.map view).filter fun v => p.eval f64Cmp v)
      (by
        intro q hq out
        simp only [defaultOps, hdec q hq, Res.map, Res.bind_ok, defaultFilterMaterialize_filter,
          defaultMaterialize_none]) []
    refine Eq.trans h ?_
    rw [← List.flatMap_eq_foldl, visited_none, ← h4]
    congr 1
    have hx : ∀ (off : Nat) (cs : List Chunk), ((placed off cs).filter fun p =>
        !rangeDisjoint none (p.1, p.1 + p.2.1.length)).flatMap
          (fun q => (q.2.1.map view).filter fun v => p.eval f64Cmp v)
        = ((cs.flatMap Prod.fst).map view).filter fun v => p.eval f64Cmp v := by
      intro off cs
      induction cs generalizing off with
      | nil => rfl
      | cons c cs ih =>
        rw [placed, List.filter_cons, if_pos (by rfl), List.flatMap_cons, ih, List.flatMap_cons, List.map_append,
          List.filter_append]
    exact hx 0 cs
  · have h := query_eq S hfit none (Or.inl rfl) none (A := Bitmap)
      (fun n bs off result => do
        let filtered ← (defaultOps o S.decode).filter n bs p none off
        .ok (Bitmap.union result filtered))
      (fun acc q => Bitmap.union acc (defaultFilter p none [] q.1 (q.2.1.map view)))
      (by
        intro q hq acc
        simp only [defaultOps, hdec q hq, Res.map, Res.bind_ok]) []
    refine ⟨_, h, ?_, ?_⟩
    · generalize visited none none 0 0 cs = xs
      have : ∀ (xs : List (Nat × Chunk)) (acc : Bitmap), Bitmap.WF acc → Bitmap.WF (xs.foldl
          (fun acc q => Bitmap.union acc (defaultFilter p none [] q.1 (q.2.1.map view))) acc) := by
        intro xs
        induction xs with
        | nil => exact fun acc h => h
        | cons q xs ih =>
          intro acc hw
          exact ih _ (Bitmap.union_wf hw (defaultFilter_wf _ _ _ _ _ wf_nil))
      exact this xs [] wf_nil
    · rw [visited_none, ← h4]
      have hx : ∀ (cs : List Chunk) (off : Nat) (acc : Bitmap) (x : Nat), x ∈ ((placed off cs).filter fun p =>
          !rangeDisjoint none (p.1, p.1 + p.2.1.length)).foldl
            (fun acc q => Bitmap.union acc (defaultFilter p none [] q.1 (q.2.1.map view))) acc ↔
          x ∈ acc ∨ ∃ i v, ((cs.flatMap Prod.fst).map view)[i]? = some v ∧ p.eval f64Cmp v = true ∧
            x = (off + i) % 2 ^ 32 := by
        intro cs
        induction cs with
        | nil => intro off acc x; simp [placed]
        | cons c cs ih =>
          intro off acc x
          rw [placed, List.filter_cons, if_pos (by rfl), List.foldl_cons, ih, Bitmap.mem_union, mem_defaultFilter]
          simp only [List.not_mem_nil, false_or, selected, true_and, or_assoc, List.flatMap_cons, List.map_append]
          refine or_congr Iff.rfl ?_
          constructor
          · rintro (⟨v, i, h1, h2, h3⟩ | ⟨i, v, h1, h2, h3⟩)
            · rw [List.mk_mem_zipIdx_iff_le_and_getElem?_sub] at h1
              refine ⟨i - off, v, ?_, h2, by rw [h3]; congr 1; omega⟩
              rw [List.getElem?_append_left (List.getElem?_eq_some_iff.1 h1.2).1]
              exact h1.2
            · refine ⟨c.1.length + i, v, ?_, h2, by rw [h3]; congr 1; omega⟩
              rw [List.getElem?_append_right (by rw [List.length_map]; omega), List.length_map, Nat.add_sub_cancel_left]
              exact h1
          · rintro ⟨i, v, h1, h2, h3⟩
            by_cases hi : i < c.1.length
            · refine Or.inl ⟨v, off + i, ?_, h2, h3⟩
              rw [List.mk_mem_zipIdx_iff_le_and_getElem?_sub, Nat.add_sub_cancel_left]
              rw [List.getElem?_append_left (by rw [List.length_map]; exact hi)] at h1
              exact ⟨Nat.le_add_right .., h1⟩
            · rw [List.getElem?_append_right (by rw [List.length_map]; omega), List.length_map] at h1
              exact Or.inr ⟨i - c.1.length, v, h1, h2, by rw [h3]; congr 1; omega⟩
      intro x
      rw [hx cs 0 [] x]
      simp only [List.not_mem_nil, false_or, Nat.zero_add]

/-! ## What goes wrong -/

/-- No chunk is looked at if the range of each asked for ends at a multiple of `2^32`. -/
theorem chunkLoop_skips {A : Type} (m : Metadata) (b : Bitmap) (cid : Option Nat) (body : Nat → A → Res A) (a : A)
    (is : List Nat) (h : ∀ i ∈ is, cid.all (· == i) = true → ∃ s, m.recordRangeU32 i = .ok (s, 0)) :
    chunkLoop m (some b) cid body is a = .ok a := by
  induction is with
  | nil => rfl
  | cons i is ih =>
    have ih' := ih fun j hj => h j (by simp [hj])
    rw [chunkLoop]
    split
    · rename_i hc
      obtain ⟨s, hs⟩ := h i (by simp) hc
      rw [hs, Res.bind_ok, if_pos, ih']
      simp [rangeDisjoint]
    · exact ih'

theorem lastRange {S : Scheme} {view : B64 → B64} {Ok : B64 → Prop} {maxLen : Nat}
    (L : S.Law view Ok maxLen) (a : Args) (ha : a.Valid) (hok : ∀ v ∈ a.records, Ok v)
    (hlen : a.records.length < maxLen) {file : List Byte} {m : Metadata}
    (hf : EncodedFile S a file m) (hn : a.records.length % 2 ^ 32 = 0) (i : Nat) (hi : i + 1 = m.footer.chunks) :
    ∃ s, m.recordRangeU32 i = .ok (s, 0) := by
  obtain ⟨cs, rfl, rfl, hfit, h2, h3, h4, h5⟩ := hf.chunks L ha hok hlen
  have hc : i + 1 = cs.length := by simpa [Args.metadata, metadataOf] using hi
  obtain ⟨pre, ⟨c, b⟩, rfl⟩ : ∃ pre q, cs = pre ++ [q] := by
    rcases List.eq_nil_or_concat cs with e | ⟨pre, q, e⟩
    · rw [e] at hc; cases hc
    · exact ⟨pre, q, by simpa using e⟩
  have hpre : pre.length = i := by simpa using hc.symm
  subst hpre
  obtain ⟨-, n2⟩ := next_layout (cfg := a.cfg) (opt := a.opt) (version := a.version) (times := a.times)
    (elapsed := a.elapsed) (pre := pre) (suf := []) (c := c) (b := b)
  refine ⟨recordCount pre % 2 ^ 32, ?_⟩
  rw [← h5, recordCount_append, recordCount_cons] at hn
  have h0 : recordCount [] = 0 := rfl
  simp only [Args.metadata, Metadata.recordRangeU32, chunkFooter_layout, Res.bind_ok, n2, Res.ok.injEq, Prod.mk.injEq,
    true_and]
  omega

/-- If the number of records is a multiple of `2^32`, no query with a bitmask ever looks at the last chunk: each
answers as if nothing in it were selected. This holds for every scheme, its in-situ queries, every chunk option and
every bitmask. -/
theorem c54_last_chunk_ignored {S : Scheme} {view : B64 → B64} {Ok : B64 → Prop} {maxLen : Nat}
    (L : S.Law view Ok maxLen) (a : Args) (ha : a.Valid) (hok : ∀ v ∈ a.records, Ok v)
    (hlen : a.records.length < maxLen) (ops : ChunkOps) (o : FloatOps) {file : List Byte} {m : Metadata}
    (hf : EncodedFile S a file m) (hn : a.records.length % 2 ^ 32 = 0) (i : Nat) (hi : i + 1 = m.footer.chunks)
    (b : Bitmap) (p : Predicate B64) :
    Query.materialize S ops file m (some b) (some i) = .ok [] ∧
    Query.filter S ops file m (some b) (some i) p = .ok [] ∧
    Query.filterMaterialize S ops file m (some b) (some i) p = .ok [] ∧
    Query.sum S ops o file m (some b) (some i) = .ok 0#64 ∧
    Query.min S ops o file m (some b) (some i) = .ok posInf ∧
    Query.max S ops o file m (some b) (some i) = .ok negInf := by
  have h : ∀ j ∈ Query.handles m, (some i).all (· == j) = true → ∃ s, m.recordRangeU32 j = .ok (s, 0) := by
    intro j _ hj
    have : i = j := by simpa using hj
    subst this
    exact lastRange L a ha hok hlen hf hn i hi
  exact ⟨chunkLoop_skips m b _ _ _ _ h, chunkLoop_skips m b _ _ _ _ h, chunkLoop_skips m b _ _ _ _ h,
    chunkLoop_skips m b _ _ _ _ h, chunkLoop_skips m b _ _ _ _ h, chunkLoop_skips m b _ _ _ _ h⟩

/-- With `Full`, such a file answers every query with a bitmask as if it were empty, although the bitmask selects
records. -/
theorem c54_full_ignored {S : Scheme} {view : B64 → B64} {Ok : B64 → Prop} {maxLen : Nat}
    (L : S.Law view Ok maxLen) (a : Args) (ha : a.Valid) (hok : ∀ v ∈ a.records, Ok v)
    (hlen : a.records.length < maxLen) (ops : ChunkOps) (o : FloatOps) {file : List Byte} {m : Metadata}
    (hf : EncodedFile S a file m) (hn : a.records.length % 2 ^ 32 = 0) (ho : a.opt = .full)
    (b : Bitmap) (p : Predicate B64) :
    Query.materialize S ops file m (some b) none = .ok [] ∧
    Query.filter S ops file m (some b) none p = .ok [] ∧
    Query.filterMaterialize S ops file m (some b) none p = .ok [] ∧
    Query.sum S ops o file m (some b) none = .ok 0#64 ∧
    Query.min S ops o file m (some b) none = .ok posInf ∧
    Query.max S ops o file m (some b) none = .ok negInf ∧
    pick (some [0]) (a.records.map view) ≠ [] := by
  have hne : a.records ≠ [] ∧ m.footer.chunks = 1 := by
    obtain ⟨cs, rfl, rfl, hfit, h2, h3, h4, h5⟩ := hf.chunks L ha hok hlen
    have hr : a.records ≠ [] := by
      intro e
      have hcs : cs = [] := by simpa using h2.eq_nil_iff.2 e
      subst hcs
      have := openFile_layout_nil hfit
      have h7 := hf.opened
      rw [show a.layout [] = layout a.cfg a.opt a.version a.times a.elapsed [] from rfl, this] at h7
      cases h7
    rw [ho] at h2
    have := congrArg List.length (Split.full h2 hr)
    exact ⟨hr, by simpa [Args.metadata, metadataOf] using this⟩
  have h : ∀ j ∈ Query.handles m, (none : Option Nat).all (· == j) = true → ∃ s, m.recordRangeU32 j = .ok (s, 0) := by
    intro j hj _
    have : j < m.footer.chunks := by simpa [Query.handles] using hj
    exact lastRange L a ha hok hlen hf hn j (by omega)
  refine ⟨chunkLoop_skips m b _ _ _ _ h, chunkLoop_skips m b _ _ _ _ h, chunkLoop_skips m b _ _ _ _ h,
    chunkLoop_skips m b _ _ _ _ h, chunkLoop_skips m b _ _ _ _ h, chunkLoop_skips m b _ _ _ _ h, ?_⟩
  obtain ⟨v, vs, e⟩ := List.exists_cons_of_ne_nil hne.1
  simp [pick, e]

/-- The result of filter on a larger file names records that do not match: if record `i` matches and record
`i mod 2^32` does not, the latter is reported. -/
theorem c54_filter_wrong_record {S : Scheme} {view : B64 → B64} {Ok : B64 → Prop} {maxLen : Nat}
    (L : S.Law view Ok maxLen) (a : Args) (ha : a.Valid) (hok : ∀ v ∈ a.records, Ok v)
    (hlen : a.records.length < maxLen) (o : FloatOps) {file : List Byte} {m : Metadata}
    (hf : EncodedFile S a file m) (p : Predicate B64) (i : Nat) (v w : B64)
    (h1 : (a.records.map view)[i]? = some v) (h2 : p.eval f64Cmp v = true)
    (h3 : (a.records.map view)[i % 2 ^ 32]? = some w) (h4 : p.eval f64Cmp w = false) :
    ∃ res x, Query.filter S (defaultOps o S.decode) file m none none p = .ok res ∧ x ∈ res ∧
      (a.records.map view)[x]? = some w ∧ p.eval f64Cmp w = false := by
  obtain ⟨-, -, res, e1, -, e3⟩ := c54_no_bitmask_partial L a ha hok hlen o hf p
  exact ⟨res, _, e1, (e3 _).2 ⟨i, v, h1, h2, rfl⟩, h3, h4⟩

/-! ## Such files exist -/

/-- The records `vs`, uncompressed, one chunk. -/
def wideArgs (vs : List B64) : Args where
  cfg := .uncompressed 100#64
  opt := .full
  version := (0, 1, 0)
  times := Times.zero
  elapsed := ⟨1, 500⟩
  src := [.bytes (ofF64s vs)]

theorem wideArgs_data (vs : List B64) : (wideArgs vs).src.data = ofF64s vs := by
  simp only [wideArgs, Source.data, List.append_nil]

theorem wideArgs_records (vs : List B64) : (wideArgs vs).records = vs := by
  rw [Args.records, wideArgs_data]
  simp

theorem wideArgs_valid {vs : List B64} (h0 : vs ≠ []) (h : vs.length < 2 ^ 60) : (wideArgs vs).Valid := by
  have h1 := List.length_pos_iff.2 h0
  refine ⟨trivial, by simp [wideArgs, ChunkOption.WF, ChunkOption.value], by simp [wideArgs], by simp [wideArgs],
    by simp [wideArgs], ?_, ?_, ?_, by rw [wideArgs_data]; simp; omega⟩
  · simp [wideArgs, Times.WF, Times.zero, Duration.WF]
  · simp [wideArgs, Duration.WF]
  · intro e he
    simp only [wideArgs, List.mem_singleton] at he
    subst he
    refine ⟨_, rfl, ?_⟩
    intro h
    have := congrArg List.length h
    simp at this
    omega

/-- The file and its metadata. -/
theorem wideArgs_file {vs : List B64} (h0 : vs ≠ []) (h : vs.length < 2 ^ 59) :
    ∃ file m, EncodedFile Uncompressed.scheme (wideArgs vs) file m := by
  have hv := wideArgs_valid h0 (by omega)
  obtain ⟨cs, h1, h2, h3, h4, h5, h6⟩ := Args.opened hv (Uncompressed.schemeLaw (vs.length + 1)) (fun _ _ => trivial)
    (by rw [wideArgs_records]; omega)
  have hr : (wideArgs vs).records ≠ [] := by rw [wideArgs_records]; exact h0
  have hc : cs.length = 1 := by
    have := congrArg List.length (Split.full (show Split none _ _ from h2) hr)
    simpa using this
  have hb : (blobs cs).length = 8 * vs.length := by
    obtain ⟨⟨c, b⟩, rfl⟩ := List.length_eq_one_iff.1 hc
    obtain ⟨-, x, x', x'', -, e1, e2, e3⟩ := h3 (c, b) (by simp)
    have hcn : c = vs := by
      rw [wideArgs_records vs] at h4
      simpa using h4
    have e : b = ofF64s c := by
      simp only [Uncompressed.scheme] at e1 e2 e3
      cases e1
      cases e2
      rw [e3]
      simp [Uncompressed.Comp.compress, Uncompressed.Comp.prepare, Uncompressed.Comp.buffers, Uncompressed.Comp.reset]
    simp [blobs, e, hcn]
  have hl : ((wideArgs vs).layout cs).length < 2 ^ 63 := by
    rw [Args.layout_length, hb, hc]
    simp [wideArgs, Config.serializedSize, Config.structSize, headerSize, footer0Size, chunkFooterSize, footer3Size]
    omega
  exact ⟨_, _, h1, hl, (h6 hl).2 hr⟩

example : ∃ a file m, EncodedFile Uncompressed.scheme a file m ∧ a.Valid ∧ a.records.length % 2 ^ 32 = 0 ∧ a.opt = .full := by
  have h0 : List.replicate (2 ^ 32) 7#64 ≠ [] := by
    rw [ne_eq, ← List.length_eq_zero_iff, List.length_replicate]
    decide
  obtain ⟨file, m, h⟩ := wideArgs_file h0 (by rw [List.length_replicate]; decide)
  exact ⟨_, file, m, h, wideArgs_valid h0 (by rw [List.length_replicate]; decide),
    by rw [wideArgs_records, List.length_replicate], rfl⟩

/-- Record 0 is 0.0, record `2^32` is 1.0. -/
example : ∃ a file m, EncodedFile Uncompressed.scheme a file m ∧ a.Valid ∧
    (a.records.map id)[2 ^ 32]? = some 0x3ff0000000000000#64 ∧
    (Predicate.eq 0x3ff0000000000000#64).eval f64Cmp 0x3ff0000000000000#64 = true ∧
    (a.records.map id)[2 ^ 32 % 2 ^ 32]? = some 0#64 ∧
    (Predicate.eq 0x3ff0000000000000#64).eval f64Cmp 0#64 = false := by
  obtain ⟨zeros, hz, hget⟩ : ∃ zeros : List B64, zeros.length = 2 ^ 32 ∧ zeros[0]? = some 0#64 :=
    ⟨List.replicate (2 ^ 32) 0#64, List.length_replicate, by rw [List.getElem?_replicate, if_pos (by decide)]⟩
  have h0 : zeros ++ [0x3ff0000000000000#64] ≠ [] := by simp
  have hl : (zeros ++ [0x3ff0000000000000#64]).length < 2 ^ 59 := by
    rw [List.length_append, hz]
    decide
  obtain ⟨file, m, h⟩ := wideArgs_file h0 hl
  refine ⟨_, file, m, h, wideArgs_valid h0 (by omega), ?_, by decide +kernel, ?_, by decide +kernel⟩
  · rw [wideArgs_records, List.map_id, List.getElem?_append_right (by omega), hz]
    rfl
  · rw [wideArgs_records, List.map_id, Nat.mod_self, List.getElem?_append_left (by omega), hget]

end Ebi.Props
