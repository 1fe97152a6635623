import Verif.Memory

/-!
# C57: the `unsafe` blocks stay in their buffers

Undefined behaviour is the outcome `Mem.ub` of the pointer-level model in `Memory.lean`. Each theorem says that
the pointer-level function has the outcome of the function on lists used by all other properties (so in
particular never `ub`), for every input and every state the buffer may be in.
-/

namespace Ebi.Props

open Ebi Memory

/-! ## Specification -/

/-- What Rust guarantees of a `Vec`: the length is within the capacity and the elements are initialised. -/
def VecInv {α : Type} (v : RawVec α) : Prop :=
  v.len ≤ v.cells.length ∧ ∀ i < v.len, ∃ a, v.cells[i]? = some (some a)

/-- What is known of the growth policy of `Vec::reserve`: the new capacity is large enough. -/
def Grows (grow : Nat → Nat → Nat) : Prop := ∀ cap need, need ≤ grow cap need

/-! ## Lemmas -/

theorem Mem.ok_bind {α β : Type} (a : α) (f : α → Mem β) : (Mem.ok a >>= f) = f a := rfl
theorem Mem.panic_bind {α β : Type} (f : α → Mem β) : (Mem.panic >>= f) = Mem.panic := rfl

theorem reserve_spec {α : Type} {grow : Nat → Nat → Nat} (hg : Grows grow) {v : RawVec α} (hv : VecInv v) (n : Nat) :
    v.reserve grow n = .panic ∨ ∃ v', v.reserve grow n = .ok v' ∧ VecInv v' ∧ v'.len = v.len ∧
      v.len + n ≤ v'.cells.length := by
  have h1 := hv.1
  unfold RawVec.reserve RawVec.capacity
  split
  · split
    · exact .inl rfl
    · have h2 := hg v.cells.length (v.len + n)
      refine .inr ⟨_, rfl, ⟨?_, ?_⟩, rfl, ?_⟩
      · simp only [List.length_append, List.length_take, List.length_replicate]; omega
      · intro i hi
        simp only at hi
        obtain ⟨a, ha⟩ := hv.2 i hi
        refine ⟨a, ?_⟩
        rw [List.getElem?_append_left (by simp only [List.length_take]; omega), List.getElem?_take_of_lt hi, ha]
      · simp only [List.length_append, List.length_take, List.length_replicate]; omega
  · exact .inr ⟨v, rfl, hv, rfl, by omega⟩

theorem zigzagLoop_spec (fs : List (BitVec 64)) (prev : BitVec 64) (acc : Nat) (pre : List Nat)
    (rest : List (Option Nat)) (len : Nat) (h : fs.length ≤ rest.length) :
    zigzagLoop fs prev pre.length acc ⟨pre.map some ++ rest, len⟩ =
      .ok (⟨(pre ++ Sprintz.zigzagDeltas prev fs).map some ++ rest.drop fs.length, len⟩,
        (Sprintz.zigzagDeltas prev fs).foldl (· ||| ·) acc) := by
  induction fs generalizing prev acc pre rest with
  | nil => simp [zigzagLoop, Sprintz.zigzagDeltas]
  | cons f fs ih =>
    obtain _ | ⟨c, rest⟩ := rest
    · simp at h
    · have hw : (⟨pre.map some ++ c :: rest, len⟩ : RawVec Nat).ptrWrite pre.length (zigzag (f - prev)).toNat =
          .ok ⟨(pre ++ [(zigzag (f - prev)).toNat]).map some ++ rest, len⟩ := by
        unfold RawVec.ptrWrite RawVec.capacity
        rw [if_pos (by simp)]
        simp
      rw [zigzagLoop, hw, Mem.ok_bind]
      have := ih f (acc ||| (zigzag (f - prev)).toNat) (pre ++ [(zigzag (f - prev)).toNat]) rest (by simpa using h)
      rw [List.length_append, List.length_singleton] at this
      rw [this]
      simp [Sprintz.zigzagDeltas]

theorem zigzagDeltas_length (prev : BitVec 64) (fs : List (BitVec 64)) :
    (Sprintz.zigzagDeltas prev fs).length = fs.length := by
  induction fs generalizing prev with
  | nil => rfl
  | cons f fs ih => simp [Sprintz.zigzagDeltas, ih]

theorem toF64s_take_complete (w : List Byte) : toF64s (w.take (8 * (w.length / 8))) = toF64s w := by
  generalize hn : w.length / 8 = n
  induction n generalizing w with
  | zero => rw [toF64s_short (a := w) (by omega)]; rfl
  | succ n ih =>
    have e : w = w.take 8 ++ w.drop 8 := (List.take_append_drop 8 w).symm
    have h8 : (w.take 8).length = 8 := by rw [List.length_take]; omega
    have h1 := ih (w.drop 8) (by rw [List.length_drop]; omega)
    have e2 : w.take (8 * (n + 1)) = w.take 8 ++ (w.drop 8).take (8 * n) := by
      rw [show 8 * (n + 1) = 8 + 8 * n by omega, List.take_add]
    rw [e2, toF64s_append h8, h1, ← toF64s_append h8, ← e]

theorem filterMap_some {α : Type} (l : List α) : (l.map some).filterMap id = l := by
  induction l with
  | nil => rfl
  | cons a l ih => simp [ih]

/-! ## compressor/sprintz.rs -/

/-- The pointer loop of the Sprintz compressor, on a scratch buffer in any state: unless the input is empty or
the allocation too large (then it panics before the first pointer write) all writes are inside the allocation,
`set_len` is allowed, and the buffer holds the zigzag differences of the list model. -/
theorem c57_sprintz {grow : Nat → Nat → Nat} (hg : Grows grow) (qs : List (BitVec 64)) {v : RawVec Nat}
    (hv : VecInv v) :
    zigzagDeltaNumBits grow qs v = .panic ∨
    ∃ q0 v', qs.head? = some q0 ∧ VecInv v' ∧ v'.toList = Sprintz.zigzagDeltas q0 qs ∧
      zigzagDeltaNumBits grow qs v = .ok (v', q0, 64 - lz64 (Sprintz.accOr (Sprintz.zigzagDeltas q0 qs))) := by
  obtain h | ⟨v1, h1, hv1, h2, h3⟩ := reserve_spec hg hv qs.length
  · left; unfold zigzagDeltaNumBits; rw [h]; rfl
  · unfold zigzagDeltaNumBits
    rw [h1, Mem.ok_bind]
    match qs, h3 with
    | [], _ => exact .inl rfl
    | q0 :: rest, h3 =>
      right
      have hl : (q0 :: rest).length ≤ v1.cells.length := by omega
      have hz := zigzagLoop_spec (q0 :: rest) q0 0 [] v1.cells v1.len hl
      simp only [List.length_nil, List.map_nil, List.nil_append] at hz
      have hd := zigzagDeltas_length q0 (q0 :: rest)
      generalize hds : Sprintz.zigzagDeltas q0 (q0 :: rest) = ds at *
      simp only
      rw [show v1 = (⟨v1.cells, v1.len⟩ : RawVec Nat) from rfl, hz, Mem.ok_bind]
      have ht : (ds.map some ++ v1.cells.drop (q0 :: rest).length).take (q0 :: rest).length = ds.map some := by
        rw [List.take_append_of_le_length (by simp [hd]), List.take_of_length_le (by simp [hd])]
      refine ⟨q0, ⟨ds.map some ++ v1.cells.drop (q0 :: rest).length, (q0 :: rest).length⟩, rfl, ⟨?_, ?_⟩, ?_, ?_⟩
      · simp only [List.length_append, List.length_map, hd]; omega
      · intro i hi
        simp only at hi
        refine ⟨ds[i]'(by omega), ?_⟩
        rw [List.getElem?_append_left (by simpa [hd] using hi)]
        simp
      · unfold RawVec.toList
        simp only
        rw [ht, filterMap_some, hds]
      · unfold RawVec.setLen RawVec.capacity
        simp only
        rw [if_pos ⟨by simp only [List.length_append, List.length_map, hd]; omega, by rw [ht]; simp⟩, Mem.ok_bind, hds]
        rfl

/-- A whole life of a Sprintz compressor: whatever chunks it is given one after the other, no undefined
behaviour. -/
theorem c57_sprintz_calls {grow : Nat → Nat → Nat} (hg : Grows grow) (inputs : List (List (BitVec 64))) :
    zigzagCalls grow inputs RawVec.empty ≠ .ub := by
  suffices h : ∀ v : RawVec Nat, VecInv v → zigzagCalls grow inputs v ≠ .ub from
    h _ ⟨Nat.le_refl _, fun i hi => absurd hi (by simp [RawVec.empty])⟩
  induction inputs with
  | nil => intro v _; simp [zigzagCalls]
  | cons qs rest ih =>
    intro v hv
    have hc : VecInv v.clear := ⟨Nat.zero_le _, fun i hi => absurd hi (by simp [RawVec.clear])⟩
    obtain h | ⟨q0, v', -, h1, -, h2⟩ := c57_sprintz hg qs hc
    · rw [zigzagCalls, h, Mem.panic_bind]; simp
    · rw [zigzagCalls, h2, Mem.ok_bind]; exact ih v' h1

/-- The amortised policy of std meets `Grows`; a second, shorter chunk leaves stale cells behind. -/
example : Grows (fun cap need => max (2 * cap) (max need 4)) ∧
    (zigzagCalls (fun cap need => max (2 * cap) (max need 4)) [[5#64, 3#64, 3#64], [7#64]] RawVec.empty
      = .ok ⟨[some 0, some 3, some 0, none], 1⟩) := by
  refine ⟨fun cap need => by simp only; omega, by decide +kernel⟩

/-! ## compressor/buff.rs -/

/-- The five `unwrap_unchecked` of the BUFF header never meet an error (the values are `u32`). -/
theorem c57_buff_header (base : BitVec 64) (n bits F : Nat) (hb : bits < 2 ^ 32) (hF : F < 2 ^ 32) :
    ∃ p, buffHeader base n bits F = .ok p ∧ p.buff.length = 20 := by
  have h := Buff.writeHeader base (n % 2 ^ 32) bits F (Nat.mod_lt _ (by decide)) hb hF
  refine ⟨⟨Buff.header base (n % 2 ^ 32) bits F, 20, 0⟩, ?_, Buff.header_length ..⟩
  unfold buffHeader
  simp only [Option.bind_eq_bind] at h
  generalize BitPack.Pack.new.write (base.toNat % 2 ^ 32) 32 = o1 at *
  obtain _ | p1 := o1 <;> simp only [Option.bind_none, Option.bind_some, reduceCtorEq] at h
  rw [unwrapUnchecked, Mem.ok_bind]
  generalize p1.write (base.toNat / 2 ^ 32) 32 = o2 at *
  obtain _ | p2 := o2 <;> simp only [Option.bind_none, Option.bind_some, reduceCtorEq] at h
  rw [unwrapUnchecked, Mem.ok_bind]
  generalize p2.write (n % 2 ^ 32) 32 = o3 at *
  obtain _ | p3 := o3 <;> simp only [Option.bind_none, Option.bind_some, reduceCtorEq] at h
  rw [unwrapUnchecked, Mem.ok_bind]
  generalize p3.write bits 32 = o4 at *
  obtain _ | p4 := o4 <;> simp only [Option.bind_none, Option.bind_some, reduceCtorEq] at h
  rw [unwrapUnchecked, Mem.ok_bind, h]
  rfl

example : ∃ p, buffHeader (BitVec.ofInt 64 (-3)) (2 ^ 33) 17 9 = .ok p ∧ p.buff.length = 20 :=
  c57_buff_header _ _ _ _ (by decide) (by decide)

/-! ## encoder.rs -/

/-- The byte view of `read_less_or_equal` lies in its buffer for every chunk option, also where the size
computed from the option wraps around; reading then is what the list model says. -/
theorem c57_read_chunk (opt : ChunkOption) (src : Source) : Memory.readChunk opt src = .safe (Ebi.readChunk opt src) := by
  have key : ∀ x : Nat, Memory.readLessOrEqual src (x * 8 % 2 ^ 64) = .safe (Ebi.readLessOrEqual src (x * 8 % 2 ^ 64)) := by
    intro x
    have h8 : x * 8 % 2 ^ 64 % 8 = 0 := by omega
    have hlt : x * 8 % 2 ^ 64 < 2 ^ 64 := Nat.mod_lt _ (by decide)
    generalize x * 8 % 2 ^ 64 = b at *
    have hb : bufferLen b * 8 = b := by
      unfold bufferLen
      rw [Nat.mod_eq_of_lt (by omega)]
      omega
    unfold Memory.readLessOrEqual Ebi.readLessOrEqual
    rw [hb]
    split
    · rfl
    · rw [if_pos ⟨Nat.le_refl _, by omega⟩]
  unfold Memory.readChunk Ebi.readChunk
  cases opt with
  | full => rfl
  | recordCount c => exact key c
  | byteSize n => exact key (estimateRecords n)

/-- Without the multiple of 8 the view would not be safe: `n_bytes + 7` wraps around and the slice is longer than
the empty buffer. No caller does this. -/
theorem c57_read_unaligned (src : Source) (n : Nat) (h : 2 ^ 64 - 7 ≤ n) (h' : n < 2 ^ 64) :
    Memory.readLessOrEqual src n = .ub := by
  have hb : bufferLen n = 0 := by unfold bufferLen; omega
  unfold Memory.readLessOrEqual
  rw [hb, if_neg (by decide), if_neg (by omega)]

example : Memory.readLessOrEqual [] (2 ^ 64 - 1) = .ub ∧
    Memory.readChunk (.recordCount (2 ^ 61 + 1)) [.bytes (List.replicate 9 0#8)] =
      .ok ([0#64], [.bytes [0#8]]) :=
  ⟨c57_read_unaligned _ _ (by decide) (by decide), by rw [c57_read_chunk]; decide +kernel⟩

/-! ## decoder/chunk_reader/buff -/

theorem loadWords_spec (x : List Byte) (k i : Nat) (h : i + 32 * k ≤ x.length) :
    loadWords x k i = .ok (Buff.words k (x.drop i)) := by
  induction k generalizing i with
  | zero => rfl
  | succ k ih =>
    rw [loadWords, load256, if_pos (by omega), Mem.ok_bind, ih (i + 32) (by omega), Mem.ok_bind, Buff.words,
      List.drop_drop]

/-- All vector loads of `equal_simd` lie in the column, whatever its length. -/
theorem c57_equal_simd (x : List Byte) (pred : Byte) (off : Nat) :
    Memory.equalSimd x pred off = .safe (Buff.equalSimd x pred off) := by
  unfold Memory.equalSimd Buff.equalSimd
  split
  · rfl
  · rw [loadWords_spec x _ 0 (by omega), Mem.ok_bind, List.drop_zero]

/-- The same for `comp_simd`. -/
theorem c57_comp_simd (greater : Bool) (x : List Byte) (pred : Byte) (qualified : Bitmap) (off : Nat) :
    Memory.compSimd greater x pred qualified off = .safe (Buff.compSimd greater x pred qualified off) := by
  unfold Memory.compSimd Buff.compSimd
  rw [loadWords_spec x _ 0 (by omega), Mem.ok_bind, List.drop_zero]
  simp only
  generalize Buff.fromLsb0 off (Buff.maskBytes (List.map (fun w => if greater = true then _ else _) _)) = a
  generalize Buff.fromLsb0 off (Buff.maskBytes (List.map (fun w => Buff.eqMask w (Buff.flip pred)) _)) = b
  cases a <;> cases b <;> rfl

example : (Buff.equalSimd (List.replicate 70 5#8) (Buff.flip 5#8) 8 = .ok (List.range' 8 64)) := by decide +kernel

/-! ## decoder/expr.rs -/

theorem writeSeq_spec (writes : List (List Byte)) (pre : List Byte) (free : Nat) :
    writeSeq writes ⟨pre.map some ++ List.replicate free none, pre.length⟩ =
      if writes.flatten.length ≤ free then
        (true, ⟨(pre ++ writes.flatten).map some ++ List.replicate (free - writes.flatten.length) none,
          (pre ++ writes.flatten).length⟩)
      else (false, (writeSeq writes ⟨pre.map some ++ List.replicate free none, pre.length⟩).2) := by
  induction writes generalizing pre free with
  | nil => simp [writeSeq]
  | cons bs rest ih =>
    have hw : (⟨pre.map some ++ List.replicate free none, pre.length⟩ : RawCursor).writeAll bs =
        (decide (min bs.length free = bs.length),
          ⟨(pre ++ bs.take (min bs.length free)).map some ++ List.replicate (free - min bs.length free) none,
            pre.length + min bs.length free⟩) := by
      unfold RawCursor.writeAll
      have e : (pre.map some ++ List.replicate free (none : Option Byte)).length - pre.length = free := by simp
      simp only [e]
      congr 2
      rw [List.take_append_of_le_length (by simp), List.take_of_length_le (by simp), List.drop_append,
        List.drop_of_length_le (by simp), List.drop_replicate]
      simp
    by_cases hb : bs.length ≤ free
    · have e : min bs.length free = bs.length := by omega
      rw [e, List.take_of_length_le (Nat.le_refl _), ← List.length_append] at hw
      simp only [decide_true] at hw
      rw [writeSeq, hw]
      simp only
      rw [ih]
      simp only [List.flatten_cons, List.length_append, List.append_assoc]
      by_cases hr : rest.flatten.length ≤ free - bs.length
      · rw [if_pos hr, if_pos (by omega), Nat.sub_sub]
      · rw [if_neg hr, if_neg (by omega)]
    · have e : decide (min bs.length free = bs.length) = false := by simp; omega
      rw [e] at hw
      rw [writeSeq, hw]
      simp only [List.flatten_cons, List.length_append]
      rw [if_neg (by omega)]

/-- The raw buffer of `compute_chunk`: whatever `materialize` writes into it, in whatever pieces, and whether it
fails or not, the view and `Vec::from_raw_parts` are within the allocation and only initialised elements become
visible. If all fits, the result is what was written (a last partial record is cut). -/
theorem c57_expr_index (n extra : Nat) (writes : List (List Byte)) (fails : Bool) :
    (exprIndex n extra writes fails).1 =
      if 2 ^ 63 ≤ 8 * (n + extra) then .panic
      else if fails = false ∧ writes.flatten.length ≤ 8 * n then .ok (toF64s writes.flatten)
      else .err := by
  unfold exprIndex
  split
  · rfl
  · rename_i hcap
    have e8 : 8 * n % 2 ^ 64 = 8 * n := Nat.mod_eq_of_lt (by omega)
    rw [e8, if_pos (by omega)]
    have hs := writeSeq_spec writes [] (8 * n)
    simp only [List.map_nil, List.nil_append, List.length_nil] at hs
    simp only
    by_cases hl : writes.flatten.length ≤ 8 * n
    · rw [if_pos hl] at hs
      rw [hs]
      simp only
      cases fails with
      | true => simp
      | false =>
        simp only [Bool.false_eq_true, if_false, hl, and_self, if_true]
        generalize writes.flatten = w at *
        unfold fromRawParts
        have ht : (List.map some w ++ List.replicate (8 * n - w.length) (none : Option Byte) ++
            List.replicate (8 * (n + extra) - (List.map some w ++ List.replicate (8 * n - w.length) none).length) none).take
              (8 * (w.length / 8)) = (w.take (8 * (w.length / 8))).map some := by
          rw [List.append_assoc, List.take_append_of_le_length (by simp only [List.length_map]; omega), List.map_take]
        rw [ht, if_pos, filterMap_some]
        · congr 1
          exact toF64s_take_complete w
        · refine ⟨by omega, ?_, by rw [List.all_map]; simp⟩
          simp only [List.length_append, List.length_map, List.length_replicate]; omega
    · rw [if_neg hl] at hs
      rw [hs, if_neg (fun h => hl h.2)]

/-- With the records `vs` written one by one this is the test `records < vs.length` of the list model
(`Expr.computeChunk`). -/
theorem c57_expr_records (n extra : Nat) (vs : List B64) (h : 8 * (n + extra) < 2 ^ 63) :
    (exprIndex n extra (vs.map f64Bytes) false).1 = if n < vs.length then .err else .ok vs := by
  have e : (vs.map f64Bytes).flatten = ofF64s vs := by rw [ofF64s, List.flatMap_def]
  rw [c57_expr_index, if_neg (by omega), e, toF64s_ofF64s, ofF64s_length]
  by_cases hn : n < vs.length
  · rw [if_pos hn, if_neg (by omega)]
  · rw [if_neg hn, if_pos ⟨rfl, by omega⟩]

/-- The buffer is lost (nobody frees it) exactly if `materialize` fails. -/
theorem c57_expr_leak (n extra : Nat) (writes : List (List Byte)) (fails : Bool) :
    (exprIndex n extra writes fails).2 = .leaked ↔ (exprIndex n extra writes fails).1 = .err := by
  unfold exprIndex
  split
  · simp
  · split
    · simp only
      split
      · split
        · simp
        · unfold fromRawParts
          split <;> simp
      · simp
    · simp

example : (exprIndex 2 1 [f64Bytes 5#64, f64Bytes 7#64] false = (.ok [5#64, 7#64], .returned)) ∧
    (exprIndex 1 0 [f64Bytes 5#64, f64Bytes 7#64] false = (.err, .leaked)) := by decide +kernel

/-! ## The rules themselves -/

/-- What counts as undefined: a write through a pointer outside the allocation, a length beyond the allocation or over
elements never written; an outcome of safe code stays what it is. -/
theorem c57_rules {α : Type} (v : RawVec α) (i : Nat) (a : α) :
    (v.ptrWrite i a = .ub ↔ v.cells.length ≤ i) ∧
    (v.setLen i = .ub ↔ v.cells.length < i ∨ ∃ j, j < i ∧ v.cells[j]? = some none) ∧
    Mem.safe (Res.ok a) = .ok a ∧ Mem.safe (Res.err : Res α) = .err ∧ Mem.safe (Res.panic : Res α) = .panic := by
  refine ⟨?_, ?_, rfl, rfl, rfl⟩
  · unfold RawVec.ptrWrite RawVec.capacity
    split <;> simp <;> omega
  · unfold RawVec.setLen RawVec.capacity
    split
    · rename_i h
      simp only [reduceCtorEq, false_iff, not_or, not_exists]
      refine ⟨by omega, fun j ⟨hj, hn⟩ => ?_⟩
      have := List.all_eq_true.1 h.2 none (List.mem_of_getElem? (i := j) (by
        rw [List.getElem?_take_of_lt hj]; exact hn))
      cases this
    · rename_i h
      simp only [true_iff]
      by_cases hl : i ≤ v.cells.length
      · right
        have h2 : ¬ (v.cells.take i).all Option.isSome = true := fun hc => h ⟨hl, hc⟩
        rw [List.all_eq_true] at h2
        simp only [Classical.not_forall] at h2
        obtain ⟨x, hx, hn⟩ := h2
        obtain ⟨j, hj, hjx⟩ := List.getElem_of_mem hx
        rw [List.length_take] at hj
        refine ⟨j, by omega, ?_⟩
        rw [List.getElem_take] at hjx
        rw [List.getElem?_eq_getElem (by omega), hjx]
        cases x with
        | none => rfl
        | some y => exact absurd rfl hn
      · left; omega

example : (⟨[some 1, none], 1⟩ : RawVec Nat).ptrWrite 2 5 = .ub ∧ (⟨[some 1, none], 1⟩ : RawVec Nat).setLen 2 = .ub ∧
    (⟨[some 1, none], 1⟩ : RawVec Nat).ptrWrite 1 5 = .ok ⟨[some 1, some 5], 1⟩ := by decide

end Ebi.Props
