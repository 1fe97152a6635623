import Verif.RunLength
import Verif.Uncompressed

/-!
# C10, C11 losslessness of RLE and Uncompressed; C18, C19, C20, C21 for the two
-/

namespace Ebi.Props

open Ebi

/-! ## C10 -/

/-- Decode a chunk with the RLE reader. -/
def rleDecode (n : Nat) (chunk : List Byte) : Res (List B64) := do
  let r ← RunLength.Reader.new n chunk
  let (vs, _) ← r.decompress
  pure vs

/-- RLE: the chunk produced by any compressor (used or not) decodes to the same bit patterns. -/
theorem c10_rle_lossless (c : RunLength.Comp) (vs : List B64) (h : vs ≠ [])
    (hlen : vs.length < 2 ^ 64) :
    ∃ c', c.compress vs = .ok c' ∧ rleDecode vs.length c'.prepare.buffers = .ok vs := by
  obtain ⟨c', h1, h2⟩ := RunLength.rep_append (RunLength.rep_reset c) vs (by simpa using h)
  refine ⟨c', h1, ?_⟩
  rw [List.nil_append] at h2
  rw [(RunLength.rep_buffers h2).1]
  unfold rleDecode
  rw [RunLength.reader_new vs vs.length hlen]
  simp [RunLength.decompress_chunk]

/-- The record iterator yields the same values as bulk decompression. -/
theorem c10_rle_iterator (c : RunLength.Comp) (vs : List B64) (h : vs ≠ [])
    (hlen : vs.length < 2 ^ 64) :
    ∃ c' r, c.compress vs = .ok c' ∧ RunLength.Reader.new vs.length c'.prepare.buffers = .ok r ∧
      ∀ fuel, vs.length < fuel →
        RunLength.iterFrom fuel r.numberOfFields 0 0#64 r.rest = .ok vs := by
  obtain ⟨c', h1, h2⟩ := RunLength.rep_append (RunLength.rep_reset c) vs (by simpa using h)
  rw [List.nil_append] at h2
  refine ⟨c', _, h1, by rw [(RunLength.rep_buffers h2).1, RunLength.reader_new vs vs.length hlen], ?_⟩
  intro fuel hf
  exact RunLength.iter_chunk vs 0#64 fuel hf

/-- The empty chunk panics (`input[0]`). -/
theorem c10_rle_empty_panics (c : RunLength.Comp) : c.compress [] = .panic :=
  RunLength.append_panic (RunLength.rep_reset c)

/-- NaN, two zeros, a run. -/
example : ∃ c', RunLength.Comp.new.compress [0x7ff8000000000000#64, 0#64, 0x8000000000000000#64,
    0x8000000000000000#64] = .ok c' ∧ c'.prepare.buffers.length = 8 + 3 * 9 :=
  ⟨_, rfl, by decide +kernel⟩

/-! ## C11 -/

theorem c11_uncompressed_lossless (c : Uncompressed.Comp) (vs : List B64) :
    ((Uncompressed.Reader.new vs.length (c.compress vs).prepare.buffers).decompress).map Prod.fst
      = .ok vs ∧
    (Uncompressed.Reader.new vs.length (c.compress vs).prepare.buffers).iter = .ok vs := by
  have e : (c.compress vs).prepare.buffers = ofF64s vs := by
    simp [Uncompressed.Comp.compress, Uncompressed.Comp.prepare, Uncompressed.Comp.buffers,
      Uncompressed.Comp.reset]
  rw [e, Uncompressed.decompress_new]
  refine ⟨rfl, ?_⟩
  have := Uncompressed.iterFrom_ofF64s vs []
  rw [List.append_nil] at this
  exact this

/-! ## C18 -/

theorem c18_rle (c : RunLength.Comp) (vs : List B64) (h : vs ≠ []) :
    ∃ c', c.compress vs = .ok c' ∧ c'.totalBytesBuffered = c'.prepare.buffers.length := by
  obtain ⟨c', h1, h2⟩ := RunLength.rep_append (RunLength.rep_reset c) vs (by simpa using h)
  refine ⟨c', h1, ?_⟩
  rw [(RunLength.rep_buffers h2).1, (RunLength.rep_buffers h2).2]

theorem c18_uncompressed (c : Uncompressed.Comp) (vs : List B64) :
    (c.compress vs).totalBytesBuffered = (c.compress vs).prepare.buffers.length := by
  simp [Uncompressed.Comp.totalBytesBuffered, Uncompressed.Comp.prepare,
    Uncompressed.Comp.buffers]

/-! ## C20 (and C19): the compressor as an abstract list with append and rewind -/

/-- Incremental operations. -/
inductive RleOp where
  | append (vs : List B64)
  | rewind (n : Nat)

/-- Run operations on the compressor, collecting what `rewind` reports. -/
def rleRun (c : RunLength.Comp) : List RleOp → Res (List Bool × RunLength.Comp)
  | [] => .ok ([], c)
  | .append vs :: ops => do
    let c ← c.append vs
    rleRun c ops
  | .rewind n :: ops => do
    let (bs, c') ← rleRun (c.rewind n).2 ops
    pure ((c.rewind n).1 :: bs, c')

/-- Specification: the content is a plain list. Only appending nothing to an empty compressor panics;
rewinding succeeds iff there is content and enough of it. -/
def listRun (L : List B64) : List RleOp → Res (List Bool × List B64)
  | [] => .ok ([], L)
  | .append vs :: ops => if L ++ vs = [] then .panic else listRun (L ++ vs) ops
  | .rewind n :: ops =>
    let ok : Bool := decide (L ≠ [] ∧ n ≤ L.length)
    match listRun (if ok then L.take (L.length - n) else L) ops with
    | .ok (bs, L') => .ok (ok :: bs, L')
    | .err => .err
    | .panic => .panic

/-- What can be seen of a compressor: the bytes `prepare` + `buffers` would give, the announced size,
the number of input bytes. -/
def rleObserve (c : RunLength.Comp) : List Byte × Nat × Nat :=
  (c.prepare.buffers, c.totalBytesBuffered, c.totalBytesIn)

/-- What a list looks like: the bytes of batch compression. -/
def rleBatch (L : List B64) : Res (List Byte × Nat × Nat) :=
  if L = [] then .ok (rleObserve RunLength.Comp.new)
  else (RunLength.Comp.new.compress L).map rleObserve

private def Holds (c : RunLength.Comp) (L : List B64) : Prop :=
  RunLength.Rep c (RunLength.runsOf L) (8 * L.length)

private theorem holds_observe {c : RunLength.Comp} {L : List B64} (h : Holds c L) :
    rleBatch L = .ok (rleObserve c) := by
  unfold rleBatch rleObserve
  have hc := RunLength.rep_buffers h
  rw [hc.1, hc.2, h.total]
  split
  · subst_vars
    have h0 := RunLength.rep_buffers RunLength.rep_new
    rw [h0.1, h0.2]
    rfl
  · rename_i hL
    obtain ⟨c', h1, h2⟩ := RunLength.rep_append (RunLength.rep_reset RunLength.Comp.new) L
      (by simpa using hL)
    rw [List.nil_append, Nat.zero_add] at h2
    have h0 := RunLength.rep_buffers h2
    rw [RunLength.Comp.compress, h1]
    simp [Res.map, h0.1, h0.2, h2.total]

private theorem run_spec (ops : List RleOp) (c : RunLength.Comp) (L : List B64) (h : Holds c L) :
    match listRun L ops with
    | .ok (bs, L') => ∃ c', rleRun c ops = .ok (bs, c') ∧ Holds c' L'
    | .err => False
    | .panic => rleRun c ops = .panic := by
  induction ops generalizing c L with
  | nil => exact ⟨c, rfl, h⟩
  | cons op ops ih =>
    cases op with
    | append vs =>
      simp only [listRun]
      split
      · rename_i he
        split at he
        · cases he
        · rename_i hne
          obtain ⟨c', h1, h2⟩ := RunLength.rep_append h vs hne
          have := ih c' (L ++ vs) (by
            unfold Holds
            rw [List.length_append, Nat.mul_add]
            exact h2)
          rw [he] at this
          simpa [rleRun, h1] using this
      · rename_i he
        split at he
        · cases he
        · rename_i hne
          obtain ⟨c', h1, h2⟩ := RunLength.rep_append h vs hne
          have := ih c' (L ++ vs) (by
            unfold Holds
            rw [List.length_append, Nat.mul_add]
            exact h2)
          rw [he] at this
          exact this
      · rename_i he
        split at he
        · rename_i hne
          simp only [List.append_eq_nil_iff] at hne
          obtain ⟨rfl, rfl⟩ := hne
          simp [rleRun, RunLength.append_panic h]
        · rename_i hne
          obtain ⟨c', h1, h2⟩ := RunLength.rep_append h vs hne
          have := ih c' (L ++ vs) (by
            unfold Holds
            rw [List.length_append, Nat.mul_add]
            exact h2)
          rw [he] at this
          simpa [rleRun, h1] using this
    | rewind n =>
      simp only [listRun]
      obtain ⟨h1, h2, h3⟩ := RunLength.rep_rewind h n
      have hb : (c.rewind n).1 = decide (L ≠ [] ∧ n ≤ L.length) := by
        cases hc : (c.rewind n).1
        · rw [hc] at h1
          symm; simpa using h1
        · rw [hc] at h1
          symm; simpa using h1
      rw [← hb]
      have hh : Holds (c.rewind n).2 (if (c.rewind n).1 = true then L.take (L.length - n) else L) := by
        cases hc : (c.rewind n).1
        · rw [h3 hc]; simpa using h
        · have := h2 hc
          have hl := h1.1 hc
          unfold Holds
          simp only [if_true, List.length_take]
          rw [show 8 * min (L.length - n) L.length = 8 * L.length - 8 * n by omega]
          exact this
      have := ih _ _ hh
      revert this
      cases listRun (if (c.rewind n).1 = true then L.take (L.length - n) else L) ops with
      | ok p =>
        obtain ⟨bs, L'⟩ := p
        rintro ⟨c', h4, h5⟩
        exact ⟨c', by simp [rleRun, h4], h5⟩
      | err => exact id
      | panic =>
        intro h4
        have h4 : rleRun (c.rewind n).2 ops = .panic := h4
        simp [rleRun, h4]

/-- C20: after any sequence of appends and rewinds on a new compressor, what `rewind` reported, and
everything observable, is what the plain list says: the bytes are those of compressing the
remaining list in one go. Because the sequence is arbitrary this includes all later behaviour. -/
theorem c20_rle_refines_list (ops : List RleOp) :
    match listRun [] ops with
    | .ok (bs, L) => ∃ c, rleRun RunLength.Comp.new ops = .ok (bs, c) ∧
        rleBatch L = .ok (rleObserve c)
    | .err => False
    | .panic => rleRun RunLength.Comp.new ops = .panic := by
  have := run_spec ops RunLength.Comp.new [] RunLength.rep_new
  revert this
  cases listRun [] ops with
  | ok p =>
    obtain ⟨bs, L⟩ := p
    rintro ⟨c, h1, h2⟩
    exact ⟨c, h1, holds_observe h2⟩
  | err => exact id
  | panic => exact id

/-- C20 in one step: give the compressor `kept`, then `dropped`, rewind by the number of dropped
values: it reports success, and whatever is done afterwards looks as if `dropped` had never been given. -/
theorem c20_rle_rewind_undoes (kept dropped : List B64) (hk : kept ≠ []) (ops : List RleOp) :
    match rleRun RunLength.Comp.new (.append kept :: ops) with
    | .ok (bs, c) => ∃ c', rleRun RunLength.Comp.new
        (.append kept :: .append dropped :: .rewind dropped.length :: ops) = .ok (true :: bs, c') ∧
        rleObserve c' = rleObserve c
    | .err => False
    | .panic => rleRun RunLength.Comp.new
        (.append kept :: .append dropped :: .rewind dropped.length :: ops) = .panic := by
  have h1 := run_spec (.append kept :: ops) RunLength.Comp.new [] RunLength.rep_new
  have h2 := run_spec (.append kept :: .append dropped :: .rewind dropped.length :: ops)
    RunLength.Comp.new [] RunLength.rep_new
  have e1 : listRun [] (.append kept :: ops) = listRun kept ops := by
    simp [listRun, hk]
  have e2 : listRun [] (.append kept :: .append dropped :: .rewind dropped.length :: ops)
      = match listRun kept ops with
        | .ok (bs, L') => .ok (true :: bs, L')
        | .err => .err
        | .panic => .panic := by
    simp [listRun, hk]
  rw [e1] at h1
  rw [e2] at h2
  revert h1 h2
  cases listRun kept ops with
  | ok p =>
    obtain ⟨bs, L⟩ := p
    rintro ⟨c, h3, h4⟩ ⟨c', h5, h6⟩
    rw [h3]
    refine ⟨c', h5, ?_⟩
    have a := holds_observe h4
    have b := holds_observe h6
    rw [a] at b
    injection b with b
    exact b.symm
  | err => exact fun h => h.elim
  | panic =>
    intro h3 h4
    have h3 : rleRun RunLength.Comp.new (.append kept :: ops) = .panic := h3
    rw [h3]
    exact h4

/-- Too large a rewind reports failure and changes nothing. -/
theorem c20_rle_rewind_too_far (vs : List B64) (n : Nat) (h : vs ≠ []) (hn : vs.length < n) :
    ∃ c, rleRun RunLength.Comp.new [.append vs] = .ok ([], c) ∧ c.rewind n = (false, c) := by
  obtain ⟨c, h1, h2⟩ := RunLength.rep_append RunLength.rep_new vs (by simpa using h)
  refine ⟨c, by simp [rleRun, h1], ?_⟩
  obtain ⟨h3, -, h5⟩ := RunLength.rep_rewind h2 n
  have hf : (c.rewind n).1 = false := by
    cases hc : (c.rewind n).1
    · rfl
    · have := (h3.1 hc).2
      simp at this
      omega
  rw [← hf]
  exact Prod.ext rfl (h5 hf)

example : ∃ c, rleRun RunLength.Comp.new [.append [1#64, 1#64, 2#64], .rewind 2, .append [1#64],
    .rewind 5] = .ok ([true, false], c) ∧ c.prepare.buffers = leBytes 8 1 ++ [2, 1, 0, 0, 0, 0, 0, 0, 0] :=
  ⟨_, rfl, by decide +kernel⟩

/-- Run operations on the Uncompressed compressor, collecting what `rewind` reports. -/
def uncompressedRun (c : Uncompressed.Comp) : List RleOp → List Bool × Uncompressed.Comp
  | [] => ([], c)
  | .append vs :: ops => uncompressedRun (c.append vs) ops
  | .rewind n :: ops =>
    let (bs, c') := uncompressedRun (c.rewind n).2 ops
    ((c.rewind n).1 :: bs, c')

/-- Specification: a plain list; rewinding succeeds iff the list is long enough. -/
def plainRun (L : List B64) : List RleOp → List Bool × List B64
  | [] => ([], L)
  | .append vs :: ops => plainRun (L ++ vs) ops
  | .rewind n :: ops =>
    if n ≤ L.length then
      let (bs, L') := plainRun (L.take (L.length - n)) ops
      (true :: bs, L')
    else
      let (bs, L') := plainRun L ops
      (false :: bs, L')

/-- Uncompressed: after any history of appends and rewinds the answers are those of a plain list, and the
bytes and the announced size are those of a fresh compressor given what is left in the list. Missing: the
input size statistic. -/
theorem c20_uncompressed_partial (ops : List RleOp) :
    (uncompressedRun Uncompressed.Comp.new ops).1 = (plainRun [] ops).1 ∧
    (uncompressedRun Uncompressed.Comp.new ops).2.prepare.buffers
      = (Uncompressed.Comp.new.compress (plainRun [] ops).2).prepare.buffers ∧
    (uncompressedRun Uncompressed.Comp.new ops).2.totalBytesBuffered
      = (Uncompressed.Comp.new.compress (plainRun [] ops).2).totalBytesBuffered := by
  have key : ∀ (ops : List RleOp) (c : Uncompressed.Comp),
      (uncompressedRun c ops).1 = (plainRun c.buffer ops).1 ∧
        (uncompressedRun c ops).2.buffer = (plainRun c.buffer ops).2 := by
    intro ops
    induction ops with
    | nil => intro c; exact ⟨rfl, rfl⟩
    | cons op ops ih =>
      intro c
      cases op with
      | append vs => exact ih (c.append vs)
      | rewind n =>
        obtain ⟨h1, h2⟩ := ih (c.rewind n).2
        unfold Uncompressed.Comp.rewind at h1 h2
        by_cases hn : c.buffer.length < n
        · rw [if_pos hn] at h1 h2
          simp only [uncompressedRun, plainRun, Uncompressed.Comp.rewind, if_pos hn,
            if_neg (show ¬ n ≤ c.buffer.length by omega)]
          exact ⟨by rw [h1], h2⟩
        · rw [if_neg hn] at h1 h2
          simp only [uncompressedRun, plainRun, Uncompressed.Comp.rewind, if_neg hn,
            if_pos (show n ≤ c.buffer.length by omega)]
          exact ⟨by rw [h1], h2⟩
  obtain ⟨h1, h2⟩ := key ops Uncompressed.Comp.new
  refine ⟨h1, ?_, ?_⟩
  · simp only [Uncompressed.Comp.prepare, Uncompressed.Comp.buffers, h2, Uncompressed.Comp.compress,
      Uncompressed.Comp.reset]
    rfl
  · simp only [Uncompressed.Comp.totalBytesBuffered, h2, Uncompressed.Comp.compress,
      Uncompressed.Comp.reset]
    rfl

example : uncompressedRun Uncompressed.Comp.new [.append [1#64, 2#64], .rewind 1, .append [3#64], .rewind 3]
    = ([true, false], ⟨24, [1#64, 3#64]⟩) := rfl

/-- Rewinding does not undo the input size statistic. -/
theorem c20_uncompressed_total_in_wrong :
    ((Uncompressed.Comp.new.append [1#64]).rewind 1).2.totalBytesIn
      ≠ Uncompressed.Comp.new.totalBytesIn := by decide

/-! ## C19 -/

/-- Appending in pieces gives exactly the observable state of one `compress` call on the
concatenation, as long as the first piece is not empty. -/
theorem c19_rle_append (p : List B64) (pieces : List (List B64)) (hp : p ≠ []) :
    ∃ c c', rleRun RunLength.Comp.new ((p :: pieces).map .append) = .ok ([], c) ∧
      RunLength.Comp.new.compress (p :: pieces).flatten = .ok c' ∧
      rleObserve c = rleObserve c' := by
  have key : ∀ (qs : List (List B64)) (L : List B64), L ≠ [] →
      listRun L (qs.map .append) = .ok ([], L ++ qs.flatten) := by
    intro qs
    induction qs with
    | nil => intro L _; simp [listRun]
    | cons q qs ih =>
      intro L hL
      rw [List.map_cons, listRun, if_neg (by simp [hL]), ih _ (by simp [hL])]
      simp
  have h0 := c20_rle_refines_list ((p :: pieces).map .append)
  have e : listRun [] ((p :: pieces).map .append) = .ok ([], (p :: pieces).flatten) := by
    rw [List.map_cons, listRun, if_neg (by simpa using hp), key _ _ (by simpa using hp)]
    simp
  rw [e] at h0
  obtain ⟨c, h1, h2⟩ := h0
  have hne : (p :: pieces).flatten ≠ [] := by simp [hp]
  unfold rleBatch at h2
  rw [if_neg hne] at h2
  cases hc : RunLength.Comp.new.compress (p :: pieces).flatten with
  | ok c' =>
    rw [hc] at h2
    refine ⟨c, c', h1, rfl, ?_⟩
    simp only [Res.map] at h2
    injection h2 with h2
    exact h2.symm
  | err => rw [hc] at h2; cases h2
  | panic => rw [hc] at h2; cases h2

/-- Uncompressed: the same, with no restriction. -/
theorem c19_uncompressed_append (pieces : List (List B64)) :
    pieces.foldl Uncompressed.Comp.append Uncompressed.Comp.new
      = Uncompressed.Comp.new.compress pieces.flatten := by
  have key : ∀ c : Uncompressed.Comp, pieces.foldl Uncompressed.Comp.append c
      = ⟨c.totalBytesIn + 8 * pieces.flatten.length, c.buffer ++ pieces.flatten⟩ := by
    induction pieces with
    | nil => intro c; simp
    | cons p ps ih =>
      intro c
      rw [List.foldl_cons, ih]
      simp [Uncompressed.Comp.append, Nat.mul_add, Nat.add_assoc]
  rw [key]
  rfl

/-! ## C21 -/

theorem c21_rle_reuse (c : RunLength.Comp) (vs : List B64) (h : vs ≠ []) :
    ∃ c1 c2, c.compress vs = .ok c1 ∧ RunLength.Comp.new.compress vs = .ok c2 ∧
      rleObserve c1 = rleObserve c2 := by
  obtain ⟨c1, h1, h2⟩ := RunLength.rep_append (RunLength.rep_reset c) vs (by simpa using h)
  obtain ⟨c2, h3, h4⟩ := RunLength.rep_append (RunLength.rep_reset RunLength.Comp.new) vs
    (by simpa using h)
  refine ⟨c1, c2, h1, h3, ?_⟩
  unfold rleObserve
  rw [(RunLength.rep_buffers h2).1, (RunLength.rep_buffers h4).1, (RunLength.rep_buffers h2).2,
    (RunLength.rep_buffers h4).2, h2.total, h4.total]

theorem c21_uncompressed_reuse (c : Uncompressed.Comp) (vs : List B64) :
    c.compress vs = Uncompressed.Comp.new.compress vs := rfl

end Ebi.Props
