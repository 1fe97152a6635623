import Verif.Sprintz
import Verif.SoftFloat

/-!
# C12, C16, C39 and the DeltaSprintz part of C18, C21, C40
-/

namespace Ebi.Props

open Ebi

/-! ## C16 -/

/-- Zigzag is a bijection of the 64-bit words. -/
theorem c16_zigzag_bijection (d z : BitVec 64) :
    unzigzag (zigzag d) = d ∧ zigzag (unzigzag z) = z :=
  ⟨unzigzag_zigzag d, zigzag_unzigzag z⟩

/-- The code of `d` in integers, hence small codes for small absolute values. -/
theorem c16_zigzag_code (d : BitVec 64) :
    ((zigzag d).toNat : Int) = (if d.toInt < 0 then -2 * d.toInt - 1 else 2 * d.toInt) ∧
      (zigzag d).toNat < 2 * (d.toInt.natAbs + 1) := by
  have h := zigzag_toNat d
  refine ⟨h, ?_⟩
  split at h <;> omega

example : (zigzag (BitVec.ofInt 64 (-100000))).toNat = 199999 := by decide +kernel

/-! ## C12 -/

/-- Decode a chunk of `n` records. -/
def sprintzDecode (o : FloatOps) (n : Nat) (chunk : List Byte) : Res (List B64) :=
  ((Sprintz.Reader.new n chunk).decompress o).map Prod.fst

/-- The integer a value is rounded to. -/
def rounded (o : FloatOps) (scale : Nat) (v : B64) : BitVec 64 :=
  o.toI64 (o.round (o.mul v (o.ofNat scale)))

/-- DeltaSprintz: every chunk decodes to the rounded integers divided by the scale, bit for bit, for
every arithmetic and whatever was compressed before. (Wrapping `i64`: no hypothesis on the deltas.) -/
theorem c12_sprintz_lossless (o : FloatOps) (c : Sprintz.Comp) (vs : List B64) (h : vs ≠ [])
    (hs : c.scale < 2 ^ 32) :
    ∃ c', c.compress o vs = .ok c' ∧
      sprintzDecode o vs.length c'.prepare.buffers
        = .ok (vs.map (fun v => o.div (o.ofI64 (rounded o c.scale v)) (o.ofNat c.scale))) := by
  obtain ⟨c', h1, h2, -, -⟩ := Sprintz.compress_ok o c vs h
  refine ⟨c', h1, ?_⟩
  have hst := Sprintz.stored_of_rep h2
  rw [List.length_map] at hst
  obtain ⟨r', h3, -, -⟩ := hst.decompress rfl rfl o
  unfold sprintzDecode Sprintz.Comp.prepare Sprintz.Comp.buffers
  rw [h3, Nat.mod_eq_of_lt hs]
  simp [Res.map, Sprintz.dequantize, Sprintz.quantize, rounded]

/-- Neighbours whose wrapping difference is not the integer difference. -/
def WrapsBetween : BitVec 64 → List (BitVec 64) → Prop
  | _, [] => False
  | p, q :: qs => (q - p).toInt ≠ q.toInt - p.toInt ∨ WrapsBetween q qs

/-- A debug build panics exactly on those inputs on which the release build's differences wrap. -/
theorem c12_debug_panic_iff (p : BitVec 64) (qs : List (BitVec 64)) :
    Sprintz.deltaOverflow p qs = true ↔ WrapsBetween p qs := by
  induction qs generalizing p with
  | nil => simp [Sprintz.deltaOverflow, WrapsBetween]
  | cons q qs ih =>
    rw [Sprintz.deltaOverflow, WrapsBetween, Bool.or_eq_true, ih, Bool.or_eq_true, decide_eq_true_eq, decide_eq_true_eq]
    have h : (q.toInt - p.toInt < -2 ^ 63 ∨ 2 ^ 63 ≤ q.toInt - p.toInt) ↔ (q - p).toInt ≠ q.toInt - p.toInt := by
      have h1 := @BitVec.toInt_lt 64 q
      have h2 := @BitVec.le_toInt 64 q
      have h3 := @BitVec.toInt_lt 64 p
      have h4 := @BitVec.le_toInt 64 p
      rw [BitVec.toInt_sub, Int.bmod_def]
      generalize q.toInt = x at *
      generalize p.toInt = y at *
      split <;> omega
    rw [h]

/-- Integers within 2^62 never do. -/
theorem c12_no_debug_panic (p : BitVec 64) (qs : List (BitVec 64)) (h0 : p.toInt.natAbs < 2 ^ 62)
    (h : ∀ q ∈ qs, q.toInt.natAbs < 2 ^ 62) : Sprintz.deltaOverflow p qs = false := by
  induction qs generalizing p with
  | nil => rfl
  | cons q qs ih =>
    have hq := h q (List.mem_cons_self ..)
    rw [Sprintz.deltaOverflow, ih q hq fun x hx => h x (List.mem_cons_of_mem _ hx)]
    simp only [Bool.or_false, Bool.or_eq_false_iff, decide_eq_false_iff_not]
    omega

example : Sprintz.deltaOverflow 0x8000000000000000#64 [1#64] = true ∧
    Sprintz.deltaOverflow (BitVec.ofInt 64 (-1000)) [1000#64, 5#64] = false := by decide +kernel

/-- The scale is stored in 32 bits: a larger one is decoded with a different divisor. -/
theorem c12_scale_truncated (o : FloatOps) (c : Sprintz.Comp) (vs : List B64) (h : vs ≠ []) :
    ∃ c', c.compress o vs = .ok c' ∧
      sprintzDecode o vs.length c'.prepare.buffers
        = .ok (vs.map (fun v => o.div (o.ofI64 (rounded o c.scale v)) (o.ofNat (c.scale % 2 ^ 32)))) := by
  obtain ⟨c', h1, h2, -, -⟩ := Sprintz.compress_ok o c vs h
  refine ⟨c', h1, ?_⟩
  have hst := Sprintz.stored_of_rep h2
  rw [List.length_map] at hst
  obtain ⟨r', h3, -, -⟩ := hst.decompress rfl rfl o
  unfold sprintzDecode Sprintz.Comp.prepare Sprintz.Comp.buffers
  rw [h3]
  simp [Res.map, Sprintz.dequantize, Sprintz.quantize, rounded]

/-- Concretely: with scale `10^10` the value 1.0 comes back as 7.09…. -/
theorem c12_large_scale_fails :
    ((Sprintz.Comp.new 10000000000).compress Soft.ops [0x3ff0000000000000#64]).bind
      (fun c' => sprintzDecode Soft.ops 1 c'.prepare.buffers) = .ok [0x401c5e131071b849#64] := by
  decide +kernel

/-- Non-trivial instance: 1.5, -2.25, 1.5 at scale 100 come back unchanged. -/
example : ((Sprintz.Comp.new 100).compress Soft.ops
      [0x3ff8000000000000#64, 0xc002000000000000#64, 0x3ff8000000000000#64]).bind
      (fun c' => sprintzDecode Soft.ops 3 c'.prepare.buffers)
      = .ok [0x3ff8000000000000#64, 0xc002000000000000#64, 0x3ff8000000000000#64] := by
  decide +kernel

/-- Consecutive differences of `q :: qs` as integers. -/
def diffs : List Int → List Int
  | a :: b :: rest => (b - a) :: diffs (b :: rest)
  | _ => []

/-- Integer zigzag code. -/
def code (d : Int) : Int := if d < 0 then -2 * d - 1 else 2 * d

theorem codes_eq (prev : BitVec 64) (qs : List (BitVec 64))
    (h : ∀ d ∈ diffs ((prev :: qs).map BitVec.toInt), -2 ^ 63 ≤ d ∧ d < 2 ^ 63) :
    (Sprintz.zigzagDeltas prev qs).map (fun n : Nat => (n : Int))
      = (diffs ((prev :: qs).map BitVec.toInt)).map code := by
  induction qs generalizing prev with
  | nil => rfl
  | cons q qs ih =>
    simp only [Sprintz.zigzagDeltas, List.map_cons, diffs, List.mem_cons] at h ih ⊢
    rw [ih q (fun d hd => h d (Or.inr hd))]
    congr 1
    have h0 := h _ (Or.inl rfl)
    rw [zigzag_toNat, BitVec.toInt_sub, code]
    have : (q.toInt - prev.toInt).bmod (2 ^ 64) = q.toInt - prev.toInt :=
      Int.bmod_eq_of_le (by omega) (by omega)
    rw [this]

/-- Announced width: the third header field is `nb`, every zigzag code of the true integer
differences (the first being `q0 - q0 = 0`) fits in `nb` bits, `nb` is the least such width, and the
chunk has exactly the bits announced. -/
theorem c12_width (o : FloatOps) (c : Sprintz.Comp) (vs : List B64) (h : vs ≠ [])
    (hd : ∀ d ∈ diffs (vs.map (fun v => (rounded o c.scale v).toInt)), -2 ^ 63 ≤ d ∧ d < 2 ^ 63) :
    ∃ c' nb, c.compress o vs = .ok c' ∧ nb ≤ 64 ∧
      c'.prepare.buffers[12]? = some (BitVec.ofNat 8 nb) ∧
      (∀ d ∈ diffs (vs.map (fun v => (rounded o c.scale v).toInt)), code d < 2 ^ nb) ∧
      (nb ≠ 0 → ∃ d ∈ diffs (vs.map (fun v => (rounded o c.scale v).toInt)), 2 ^ (nb - 1) ≤ code d) ∧
      c'.prepare.buffers.length = 13 + (vs.length * nb + 7) / 8 := by
  obtain ⟨c', h1, h2, -, -⟩ := Sprintz.compress_ok o c vs h
  cases vs with
  | nil => exact absurd rfl h
  | cons v vs =>
    have hq : (v :: vs).map (Sprintz.quantize o c.scale)
        = rounded o c.scale v :: vs.map (rounded o c.scale) := rfl
    generalize hqs : (v :: vs).map (Sprintz.quantize o c.scale) = qs at h2
    have hmap : (v :: vs).map (fun v => (rounded o c.scale v).toInt) = qs.map BitVec.toInt := by
      rw [← hqs, List.map_map]; rfl
    have hlen : qs.length = (v :: vs).length := by rw [← hqs, List.length_map]
    have hhead : qs = qs.headD 0 :: qs.tail := by rw [← hqs]; rfl
    rw [hmap] at hd ⊢
    have hd' : ∀ d ∈ diffs ((qs.headD 0 :: qs).map BitVec.toInt), -2 ^ 63 ≤ d ∧ d < 2 ^ 63 := by
      rw [hhead] at hd ⊢
      intro d hm
      simp only [List.headD_cons, List.map_cons, diffs, List.mem_cons] at hm
      rcases hm with rfl | hm
      · omega
      · exact hd d (by simpa using hm)
    have hcodes := codes_eq (qs.headD 0) qs hd'
    have hdiffs : diffs ((qs.headD 0 :: qs).map BitVec.toInt) = 0 :: diffs (qs.map BitVec.toInt) := by
      rw [hhead]
      simp [diffs]
    rw [hdiffs] at hcodes
    refine ⟨c', Sprintz.width qs, h1, Sprintz.width_le qs, Sprintz.byte12 h2.2.2, ?_, ?_, ?_⟩
    · intro d hm
      have : code d ∈ (0 :: diffs (qs.map BitVec.toInt)).map code :=
        List.mem_map_of_mem (List.mem_cons_of_mem _ hm)
      rw [← hcodes, List.mem_map] at this
      obtain ⟨z, hz, he⟩ := this
      rw [← he]
      have := Sprintz.lt_width qs z hz
      exact_mod_cast this
    · intro hne
      obtain ⟨z, hz, hle⟩ := Sprintz.width_least qs hne
      have : (z : Int) ∈ (0 :: diffs (qs.map BitVec.toInt)).map code := by
        rw [← hcodes]
        exact List.mem_map_of_mem hz
      rw [List.map_cons, List.mem_cons] at this
      rcases this with h0 | hm
      · have : z = 0 := by simpa [code] using h0
        have := Nat.two_pow_pos (Sprintz.width qs - 1)
        omega
      · rw [List.mem_map] at hm
        obtain ⟨d, hm, he⟩ := hm
        refine ⟨d, hm, ?_⟩
        rw [he]
        exact_mod_cast hle
    · have h3 := BitWriter.rep_bytes_length h2
      rw [Sprintz.chunkBits_length, hlen] at h3
      unfold Sprintz.Comp.prepare Sprintz.Comp.buffers BitWriter.asSlice
      omega

/-! ## C18, C21 for DeltaSprintz -/

theorem c18_sprintz (c : Sprintz.Comp) :
    c.totalBytesBuffered = c.prepare.buffers.length ∧ c.prepare = c := ⟨rfl, rfl⟩

theorem c21_sprintz_total_in (o : FloatOps) (c : Sprintz.Comp) (vs : List B64) (h : vs ≠ []) :
    ∃ c', c.compress o vs = .ok c' ∧ c'.totalBytesIn = 8 * vs.length := by
  obtain ⟨c', h1, -, h3, -⟩ := Sprintz.compress_ok o c vs h
  exact ⟨c', h1, h3⟩

/-- Compressing with a used compressor gives the bytes a fresh one gives. -/
theorem c21_sprintz_reuse (o : FloatOps) (c : Sprintz.Comp) (vs : List B64) :
    (c.compress o vs).map (fun c' => c'.prepare.buffers)
      = ((Sprintz.Comp.new c.scale).compress o vs).map (fun c' => c'.prepare.buffers) := by
  have e : c.reset = (Sprintz.Comp.new c.scale).reset := by
    simp [Sprintz.Comp.reset, Sprintz.Comp.new, BitWriter.reset]
  unfold Sprintz.Comp.compress
  rw [e]

/-- The empty chunk panics (`unwrap` on the first element). -/
theorem c12_empty_panics (o : FloatOps) (c : Sprintz.Comp) : c.compress o [] = .panic := rfl

/-! ## C39 -/

/-- A reader over the chunk produced by compressing `vs`, its cursor left anywhere by earlier
queries. -/
def SprintzReaderOf (o : FloatOps) (scale : Nat) (vs : List B64) (r : Sprintz.Reader) : Prop :=
  ∃ (c c' : Sprintz.Comp), c.scale = scale ∧ c.compress o vs = .ok c' ∧ r.br.buf = c'.prepare.buffers ∧
    r.numberOfRecords = vs.length

theorem storedOf {o : FloatOps} {scale : Nat} {vs : List B64} {r : Sprintz.Reader} (h : vs ≠ [])
    (hr : SprintzReaderOf o scale vs r) : Sprintz.Stored r scale (vs.map (rounded o scale)) := by
  obtain ⟨c, c', rfl, h1, h2, h3⟩ := hr
  obtain ⟨c2, h4, h5, -, -⟩ := Sprintz.compress_ok o c vs h
  rw [h1] at h4
  cases h4
  exact ⟨by simp [h3], _, (congrArg bytesBits h2).trans h5.2.2⟩

/-- Selected by the optional bitmask. -/
def Chosen (bm : Option Bitmap) (x : Nat) : Prop := ∀ b, bm = some b → x ∈ b

/-- Rounded integers of the selected records, in order. -/
def chosenInts (o : FloatOps) (scale : Nat) (bm : Option Bitmap) (off : Nat) (vs : List B64) :
    List (BitVec 64) :=
  match bm with
  | none => vs.map (rounded o scale)
  | some b => (((vs.map (rounded o scale)).zipIdx off).filter (fun p => b.contains p.2)).map Prod.fst

theorem sel_eq (o : FloatOps) (scale : Nat) (bm : Option Bitmap) (off : Nat) (vs : List B64) :
    Sprintz.sel bm off (vs.map (rounded o scale)) = chosenInts o scale bm off vs := by
  cases bm <;> rfl

/-- In-situ filter: exactly the selected records whose rounded integer satisfies the predicate with
its constants rounded the same way. -/
theorem c39_filter (o : FloatOps) (scale : Nat) (hs : scale < 2 ^ 32) (vs : List B64) (h : vs ≠ [])
    (r : Sprintz.Reader) (hr : SprintzReaderOf o scale vs r) (hc : r.decompressed = none)
    (p : Predicate B64) (bm : Option Bitmap) (off : Nat) (hoff : off + vs.length ≤ 2 ^ 32) :
    ∃ res r', r.filter o p bm off = .ok (res, r') ∧ Bitmap.WF res ∧
      ∀ x, x ∈ res ↔ ∃ (i : Nat) (v : B64), vs[i]? = some v ∧ x = off + i ∧ Chosen bm x ∧
        (p.map (rounded o scale)).eval i64Cmp (rounded o scale v) = true := by
  have hst := storedOf h hr
  obtain ⟨res, r', h1, -, -, h2, h3⟩ := hst.filter hc (by simpa using h) o p bm off
  refine ⟨res, r', h1, h2, ?_⟩
  intro x
  rw [h3 x, Nat.mod_eq_of_lt hs]
  have hq : Sprintz.quantize o scale = rounded o scale := rfl
  rw [hq]
  constructor
  · rintro ⟨⟨q, j, hj, he, hx⟩, hb⟩
    rw [List.mk_mem_zipIdx_iff_le_and_getElem?_sub, List.getElem?_map, Option.map_eq_some_iff] at hj
    obtain ⟨hle, v, hv, rfl⟩ := hj
    have hlt := (List.getElem?_eq_some_iff.1 hv).1
    refine ⟨j - off, v, hv, by omega, hb, he⟩
  · rintro ⟨i, v, hv, rfl, hb, he⟩
    have hlt := (List.getElem?_eq_some_iff.1 hv).1
    refine ⟨⟨rounded o scale v, off + i, ?_, he, by omega⟩, hb⟩
    rw [List.mk_mem_zipIdx_iff_le_and_getElem?_sub, List.getElem?_map,
      show off + i - off = i by omega, hv]
    exact ⟨by omega, rfl⟩

/-- In-situ sum: the wrapped `i64` sum of the selected integers, converted and divided once. Nothing
selected in this chunk gives NaN, except that an altogether empty bitmask gives 0. -/
theorem c39_sum (o : FloatOps) (scale : Nat) (hs : scale < 2 ^ 32) (vs : List B64) (h : vs ≠ [])
    (r : Sprintz.Reader) (hr : SprintzReaderOf o scale vs r) (hc : r.decompressed = none)
    (bm : Option Bitmap) (hb : ∀ b, bm = some b → Bitmap.WF b) (off : Nat)
    (hoff : off + vs.length < 2 ^ 32) :
    ∃ r', r.sum o bm off = .ok (
      if bm = some [] then 0#64
      else if chosenInts o scale bm off vs = [] then nanBits
      else o.div (o.ofI64 (BitVec.ofInt 64 (((chosenInts o scale bm off vs).map BitVec.toInt).sum)))
        (o.ofNat scale), r') := by
  have hst := storedOf h hr
  obtain ⟨r', -, -, h1⟩ := hst.aggregate o (· + ·) 0#64 bm hb off (by simpa using hoff) (by simpa using h)
  rw [Nat.mod_eq_of_lt hs, sel_eq, Sprintz.foldl_add] at h1
  unfold Sprintz.Reader.sum
  rw [hc]
  by_cases he : bm = some []
  · simp [he]
  · simp only [if_neg he, h1, Sprintz.dequantize]
    exact ⟨r', by simp⟩

/-- In-situ max: the largest selected integer, converted; NaN when nothing is selected. -/
theorem c39_max (o : FloatOps) (scale : Nat) (hs : scale < 2 ^ 32) (vs : List B64) (h : vs ≠ [])
    (r : Sprintz.Reader) (hr : SprintzReaderOf o scale vs r) (hc : r.decompressed = none)
    (bm : Option Bitmap) (hb : ∀ b, bm = some b → Bitmap.WF b) (off : Nat)
    (hoff : off + vs.length < 2 ^ 32) :
    ∃ x r', r.max o bm off = .ok (x, r') ∧
      (chosenInts o scale bm off vs = [] → x = nanBits) ∧
      (chosenInts o scale bm off vs ≠ [] → ∃ m ∈ chosenInts o scale bm off vs,
        (∀ q ∈ chosenInts o scale bm off vs, q.toInt ≤ m.toInt) ∧
          x = o.div (o.ofI64 m) (o.ofNat scale)) := by
  have hst := storedOf h hr
  obtain ⟨r', -, -, h1⟩ := hst.aggregate o Sprintz.imax Sprintz.i64Min bm hb off
    (by simpa using hoff) (by simpa using h)
  rw [Nat.mod_eq_of_lt hs, sel_eq] at h1
  unfold Sprintz.Reader.max
  rw [hc]
  by_cases he : bm = some []
  · subst he
    have : chosenInts o scale (some []) off vs = [] := by simp [chosenInts]
    exact ⟨nanBits, r, by simp, fun _ => rfl, fun hn => absurd this hn⟩
  · simp only [if_neg he, h1]
    refine ⟨_, r', rfl, fun hn => by simp [hn], fun hn => ?_⟩
    obtain ⟨h2, h3, h4⟩ := Sprintz.foldl_imax (chosenInts o scale bm off vs) Sprintz.i64Min
    refine ⟨_, ?_, h4, by simp [hn, Sprintz.dequantize]⟩
    rcases h2 with h2 | h2
    · cases hl : chosenInts o scale bm off vs with
      | nil => exact absurd hl hn
      | cons q qs =>
        have hq : q ∈ chosenInts o scale bm off vs := by rw [hl]; simp
        have := h4 q hq
        rw [h2] at this
        have hmin : Sprintz.i64Min.toInt = -2 ^ 63 := by decide
        have : q = Sprintz.i64Min := by
          apply BitVec.eq_of_toInt_eq
          have := q.le_toInt
          omega
        rw [← hl, h2, ← this]
        exact hq
    · exact h2

/-- In-situ min. -/
theorem c39_min (o : FloatOps) (scale : Nat) (hs : scale < 2 ^ 32) (vs : List B64) (h : vs ≠ [])
    (r : Sprintz.Reader) (hr : SprintzReaderOf o scale vs r) (hc : r.decompressed = none)
    (bm : Option Bitmap) (hb : ∀ b, bm = some b → Bitmap.WF b) (off : Nat)
    (hoff : off + vs.length < 2 ^ 32) :
    ∃ x r', r.min o bm off = .ok (x, r') ∧
      (chosenInts o scale bm off vs = [] → x = nanBits) ∧
      (chosenInts o scale bm off vs ≠ [] → ∃ m ∈ chosenInts o scale bm off vs,
        (∀ q ∈ chosenInts o scale bm off vs, m.toInt ≤ q.toInt) ∧
          x = o.div (o.ofI64 m) (o.ofNat scale)) := by
  have hst := storedOf h hr
  obtain ⟨r', -, -, h1⟩ := hst.aggregate o Sprintz.imin Sprintz.i64Max bm hb off
    (by simpa using hoff) (by simpa using h)
  rw [Nat.mod_eq_of_lt hs, sel_eq] at h1
  unfold Sprintz.Reader.min
  rw [hc]
  by_cases he : bm = some []
  · subst he
    have : chosenInts o scale (some []) off vs = [] := by simp [chosenInts]
    exact ⟨nanBits, r, by simp, fun _ => rfl, fun hn => absurd this hn⟩
  · simp only [if_neg he, h1]
    refine ⟨_, r', rfl, fun hn => by simp [hn], fun hn => ?_⟩
    obtain ⟨h2, h3, h4⟩ := Sprintz.foldl_imin (chosenInts o scale bm off vs) Sprintz.i64Max
    refine ⟨_, ?_, h4, by simp [hn, Sprintz.dequantize]⟩
    rcases h2 with h2 | h2
    · cases hl : chosenInts o scale bm off vs with
      | nil => exact absurd hl hn
      | cons q qs =>
        have hq : q ∈ chosenInts o scale bm off vs := by rw [hl]; simp
        have := h4 q hq
        rw [h2] at this
        have hmax : Sprintz.i64Max.toInt = 2 ^ 63 - 1 := by decide
        have : q = Sprintz.i64Max := by
          apply BitVec.eq_of_toInt_eq
          have := q.toInt_lt
          omega
        rw [← hl, h2, ← this]
        exact hq
    · exact h2

/-- The hypotheses are met: a fresh reader over a real chunk (1.5, 2.25 at scale 100). -/
example : ∃ r, SprintzReaderOf Soft.ops 100 [0x3ff8000000000000#64, 0x4002000000000000#64] r ∧
    r.decompressed = none := by
  obtain ⟨c', h1, -, -, -⟩ := Sprintz.compress_ok Soft.ops (Sprintz.Comp.new 100)
    [0x3ff8000000000000#64, 0x4002000000000000#64] (by simp)
  exact ⟨Sprintz.Reader.new 2 c'.prepare.buffers, ⟨_, c', rfl, h1, rfl, rfl⟩, rfl⟩

/-! ## C40: answers that depend on earlier queries -/

/-- `min` asked after `materialize` answers with `default_max`. -/
theorem c40_sprintz_min_after_materialize (o : FloatOps) (scale : Nat) (vs : List B64)
    (h : vs ≠ []) (r : Sprintz.Reader) (hr : SprintzReaderOf o scale vs r)
    (hc : r.decompressed = none) (bm bm' : Option Bitmap) (off : Nat) :
    ∃ out r' r'', r.materialize o bm off = .ok (out, r') ∧
      r'.min o bm' off = .ok (defaultMax o bm' off
        (vs.map (fun v => o.div (o.ofI64 (rounded o scale v)) (o.ofNat (scale % 2 ^ 32)))), r'') := by
  have hst := storedOf h hr
  obtain ⟨r', h1, -, h2⟩ := hst.materialize hc o bm off
  refine ⟨_, r', r', h1, ?_⟩
  unfold Sprintz.Reader.min
  rw [h2, List.map_map]
  rfl

/-- Concretely, on the chunk 1.5, 2.25 (scale 100): `min` is 1.5 when asked first and 2.25 when asked
after `materialize`. -/
theorem c40_sprintz_min_history :
    (((Sprintz.Comp.new 100).compress Soft.ops [0x3ff8000000000000#64, 0x4002000000000000#64]).bind
      fun c => ((Sprintz.Reader.new 2 c.prepare.buffers).min Soft.ops none 0).map Prod.fst)
        = .ok 0x3ff8000000000000#64 ∧
    (((Sprintz.Comp.new 100).compress Soft.ops [0x3ff8000000000000#64, 0x4002000000000000#64]).bind
      fun c => ((Sprintz.Reader.new 2 c.prepare.buffers).materialize Soft.ops none 0).bind
        fun r => (r.2.min Soft.ops none 0).map Prod.fst) = .ok 0x4002000000000000#64 := by
  decide +kernel

/-- `filter_materialize` asked after `filter` starts reading where the scan stopped: an error. -/
theorem c40_sprintz_filter_history :
    (((Sprintz.Comp.new 100).compress Soft.ops [0x3ff8000000000000#64, 0x4002000000000000#64]).bind
      fun c => ((Sprintz.Reader.new 2 c.prepare.buffers).filterMaterialize Soft.ops
        (.ne 0#64) none 0).map Prod.fst) = .ok [0x3ff8000000000000#64, 0x4002000000000000#64] ∧
    (((Sprintz.Comp.new 100).compress Soft.ops [0x3ff8000000000000#64, 0x4002000000000000#64]).bind
      fun c => ((Sprintz.Reader.new 2 c.prepare.buffers).filter Soft.ops (.ne 0#64) none 0).bind
        fun r => (r.2.filterMaterialize Soft.ops (.ne 0#64) none 0).map Prod.fst) = .err := by
  decide +kernel

/-- The filter with the constant 1.501 selects 1.5 (both round to 150 at scale 100) before
materialization, and not after. -/
theorem c40_sprintz_predicate_rounded :
    (((Sprintz.Comp.new 100).compress Soft.ops [0x3ff8000000000000#64, 0x4002000000000000#64]).bind
      fun c => ((Sprintz.Reader.new 2 c.prepare.buffers).filter Soft.ops
        (.eq 0x3ff804189374bc6a#64) none 0).map Prod.fst) = .ok [0] ∧
    (((Sprintz.Comp.new 100).compress Soft.ops [0x3ff8000000000000#64, 0x4002000000000000#64]).bind
      fun c => ((Sprintz.Reader.new 2 c.prepare.buffers).materialize Soft.ops none 0).bind
        fun r => (r.2.filter Soft.ops (.eq 0x3ff804189374bc6a#64) none 0).map Prod.fst) = .ok [] := by
  decide +kernel

end Ebi.Props
