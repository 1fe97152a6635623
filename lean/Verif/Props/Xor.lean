import Verif.Gorilla
import Verif.Chimp
import Verif.Chimp128
import Verif.ElfXor

/-!
# C05–C08 losslessness of the XOR codecs, C17 size prediction, C18 announced size, C21 reuse,
C46 corrupt streams
-/

namespace Ebi.Props

open Ebi

/-- Specification: the reserved pattern, `f64::NAN`. -/
def reserved : B64 := 0x7ff8000000000000#64

/-- What a user sees: the bytes of one chunk, compressed with compressor `c` (in any state). -/
def chunkBytes (C : XorCodec) (c : C.Compressor) (vs : List B64) : List Byte :=
  C.buffers (C.prepare (C.compress c vs))

/-! ## C05 -/

/-- Gorilla: decompressing the compressed chunk gives the same bit patterns, whatever the
compressor was used for before. -/
theorem c05_gorilla_lossless (c : Gorilla.codec.Compressor) (vs : List B64)
    (h : ∀ v ∈ vs, v ≠ reserved) :
    Gorilla.codec.decompress (chunkBytes Gorilla.codec c vs) = .ok vs :=
  Gorilla.laws.round_trip c vs h

/-- The restriction is needed: a reserved NaN drops itself and everything after it. -/
theorem c05_gorilla_nan_cuts (c : Gorilla.codec.Compressor) (vs us : List B64)
    (h : ∀ v ∈ vs, v ≠ reserved) :
    Gorilla.codec.decompress (chunkBytes Gorilla.codec c (vs ++ reserved :: us)) = .ok vs :=
  Gorilla.laws.cut_at_nan c vs us h

/-- 1.0, 1.0, -2.5, a signalling NaN, +0.0, -0.0 satisfy the hypothesis. -/
example : ∀ v ∈ [0x3ff0000000000000#64, 0x3ff0000000000000#64, 0xc004000000000000#64,
    0x7ff0000000000001#64, 0#64, 0x8000000000000000#64], v ≠ reserved := by simp [reserved]

/-! ## C06 -/

theorem c06_chimp_lossless (c : Chimp.codec.Compressor) (vs : List B64)
    (h : ∀ v ∈ vs, v ≠ reserved) :
    Chimp.codec.decompress (chunkBytes Chimp.codec c vs) = .ok vs :=
  Chimp.laws.round_trip c vs h

theorem c06_chimp_nan_cuts (c : Chimp.codec.Compressor) (vs us : List B64)
    (h : ∀ v ∈ vs, v ≠ reserved) :
    Chimp.codec.decompress (chunkBytes Chimp.codec c (vs ++ reserved :: us)) = .ok vs :=
  Chimp.laws.cut_at_nan c vs us h

/-! ## C07 -/

theorem c07_chimp128_lossless (c : Chimp128.codec.Compressor) (vs : List B64)
    (h : ∀ v ∈ vs, v ≠ reserved) :
    Chimp128.codec.decompress (chunkBytes Chimp128.codec c vs) = .ok vs :=
  Chimp128.laws.round_trip c vs h

theorem c07_chimp128_nan_cuts (c : Chimp128.codec.Compressor) (vs us : List B64)
    (h : ∀ v ∈ vs, v ≠ reserved) :
    Chimp128.codec.decompress (chunkBytes Chimp128.codec c (vs ++ reserved :: us)) = .ok vs :=
  Chimp128.laws.cut_at_nan c vs us h

/-- In every reachable state the subtraction `index - indices[key]` (chimp_n.rs:204) does not
underflow, so the hash table never makes the encoder panic. -/
theorem c07_no_underflow (vs : List B64) (k : Nat) :
    let s := (Chimp128.codec.compressLoop Chimp128.Enc.new BitWriter.new vs).1
    s.indices k ≤ s.index := by
  have h := Chimp128.encLaws.compressLoop_state Chimp128.Enc.new BitWriter.new vs
  have hi : Chimp128.Inv (Chimp128.encLaws.nextAll Chimp128.Enc.new vs) :=
    Chimp128.encLaws.inv_nextAll (C := Chimp128.codec) vs Chimp128.inv_init
  have := hi.idx k
  rw [← h] at this
  exact this

/-! ## C08 -/

theorem c08_elf_xor_lossless (c : ElfXor.codec.Compressor) (vs : List B64)
    (h : ∀ v ∈ vs, v ≠ reserved) :
    ElfXor.codec.decompress (chunkBytes ElfXor.codec c vs) = .ok vs :=
  ElfXor.laws.round_trip c vs h

theorem c08_elf_xor_nan_cuts (c : ElfXor.codec.Compressor) (vs us : List B64)
    (h : ∀ v ∈ vs, v ≠ reserved) :
    ElfXor.codec.decompress (chunkBytes ElfXor.codec c (vs ++ reserved :: us)) = .ok vs :=
  ElfXor.laws.cut_at_nan c vs us h

/-- In a debug build the encoder panics ("shift right with overflow") on `[1.0, -1.0]`: the state
after `1.0` meets a value that differs from it in the sign bit only. -/
theorem c08_debug_shift_overflow :
    ElfXor.shiftOverflow (ElfXor.codec.compressLoop ElfXor.Enc.new BitWriter.new
      [0x3ff0000000000000#64]).1 0xbff0000000000000#64 = true := by decide +kernel

/-- The overflow occurs only for values differing from the previous one in the sign bit alone (or
for `-0.0` as first value); no other input is affected. -/
theorem c08_debug_shift_overflow_only (s : ElfXor.Enc) (v : B64)
    (h : ElfXor.shiftOverflow s v = true) :
    v ^^^ (if s.first then 0#64 else s.storedVal) = 0x8000000000000000#64 := by
  have key : ∀ x : B64, tz64 x.toNat = 63 → x = 0x8000000000000000#64 := by
    intro x hx
    have hd := tz64_dvd x.toNat
    rw [hx] at hd
    obtain ⟨q, hq⟩ := hd
    have hlt := x.isLt
    have h0 : x.toNat ≠ 0 := by intro h0; rw [h0] at hx; revert hx; decide
    apply BitVec.eq_of_toNat_eq
    have hq1 : q = 1 := by
      have : 0 < q := by
        rcases Nat.eq_zero_or_pos q with h | h
        · subst h; simp at hq; omega
        · exact h
      omega
    subst hq1
    rw [hq]; rfl
  unfold ElfXor.shiftOverflow at h
  split at h
  · rename_i hf
    simp only [decide_eq_true_eq] at h
    simp only [hf, if_true]
    rw [key v h]; rfl
  · rename_i hf
    simp only [decide_eq_true_eq] at h
    simp only [hf]
    rw [BitVec.xor_comm]
    exact key _ h.2.2

/-- A concrete run of all four codecs: 1.0, 1.0, -2.5, 1.1, +0.0 come back. -/
example : ∀ C ∈ [Gorilla.codec, Chimp.codec, Chimp128.codec, ElfXor.codec],
    C.decompress (chunkBytes C C.fresh [0x3ff0000000000000#64, 0x3ff0000000000000#64,
      0xc004000000000000#64, 0x3ff199999999999a#64, 0#64])
    = .ok [0x3ff0000000000000#64, 0x3ff0000000000000#64, 0xc004000000000000#64,
      0x3ff199999999999a#64, 0#64] := by
  simp only [List.mem_cons, List.not_mem_nil, or_false, forall_eq_or_imp, forall_eq]
  decide +kernel

/-! ## C17 -/

/-- Encoder state and writer after compressing a history of values. -/
def after (C : XorCodec) (vs : List B64) : C.S × BitWriter := C.compressLoop C.init BitWriter.new vs

/-- Number of bits by which one more value makes the stream grow. -/
def growth (C : XorCodec) (vs : List B64) (v : B64) : Nat :=
  (C.compressFloat (after C vs).1 (after C vs).2 v).2.1.numberOfBitsWritten
    - (after C vs).2.numberOfBitsWritten

theorem growth_eq {C : XorCodec} (L : C.EncLaws) (vs : List B64) (v : B64) :
    growth C vs v = (L.emit (after C vs).1 v).length ∧ L.Inv (after C vs).1 := by
  have hi : L.Inv (after C vs).1 := by
    unfold after
    rw [L.compressLoop_state]
    exact L.inv_nextAll vs L.inv_init
  have h1 := L.compressLoop_rep vs L.inv_init BitWriter.rep_new
  have h2 := L.compress_rep v hi h1
  have e1 := BitWriter.rep_length h1
  have e2 := BitWriter.rep_length h2
  refine ⟨?_, hi⟩
  unfold growth
  change (C.compressFloat (after C vs).1 (C.compressLoop C.init BitWriter.new vs).2 v).2.1.numberOfBitsWritten
    - (C.compressLoop C.init BitWriter.new vs).2.numberOfBitsWritten = _
  rw [e2, e1]
  simp

/-- Gorilla: the simulated size, and the size returned by the real call, are the bits appended. -/
theorem c17_gorilla (vs : List B64) (v : B64) :
    Gorilla.simulateEncode (after Gorilla.codec vs).1 v = growth Gorilla.codec vs v ∧
    (Gorilla.encode (after Gorilla.codec vs).1 (after Gorilla.codec vs).2 v).2.2
      = growth Gorilla.codec vs v := by
  obtain ⟨h, hi⟩ := growth_eq Gorilla.encLaws vs v
  rw [h]
  exact Gorilla.simulate_eq hi _ v

/-- Chimp: `simulate_add_value` returns the new total size; its growth is the bits appended. -/
theorem c17_chimp (vs : List B64) (v : B64) :
    Chimp.simulateAddValue (after Chimp.codec vs).1 v
      = (after Chimp.codec vs).1.size + growth Chimp.codec vs v ∧
    (Chimp.compressFloat (after Chimp.codec vs).1 (after Chimp.codec vs).2 v).2.2
      = growth Chimp.codec vs v := by
  obtain ⟨h, -⟩ := growth_eq Chimp.encLaws vs v
  rw [h]
  have h2 := Chimp.size_eq (after Chimp.codec vs).1 v
  have h3 := Chimp.addValue_state (after Chimp.codec vs).1 (after Chimp.codec vs).2 v
  refine ⟨by rw [h2.2, h2.1]; rfl, ?_⟩
  change (Chimp.addValue _ _ _).1.size - _ = _
  rw [h3, h2.1]
  exact Nat.add_sub_cancel_left _ _

/-- Chimp128: as for Chimp, and the total is the absolute number of bits in the stream, modulo `2^32`:
the counter is a `u32`. -/
theorem c17_chimp128_wraps (vs : List B64) (v : B64) :
    Chimp128.simulateAddValue (after Chimp128.codec vs).1 v
      = ((after Chimp128.codec vs).2.numberOfBitsWritten + growth Chimp128.codec vs v) % 2 ^ 32 := by
  obtain ⟨h, hi⟩ := growth_eq Chimp128.encLaws vs v
  rw [h]
  have h2 := Chimp128.size_eq hi v
  have h1 := Chimp128.encLaws.compressLoop_rep vs Chimp128.inv_init BitWriter.rep_new
  have e1 := BitWriter.rep_length h1
  have e2 := Chimp128.size_nextAll Chimp128.inv_init vs
  rw [h2.2, h2.1]
  have e3 := Chimp128.encLaws.compressLoop_state Chimp128.Enc.new BitWriter.new vs
  have e4 : (after Chimp128.codec vs).1.size
      = (after Chimp128.codec vs).2.numberOfBitsWritten % 2 ^ 32 := by
    change (Chimp128.codec.compressLoop Chimp128.Enc.new BitWriter.new vs).1.size =
      (Chimp128.codec.compressLoop Chimp128.Enc.new BitWriter.new vs).2.numberOfBitsWritten % 2 ^ 32
    rw [e3, e2, e1]
    simp [Chimp128.Enc.new, Chimp128.addSize]
  rw [e4]
  change (_ % 2 ^ 32 + (Chimp128.emit (after Chimp128.codec vs).1 v).length) % 2 ^ 32
    = (_ + (Chimp128.emit (after Chimp128.codec vs).1 v).length) % 2 ^ 32
  omega

/-- So it is exact in a stream of fewer than `2^32` bits. -/
theorem c17_chimp128_partial (vs : List B64) (v : B64)
    (h : (after Chimp128.codec vs).2.numberOfBitsWritten + growth Chimp128.codec vs v < 2 ^ 32) :
    Chimp128.simulateAddValue (after Chimp128.codec vs).1 v
      = (after Chimp128.codec vs).2.numberOfBitsWritten + growth Chimp128.codec vs v := by
  rw [c17_chimp128_wraps, Nat.mod_eq_of_lt h]

/-- 1.0, 1.0 and then -2.5 stay below. -/
example : (after Chimp128.codec [0x3ff0000000000000#64, 0x3ff0000000000000#64]).2.numberOfBitsWritten
    + growth Chimp128.codec [0x3ff0000000000000#64, 0x3ff0000000000000#64] 0xc004000000000000#64
    < 2 ^ 32 := by decide +kernel

/-- Elf XOR layer: as for Gorilla. -/
theorem c17_elf_partial (vs : List B64) (v : B64) :
    ElfXor.simulateCompressFloat (after ElfXor.codec vs).1 v = growth ElfXor.codec vs v ∧
    (ElfXor.compressFloat (after ElfXor.codec vs).1 (after ElfXor.codec vs).2 v).2.2
      = growth ElfXor.codec vs v := by
  obtain ⟨h, hi⟩ := growth_eq ElfXor.encLaws vs v
  rw [h]
  exact ElfXor.simulate_eq hi _ v

/-! ## C18 (XOR codecs) -/

/-- Announced and actual size of a chunk. -/
def announced (C : XorCodec) (c : C.Compressor) (vs : List B64) : Nat :=
  C.totalBytesBuffered (C.compress c vs)

theorem c18_gorilla (c : Gorilla.codec.Compressor) (vs : List B64) :
    (chunkBytes Gorilla.codec c vs).length ≤ announced Gorilla.codec c vs ∧
    announced Gorilla.codec c vs ≤ (chunkBytes Gorilla.codec c vs).length + 1 :=
  Gorilla.encLaws.buffered_bound c vs

theorem c18_chimp (c : Chimp.codec.Compressor) (vs : List B64) :
    (chunkBytes Chimp.codec c vs).length ≤ announced Chimp.codec c vs ∧
    announced Chimp.codec c vs ≤ (chunkBytes Chimp.codec c vs).length + 1 :=
  Chimp.encLaws.buffered_bound c vs

/-- Chimp128 announces its size exactly, for chunks below 512 MiB. -/
theorem c18_chimp128_partial (c : Chimp128.codec.Compressor) (vs : List B64)
    (h : (chunkBytes Chimp128.codec c vs).length < 2 ^ 29) :
    Chimp128.totalBytesBuffered (Chimp128.codec.compress c vs)
      = (chunkBytes Chimp128.codec c vs).length :=
  Chimp128.buffered_exact c vs h

/-- Larger chunks are announced too small: the `u32` counter of bits has wrapped around. -/
theorem c18_chimp128_too_small (c : Chimp128.codec.Compressor) (vs : List B64)
    (h : 2 ^ 29 ≤ (chunkBytes Chimp128.codec c vs).length) :
    Chimp128.totalBytesBuffered (Chimp128.codec.compress c vs)
      < (chunkBytes Chimp128.codec c vs).length :=
  Nat.lt_of_lt_of_le (Chimp128.buffered_wraps c vs) h

/-- Such chunks exist: every chunk of `2^29` values or more, as a value takes at least 9 bits. -/
theorem c18_chimp128_violated (c : Chimp128.codec.Compressor) (vs : List B64) (h : 2 ^ 29 ≤ vs.length) :
    Chimp128.totalBytesBuffered (Chimp128.codec.compress c vs)
      < (chunkBytes Chimp128.codec c vs).length := by
  obtain ⟨n, h1, h2, -⟩ := Chimp128.buffered_eq c vs
  exact c18_chimp128_too_small c vs (by unfold chunkBytes; rw [h1]; omega)

/-- The over-estimate by one byte does happen: two equal values under Gorilla. -/
theorem c18_gorilla_over_estimates :
    announced Gorilla.codec Gorilla.codec.fresh [0x3ff0000000000000#64, 0x3ff0000000000000#64]
      = (chunkBytes Gorilla.codec Gorilla.codec.fresh
          [0x3ff0000000000000#64, 0x3ff0000000000000#64]).length + 1 := by decide +kernel

/-! ## C21 (XOR codecs) -/

/-- A used compressor and a fresh one agree on the next chunk. -/
def ReuseSafe (C : XorCodec) : Prop := ∀ (c : C.Compressor) (vs : List B64),
  chunkBytes C c vs = chunkBytes C C.fresh vs ∧
  announced C c vs = announced C C.fresh vs ∧
  (C.compress c vs).totalBytesIn = (C.compress C.fresh vs).totalBytesIn

theorem c21_gorilla_reuse : ReuseSafe Gorilla.codec := Gorilla.encLaws.reuse
theorem c21_chimp_reuse : ReuseSafe Chimp.codec := Chimp.encLaws.reuse
theorem c21_chimp128_reuse : ReuseSafe Chimp128.codec := Chimp128.encLaws.reuse

/-- The same for the announced size, for which Chimp128 has a function of its own. -/
theorem c21_chimp128_announced (c : Chimp128.codec.Compressor) (vs : List B64) :
    Chimp128.totalBytesBuffered (Chimp128.codec.compress c vs)
      = Chimp128.totalBytesBuffered (Chimp128.codec.compress Chimp128.codec.fresh vs) := by
  unfold Chimp128.totalBytesBuffered
  rw [(Chimp128.encLaws.compress_rep_all c vs).2.1,
    (Chimp128.encLaws.compress_rep_all Chimp128.codec.fresh vs).2.1]

/-! ## C46 -/

/-- Decoding an arbitrary byte string ends (the model's fuel never decides), the result is the one of
the unbounded iteration, and there are no more values than bits. -/
def Terminates (C : XorCodec) : Prop := ∀ bytes : List Byte,
  C.decompress bytes ≠ .outOfFuel ∧
  (∀ fuel, 8 * bytes.length < fuel →
    C.collect fuel C.dinit (BitReader.new bytes) = C.decompress bytes) ∧
  ∀ vs, C.decompress bytes = .ok vs → vs.length ≤ 8 * bytes.length

theorem terminates_of_progress {C : XorCodec} (hp : C.Progress) : Terminates C := by
  intro bytes
  have hl : (BitReader.new bytes).rest.length = 8 * bytes.length := by
    rw [BitReader.rest_new, bytesBits_length]
  have hw := BitReader.wf_new bytes
  have h := XorCodec.collect_total hp (8 * bytes.length + 1) C.dinit _ hw (by omega)
  rw [hl] at h
  refine ⟨h.1, fun fuel hf => ?_, h.2⟩
  exact XorCodec.collect_fuel hp _ _ _ _ hw (by omega) (by omega)

theorem c46_gorilla : Terminates Gorilla.codec := terminates_of_progress Gorilla.progress
theorem c46_chimp : Terminates Chimp.codec := terminates_of_progress Chimp.progress
theorem c46_chimp128 : Terminates Chimp128.codec := terminates_of_progress Chimp128.progress
theorem c46_elf_xor : Terminates ElfXor.codec := terminates_of_progress ElfXor.progress

end Ebi.Props
