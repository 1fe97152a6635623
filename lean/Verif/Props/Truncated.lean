import Verif.TruncatedBuff
import Verif.Props.ChunkReader
import Verif.Props.Elf
import Verif.Api

/-!
# C61: a chunk that is cut short

The loader reads as many bytes as the footer announces (`loadChunk`), so a reader gets fewer bytes than were
written when the footer announces too few or the offsets are wrong. What the readers do then: no scheme of the
repository decodes such a chunk to something else.
-/

namespace Ebi.Props

open Ebi

/-- The answer to query `q` of a new reader on these bytes. -/
def answerOf (E : Env) (id : SchemeId) (prec : Option Nat) (n off : Nat) (q : ChunkQuery) (chunk : List Byte) :
    Res Answer :=
  freshHandle id prec n chunk off >>= fun h => (h.exec E q).map Prod.fst

/-- Schemes whose decoder is a library. -/
def byLibrary (id : SchemeId) : Prop := id = .zstd ∨ id = .gzip ∨ id = .snappy ∨ id = .ffiAlp

theorem answerOf_eq (E : Env) (id : SchemeId) (prec : Option Nat) (n off : Nat) (q : ChunkQuery) (chunk : List Byte) :
    answerOf E id prec n off q chunk = AnyReader.new id n chunk >>= fun r =>
      ((match prec with
        | some p => r.withPrecision p
        | none => r).exec E off q).map Prod.fst := by
  unfold answerOf freshHandle Handle.exec
  cases AnyReader.new id n chunk with
  | ok r =>
    simp only [Res.bind_ok]
    generalize AnyReader.exec E (match prec with | some p => r.withPrecision p | none => r) off q = x
    cases x <;> rfl
  | err => rfl
  | panic => rfl

theorem answerOf_prefix (E : Env) {id : SchemeId} (hid : ¬byLibrary id) (hb : id ≠ .buff) (prec : Option Nat)
    (n off : Nat) (q : ChunkQuery) (a b : List Byte) :
    NotOther (answerOf E id prec n off q a) (answerOf E id prec n off q (a ++ b)) := by
  rw [answerOf_eq, answerOf_eq]
  have hx : ∀ {R : Type} (x y : Res (List B64 × R)) (mk : R → AnyReader), NotOther (x.map Prod.fst) (y.map Prod.fst) →
      NotOther (((x.map fun p => (p.1, mk p.2)).map fun p => (defaultAnswer E.o off p.1 q, p.2)).map Prod.fst)
        (((y.map fun p => (p.1, mk p.2)).map fun p => (defaultAnswer E.o off p.1 q, p.2)).map Prod.fst) := by
    intro R x y mk h
    have := h.map (fun vs => defaultAnswer E.o off vs q)
    cases x <;> cases y <;> exact this
  have hp : ∀ r : AnyReader, (∀ s, r ≠ .buff s) →
      (match prec with
      | some p => r.withPrecision p
      | none => r) = r := by
    intro r hr
    cases prec with
    | none => rfl
    | some p => cases r <;> first | rfl | exact absurd rfl (hr _)
  cases id with
  | uncompressed =>
    simp only [AnyReader.new, Res.bind_ok]
    rw [hp _ (by intro s; simp), hp _ (by intro s; simp)]
    exact hx _ _ _ (Uncompressed.decompress_prefix n a b)
  | rle =>
    have h := RunLength.decompress_prefix n a b
    simp only [AnyReader.new]
    cases h1 : RunLength.Reader.new n a with
    | err => exact .inl rfl
    | panic => exact absurd h1 (by unfold RunLength.Reader.new; split <;> simp)
    | ok r =>
      rw [h1] at h
      cases h2 : RunLength.Reader.new n (a ++ b) with
      | err =>
        rw [h2] at h
        simp only [Res.map_ok, Res.bind_ok]
        rw [hp _ (by intro s; simp)]
        simp only [Res.bind_ok] at h
        refine hx r.decompress (.err : Res (List B64 × RunLength.Reader)) AnyReader.rle ?_
        rcases h with h | h
        · exact .inl h
        · exact .inl h
      | panic => exact absurd h2 (by unfold RunLength.Reader.new; split <;> simp)
      | ok r' =>
        rw [h2] at h
        simp only [Res.map_ok, Res.bind_ok]
        rw [hp _ (by intro s; simp), hp _ (by intro s; simp)]
        exact hx _ _ _ h
  | gorilla =>
    simp only [AnyReader.new, Res.bind_ok]
    rw [hp _ (by intro s; simp), hp _ (by intro s; simp)]
    exact hx _ _ _ (XorCodec.Keeps.decompress_prefix (K := Gorilla.keeps) Gorilla.nextE_mono Gorilla.progress a b)
  | buff => exact absurd rfl hb
  | chimp =>
    simp only [AnyReader.new, Res.bind_ok]
    rw [hp _ (by intro s; simp), hp _ (by intro s; simp)]
    exact hx _ _ _ (XorCodec.Keeps.decompress_prefix (K := Chimp.keeps) Chimp.nextE_mono Chimp.progress a b)
  | chimp128 =>
    simp only [AnyReader.new, Res.bind_ok]
    rw [hp _ (by intro s; simp), hp _ (by intro s; simp)]
    exact hx _ _ _ (XorCodec.Keeps.decompress_prefix (K := Chimp128.keeps) Chimp128.nextE_mono Chimp128.progress a b)
  | elfOnChimp =>
    simp only [AnyReader.new, Res.bind_ok]
    rw [hp _ (by intro s; simp), hp _ (by intro s; simp)]
    exact hx _ _ _ (XorCodec.Keeps.decompress_prefix (K := Elf.keeps E.log10 Chimp.keeps)
      (Elf.nextEDec_mono E.log10 Chimp.nextE_mono) (Elf.progress E.log10 Chimp.progress) a b)
  | elf =>
    simp only [AnyReader.new, Res.bind_ok]
    rw [hp _ (by intro s; simp), hp _ (by intro s; simp)]
    exact hx _ _ _ (XorCodec.Keeps.decompress_prefix (K := Elf.keeps E.log10 ElfXor.keeps)
      (Elf.nextEDec_mono E.log10 ElfXor.nextE_mono) (Elf.progress E.log10 ElfXor.progress) a b)
  | deltaSprintz =>
    simp only [AnyReader.new, Res.bind_ok]
    rw [hp _ (by intro s; simp), hp _ (by intro s; simp)]
    have h := Sprintz.Reader.exec_prefix E.o off q n a b
    simp only [AnyReader.exec, Res.map_map]
    exact h
  | zstd => exact absurd (.inl rfl) hid
  | gzip => exact absurd (.inr (.inl rfl)) hid
  | snappy => exact absurd (.inr (.inr (.inl rfl))) hid
  | ffiAlp => exact absurd (.inr (.inr (.inr rfl))) hid

theorem answerOf_prefix_buff (E : Env) (prec : Option Nat) (n off : Nat) (q : ChunkQuery) (a b : List Byte) :
    Buff.Below (answerOf E .buff prec n off q a) (answerOf E .buff prec n off q (a ++ b)) := by
  rw [answerOf_eq, answerOf_eq]
  have e : ∀ c : List Byte, (match prec with
      | some p => (AnyReader.buff (Buff.Reader.new n c)).withPrecision p
      | none => .buff (Buff.Reader.new n c)) = .buff ⟨n, c, prec, none⟩ := by
    intro c
    cases prec <;> rfl
  simp only [AnyReader.new, Res.bind_ok]
  rw [e, e]
  have h := Buff.Reader.exec_prefix (a := a) (b := b) E.o E.useSimd off q n prec
  simp only [AnyReader.exec, Res.map_map]
  exact h

/-- Whatever the bytes (a whole chunk, or already a damaged one), wherever they are cut, whatever is asked: if a
new reader on the first `m` bytes answers, a new reader on all of them gives the same answer. So a cut is never
decoded to something else. -/
theorem c61_never_other (E : Env) {id : SchemeId} (hid : ¬byLibrary id) (prec : Option Nat) (n off : Nat)
    (q : ChunkQuery) (chunk : List Byte) (m : Nat) {v : Answer}
    (h : answerOf E id prec n off q (chunk.take m) = .ok v) : answerOf E id prec n off q chunk = .ok v := by
  by_cases hb : id = .buff
  · subst hb
    have := answerOf_prefix_buff E prec n off q (chunk.take m) (chunk.drop m)
    rw [List.take_append_drop, h] at this
    rcases this with h1 | h1 | h1
    · cases h1
    · cases h1
    · exact h1.symm
  · have := answerOf_prefix E hid hb prec n off q (chunk.take m) (chunk.drop m)
    rw [List.take_append_drop, h] at this
    rcases this with h1 | h1
    · cases h1
    · exact h1.symm

/-- Except for BUFF: if the whole chunk answers, the cut one reports an error or gives that answer; it does not
panic.

Partial: BUFF panics (`c61_buff_panics`), and ALP hands out what the binding leaves in the buffer (C58). -/
theorem c61_reported_partial (E : Env) {id : SchemeId} (hid : ¬byLibrary id) (hb : id ≠ .buff) (prec : Option Nat)
    (n off : Nat) (q : ChunkQuery) (chunk : List Byte) (m : Nat) {v : Answer}
    (h : answerOf E id prec n off q chunk = .ok v) :
    answerOf E id prec n off q (chunk.take m) = .err ∨ answerOf E id prec n off q (chunk.take m) = .ok v := by
  have := answerOf_prefix E hid hb prec n off q (chunk.take m) (chunk.drop m)
  rw [List.take_append_drop, h] at this
  exact this

/-! ## Where the cut of a written chunk shows -/

/-- What the cuts of a written chunk decode to: there is a number of bits `N`, filling the chunk but for the last bit
and the padding, such that a piece that holds them decodes to all the values and every other piece is an error. -/
def CutsShow (decode : List Byte → Res (List B64)) (chunk : List Byte) (vs : List B64) : Prop :=
  ∃ N, chunk.length = N / 8 + 1 ∧
    ∀ m, m ≤ chunk.length → decode (chunk.take m) = if N ≤ 8 * m then .ok vs else .err

theorem cutsShow_xor {C : XorCodec} (L : C.Laws) (K : C.Keeps) (h : ∀ d, Mono (K.nextE d)) (hp : C.Progress)
    (c : C.Compressor) (vs : List B64) (hok : ∀ v ∈ vs, L.Ok v) :
    CutsShow (fun bs => (C.decompress bs).toRes) (chunkBytes C c vs) vs := by
  obtain ⟨N, h1, h2⟩ := L.decompress_cut K h hp c vs hok
  refine ⟨N, h1, fun m hm => ?_⟩
  have := h2 m hm
  unfold chunkBytes
  simp only
  rw [this]
  split <;> rfl

/-- The XOR schemes, for values they carry (C05–C09). -/
theorem c61_xor_cuts (lg : B64 → B64) (vs : List B64) :
    ((∀ v ∈ vs, v ≠ reserved) →
      (∀ c, CutsShow (fun bs => (Gorilla.codec.decompress bs).toRes) (chunkBytes Gorilla.codec c vs) vs) ∧
      (∀ c, CutsShow (fun bs => (Chimp.codec.decompress bs).toRes) (chunkBytes Chimp.codec c vs) vs) ∧
      (∀ c, CutsShow (fun bs => (Chimp128.codec.decompress bs).toRes) (chunkBytes Chimp128.codec c vs) vs)) ∧
    ((∀ v ∈ vs, ElfRange v) →
      (∀ c, CutsShow (fun bs => ((Elf.elf lg).decompress bs).toRes) (chunkBytes (Elf.elf lg) c vs) vs) ∧
      (∀ c, CutsShow (fun bs => ((Elf.elfOnChimp lg).decompress bs).toRes) (chunkBytes (Elf.elfOnChimp lg) c vs) vs)) :=
  ⟨fun h => ⟨fun c => cutsShow_xor Gorilla.laws Gorilla.keeps Gorilla.nextE_mono Gorilla.progress c vs h,
    fun c => cutsShow_xor Chimp.laws Chimp.keeps Chimp.nextE_mono Chimp.progress c vs h,
    fun c => cutsShow_xor Chimp128.laws Chimp128.keeps Chimp128.nextE_mono Chimp128.progress c vs h⟩,
   fun h => ⟨fun c => cutsShow_xor (Elf.laws lg ElfXor.laws) (Elf.keeps lg ElfXor.keeps)
      (Elf.nextEDec_mono lg ElfXor.nextE_mono) (Elf.progress lg ElfXor.progress) c vs
      fun v hv => elfRange_carries lg (h v hv),
    fun c => cutsShow_xor (Elf.laws lg Chimp.laws) (Elf.keeps lg Chimp.keeps)
      (Elf.nextEDec_mono lg Chimp.nextE_mono) (Elf.progress lg Chimp.progress) c vs
      fun v hv => elfRange_carries lg (h v hv)⟩⟩

/-- What `CutsShow` says about whole bytes: two missing bytes are always reported; one missing byte is reported, or
all values are there (the byte held only the last closing bit and padding). -/
theorem c61_two_bytes {decode : List Byte → Res (List B64)} {chunk : List Byte} {vs : List B64}
    (h : CutsShow decode chunk vs) :
    (∀ m, m + 2 ≤ chunk.length → decode (chunk.take m) = .err) ∧
    (decode (chunk.take (chunk.length - 1)) = .err ∨ decode (chunk.take (chunk.length - 1)) = .ok vs) ∧
    decode chunk = .ok vs := by
  obtain ⟨N, h1, h2⟩ := h
  refine ⟨fun m hm => ?_, ?_, ?_⟩
  · rw [h2 m (by omega), if_neg (by omega)]
  · rw [h2 _ (Nat.sub_le _ _)]
    split
    · exact .inr rfl
    · exact .inl rfl
  · have := h2 chunk.length (Nat.le_refl _)
    rwa [List.take_length, if_pos (by omega)] at this

/-- Both happen: without its last byte, a Gorilla chunk of 1.0 is reported, a Chimp chunk of 1.0 decodes. -/
example : (Gorilla.codec.decompress ((chunkBytes Gorilla.codec Gorilla.codec.fresh [0x3ff0000000000000#64]).take 11)).toRes
      = .err ∧
    (Chimp.codec.decompress ((chunkBytes Chimp.codec Chimp.codec.fresh [0x3ff0000000000000#64]).take 11)).toRes
      = .ok [0x3ff0000000000000#64] ∧
    (chunkBytes Gorilla.codec Gorilla.codec.fresh [0x3ff0000000000000#64]).length = 12 ∧
    (chunkBytes Chimp.codec Chimp.codec.fresh [0x3ff0000000000000#64]).length = 12 := by
  decide +kernel

/-- 1.0, -2.5 and 0.0 are carried by all five. -/
example : (∀ v ∈ [0x3ff0000000000000#64, 0xc004000000000000#64, 0#64], v ≠ reserved) ∧
    ∀ v ∈ [0x3ff0000000000000#64, 0xc004000000000000#64, 0#64], ElfRange v := by
  refine ⟨by simp [reserved], fun v hv => ?_⟩
  simp only [List.mem_cons, List.not_mem_nil, or_false] at hv
  rcases hv with rfl | rfl | rfl
  · exact .inr (.inr (by decide +kernel))
  · exact .inr (.inr (by decide +kernel))
  · exact .inl (by decide +kernel)

/-- Uncompressed: every missing byte is reported. -/
theorem c61_uncompressed_cuts (c : Uncompressed.Comp) (vs : List B64) {m : Nat}
    (hm : m < ((c.reset.compress vs).prepare.buffers).length) :
    Uncompressed.scheme.decode vs.length ((c.reset.compress vs).prepare.buffers.take m) = .err := by
  have e : (((c.reset).compress vs).prepare).buffers = ofF64s vs := by
    simp [Uncompressed.Comp.compress, Uncompressed.Comp.prepare, Uncompressed.Comp.buffers, Uncompressed.Comp.reset]
  rw [e] at hm ⊢
  exact Uncompressed.decompress_cut vs hm

/-- Run length: every missing byte is reported. -/
theorem c61_rle_cuts (c c' : RunLength.Comp) (vs : List B64) (hv : vs ≠ []) (hl : vs.length < 2 ^ 64)
    (h : c.reset.compress vs = .ok c') {m : Nat} (hm : m < c'.prepare.buffers.length) :
    RunLength.scheme.decode vs.length (c'.prepare.buffers.take m) = .err := by
  obtain ⟨c2, h1, h2⟩ := RunLength.rep_append (RunLength.rep_reset c.reset) vs (by simpa using hv)
  rw [show c.reset.reset.append vs = c.reset.compress vs from rfl, h] at h1
  cases h1
  rw [List.nil_append] at h2
  rw [(RunLength.rep_buffers h2).1] at hm ⊢
  have := RunLength.length_runsOf_le vs
  exact RunLength.decompress_cut vs.length _ (by omega) hm

/-- DeltaSprintz: every missing byte is reported. -/
theorem c61_sprintz_cuts (o : FloatOps) (scale : Nat) (c c' : Sprintz.Comp) (vs : List B64)
    (h : c.compress o vs = .ok c') {m : Nat} (hm : m < c'.prepare.buffers.length) :
    (Sprintz.scheme o scale).decode vs.length (c'.prepare.buffers.take m) = .err := by
  by_cases hv : vs = []
  · subst hv
    unfold Sprintz.Comp.compress Sprintz.writeQuantized at h
    simp at h
  · obtain ⟨c2, h1, h2, -, -⟩ := Sprintz.compress_ok o c vs hv
    rw [h] at h1
    cases h1
    have := Sprintz.decompress_cut o h2 (m := m) hm
    rwa [List.length_map] at this

/-- BUFF: every missing byte panics: the plain decoder unwraps what its bit reader reports. -/
theorem c61_buff_panics (o : FloatOps) (lg : Nat → Nat) (scale : Nat) (c c' : Buff.Comp) (vs : List B64)
    (hl : vs.length < 2 ^ 32) (hF : ∀ F, Buff.fractionBits lg c.scale = some F → F < 2 ^ 32)
    (h : c.compress lg vs = .ok c') {m : Nat} (hm : m < c'.buffers.length) :
    (Buff.scheme o lg scale).decode vs.length (c'.buffers.take m) = .panic := by
  unfold Buff.Comp.compress at h
  cases e : Buff.fractionBits lg c.scale with
  | none => rw [e] at h; cases h
  | some F =>
    rw [e] at h
    simp only at h
    by_cases hv : vs = []
    · subst hv
      cases h
    · obtain ⟨base, bits, h1, -, h3, h4⟩ := Buff.encode_eq (vs.map fun v => Buff.intoFixed v F) F (by simpa using hv)
        (by simpa using hl) (hF F e)
      rw [h1] at h
      cases h
      have hs : Buff.Stored (Buff.layout base F bits ((vs.map fun v => Buff.intoFixed v F).map fun x => (x - base).toNat))
          base F bits ((vs.map fun v => Buff.intoFixed v F).map fun x => (x - base).toNat) :=
        ⟨rfl, by simpa using hl, hF F e, h3, by
          intro d hd
          obtain ⟨x, hx, rfl⟩ := List.mem_map.1 hd
          exact h4 x hx⟩
      have := hs.decode_cut o (m := m) hm
      unfold Buff.scheme Buff.Reader.decompress Buff.Reader.new
      simp only [Buff.Comp.buffers, Option.getD_some] at this ⊢
      rw [this]
      rfl

/-- Zstd, Gzip and Snappy: reported if the library rejects the bytes. -/
theorem c61_library_cuts (k : External.ByteCodec) (n : Nat) (bs : List Byte) (h : k.dec bs = none) :
    (External.zstdScheme k).decode n bs = .err ∧ (External.exactScheme k).decode n bs = .err := by
  constructor
  · show External.decodeZstd k n bs = .err
    unfold External.decodeZstd
    rw [h]
  · show External.decodeExact k n bs = .err
    unfold External.decodeExact
    rw [h]

/-- If a library decodes the shorter bytes to fewer values instead, Gzip and Snappy still report it, and Zstd
returns zeros in the place of the values that are missing. -/
theorem c61_zstd_zeros (k : External.ByteCodec) {n : Nat} {bs : List Byte} {us : List B64} (h : k.dec bs = some (ofF64s us))
    (hl : us.length < n) :
    (External.exactScheme k).decode n bs = .err ∧
    (External.zstdScheme k).decode n bs = .ok (us ++ List.replicate (n - us.length) 0#64) := by
  constructor
  · show External.decodeExact k n bs = .err
    unfold External.decodeExact
    rw [h]
    simp only [ofF64s_length]
    rw [if_pos (by omega)]
  · show External.decodeZstd k n bs = _
    unfold External.decodeZstd
    rw [h]
    simp only [ofF64s_length]
    rw [if_neg (by omega)]
    have : List.replicate (8 * n - 8 * us.length) 0#8 = ofF64s (List.replicate (n - us.length) 0#64) := by
      rw [← Nat.mul_sub]
      generalize n - us.length = j
      induction j with
      | zero => rfl
      | succ j ih =>
        rw [Nat.mul_succ, Nat.add_comm, ← List.replicate_append_replicate, ih, List.replicate_succ]
        rfl
    rw [this]
    have e : ofF64s us ++ ofF64s (List.replicate (n - us.length) 0#64) = ofF64s (us ++ List.replicate (n - us.length) 0#64) := by
      simp [ofF64s]
    rw [e, toF64s_ofF64s]

/-! ## Witnesses -/

/-- A BUFF chunk of three records: without its last byte `materialize` panics, `sum` reports, and `min`, which never
needs that byte, answers as before; without two bytes `sum` panics. -/
theorem c61_buff_witness : ∃ bytes, Buff.encode [48#64, -72#64, 319#64] 5 = .ok bytes ∧
    answerOf sampleEnv .buff none 3 0 (.materialize none) (bytes.take (bytes.length - 1)) = .panic ∧
    answerOf sampleEnv .buff none 3 0 (.sum none) (bytes.take (bytes.length - 1)) = .err ∧
    answerOf sampleEnv .buff none 3 0 (.min none) (bytes.take (bytes.length - 1))
      = answerOf sampleEnv .buff none 3 0 (.min none) bytes ∧
    answerOf sampleEnv .buff none 3 0 (.sum none) (bytes.take (bytes.length - 2)) = .panic := by
  refine ⟨(match Buff.encode [48#64, -72#64, 319#64] 5 with | .ok b => b | _ => []), ?_⟩
  decide +kernel

/-- `c61_never_other` has cases where the cut chunk answers: DeltaSprintz looks for record 0 only, and an
uncompressed chunk is longer than its record. -/
example :
    (((Sprintz.Comp.new 100).compress Soft.ops [0x3ff8000000000000#64, 0x4002000000000000#64]).bind fun c =>
      answerOf sampleEnv .deltaSprintz none 2 0 (.sum (some [0])) (c.prepare.buffers.take (c.prepare.buffers.length - 1)))
      = .ok (.number 0x3ff8000000000000#64) ∧
    answerOf sampleEnv .uncompressed none 1 0 (.max none) ((ofF64s [0x3ff8000000000000#64, 0#64]).take 9)
      = .ok (.number 0x3ff8000000000000#64) := by
  decide +kernel

/-- The hypotheses of `c61_reported_partial` and `c61_rle_cuts` on a chunk of three records. -/
example : ∃ c', RunLength.Comp.new.reset.compress [0#64, 0#64, 0x3ff8000000000000#64] = .ok c' ∧
    c'.prepare.buffers.length = 26 ∧
    answerOf sampleEnv .rle none 3 0 (.max none) c'.prepare.buffers = .ok (.number 0x3ff8000000000000#64) ∧
    answerOf sampleEnv .rle none 3 0 (.max none) (c'.prepare.buffers.take 25) = .err := by
  refine ⟨(match RunLength.Comp.new.reset.compress [0#64, 0#64, 0x3ff8000000000000#64] with
    | .ok c => c | _ => RunLength.Comp.new), ?_⟩
  decide +kernel

/-- A library as in `c61_zstd_zeros`: one that decodes whatever is there. -/
example : sampleEnv.zstd.dec ((ofF64s [0x3ff8000000000000#64, 0x4002000000000000#64]).take 8)
    = some (ofF64s [0x3ff8000000000000#64]) ∧
    answerOf sampleEnv .zstd none 2 0 (.min none) ((ofF64s [0x3ff8000000000000#64, 0x4002000000000000#64]).take 8)
      = .ok (.number 0#64) := by
  decide +kernel

end Ebi.Props
