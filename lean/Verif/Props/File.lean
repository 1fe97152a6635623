import Verif.FileLemmas
import Verif.SoftFloat

/-!
# Encoded files: C23-C29, C47, C48

`Args` are the arguments of one run of the encoder, `Args.Valid` says that they are representable (as
they are in Rust), that the chunk option asks for at least one record per chunk and that the input only
makes short reads. A scheme enters through `Scheme.Law S view Ok maxLen`; `Schemes.lean` proves it for
each modelled scheme, the corollaries below instantiate it.
-/

namespace Ebi.Props

open Ebi

/-! ## C23, C27: round trip -/

/-- Any input holding at least one record: the encoder produces a file, the decoder opens it, and
materializing everything outputs the original bytes up to the last complete record (all of them when
the length is a multiple of 8). -/
theorem c23_file_round_trip {S : Scheme} {Ok : B64 → Prop} {maxLen : Nat} (L : S.Law id Ok maxLen)
    (a : Args) (ha : a.Valid) (hok : ∀ v ∈ a.records, Ok v) (hlen : a.records.length < maxLen)
    (hne : 8 ≤ a.src.data.length) (o : FloatOps) :
    ∃ file, a.encode S = some (.ok file) ∧
      (file.length < 2 ^ 63 → ∃ m out, openFile file = .ok m ∧
        Query.materialize S (defaultOps o S.decode) file m none none = .ok out ∧
        outputBytes out = a.src.data.take (a.src.data.length / 8 * 8) ∧
        (a.src.data.length % 8 = 0 → outputBytes out = a.src.data)) := by
  obtain ⟨cs, h1, h2, h3, h4, h5, h6⟩ := a.opened ha L hok hlen
  refine ⟨_, h1, fun hl => ?_⟩
  obtain ⟨hf, hopen⟩ := h6 hl
  have hr : a.records ≠ [] := by
    intro e
    have := a.records_length
    rw [e, List.length_nil] at this
    omega
  have hm := materialize_layout (a := a) hf S (ops := defaultOps o S.decode) (view := id) none
    (Or.inl rfl) (fun p hp off => by
      simp only [defaultOps, (h3 p hp).1, Res.map])
  rw [defaultMaterialize_none, List.map_id, h4] at hm
  have ho : outputBytes a.records = a.src.data.take (a.src.data.length / 8 * 8) := ofF64s_toF64s_take _
  refine ⟨_, _, hopen hr, hm, ho, fun h8 => ?_⟩
  rw [ho, List.take_of_length_le (by omega)]

/-- C27: the file holds exactly the complete records, whatever the input length. -/
theorem c27_trailing_partial_record {S : Scheme} {Ok : B64 → Prop} {maxLen : Nat}
    (L : S.Law id Ok maxLen) (a : Args) (ha : a.Valid) (hok : ∀ v ∈ a.records, Ok v)
    (hlen : a.records.length < maxLen) (hne : 8 ≤ a.src.data.length) (o : FloatOps) :
    ∃ file, a.encode S = some (.ok file) ∧
      (file.length < 2 ^ 63 → ∃ m out, openFile file = .ok m ∧
        m.footer.records = a.src.data.length / 8 ∧
        Query.materialize S (defaultOps o S.decode) file m none none = .ok out ∧
        out.length = a.src.data.length / 8) := by
  obtain ⟨cs, h1, h2, h3, h4, h5, h6⟩ := a.opened ha L hok hlen
  refine ⟨_, h1, fun hl => ?_⟩
  obtain ⟨hf, hopen⟩ := h6 hl
  have hr : a.records ≠ [] := by
    intro e
    have := a.records_length
    rw [e, List.length_nil] at this
    omega
  have hm := materialize_layout (a := a) hf S (ops := defaultOps o S.decode) (view := id) none
    (Or.inl rfl) (fun p hp off => by
      simp only [defaultOps, (h3 p hp).1, Res.map])
  rw [defaultMaterialize_none, List.map_id, h4] at hm
  refine ⟨_, _, hopen hr, ?_, hm, a.records_length⟩
  show recordCount cs = _
  rw [h5, a.records_length]

/-! ### The lossless schemes -/

/-- The modelled lossless schemes with the values they accept. The external libraries are assumed
lossless. -/
inductive LosslessScheme : Scheme → (B64 → Prop) → Prop
  | uncompressed : LosslessScheme Uncompressed.scheme (fun _ => True)
  | rle : LosslessScheme RunLength.scheme (fun _ => True)
  | gorilla : LosslessScheme (Gorilla.codec.scheme false) (fun v => v ≠ nanBits)
  | chimp : LosslessScheme (Chimp.codec.scheme false) (fun v => v ≠ nanBits)
  | chimp128 : LosslessScheme (Chimp128.codec.scheme true) (fun v => v ≠ nanBits)
  | zstd (k : External.ByteCodec) : k.Lossless → LosslessScheme (External.zstdScheme k) (fun _ => True)
  | gzip (k : External.ByteCodec) : k.Lossless → LosslessScheme (External.exactScheme k) (fun _ => True)
  | snappy (k : External.ByteCodec) : k.Lossless →
      LosslessScheme (External.exactScheme k) (fun _ => True)
  | alp (k : External.ValueCodec) : k.Lossless → LosslessScheme (External.alpScheme k) (fun _ => True)

theorem LosslessScheme.law {S : Scheme} {Ok : B64 → Prop} (h : LosslessScheme S Ok) :
    S.Law id Ok (2 ^ 64) := by
  cases h with
  | uncompressed => exact Uncompressed.schemeLaw _
  | rle => exact RunLength.schemeLaw
  | gorilla => exact Gorilla.laws.schemeLaw _ _
  | chimp => exact Chimp.laws.schemeLaw _ _
  | chimp128 => exact Chimp128.laws.schemeLaw _ _
  | zstd k h => exact External.zstdLaw h _
  | gzip k h => exact External.exactLaw h _
  | snappy k h => exact External.exactLaw h _
  | alp k h => exact External.alpLaw h _

/-- The round trip for each of them; no bound on the record count remains. -/
theorem c23_lossless_schemes {S : Scheme} {Ok : B64 → Prop} (h : LosslessScheme S Ok)
    (a : Args) (ha : a.Valid) (hok : ∀ v ∈ a.records, Ok v) (hne : 8 ≤ a.src.data.length)
    (o : FloatOps) :
    ∃ file, a.encode S = some (.ok file) ∧
      (file.length < 2 ^ 63 → ∃ m out, openFile file = .ok m ∧
        Query.materialize S (defaultOps o S.decode) file m none none = .ok out ∧
        outputBytes out = a.src.data.take (a.src.data.length / 8 * 8) ∧
        (a.src.data.length % 8 = 0 → outputBytes out = a.src.data)) :=
  c23_file_round_trip h.law a ha hok
    (by have := a.records_length; have := ha.small; omega) hne o

/-- Arguments for the examples: three records and a partial one in three short reads, two records per
chunk. -/
def sampleArgs : Args where
  cfg := .gorilla 1000#64
  opt := .recordCount 2
  version := (0, 1, 0)
  times := Times.zero
  elapsed := ⟨1, 500⟩
  src := [.bytes [1#8, 2#8, 3#8], .bytes (List.replicate 20 7#8), .bytes [9#8, 9#8, 9#8]]

theorem sampleArgs_valid : sampleArgs.Valid := by
  refine ⟨by simp [sampleArgs, ChunkOption.Positive],
    by simp [sampleArgs, ChunkOption.WF, ChunkOption.value], by decide, by decide, by decide, ?_, ?_,
    ?_, by simp [sampleArgs, Source.data]⟩
  · simp [sampleArgs, Times.WF, Times.zero, Duration.WF]
  · simp [sampleArgs, Duration.WF]
  · simp [sampleArgs, Source.Clean]

example : LosslessScheme (Gorilla.codec.scheme false) (fun v => v ≠ nanBits) ∧ sampleArgs.Valid ∧
    (∀ v ∈ sampleArgs.records, v ≠ nanBits) ∧ 8 ≤ sampleArgs.src.data.length ∧
    sampleArgs.records.length = 3 := by
  refine ⟨.gorilla, sampleArgs_valid, ?_, by decide +kernel, by decide +kernel⟩
  have : sampleArgs.records = [0x0707070707030201#64, 0x0707070707070707#64, 0x0907070707070707#64] := by
    decide +kernel
  rw [this]
  simp [nanBits]

/-! ## C24, C25: the chunk directory -/

/-- Every encoded file splits the records into non-empty chunks; the directory describes exactly this
split, and the chunks' regions tile the file from the header to the footer. -/
theorem c24_directory {S : Scheme} {view : B64 → B64} {Ok : B64 → Prop} {maxLen : Nat}
    (L : S.Law view Ok maxLen) (a : Args) (ha : a.Valid) (hok : ∀ v ∈ a.records, Ok v)
    (hlen : a.records.length < maxLen) (hne : 8 ≤ a.src.data.length) :
    ∃ file, a.encode S = some (.ok file) ∧
      (file.length < 2 ^ 63 → ∃ m, ∃ chunks : List (List B64), openFile file = .ok m ∧
        chunks.flatten = a.records ∧ (∀ c ∈ chunks, c ≠ []) ∧
        m.footer.records = a.records.length ∧
        m.footer.chunks = chunks.length ∧ m.footer.chunkFooters.length = chunks.length ∧
        ∀ (i : Nat) (c : List B64), chunks[i]? = some c → ∃ f size,
          m.footer.chunkFooters[i]? = some f ∧
          f.logical = (chunks.take i).flatten.length ∧ m.numberOfRecords i = .ok c.length ∧
          (i = 0 → f.physical = 30) ∧ m.chunkSize i = .ok size ∧
          (∀ g, m.footer.chunkFooters[i + 1]? = some g →
            f.physical + size = g.physical ∧ f.logical + c.length = g.logical) ∧
          (i + 1 = chunks.length → f.physical + size = m.header.footerOffset ∧
            f.logical + c.length = m.footer.records)) := by
  obtain ⟨cs, h1, h2, h3, h4, h5, h6⟩ := a.opened ha L hok hlen
  refine ⟨_, h1, fun hl => ?_⟩
  obtain ⟨hf, hopen⟩ := h6 hl
  have hr : a.records ≠ [] := by
    intro e
    have := a.records_length
    rw [e, List.length_nil] at this
    omega
  refine ⟨_, cs.map Prod.fst, hopen hr, h2.flatten, h2.ne_nil ha.positive, h5, by simp [Args.metadata, metadataOf],
    by simp [Args.metadata, metadataOf, stored_length], ?_⟩
  intro i c hc
  rw [List.getElem?_map] at hc
  obtain ⟨⟨c', b⟩, hcs, rfl⟩ := Option.map_eq_some_iff.1 hc
  obtain ⟨hlt, hge⟩ := List.getElem?_eq_some_iff.1 hcs
  have hsplit : cs = cs.take i ++ (c', b) :: cs.drop (i + 1) := by
    rw [← hge, ← List.drop_eq_getElem_cons hlt, List.take_append_drop]
  have hi : (cs.take i).length = i := by rw [List.length_take]; omega
  generalize hpre : cs.take i = pre at hsplit hi
  generalize hsuf : cs.drop (i + 1) = suf at hsplit
  have hcnt : ((cs.map Prod.fst).take i).flatten.length = recordCount pre := by
    rw [← List.map_take, hpre, recordCount, List.flatMap_def]
  have hlen' : i + 1 = (cs.map Prod.fst).length ↔ suf = [] := by
    have := congrArg List.length hsplit
    simp only [List.length_append, List.length_cons] at this
    rw [List.length_map, ← List.length_eq_zero_iff]
    omega
  rw [hcnt, hlen']
  clear hcnt hpre hsuf hlen' hlt hge hcs hc h2 h3 h4 h5 h6 h1 hl hopen
  subst hi
  have hf' : Fits a.cfg a.opt a.version a.times a.elapsed (pre ++ (c', b) :: suf) := hsplit ▸ hf
  obtain ⟨s1, s2⟩ := sizes_layout hf'
  have n := next_layout (cfg := a.cfg) (opt := a.opt) (version := a.version) (times := a.times)
    (elapsed := a.elapsed) (pre := pre) (suf := suf) (c := c') (b := b)
  rw [hsplit]
  refine ⟨⟨headerSize + (blobs pre).length, recordCount pre⟩, b.length, stored_getElem pre c' b suf, rfl,
    s2, ?_, s1, ?_, ?_⟩
  · intro h0
    rw [List.length_eq_zero_iff.1 h0]
    rfl
  · intro g hg
    have hg' : (Args.metadata a (pre ++ (c', b) :: suf)).footer.chunkFooters[pre.length + 1]? = some g := hg
    obtain ⟨n1, n2⟩ := n
    simp only [Metadata.nextPhysical, Metadata.nextLogical] at n1 n2
    have hm : metadataOf a.cfg a.opt a.version a.times a.elapsed (pre ++ (c', b) :: suf)
      = Args.metadata a (pre ++ (c', b) :: suf) := rfl
    rw [hm, hg'] at n1 n2
    exact ⟨n1.symm, n2.symm⟩
  · intro hs
    subst hs
    simp only [Args.metadata, metadataOf, blobs_append, recordCount_append, blobs_cons, recordCount_cons,
      List.length_append]
    simp [blobs, recordCount]
    omega

example : sampleArgs.Valid ∧ 8 ≤ sampleArgs.src.data.length ∧
    (Sprintz.scheme Soft.ops 100).Law (Sprintz.view Soft.ops 100) (fun _ => True) (2 ^ 64) :=
  ⟨sampleArgs_valid, by decide +kernel, Sprintz.schemeLaw _ _ _⟩

/-- With the record-count option every chunk but the last holds exactly `c` records, the last between
one and `c`; `ByteSize b` does the same with `c = ⌈3b/16⌉`; `Full` puts everything into one chunk. Missing
from the full statement: options that ask for nothing (`RecordCount(0)`, `ByteSize(0)`) or for `2^63` bytes and
more (`a.Valid` excludes both), for which it is false, see below. -/
theorem c25_chunk_sizes_partial {S : Scheme} {view : B64 → B64} {Ok : B64 → Prop} {maxLen : Nat}
    (L : S.Law view Ok maxLen) (a : Args) (ha : a.Valid) (hok : ∀ v ∈ a.records, Ok v)
    (hlen : a.records.length < maxLen) (hne : 8 ≤ a.src.data.length) :
    ∃ file, a.encode S = some (.ok file) ∧
      (file.length < 2 ^ 63 → ∃ m, openFile file = .ok m ∧
        (∀ c, a.opt = .recordCount c ∨ (∃ b, a.opt = .byteSize b ∧ c = (3 * b + 15) / 16) →
          (∀ i, i + 1 < m.footer.chunks → m.numberOfRecords i = .ok c) ∧
          (∀ i, i < m.footer.chunks → ∃ n, m.numberOfRecords i = .ok n ∧ 1 ≤ n ∧ n ≤ c) ∧
          (m.footer.chunks - 1) * c < a.records.length ∧ a.records.length ≤ m.footer.chunks * c) ∧
        (a.opt = .full → m.footer.chunks = 1 ∧ m.numberOfRecords 0 = .ok a.records.length)) := by
  obtain ⟨cs, h1, h2, h3, h4, h5, h6⟩ := a.opened ha L hok hlen
  refine ⟨_, h1, fun hl => ?_⟩
  obtain ⟨hf, hopen⟩ := h6 hl
  have hr : a.records ≠ [] := by
    intro e
    have := a.records_length
    rw [e, List.length_nil] at this
    omega
  have hnum : ∀ i c', (cs.map Prod.fst)[i]? = some c' →
      (a.metadata cs).numberOfRecords i = .ok c'.length := by
    intro i c hc
    rw [List.getElem?_map] at hc
    obtain ⟨⟨c', b⟩, hcs, rfl⟩ := Option.map_eq_some_iff.1 hc
    obtain ⟨hlt, hge⟩ := List.getElem?_eq_some_iff.1 hcs
    have hsplit : cs = cs.take i ++ (c', b) :: cs.drop (i + 1) := by
      rw [← hge, ← List.drop_eq_getElem_cons hlt, List.take_append_drop]
    have hi : (cs.take i).length = i := by rw [List.length_take]; omega
    generalize cs.take i = pre at hsplit hi
    generalize cs.drop (i + 1) = suf at hsplit
    subst hi
    rw [hsplit]
    exact (sizes_layout (hsplit ▸ hf)).2
  have hcount : (a.metadata cs).footer.chunks = (cs.map Prod.fst).length := by
    simp [Args.metadata, metadataOf]
  refine ⟨_, hopen hr, ?_, ?_⟩
  · intro c hc
    have hk : a.opt.recordsPerChunk = some c := by
      rcases hc with hc | ⟨b, hb, rfl⟩
      · rw [hc]; rfl
      · rw [hb]; rfl
    have hpos : 0 < c := ha.positive.pos hk
    rw [hk] at h2
    obtain ⟨s1, s2, s3⟩ := h2.sizes hpos
    rw [hcount]
    refine ⟨?_, ?_, ?_⟩
    · intro i hi
      have := s1 i hi
      obtain ⟨x, hx, hxl⟩ := Option.map_eq_some_iff.1 this
      rw [hnum i x hx, hxl]
    · intro i hi
      obtain ⟨b1, b2⟩ := s2 i _ (List.getElem?_eq_getElem hi)
      exact ⟨_, hnum i _ (List.getElem?_eq_getElem hi), b1, b2⟩
    · have hp := List.length_pos_iff.2 hr
      rw [s3]
      generalize a.records.length = n at *
      have e := Nat.div_add_mod (n + c - 1) c
      have m := Nat.mod_lt (n + c - 1) hpos
      generalize (n + c - 1) % c = r at *
      generalize (n + c - 1) / c = q at *
      rw [Nat.sub_mul, Nat.one_mul, Nat.mul_comm q c]
      omega
  · intro hfull
    rw [hfull] at h2
    have := Split.full h2 hr
    rw [hcount, this]
    exact ⟨rfl, hnum 0 _ (by rw [this]; rfl)⟩

/-- An option whose byte count is a multiple of `2^64` silently drops the whole input: the file is the one of
the empty input, whatever the scheme. -/
theorem c25_zero_drops (S : Scheme) (a : Args)
    (h : (∃ c, a.opt = .recordCount c ∧ c % 2 ^ 61 = 0) ∨ a.opt = .byteSize 0) :
    a.encode S = Args.encode { a with src := [] } S := by
  have h0 : a.opt.bytesPerChunk = some 0 := by
    rcases h with ⟨c, h1, h2⟩ | h1
    · rw [h1, ChunkOption.bytesPerChunk, Option.some.injEq]
      omega
    · rw [h1, ChunkOption.bytesPerChunk, estimateRecords_eq (by decide)]
  have hr : ∀ src, readChunk a.opt src = .ok ([], src) := by
    intro src
    rw [readChunk, h0]
    rfl
  have key : ∀ (fuel : Nat) (c : Option S.Comp) (w : FileWriter), w.reachesEof = false →
      encodeLoop S a.opt (fuel + 2) c w = some (.ok { w with reachesEof := true }) := by
    intro fuel c w hw
    rw [encodeLoop, hw, if_neg Bool.false_ne_true, FileWriter.writeChunk, hr]
    simp only [Res.bind_ok, if_true]
    rw [encodeLoop, if_pos rfl]
  unfold Args.encode Ebi.encode
  dsimp only
  rw [key _ _ _ rfl, key _ _ _ rfl]
  rfl

example : (∃ c, ChunkOption.recordCount 0 = .recordCount c ∧ c % 2 ^ 61 = 0) ∧
    (∃ c, ChunkOption.recordCount (2 ^ 61) = .recordCount c ∧ c % 2 ^ 61 = 0) :=
  ⟨⟨_, rfl, by decide⟩, ⟨_, rfl, by decide⟩⟩

/-- An option that asks, modulo `2^64`, for `2^63` bytes or more panics on every input, the empty one
included. -/
theorem c25_huge_panics (S : Scheme) (a : Args) (c : Nat) (h : a.opt = .recordCount c) (h1 : 2 ^ 60 ≤ c % 2 ^ 61) :
    a.encode S = some .panic := by
  have h2 : a.opt.Huge := by
    refine ⟨_, by rw [h]; rfl, ?_⟩
    omega
  unfold Args.encode Ebi.encode
  dsimp only
  rw [encodeLoop, if_neg (by simp [FileWriter.writeHeader, FileWriter.new]), FileWriter.writeChunk, readChunk_huge h2]
  rfl

example : { sampleArgs with opt := .recordCount (2 ^ 60) : Args }.opt = .recordCount (2 ^ 60) ∧
    2 ^ 60 ≤ (2 ^ 60) % 2 ^ 61 := ⟨rfl, by decide⟩

/-- A record count of `2^61 + c` acts like `c`: three records that fit one chunk are put into three. -/
theorem c25_count_wraps :
    (match { sampleArgs with opt := .recordCount (2 ^ 61 + 1) : Args }.encode (Gorilla.codec.scheme false) with
      | some (.ok file) =>
        match openFile file with
        | .ok m => some (m.header.option, m.footer.chunks)
        | _ => none
      | _ => none) = some (.recordCount (2 ^ 61 + 1), 3) := by decide +kernel

/-- From `2^53 / 3` bytes on the estimate is rounded: one record less than `⌈3b/16⌉`. -/
theorem c25_estimate_rounds : estimateRecords 3002399751580331 = 562949953421312 ∧
    (3 * 3002399751580331 + 15) / 16 = 562949953421313 := by decide +kernel

/-- The byte view `read_less_or_equal` makes of its buffer (`slice::from_raw_parts_mut(ptr, n_bytes)`) stays
inside the buffer for every option. -/
theorem c25_view_in_buffer (o : ChunkOption) (n : Nat) (h : o.bytesPerChunk = some n) : n ≤ 8 * bufferLen n := by
  obtain ⟨h1, h2⟩ := bytesPerChunk_aligned h
  have := bufferLen_aligned h1 h2
  omega

example : (ChunkOption.recordCount 5).bytesPerChunk = some 40 ∧ bufferLen 40 = 5 := ⟨rfl, rfl⟩

/-! ## C26: how the input is delivered -/

/-- Two readers delivering the same bytes, cut into non-empty reads in any two ways, lead to the same
outcome (file or failure) under any scheme. Missing from the full statement: interruptions (`Full`
apart, see below), which do change the outcome. -/
theorem c26_delivery_partial (S : Scheme) (a : Args) (src1 src2 : Source) (h1 : src1.Clean)
    (h2 : src2.Clean) (hd : src1.data = src2.data) :
    Args.encode { a with src := src1 } S = Args.encode { a with src := src2 } S :=
  encode_sameData S a.cfg (reads_clean a.opt) a.version a.times a.elapsed h1 h2 (by rw [hd])

/-- With the `Full` option interruptions may be placed anywhere as well. -/
theorem c26_full_interrupted (S : Scheme) (a : Args) (src1 src2 : Source)
    (h1 : src1.CleanOrInterrupted) (h2 : src2.CleanOrInterrupted) (hd : src1.data = src2.data)
    (hfull : a.opt = .full) :
    Args.encode { a with src := src1 } S = Args.encode { a with src := src2 } S := by
  unfold Args.encode
  simp only [hfull]
  exact encode_sameData S a.cfg reads_interrupted a.version a.times a.elapsed h1 h2 (by rw [hd])

example : Source.Clean [.bytes [1#8], .bytes [2#8, 3#8]] ∧ Source.Clean [.bytes [1#8, 2#8], .bytes [3#8]] ∧
    Source.CleanOrInterrupted [.interrupted, .bytes [1#8, 2#8], .interrupted, .bytes [3#8]] := by
  simp [Source.Clean, Source.CleanOrInterrupted]

/-- One record of input, uncompressed, one record per chunk; the reader is told to interrupt. -/
def interruptedArgs (src : Source) : Args where
  cfg := .uncompressed 0#64
  opt := .recordCount 1
  version := (0, 0, 0)
  times := Times.zero
  elapsed := ⟨0, 0⟩
  src := src

/-- Counterexample: `Interrupted` before the first byte of a chunk makes `encode` fail, although the
standard contract of `Read` asks for a retry. -/
theorem c26_interrupted_fails :
    (interruptedArgs [.bytes (List.replicate 8 1#8), .interrupted]).encode Uncompressed.scheme
      = some .err := by
  decide +kernel

/-- Counterexample: `Interrupted` in the middle of a record loses the bytes before it. The file
is produced without an error and holds no record at all. -/
theorem c26_interrupted_loses :
    (interruptedArgs [.bytes [1#8, 1#8, 1#8], .interrupted, .bytes [1#8, 1#8, 1#8, 1#8, 1#8]]).encode
        Uncompressed.scheme
      = (interruptedArgs []).encode Uncompressed.scheme := by
  decide +kernel

/-! ## C28: empty input -/

/-- Counterexample for every scheme and option: an input without a complete record gives a file that
makes the decoder panic (`&mut buf[..1]` on an empty buffer, decoder.rs:203). -/
theorem c28_empty_input_panics {S : Scheme} {view : B64 → B64} {Ok : B64 → Prop} {maxLen : Nat}
    (L : S.Law view Ok maxLen) (hm : 0 < maxLen) (a : Args) (ha : a.Valid) (he : a.src.data.length < 8) :
    ∃ file, a.encode S = some (.ok file) ∧ openFile file = .panic := by
  have hnil : a.records = [] := toF64s_short he
  obtain ⟨cs, h1, h2, h3, h4, h5, h6⟩ := a.opened ha L (by simp [hnil]) (by simpa [hnil] using hm)
  have : cs = [] := by
    have := h2.eq_nil_iff.2 hnil
    simpa using this
  subst this
  refine ⟨_, h1, openFile_layout_nil (h6 ?_).1⟩
  rw [Args.layout_length]
  have := a.cfg.structSize_le
  simp [headerSize, footer0Size, footer3Size, Config.serializedSize, blobs]
  omega

/-- What does hold: a file is produced, its header parses, and the footer it points to announces zero
records (and zero chunks). Missing: that the decoder can open it. -/
theorem c28_empty_input_partial {S : Scheme} {view : B64 → B64} {Ok : B64 → Prop} {maxLen : Nat}
    (L : S.Law view Ok maxLen) (hm : 0 < maxLen) (a : Args) (ha : a.Valid) (he : a.src.data.length < 8) :
    ∃ file h, a.encode S = some (.ok file) ∧ Header.parse (file.take 30) = .ok h ∧
      h.scheme = a.cfg.scheme ∧ h.option = a.opt ∧
      (file.drop h.footerOffset).take 16 = List.replicate 16 0#8 := by
  have hnil : a.records = [] := toF64s_short he
  obtain ⟨cs, h1, h2, h3, h4, h5, h6⟩ := a.opened ha L (by simp [hnil]) (by simpa [hnil] using hm)
  have : cs = [] := by
    have := h2.eq_nil_iff.2 hnil
    simpa using this
  subst this
  have hw : (Header.mk magicNumber a.cfg.scheme a.opt (headerSize + (blobs []).length) a.version).WF :=
    ⟨rfl, ha.option, by simp [headerSize, blobs], ha.v0, ha.v1, ha.v2⟩
  have hl := Header.bytes_length _ hw.magic
  refine ⟨_, ⟨magicNumber, a.cfg.scheme, a.opt, headerSize + (blobs []).length, a.version⟩, h1, ?_, rfl,
    rfl, ?_⟩
  · unfold Args.layout layout
    rw [List.take_append_of_le_length (by rw [hl]; exact Nat.le_refl _),
      List.take_of_length_le (by rw [hl]; exact Nat.le_refl _), Header.parse_bytes _ hw]
  · have hl' : (Header.mk magicNumber a.cfg.scheme a.opt (headerSize + (blobs []).length)
        a.version).bytes.length = headerSize + (blobs []).length := hl
    unfold Args.layout layout
    simp only
    rw [List.drop_append_of_le_length (by rw [hl']; exact Nat.le_refl _),
      List.drop_of_length_le (by rw [hl']; exact Nat.le_refl _)]
    rfl

example : ({ sampleArgs with src := [.bytes [1#8, 2#8]] } : Args).Valid := by
  have h := sampleArgs_valid
  exact ⟨h.positive, h.option, h.v0, h.v1, h.v2, h.times, h.elapsed, by simp [Source.Clean],
    by simp [Source.data]⟩

/-! ## C29: a file cut off by a crash -/

/-- States of the encoder before the footer offset is patched: the header has been written, then any
number of chunks. -/
inductive Writing (S : Scheme) (a : Args) : Option S.Comp → FileWriter → Prop
  | start : Writing S a none ((FileWriter.new a.src).writeHeader a.cfg a.opt a.version)
  | chunk {c : Option S.Comp} {w w' : FileWriter} {c' : S.Comp} : Writing S a c w →
      w.writeChunk S a.opt (S.reset (c.getD S.build)) = .ok (c', w') → Writing S a (some c') w'

/-- What a crash can leave: some first part of what was written so far, the footer included. -/
def Crashed (S : Scheme) (a : Args) (file : List Byte) : Prop :=
  ∃ c w n, Writing S a c w ∧
    file = (w.out ++ footerBytes w.nextLogical w.chunkFooters a.cfg a.times).take n

theorem writing_prefix {S : Scheme} {a : Args} {c : Option S.Comp} {w : FileWriter}
    (h : Writing S a c w) : ∃ tail, w.out = headerBytes a.cfg a.opt a.version ++ tail := by
  induction h with
  | start => exact ⟨[], by simp [FileWriter.new, FileWriter.writeHeader]⟩
  | @chunk c w w' c' _ hw ih =>
    obtain ⟨tail, ht⟩ := ih
    unfold FileWriter.writeChunk at hw
    obtain ⟨⟨buf, src⟩, -, hw⟩ := Res.bind_eq_ok hw
    simp only at hw
    split at hw
    · cases hw; exact ⟨tail, ht⟩
    · obtain ⟨c1, -, hw⟩ := Res.bind_eq_ok hw
      split at hw
      · cases hw; exact ⟨tail, ht⟩
      · obtain ⟨c2, -, hw⟩ := Res.bind_eq_ok hw
        simp only [Res.ok.injEq, Prod.mk.injEq] at hw
        obtain ⟨-, rfl⟩ := hw
        exact ⟨tail ++ S.buffers c2, by simp [ht]⟩

theorem Crashed.prefix {S : Scheme} {a : Args} {file : List Byte} (h : Crashed S a file) :
    ∃ tail n, file = (headerBytes a.cfg a.opt a.version ++ tail).take n := by
  obtain ⟨c, w, n, hw, rfl⟩ := h
  obtain ⟨tail, ht⟩ := writing_prefix hw
  exact ⟨tail ++ footerBytes w.nextLogical w.chunkFooters a.cfg a.times, n, by
    rw [ht, List.append_assoc]⟩

/-- A cut-off file is only ever accepted when its length is at least 16 times the chunk option's value
plus 181 bytes, and never when the value is zero. In particular the `Full` option is safe, and so are
files shorter than that. Missing from the full statement: longer files, which are accepted (below). -/
theorem c29_crash_partial {S : Scheme} {a : Args} (hopt : a.opt.value < 2 ^ 59) (hv0 : a.version.1 < 2 ^ 16)
    (hv1 : a.version.2.1 < 2 ^ 16) (hv2 : a.version.2.2 < 2 ^ 16) {file : List Byte}
    (h : Crashed S a file) {m : Metadata} (hopen : openFile file = .ok m) :
    a.opt.value ≠ 0 ∧ 181 + 16 * a.opt.value ≤ file.length := by
  obtain ⟨tail, n, rfl⟩ := h.prefix
  have hw : (Header.mk magicNumber a.cfg.scheme a.opt 0 a.version).WF :=
    ⟨rfl, by simp only [ChunkOption.WF]; omega, by simp, hv0, hv1, hv2⟩
  have hlen : (headerBytes a.cfg a.opt a.version).length = 30 := Header.bytes_length _ hw.magic
  unfold openFile at hopen
  obtain ⟨⟨hb, rest⟩, e1, hopen⟩ := Res.bind_eq_ok hopen
  obtain ⟨e2, e3⟩ := readExact_ok e1
  have hn : 30 ≤ n := by
    have := congrArg List.length e2
    rw [List.length_take, List.length_append, List.length_append, hlen] at this
    simp only [headerSize] at e3
    omega
  have hhb : hb = headerBytes a.cfg a.opt a.version := by
    have h1 : (hb ++ rest).take 30 = hb := by
      rw [List.take_append_of_le_length (by rw [e3]; exact Nat.le_refl _),
        List.take_of_length_le (by rw [e3]; exact Nat.le_refl _)]
    rw [← h1, ← e2, List.take_take, Nat.min_eq_left hn,
      List.take_append_of_le_length (by omega), List.take_of_length_le (by omega)]
  simp only [hhb] at hopen
  obtain ⟨hd, e4, hopen⟩ := Res.bind_eq_ok hopen
  rw [headerBytes, Header.parse_bytes _ hw] at e4
  cases e4
  obtain ⟨f, e5, -⟩ := Res.bind_eq_ok hopen
  rw [List.drop_zero] at e5
  obtain ⟨g1, g2⟩ := fetchFooter_length e5
  have hval : ((((headerBytes a.cfg a.opt a.version ++ tail).take n).drop 8).take 8)
      = leBytes 8 a.opt.value := by
    have hsplit : headerBytes a.cfg a.opt a.version
        = (magicNumber ++ (leBytes 1 0 ++ (leBytes 1 a.cfg.scheme.code ++ (leBytes 1 a.opt.kind ++
            leBytes 1 0)))) ++ (leBytes 8 a.opt.value ++ (leBytes 8 0 ++ (leBytes 2 a.version.1 ++
            (leBytes 2 a.version.2.1 ++ leBytes 2 a.version.2.2)))) := by
      simp [headerBytes, Header.bytes, ChunkOption.bytes]
    rw [List.drop_take, List.take_take, Nat.min_eq_left (by omega), hsplit, List.append_assoc,
      List.drop_append_of_le_length (by simp [magicNumber]), List.drop_of_length_le (by simp [magicNumber]),
      List.nil_append, List.append_assoc, List.take_append_of_le_length (by simp),
      List.take_of_length_le (by simp)]
  rw [hval, leNat_leBytes_of_lt (n := 8) (by omega)] at g1 g2
  generalize hL : ((headerBytes a.cfg a.opt a.version ++ tail).take n).length = len at *
  omega

/-- In particular: with `Full` a cut-off file is never accepted. -/
theorem c29_full_never_accepted {S : Scheme} {a : Args} (hfull : a.opt = .full) (hv0 : a.version.1 < 2 ^ 16)
    (hv1 : a.version.2.1 < 2 ^ 16) (hv2 : a.version.2.2 < 2 ^ 16) {file : List Byte}
    (h : Crashed S a file) (m : Metadata) : openFile file ≠ .ok m := by
  intro hopen
  have hv : a.opt.value = 0 := by rw [hfull]; rfl
  exact (c29_crash_partial (by omega) hv0 hv1 hv2 h hopen).1 hv

/-- Forty records, uncompressed, one record per chunk. -/
def crashArgs : Args where
  cfg := .uncompressed 0#64
  opt := .recordCount 1
  version := (0, 1, 0)
  times := Times.zero
  elapsed := ⟨0, 0⟩
  src := [.bytes (List.replicate 320 8#8)]

/-- The state after `k` chunks. -/
def writeChunks (S : Scheme) (a : Args) : Nat → Res (Option S.Comp × FileWriter)
  | 0 => .ok (none, (FileWriter.new a.src).writeHeader a.cfg a.opt a.version)
  | k + 1 => do
    let (c, w) ← writeChunks S a k
    let (c, w) ← w.writeChunk S a.opt (S.reset (c.getD S.build))
    .ok (some c, w)

theorem writeChunks_writing {S : Scheme} {a : Args} (k : Nat) {c : Option S.Comp} {w : FileWriter}
    (h : writeChunks S a k = .ok (c, w)) : Writing S a c w := by
  induction k generalizing c w with
  | zero =>
    simp only [writeChunks, Res.ok.injEq, Prod.mk.injEq] at h
    obtain ⟨rfl, rfl⟩ := h
    exact .start
  | succ k ih =>
    rw [writeChunks] at h
    obtain ⟨⟨c1, w1⟩, h1, h⟩ := Res.bind_eq_ok h
    obtain ⟨⟨c2, w2⟩, h2, h⟩ := Res.bind_eq_ok h
    simp only [Res.ok.injEq, Prod.mk.injEq] at h
    obtain ⟨rfl, rfl⟩ := h
    exact .chunk (ih h1) h2

/-- Outcome of opening what a crash after `k` chunks leaves: records announced, length of the file. -/
def crashReport (k : Nat) : Option (Nat × Nat) :=
  match writeChunks Uncompressed.scheme crashArgs k with
  | .ok p =>
    match openFile p.2.out with
    | .ok m => some (m.footer.records, p.2.out.length)
    | _ => none
  | _ => none

theorem crashReport_eq : crashReport 24 = some (281475803595333, 222) := by
  decide +kernel

/-- Counterexample: a crash of that run after 24 chunks leaves a file that the decoder opens without
an error, reporting made-up metadata (281475803595333 records instead of 24). -/
theorem c29_crash_accepted : ∃ file m, Crashed Uncompressed.scheme crashArgs file ∧
    openFile file = .ok m ∧ file.length = 30 + 24 * 8 ∧ m.footer.records = 281475803595333 := by
  have h := crashReport_eq
  unfold crashReport at h
  split at h
  · rename_i p hp
    split at h
    · rename_i m hm
      simp only [Option.some.injEq, Prod.mk.injEq] at h
      refine ⟨p.2.out, m, ⟨p.1, p.2, p.2.out.length, writeChunks_writing 24 hp, ?_⟩, hm, h.2, h.1⟩
      rw [List.take_append_of_le_length (Nat.le_refl _), List.take_length]
    · cases h
  · cases h

example : crashArgs.opt.value < 2 ^ 59 ∧ crashArgs.version.1 < 2 ^ 16 ∧ crashArgs.version.2.1 < 2 ^ 16 ∧
    crashArgs.version.2.2 < 2 ^ 16 := by decide +kernel

/-! ## C47: reported sizes -/

/-- The reported sizes add up to the length of the file; the file consists of the 30-byte header, the
bytes the compressor made of each chunk, and the footer; loading a chunk returns exactly its bytes. -/
theorem c47_sizes {S : Scheme} {view : B64 → B64} {Ok : B64 → Prop} {maxLen : Nat}
    (L : S.Law view Ok maxLen) (a : Args) (ha : a.Valid) (hok : ∀ v ∈ a.records, Ok v)
    (hlen : a.records.length < maxLen) (hne : 8 ≤ a.src.data.length) :
    ∃ file, a.encode S = some (.ok file) ∧
      (file.length < 2 ^ 63 → ∃ m, ∃ chunks : List (List B64 × List Byte), openFile file = .ok m ∧
        m.totalFileSize = file.length ∧
        30 + m.totalChunkSize + m.footerSize = file.length ∧
        (∃ h f : List Byte, file = h ++ chunks.flatMap Prod.snd ++ f ∧ h.length = 30 ∧
          f.length = m.footerSize) ∧
        chunks.flatMap Prod.fst = a.records ∧ m.footer.chunks = chunks.length ∧
        ∀ (i : Nat) (vs : List B64) (bs : List Byte), chunks[i]? = some (vs, bs) →
          (∃ c c' c'', S.compress (S.reset c) vs = .ok c' ∧ S.prepare c' = .ok c'' ∧
            bs = S.buffers c'') ∧
          m.chunkSize i = .ok bs.length ∧
          loadChunk S file m i = .ok (vs.length, bs, ((chunks.take i).flatMap Prod.fst).length)) := by
  obtain ⟨cs, h1, h2, h3, h4, h5, h6⟩ := a.opened ha L hok hlen
  refine ⟨_, h1, fun hl => ?_⟩
  obtain ⟨hf, hopen⟩ := h6 hl
  have hr : a.records ≠ [] := by
    intro e
    have := a.records_length
    rw [e, List.length_nil] at this
    omega
  have hcs : cs ≠ [] := by
    intro e
    rw [e] at h4
    exact hr h4.symm
  have hsize : (a.metadata cs).footerSize
      = footer0Size + cs.length * chunkFooterSize + a.cfg.serializedSize + footer3Size := by
    simp [Args.metadata, metadataOf, Metadata.footerSize, Footer.size, stored_length]
  have htot : (a.metadata cs).totalFileSize = (a.layout cs).length := by
    rw [Args.layout_length, Metadata.totalFileSize, hsize]
    rfl
  have hchunk : (a.metadata cs).totalChunkSize = (blobs cs).length := by
    have hh : (a.metadata cs).footer.chunkFooters.head? = some ⟨headerSize, 0⟩ := by
      obtain ⟨⟨c, b⟩, cs', rfl⟩ := List.exists_cons_of_ne_nil hcs
      simp [Args.metadata, metadataOf, stored, directory_dropLast_cons]
    have := hf.size
    simp only [Metadata.totalChunkSize, hh]
    show (headerSize + (blobs cs).length + 2 ^ 64 - headerSize) % 2 ^ 64 = _
    omega
  refine ⟨_, cs, hopen hr, htot, ?_, ?_, h4, rfl, ?_⟩
  · rw [hchunk, Args.layout_length, hsize]
    rfl
  · refine ⟨_, _, (List.append_assoc _ _ _).symm, Header.bytes_length _ rfl, ?_⟩
    rw [footerBytesWith_length, directory_dropLast_length, hsize]
  · intro i vs bs hcs
    obtain ⟨hlt, hge⟩ := List.getElem?_eq_some_iff.1 hcs
    have hsplit : cs = cs.take i ++ (vs, bs) :: cs.drop (i + 1) := by
      rw [← hge, ← List.drop_eq_getElem_cons hlt, List.take_append_drop]
    have hi : (cs.take i).length = i := by rw [List.length_take]; omega
    obtain ⟨c, c', c'', -, hpr⟩ := (h3 (vs, bs) (by rw [← hge]; exact List.getElem_mem hlt)).2
    generalize cs.take i = pre at hsplit hi
    generalize cs.drop (i + 1) = suf at hsplit
    subst hi
    have hf' : Fits a.cfg a.opt a.version a.times a.elapsed (pre ++ (vs, bs) :: suf) := hsplit ▸ hf
    rw [hsplit]
    exact ⟨⟨c, c', c'', hpr⟩, (sizes_layout hf').1, loadChunk_layout S hf'⟩

/-! ## C48: files of a foreign format -/

/-- The little that is checked: whatever is opened has at least 30 bytes, field type 0, a known scheme
and a known kind of chunk option. Missing from the full statement: magic number and checksum. -/
theorem c48_foreign_partial {file : List Byte} {m : Metadata} (h : openFile file = .ok m) :
    30 ≤ file.length ∧ file[4]? = some 0#8 ∧ (∃ s, file[5]? = some s ∧ s.toNat ≤ 12) ∧
      (∃ k, file[6]? = some k ∧ k.toNat ≤ 2) := by
  unfold openFile at h
  obtain ⟨⟨hb, rest⟩, e1, h⟩ := Res.bind_eq_ok h
  obtain ⟨e2, e3⟩ := readExact_ok e1
  simp only at h
  obtain ⟨hd, e4, -⟩ := Res.bind_eq_ok h
  unfold Header.parse at e4
  obtain ⟨⟨mg, r1⟩, c1, e4⟩ := Res.bind_eq_ok e4
  obtain ⟨⟨ft, r2⟩, c2, e4⟩ := Res.bind_eq_ok e4
  simp only at c2 e4
  split at e4
  · rename_i hft
    obtain ⟨⟨sc, r3⟩, c3, e4⟩ := Res.bind_eq_ok e4
    obtain ⟨sch, c4, e4⟩ := Res.bind_eq_ok e4
    obtain ⟨⟨op, r4⟩, c5, e4⟩ := Res.bind_eq_ok e4
    simp only at c3 c4 c5
    unfold ChunkOption.parse at c5
    obtain ⟨⟨kd, r5⟩, c6, c5⟩ := Res.bind_eq_ok c5
    simp only at c6 c5
    split at c5
    · rename_i hkd
      obtain ⟨d1, l1⟩ := cut_ok c1
      obtain ⟨d2, l2⟩ := cut_ok c2
      obtain ⟨d3, l3⟩ := cut_ok c3
      obtain ⟨d6, l6⟩ := cut_ok c6
      obtain ⟨b2, rfl⟩ := List.length_eq_one_iff.1 l2
      obtain ⟨b3, rfl⟩ := List.length_eq_one_iff.1 l3
      obtain ⟨b6, rfl⟩ := List.length_eq_one_iff.1 l6
      have hfile : file = mg ++ (b2 :: b3 :: b6 :: (r5 ++ rest)) := by
        rw [e2, d1, d2, d3, d6]; simp
      have hlen : 30 ≤ file.length := by
        rw [e2, List.length_append, e3]; exact Nat.le_add_right _ _
      refine ⟨hlen, ?_, ⟨b3, ?_, ?_⟩, ⟨b6, ?_, ?_⟩⟩
      · rw [hfile, List.getElem?_append_right (by omega), l1]
        simp only [leNat, Nat.mul_zero, Nat.add_zero] at hft
        simp only [Nat.sub_self, List.getElem?_cons_zero, Option.some.injEq]
        exact BitVec.eq_of_toNat_eq (by simpa using hft)
      · rw [hfile, List.getElem?_append_right (by omega), l1]
        rfl
      · simp only [leNat, Nat.mul_zero, Nat.add_zero] at c4
        unfold SchemeId.ofCode at c4
        split at c4 <;> first | omega | cases c4
      · rw [hfile, List.getElem?_append_right (by omega), l1]
        rfl
      · simpa [leNat] using hkd
    · cases c5
  · cases e4

example : ∃ file m, openFile file = .ok m :=
  let ⟨file, m, _, h, _⟩ := c29_crash_accepted
  ⟨file, m, h⟩

/-- Counterexample for every encoded file: neither the magic number nor the chunk data nor the checksum
is verified. Any bytes of the same lengths in their place open, with the same directory. -/
theorem c48_not_verified {S : Scheme} {view : B64 → B64} {Ok : B64 → Prop} {maxLen : Nat}
    (L : S.Law view Ok maxLen) (a : Args) (ha : a.Valid) (hok : ∀ v ∈ a.records, Ok v)
    (hlen : a.records.length < maxLen) (hne : 8 ≤ a.src.data.length) :
    ∃ file, a.encode S = some (.ok file) ∧
      (file.length < 2 ^ 63 → ∃ m, ∃ magic hdr data foot crc : List Byte, openFile file = .ok m ∧
        file = magic ++ hdr ++ data ++ foot ++ crc ∧
        magic.length = 4 ∧ hdr.length = 26 ∧ data.length = m.totalChunkSize ∧ crc.length = 4 ∧
        ∀ magic' data' crc' : List Byte, magic'.length = 4 → data'.length = data.length →
          crc'.length = 4 →
          openFile (magic' ++ hdr ++ data' ++ foot ++ crc') =
            .ok ⟨{ m.header with magic := magic' }, { m.footer with crc := leNat crc' }⟩) := by
  obtain ⟨cs, h1, h2, h3, h4, h5, h6⟩ := a.opened ha L hok hlen
  refine ⟨_, h1, fun hl => ?_⟩
  obtain ⟨hf, hopen⟩ := h6 hl
  have hr : a.records ≠ [] := by
    intro e
    have := a.records_length
    rw [e, List.length_nil] at this
    omega
  have hcs : cs ≠ [] := by
    intro e
    rw [e] at h4
    exact hr h4.symm
  have hchunk : (a.metadata cs).totalChunkSize = (blobs cs).length := by
    have hh : (a.metadata cs).footer.chunkFooters.head? = some ⟨headerSize, 0⟩ := by
      obtain ⟨⟨c, b⟩, cs', rfl⟩ := List.exists_cons_of_ne_nil hcs
      simp [Args.metadata, metadataOf, stored, directory_dropLast_cons]
    have := hf.size
    simp only [Metadata.totalChunkSize, hh]
    show (headerSize + (blobs cs).length + 2 ^ 64 - headerSize) % 2 ^ 64 = _
    omega
  refine ⟨_, magicNumber, (Header.bytes ⟨[], a.cfg.scheme, a.opt, headerSize + (blobs cs).length, a.version⟩),
    blobs cs, leBytes 8 (recordCount cs) ++ (leBytes 8 (stored cs).length ++
      ((stored cs).flatMap ChunkFooter.bytes ++ (a.cfg.serialize ++
        (leBytes 16 a.elapsed.asNanos ++ a.times.bytes)))), leBytes 4 0, hopen hr, ?_, rfl, ?_,
    hchunk.symm, by simp, ?_⟩
  · simp [Args.layout, layout, Header.bytes, footerBytesWith, stored]
  · simp [Header.bytes, ChunkOption.bytes_length]
  · intro magic' data' crc' hm hd hc
    have hsz := hf.size
    have hw : (Header.mk magic' a.cfg.scheme a.opt (headerSize + (blobs cs).length) a.version).WF :=
      ⟨hm, hf.option, by simp only; omega, hf.v0, hf.v1, hf.v2⟩
    have hl := Header.bytes_length _ hw.magic
    have hhdr : magic' ++ Header.bytes ⟨[], a.cfg.scheme, a.opt, headerSize + (blobs cs).length, a.version⟩
        = Header.bytes ⟨magic', a.cfg.scheme, a.opt, headerSize + (blobs cs).length, a.version⟩ := by
      simp [Header.bytes]
    rw [hhdr]
    unfold openFile
    simp only [List.append_assoc]
    rw [readExact_append _ _ hl]
    simp only [Res.bind_ok, Header.parse_bytes _ hw]
    rw [← List.append_assoc, List.drop_append_of_le_length (by simp [hl, hd]),
      List.drop_of_length_le (by simp [hl, hd]), List.nil_append]
    have hs : stored cs ≠ [] := fun e => hcs (stored_eq_nil.1 e)
    have hr := hf.records
    have he : a.elapsed.asNanos < 2 ^ 128 := by
      have := Duration.asNanos_lt hf.elapsed; simpa using this
    have hft := fetchFooter_bytes_crc hc (elapsed := a.elapsed.asNanos) (records := recordCount cs)
      (cfs := stored cs) a.cfg he (by omega) (stored_wf hsz hr)
      (by rw [stored_length]; exact hf.chunks) hf.times hs []
    rw [List.append_nil] at hft
    rw [hft]
    simp [Args.metadata, metadataOf, stored_length]

end Ebi.Props
