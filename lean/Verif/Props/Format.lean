import Verif.Format

/-!
# C22 on-disk metadata, C45 elapsed times
-/

namespace Ebi.Props

open Ebi

/-! ## C22 -/

/-- The values a header field can hold: four magic bytes, an option and an offset of 64 bits, a
version of three 16-bit numbers. -/
def HeaderFits (h : Header) : Prop :=
  h.magic.length = 4 ∧ h.option.value < 2 ^ 64 ∧ h.footerOffset < 2 ^ 64 ∧ h.version.1 < 2 ^ 16 ∧
    h.version.2.1 < 2 ^ 16 ∧ h.version.2.2 < 2 ^ 16

/-- File header: exactly 30 bytes, parsed back to the same header. -/
theorem c22_header (h : Header) (hf : HeaderFits h) :
    h.bytes.length = 30 ∧ Header.parse h.bytes = .ok h := by
  obtain ⟨h1, h2, h3, h4, h5, h6⟩ := hf
  exact ⟨Header.bytes_length h h1, Header.parse_bytes h ⟨h1, h2, h3, h4, h5, h6⟩⟩

example : HeaderFits ⟨magicNumber, .deltaSprintz, .recordCount 1000, 123456, (0, 1, 2)⟩ := by
  simp [HeaderFits, magicNumber, ChunkOption.value]

/-- Chunk option: exactly 10 bytes, parsed back, leaving what follows. -/
theorem c22_chunk_option (o : ChunkOption) (h : o.value < 2 ^ 64) (rest : List Byte) :
    o.bytes.length = 10 ∧ ChunkOption.parse (o.bytes ++ rest) = .ok (o, rest) :=
  ⟨ChunkOption.bytes_length o, ChunkOption.parse_bytes o h rest⟩

/-- Compressor configuration: the serialisation has the announced size, its first byte is the number
of bytes that follow, and those parse back to the configuration. -/
theorem c22_config (c : Config) :
    c.serialize.length = c.serializedSize ∧
    ∃ n payload, c.serialize = n :: payload ∧ n.toNat = payload.length ∧
      Config.fromLe c.scheme payload = .ok c := by
  refine ⟨Config.serialize_length c, BitVec.ofNat 8 c.payload.length, c.payload, ?_, ?_, ?_⟩
  · simp [Config.serialize, leBytes]
  · have := Config.structSize_le c
    rw [Config.payload_length]
    simp
    omega
  · have := Config.fromLe_payload c []
    rwa [List.append_nil] at this

/-- Different configurations have different serialisations (under the same scheme code). -/
theorem c22_config_injective (c d : Config) (hs : c.scheme = d.scheme) (h : c.serialize = d.serialize) :
    c = d := by
  obtain ⟨-, n, p, e1, -, e2⟩ := c22_config c
  obtain ⟨-, n', p', e3, -, e4⟩ := c22_config d
  rw [e1, e3] at h
  obtain ⟨-, rfl⟩ := List.cons.inj h
  rw [hs, e4] at e2
  exact (Res.ok.inj e2).symm

/-- Scheme codes are distinct bytes and parse back. -/
theorem c22_scheme (s : SchemeId) : SchemeId.ofCode s.code = .ok s ∧ s.code < 256 :=
  ⟨SchemeId.ofCode_code s, SchemeId.code_lt s⟩

/-- The values the footer fields can hold. -/
structure FooterFits (f : Footer) : Prop where
  elapsed : f.elapsedNanos < 2 ^ 128
  records : f.records < 2 ^ 64
  count : f.chunks = f.chunkFooters.length
  offsets : ∀ c ∈ f.chunkFooters, c.physical < 2 ^ 64 ∧ c.logical < 2 ^ 64
  /-- fewer than 2^59 chunks: their footers fit an allocation -/
  few : f.chunkFooters.length < 2 ^ 59
  times : f.times.WF
  crc : f.crc = 0

/-- Footer with at least one chunk: the bytes have the announced size and parse back, whatever
follows. `footerBytesWith` is what `write_footer` writes once the elapsed time is patched in. -/
theorem c22_footer (f : Footer) (h : FooterFits f) (hne : f.chunkFooters ≠ []) (rest : List Byte) :
    (footerBytesWith f.elapsedNanos f.records f.chunkFooters f.config f.times).length = f.size ∧
    fetchFooter f.config.scheme
      (footerBytesWith f.elapsedNanos f.records f.chunkFooters f.config f.times ++ rest) = .ok f := by
  refine ⟨footerBytesWith_length _ _ _ _ _, ?_⟩
  rw [fetchFooter_bytes f.config h.elapsed h.records h.offsets h.few h.times hne rest]
  obtain ⟨r, c, cf, cfg, e, t, crc⟩ := f
  have h1 := h.count
  have h2 := h.crc
  simp only at h1 h2
  rw [h1, h2]

example : FooterFits ⟨3, 2, [⟨30, 0⟩, ⟨46, 2⟩], .rle 8000#64, 5, .zero, 0⟩ where
  elapsed := by decide
  records := by decide
  count := rfl
  offsets := by simp
  few := by decide
  times := by simp [Times.WF, Times.zero, Duration.WF]
  crc := rfl

/-! ## C45 -/

/-- What every `std::time::Duration` satisfies. -/
def IsDuration (d : Duration) : Prop := d.secs < 2 ^ 64 ∧ d.nanos < 10 ^ 9

/-- One duration survives the conversion to nanoseconds and back, and fits the 16 bytes. -/
theorem c45_duration (d : Duration) (h : IsDuration d) :
    Duration.ofNanos d.asNanos = d ∧ leNat (leBytes 16 d.asNanos) = d.asNanos :=
  ⟨Duration.ofNanos_asNanos h, leNat_leBytes_of_lt (Duration.asNanos_lt h)⟩

/-- The nine segment times survive being written and read. -/
theorem c45_times (t : Times)
    (h : ∀ d ∈ [t.ioRead, t.ioWrite, t.xor, t.delta, t.quantization, t.bitPacking, t.compareInsert,
      t.sum, t.decompression], IsDuration d) (rest : List Byte) :
    t.bytes.length = 144 ∧ Times.parse (t.bytes ++ rest) = .ok (t, rest) := by
  refine ⟨Times.bytes_length t, Times.parse_bytes ?_ rest⟩
  simpa [Times.WF, IsDuration, Duration.WF] using h

/-- The extreme duration. -/
example : IsDuration ⟨2 ^ 64 - 1, 999999999⟩ := by simp [IsDuration]

end Ebi.Props
