import Verif.ChunkReaderLemmas

/-!
# From the configuration to the compressor, from the scheme id to the reader

`CompressorConfig::build` (compressor.rs:230-240) picks the compressor; `GeneralChunkReaderInner::new`
(chunk_reader.rs:303-351) picks the reader by the scheme stored in the header.
-/

namespace Ebi

/-- `BUFFCompressor` (compressor/buff.rs) and `BUFFReader` (chunk_reader/buff.rs:36-54 unwraps). -/
def Buff.scheme (o : FloatOps) (lg : Nat → Nat) (scale : Nat) : Scheme where
  Comp := Buff.Comp
  build := Buff.Comp.new scale
  reset := Buff.Comp.reset
  compress c vs := c.compress lg vs
  totalBytesIn c := c.totalBytesIn
  prepare c := .ok c.prepare
  buffers := Buff.Comp.buffers
  decode n bs := ((Buff.Reader.new n bs).decompress o).map Prod.fst
  shortPanics := true

/-- The compressor and reader for a configuration. Capacities only size buffers; the compression level
is part of the library (`E.zstd`, `E.gzip` stand for the library at that level). -/
def Env.scheme (E : Env) : Config → Scheme
  | .uncompressed _ => Uncompressed.scheme
  | .rle _ => RunLength.scheme
  | .gorilla _ => Gorilla.codec.scheme false
  | .buff s => Buff.scheme E.o E.log10Scale s.toNat
  | .chimp _ => Chimp.codec.scheme false
  | .chimp128 _ => Chimp128.codec.scheme true
  | .elfOnChimp _ => (Elf.elfOnChimp E.log10).scheme false
  | .elf _ => (Elf.elf E.log10).scheme false
  | .deltaSprintz _ s => Sprintz.scheme E.o s.toNat
  | .zstd _ => External.zstdScheme E.zstd
  | .gzip _ => External.exactScheme E.gzip
  | .snappy => External.exactScheme E.snappy
  | .ffiAlp => External.alpScheme E.alp

theorem XorCodec.decode_reader (C : XorCodec) (bs : List Byte) :
    ((XorCodec.Reader.decompress C (XorCodec.Reader.new bs)).map Prod.fst) = (C.decompress bs).toRes := by
  unfold XorCodec.Reader.decompress XorCodec.Reader.new
  simp only
  rw [Res.map_map]
  exact C.collectR_fst _ _ _

/-- The reader chosen by the scheme id decodes what the scheme's `decode` says. -/
theorem Env.decode_eq (E : Env) (cfg : Config) (n : Nat) (bs : List Byte) :
    (E.scheme cfg).decode n bs
      = (AnyReader.new cfg.scheme n bs).bind fun r => (AnyReader.decompress E r).map Prod.fst := by
  have hx : ∀ (C : XorCodec) (f : XorCodec.Reader → AnyReader),
      (((XorCodec.Reader.decompress C (XorCodec.Reader.new bs)).map fun p => (p.1, f p.2)).map Prod.fst)
        = (C.decompress bs).toRes := by
    intro C f
    rw [← C.decode_reader, Res.map_map]
    rfl
  have hm : ∀ {R : Type} (x : Res (List B64 × R)) (f : R → AnyReader),
      (x.map fun p => (p.1, f p.2)).map Prod.fst = x.map Prod.fst := by
    intro R x f; cases x <;> rfl
  cases cfg
  case uncompressed => exact (hm _ _).symm
  case rle =>
    show (RunLength.Reader.new n bs).bind _ = _
    simp only [Config.scheme, AnyReader.new]
    cases RunLength.Reader.new n bs with
    | ok r => exact (hm _ _).symm
    | err => rfl
    | panic => rfl
  case gorilla => exact (hx _ _).symm
  case buff => exact (hm _ _).symm
  case chimp => exact (hx _ _).symm
  case chimp128 => exact (hx _ _).symm
  case elfOnChimp => exact (hx _ _).symm
  case elf => exact (hx _ _).symm
  case deltaSprintz => exact (hm _ _).symm
  all_goals
    simp only [Config.scheme, AnyReader.new, Res.bind, AnyReader.decompress, External.Reader.decompress,
      External.Reader.new, Res.map_map]
    show _ = _
    simp only [Env.scheme, External.zstdScheme, External.exactScheme, External.alpScheme]
  · cases External.decodeZstd E.zstd n bs <;> rfl
  · cases External.decodeExact E.gzip n bs <;> rfl
  · cases External.decodeExact E.snappy n bs <;> rfl
  · cases External.decodeAlp E.alp n bs <;> rfl

end Ebi
