import Verif.EncoderLemmas
import Verif.Gorilla
import Verif.Chimp
import Verif.Chimp128
import Verif.ElfXor
import Verif.RunLength
import Verif.Uncompressed
import Verif.Sprintz
import Verif.External

/-!
# The compressors and readers as `Scheme`s

`ebi/src/compressor.rs` (the `GenericCompressor` enum) and `ebi/src/decoder/chunk_reader.rs` (the
`GeneralChunkReaderInner` enum).
-/

namespace Ebi

/-- An XOR codec result as an outcome. `outOfFuel` never occurs (C46). -/
def Collect.toRes : Collect → Res (List B64)
  | .ok vs => .ok vs
  | .err => .err
  | .panic => .panic
  | .outOfFuel => .panic

/-- `GeneralXorCompressor` / `GeneralXorReader`. The announced record count is not used.
`shortPanics` is true for Chimp128 (chunk_reader/chimp_n.rs). -/
def XorCodec.scheme (C : XorCodec) (shortPanics : Bool) : Scheme where
  Comp := C.Compressor
  build := C.fresh
  reset := C.reset
  compress c vs := .ok (C.compress c vs)
  totalBytesIn c := c.totalBytesIn
  prepare c := .ok (C.prepare c)
  buffers := C.buffers
  decode _ bs := (C.decompress bs).toRes
  shortPanics := shortPanics

def Uncompressed.scheme : Scheme where
  Comp := Uncompressed.Comp
  build := Uncompressed.Comp.new
  reset := Uncompressed.Comp.reset
  compress c vs := .ok (c.compress vs)
  totalBytesIn c := c.totalBytesIn
  prepare c := .ok c.prepare
  buffers := Uncompressed.Comp.buffers
  decode n bs := ((Uncompressed.Reader.new n bs).decompress).map Prod.fst
  shortPanics := false

def RunLength.scheme : Scheme where
  Comp := RunLength.Comp
  build := RunLength.Comp.new
  reset := RunLength.Comp.reset
  compress c vs := c.compress vs
  totalBytesIn c := c.totalBytesIn
  prepare c := .ok c.prepare
  buffers := RunLength.Comp.buffers
  decode n bs := do
    let r ← RunLength.Reader.new n bs
    (r.decompress).map Prod.fst
  shortPanics := false

def Sprintz.scheme (o : FloatOps) (scale : Nat) : Scheme where
  Comp := Sprintz.Comp
  build := Sprintz.Comp.new scale
  reset := Sprintz.Comp.reset
  compress c vs := c.compress o vs
  totalBytesIn c := c.totalBytesIn
  prepare c := .ok c.prepare
  buffers := Sprintz.Comp.buffers
  decode n bs := ((Sprintz.Reader.new n bs).decompress o).map Prod.fst
  shortPanics := false

def External.zstdScheme (k : External.ByteCodec) : Scheme where
  Comp := External.Comp
  build := External.Comp.new
  reset := External.Comp.reset
  compress c vs := c.compressZstd k vs
  totalBytesIn c := c.totalBytesIn
  prepare c := .ok c
  buffers := External.Comp.buffers
  decode := External.decodeZstd k
  shortPanics := false

/-- Gzip and Snappy. -/
def External.exactScheme (k : External.ByteCodec) : Scheme where
  Comp := External.Comp
  build := External.Comp.new
  reset := External.Comp.reset
  compress c vs := c.compressReset k vs
  totalBytesIn c := c.totalBytesIn
  prepare c := .ok c
  buffers := External.Comp.buffers
  decode := External.decodeExact k
  shortPanics := false

def External.alpScheme (k : External.ValueCodec) : Scheme where
  Comp := External.AlpComp
  build := External.AlpComp.new
  reset := External.AlpComp.reset
  compress c vs := .ok (c.compress k vs)
  totalBytesIn c := c.totalBytesIn
  prepare c := .ok c
  buffers c := c.compressed
  decode := External.decodeAlp k
  shortPanics := false

/-! ## Laws -/

theorem XorCodec.Laws.schemeLaw {C : XorCodec} (L : C.Laws) (b : Bool) (n : Nat) :
    (C.scheme b).Law id L.Ok n := by
  refine ⟨fun _ => True, trivial, ?_⟩
  · intro c vs _ _ hok _
    refine ⟨_, _, rfl, ?_, rfl, ?_, ?_, trivial⟩
    · exact (L.compress_rep_all _ vs).2.2
    · exact (L.compress_rep_all _ vs).2.2
    · simp only [XorCodec.scheme, L.round_trip _ vs hok, Collect.toRes, List.map_id]

theorem Uncompressed.schemeLaw (n : Nat) : Uncompressed.scheme.Law id (fun _ => True) n := by
  refine ⟨fun _ => True, trivial, ?_⟩
  · intro c vs _ _ _ _
    refine ⟨_, _, rfl, ?_, rfl, ?_, ?_, trivial⟩
    · simp [Uncompressed.scheme, Uncompressed.Comp.compress, Uncompressed.Comp.reset]
    · simp [Uncompressed.scheme, Uncompressed.Comp.compress, Uncompressed.Comp.reset,
        Uncompressed.Comp.prepare]
    · have e : (((c.reset).compress vs).prepare).buffers = ofF64s vs := by
        simp [Uncompressed.Comp.compress, Uncompressed.Comp.prepare, Uncompressed.Comp.buffers,
          Uncompressed.Comp.reset]
      simp only [Uncompressed.scheme, e, Uncompressed.decompress_new, Res.map, List.map_id]

theorem RunLength.prepare_totalBytesIn (c : RunLength.Comp) :
    c.prepare.totalBytesIn = c.totalBytesIn := by
  unfold RunLength.Comp.prepare
  split <;> rfl

theorem RunLength.schemeLaw : RunLength.scheme.Law id (fun _ => True) (2 ^ 64) := by
  refine ⟨fun _ => True, trivial, ?_⟩
  · intro c vs _ h _ hlen
    obtain ⟨c', h1, h2⟩ := RunLength.rep_append (RunLength.rep_reset c.reset) vs (by simpa using h)
    have ht : c'.totalBytesIn = 8 * vs.length := by simpa using h2.total
    refine ⟨c', c'.prepare, h1, ht, rfl, (RunLength.prepare_totalBytesIn c').trans ht, ?_, trivial⟩
    rw [List.nil_append] at h2
    simp only [RunLength.scheme, (RunLength.rep_buffers h2).1,
      RunLength.reader_new vs vs.length hlen, Res.bind_ok, RunLength.decompress_chunk, Res.map,
      List.map_id]

/-- What DeltaSprintz makes of a value. -/
def Sprintz.view (o : FloatOps) (scale : Nat) (v : B64) : B64 :=
  Sprintz.dequantize o (scale % 2 ^ 32) (Sprintz.quantize o scale v)

theorem Sprintz.schemeLaw (o : FloatOps) (scale n : Nat) :
    (Sprintz.scheme o scale).Law (Sprintz.view o scale) (fun _ => True) n := by
  refine ⟨fun c => c.scale = scale, rfl, ?_⟩
  intro c vs hg h _ _
  obtain ⟨c', h1, h2, h3, h4⟩ := Sprintz.compress_ok o c.reset vs h
  refine ⟨c', c', h1, h3, rfl, h3, ?_, h4.trans hg⟩
  have hst := Sprintz.stored_of_rep h2
  rw [List.length_map] at hst
  obtain ⟨r', h5, -, -⟩ := hst.decompress rfl rfl o
  simp only [Sprintz.scheme, Sprintz.Comp.buffers]
  rw [h5]
  have hs : c.reset.scale = scale := hg
  simp [Res.map, Sprintz.view, hs]

theorem External.zstdLaw {k : External.ByteCodec} (hk : k.Lossless) (n : Nat) :
    (External.zstdScheme k).Law id (fun _ => True) n := by
  refine ⟨fun _ => True, trivial, ?_⟩
  intro c vs _ _ _ _
  obtain ⟨c', h1, h2, h3, -, -⟩ := External.decodeZstd_enc hk c.reset vs
  have h2' : c'.totalBytesIn = 8 * vs.length := by simpa [External.Comp.reset] using h2
  exact ⟨c', c', h1, h2', rfl, h2', by rw [List.map_id]; exact h3, trivial⟩

theorem External.exactLaw {k : External.ByteCodec} (hk : k.Lossless) (n : Nat) :
    (External.exactScheme k).Law id (fun _ => True) n := by
  refine ⟨fun _ => True, trivial, ?_⟩
  intro c vs _ _ _ _
  obtain ⟨c', h1, h2, -, h3, -⟩ := External.decodeZstd_enc hk c.reset vs
  have h2' : c'.totalBytesIn = 8 * vs.length := by simpa [External.Comp.reset] using h2
  exact ⟨c', c', h1, h2', rfl, h2', by rw [List.map_id]; exact h3, trivial⟩

theorem External.alpLaw {k : External.ValueCodec} (hk : k.Lossless) (n : Nat) :
    (External.alpScheme k).Law id (fun _ => True) n := by
  refine ⟨fun _ => True, trivial, ?_⟩
  intro c vs _ _ _ _
  refine ⟨_, _, rfl, ?_, rfl, ?_, ?_, trivial⟩
  · simp [External.alpScheme, External.AlpComp.compress, External.AlpComp.reset]
  · simp [External.alpScheme, External.AlpComp.compress, External.AlpComp.reset]
  · simp [External.alpScheme, External.AlpComp.compress, External.AlpComp.reset, External.decodeAlp,
      hk vs]

end Ebi
