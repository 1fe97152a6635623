import Verif.ApiLemmas
import Verif.Props.Buff
import Verif.Props.Elf
import Verif.Props.FileQuery
import Verif.Props.ChunkReader

/-!
# C23 for every configuration

Which values each scheme gives back, and that a file written with any configuration and read by the
reader its header names contains them.
-/

namespace Ebi.Props

open Ebi

/-- The external libraries are lossless. -/
structure LosslessLibraries (E : Env) : Prop where
  zstd : E.zstd.Lossless
  gzip : E.gzip.Lossless
  snappy : E.snappy.Lossless
  alp : E.alp.Lossless

/-- Fraction bits BUFF uses for a scale. -/
def buffBits (E : Env) (scale : BitVec 64) : Nat := (Buff.fractionBits E.log10Scale scale.toNat).getD 0

/-- What a record comes back as: itself, except for the two quantizing schemes. -/
def readBack (E : Env) : Config → B64 → B64
  | .buff s, v => fixedValue E.o (buffBits E s) (Buff.intoFixed v (buffBits E s))
  | .deltaSprintz _ s, v => E.o.div (E.o.ofI64 (E.o.toI64 (E.o.round (E.o.mul v (E.o.ofNat s.toNat)))))
      (E.o.ofNat (s.toNat % 2 ^ 32))
  | _, v => v

/-- The values a configuration is proved to carry. -/
def Accepts (E : Env) : Config → B64 → Prop
  | .gorilla _, v | .chimp _, v | .chimp128 _, v => v ≠ nanBits
  | .elf _, v | .elfOnChimp _, v => ElfRange v ∨ Elf.Log10Close E.log10 ∧ ElfWide v
  | _, _ => True

/-- Records per file: BUFF stores the count in 32 bits, the rest has no limit of its own. -/
def recordLimit : Config → Nat
  | .buff _ => 2 ^ 32
  | _ => 2 ^ 64

/-- A BUFF scale outside the precision table panics. -/
def Supported (E : Env) : Config → Prop
  | .buff s => (Buff.fractionBits E.log10Scale s.toNat).isSome = true
  | _ => True

theorem buff_law (o : FloatOps) (lg : Nat → Nat) (scale F : Nat) (hF : Buff.fractionBits lg scale = some F) :
    (Buff.scheme o lg scale).Law (fun v => fixedValue o F (Buff.intoFixed v F)) (fun _ => True) (2 ^ 32) := by
  refine ⟨fun c => c.scale = scale, rfl, ?_⟩
  intro c vs hg hne _ hlen
  have hs : c.reset.scale = scale := hg
  obtain ⟨c', h1, h2⟩ := c13_buff_round_trip o lg c.reset vs F (by rw [hs]; exact hF) hne hlen
  have h3 : c'.totalBytesIn = 8 * vs.length ∧ c'.scale = scale := by
    unfold Buff.Comp.compress at h1
    rw [hs, hF] at h1
    simp only at h1
    split at h1
    · cases h1
      exact ⟨by simp [Buff.Comp.reset], rfl⟩
    · cases h1
    · cases h1
  refine ⟨c', c', h1, h3.1, rfl, h3.1, ?_, h3.2⟩
  simp only [Buff.scheme, Buff.Reader.decompress, Buff.Reader.new]
  have h4 : Buff.decode o c'.buffers = .ok (vs.map (fun v => fixedValue o F (Buff.intoFixed v F))) := h2
  rw [h4]
  rfl

theorem accepts_elf {lg : B64 → B64} {v : B64} (h : ElfRange v ∨ Elf.Log10Close lg ∧ ElfWide v) :
    Elf.Carries lg (· ≠ nanBits) v := by
  rcases h with h | ⟨h1, h2⟩
  · exact elfRange_carries lg h
  · exact elfWide_carries h1 h2

theorem scheme_law (E : Env) (hE : LosslessLibraries E) (cfg : Config) (hc : Supported E cfg) :
    (E.scheme cfg).Law (readBack E cfg) (Accepts E cfg) (recordLimit cfg) := by
  cases cfg
  case uncompressed => exact Uncompressed.schemeLaw _
  case rle => exact RunLength.schemeLaw
  case gorilla => exact Gorilla.laws.schemeLaw _ _
  case chimp => exact Chimp.laws.schemeLaw _ _
  case chimp128 => exact Chimp128.laws.schemeLaw _ _
  case elf =>
    obtain ⟨G, h1, h2⟩ := (Elf.laws E.log10 ElfXor.laws).schemeLaw false (2 ^ 64)
    exact ⟨G, h1, fun c vs hg hne hok hl => h2 c vs hg hne (fun v hv => accepts_elf (hok v hv)) hl⟩
  case elfOnChimp =>
    obtain ⟨G, h1, h2⟩ := (Elf.laws E.log10 Chimp.laws).schemeLaw false (2 ^ 64)
    exact ⟨G, h1, fun c vs hg hne hok hl => h2 c vs hg hne (fun v hv => accepts_elf (hok v hv)) hl⟩
  case buff s =>
    obtain ⟨F, hF⟩ := Option.isSome_iff_exists.1 hc
    have hb : buffBits E s = F := by simp [buffBits, hF]
    have h := buff_law E.o E.log10Scale s.toNat F hF
    rw [← hb] at h
    exact h
  case deltaSprintz c s => exact Sprintz.schemeLaw E.o s.toNat _
  case zstd => exact External.zstdLaw hE.zstd _
  case gzip => exact External.exactLaw hE.gzip _
  case snappy => exact External.exactLaw hE.snappy _
  case ffiAlp => exact External.alpLaw hE.alp _

theorem recordLimit_le (a : Args) (ha : a.Valid) (h : a.cfg.scheme = .buff → a.records.length < 2 ^ 32) :
    a.records.length < recordLimit a.cfg := by
  have h1 := a.records_length
  have h2 := ha.small
  cases hc : a.cfg <;> simp only [recordLimit] <;> first | omega | (apply h; rw [hc]; rfl)

/-- The values of a file written and read with its own configuration. -/
structure Written (E : Env) (a : Args) (file : List Byte) (m : Metadata) : Prop where
  libraries : LosslessLibraries E
  supported : Supported E a.cfg
  valid : a.Valid
  accepts : ∀ v ∈ a.records, Accepts E a.cfg v
  limit : a.cfg.scheme = .buff → a.records.length < 2 ^ 32
  encoded : EncodedFile (E.scheme a.cfg) a file m

theorem Written.law {E : Env} {a : Args} {file : List Byte} {m : Metadata} (h : Written E a file m) :
    (E.scheme a.cfg).Law (readBack E a.cfg) (Accepts E a.cfg) (recordLimit a.cfg) :=
  scheme_law E h.libraries a.cfg h.supported

theorem Written.len {E : Env} {a : Args} {file : List Byte} {m : Metadata} (h : Written E a file m) :
    a.records.length < recordLimit a.cfg := recordLimit_le a h.valid h.limit

theorem Written.header {E : Env} {a : Args} {file : List Byte} {m : Metadata} (h : Written E a file m) :
    m.header.scheme = a.cfg.scheme ∧ m.footer.config = a.cfg := by
  obtain ⟨cs, -, rfl, -⟩ := h.encoded.chunks h.law h.valid h.accepts h.len
  exact ⟨rfl, rfl⟩

/-- Encoding succeeds with every configuration, and unless the file is empty or beyond 2^63 bytes it
opens again. -/
theorem written (E : Env) (hE : LosslessLibraries E) (a : Args) (hs : Supported E a.cfg) (ha : a.Valid)
    (hok : ∀ v ∈ a.records, Accepts E a.cfg v) (hl : a.cfg.scheme = .buff → a.records.length < 2 ^ 32)
    (hne : 8 ≤ a.src.data.length) :
    ∃ file, a.encode (E.scheme a.cfg) = some (.ok file) ∧ (file.length < 2 ^ 63 → ∃ m, Written E a file m) := by
  obtain ⟨cs, h1, h2, h3, h4, h5, h6⟩ := a.opened ha (scheme_law E hE a.cfg hs) hok (recordLimit_le a ha hl)
  refine ⟨_, h1, fun hlt => ⟨a.metadata cs, hE, hs, ha, hok, hl, h1, hlt, (h6 hlt).2 ?_⟩⟩
  intro e
  have := a.records_length
  rw [e, List.length_nil] at this
  omega

/-- C22 for whole files: opening one gives back everything the encoder was called with. -/
theorem c22_file {E : Env} {a : Args} {file : List Byte} {m : Metadata} (h : Written E a file m) :
    m.header.magic = file.take 4 ∧ m.header.magic = [0x45#8, 0x42#8, 0x49#8, 0x31#8] ∧ m.header.scheme = a.cfg.scheme ∧ m.header.option = a.opt ∧
    m.header.version = a.version ∧ m.footer.config = a.cfg ∧ m.footer.times = a.times ∧
    m.footer.elapsed = a.elapsed ∧ m.footer.records = a.src.data.length / 8 ∧
    m.header.footerOffset + m.footer.size = file.length := by
  obtain ⟨cs, rfl, rfl, -, -, -, -, h5⟩ := h.encoded.chunks h.law h.valid h.accepts h.len
  refine ⟨rfl, rfl, rfl, rfl, rfl, rfl, rfl, Duration.ofNanos_asNanos h.valid.elapsed, h5.trans a.records_length, ?_⟩
  rw [a.layout_length]
  show headerSize + (blobs cs).length + (footer0Size + (stored cs).length * chunkFooterSize + _ + _) = _
  rw [show (stored cs).length = cs.length from directory_dropLast_length _ _ cs]
  rfl

/-- C30 through the reader the header names, for every scheme. The bitmap holds 32-bit positions. -/
theorem c30_every_scheme {E : Env} {a : Args} {file : List Byte} {m : Metadata} (h : Written E a file m)
    (prec : Option Nat) (hp : prec = none ∨ a.cfg.scheme ≠ .buff) (bm : Option Bitmap)
    (hr : bm = none ∨ a.records.length < 2 ^ 32) :
    Decoder.materialize E ⟨file, m, prec⟩ bm none = .ok (pick bm (a.records.map (readBack E a.cfg))) := by
  obtain ⟨cs, rfl, rfl, hfit, h2, h3, h4, h5⟩ := h.encoded.chunks h.law h.valid h.accepts h.len
  rw [← h5] at hr
  show Query.materialize (E.scheme a.cfg) (AnyReader.ops E a.cfg.scheme prec) _ _ bm none = _
  rw [materialize_layout (a := a) hfit (E.scheme a.cfg) (view := readBack E a.cfg) bm hr ?_, h4,
    pickFrom_eq (hr.imp id (fun h => by rw [List.length_map, ← h5]; omega))]
  · rfl
  · intro p hmem off
    obtain ⟨hd, h6, h7⟩ := freshHandle_holds E a.cfg prec hp (h3 p hmem).1 (by simp) off
    obtain ⟨hd', h8, -⟩ := h7.exec (q := .materialize bm) rfl
    simp only [AnyReader.ops, h6, Res.bind_ok, Handle.values_of_exec h8, Res.map_ok]

theorem pick_none (vs : List B64) : pick none vs = vs := by
  unfold pick
  have h : (vs.zipIdx).filter (fun p => (none : Option Bitmap).all fun b => b.contains p.2) = vs.zipIdx :=
    List.filter_eq_self.2 (fun _ _ => rfl)
  rw [h]
  exact List.zipIdx_map_fst 0 vs

/-- C23 for every configuration: what is written comes back, through `readBack` for the two schemes that
quantize. -/
theorem c23_every_scheme (E : Env) (hE : LosslessLibraries E) (a : Args) (hs : Supported E a.cfg) (ha : a.Valid)
    (hok : ∀ v ∈ a.records, Accepts E a.cfg v) (hl : a.cfg.scheme = .buff → a.records.length < 2 ^ 32)
    (hne : 8 ≤ a.src.data.length) :
    ∃ file, a.encode (E.scheme a.cfg) = some (.ok file) ∧
      (file.length < 2 ^ 63 → ∃ m, openFile file = .ok m ∧
        Decoder.materialize E ⟨file, m, none⟩ none none = .ok (a.records.map (readBack E a.cfg))) := by
  obtain ⟨file, h1, h2⟩ := written E hE a hs ha hok hl hne
  refine ⟨file, h1, fun hlt => ?_⟩
  obtain ⟨m, hw⟩ := h2 hlt
  refine ⟨m, hw.encoded.opened, ?_⟩
  rw [c30_every_scheme hw none (Or.inl rfl) none (Or.inl rfl), pick_none]

/-- The queries of the 11 schemes that override none, through the reader the header names, are the
queries C30-C34 speak about. -/
theorem decoder_default {E : Env} {a : Args} {file : List Byte} {m : Metadata} (h : Written E a file m)
    (h1 : a.cfg.scheme ≠ .buff) (h2 : a.cfg.scheme ≠ .deltaSprintz) (prec : Option Nat) :
    Decoder.ops E ⟨file, m, prec⟩ = defaultOps E.o (E.scheme a.cfg).decode ∧
      E.scheme (Decoder.mk file m prec).info.footer.config = E.scheme a.cfg := by
  refine ⟨?_, by rw [h.header.2]⟩
  show AnyReader.ops E m.header.scheme prec = _
  rw [h.header.1, AnyReader.ops_default E a.cfg h1 h2]

theorem c31_decoder_filter {E : Env} {a : Args} {file : List Byte} {m : Metadata} (h : Written E a file m)
    (h1 : a.cfg.scheme ≠ .buff) (h2 : a.cfg.scheme ≠ .deltaSprintz) (prec : Option Nat) (p : Predicate B64)
    (bm : Option Bitmap) (hr : a.records.length < 2 ^ 32) :
    ∃ res, Decoder.filter E ⟨file, m, prec⟩ p bm none = .ok res ∧ Bitmap.WF res ∧
      ∀ x, x ∈ res ↔ ∃ v, (a.records.map (readBack E a.cfg))[x]? = some v ∧ (∀ b, bm = some b → x ∈ b) ∧
        p.eval f64Cmp v = true := by
  unfold Decoder.filter
  rw [(decoder_default h h1 h2 prec).1, (decoder_default h h1 h2 prec).2]
  exact c31_filter h.law a h.valid h.accepts h.len E.o h.encoded p bm hr

theorem c33_decoder_min {E : Env} {a : Args} {file : List Byte} {m : Metadata} (h : Written E a file m)
    (h1 : a.cfg.scheme ≠ .buff) (h2 : a.cfg.scheme ≠ .deltaSprintz) (prec : Option Nat) (ho : MinMaxLaw E.o)
    (bm : Option Bitmap) (hr : bm = none ∨ a.records.length < 2 ^ 32) :
    ∃ r, Decoder.min E ⟨file, m, prec⟩ bm none = .ok r ∧ isNaN r = false ∧
      (r = posInf ∨ r ∈ pick bm (a.records.map (readBack E a.cfg))) ∧
      ∀ v ∈ pick bm (a.records.map (readBack E a.cfg)), isNaN v = false → fle r v = true := by
  unfold Decoder.min
  rw [(decoder_default h h1 h2 prec).1, (decoder_default h h1 h2 prec).2]
  exact c33_min h.law a h.valid h.accepts h.len E.o ho h.encoded bm hr

theorem c33_decoder_max {E : Env} {a : Args} {file : List Byte} {m : Metadata} (h : Written E a file m)
    (h1 : a.cfg.scheme ≠ .buff) (h2 : a.cfg.scheme ≠ .deltaSprintz) (prec : Option Nat) (ho : MinMaxLaw E.o)
    (bm : Option Bitmap) (hr : bm = none ∨ a.records.length < 2 ^ 32) :
    ∃ r, Decoder.max E ⟨file, m, prec⟩ bm none = .ok r ∧ isNaN r = false ∧
      (r = negInf ∨ r ∈ pick bm (a.records.map (readBack E a.cfg))) ∧
      ∀ v ∈ pick bm (a.records.map (readBack E a.cfg)), isNaN v = false → fle v r = true := by
  unfold Decoder.max
  rw [(decoder_default h h1 h2 prec).1, (decoder_default h h1 h2 prec).2]
  exact c33_max h.law a h.valid h.accepts h.len E.o ho h.encoded bm hr

theorem c33_decoder_sum {E : Env} {a : Args} {file : List Byte} {m : Metadata} (h : Written E a file m)
    (h1 : a.cfg.scheme ≠ .buff) (h2 : a.cfg.scheme ≠ .deltaSprintz) (prec : Option Nat)
    (bm : Option Bitmap) (hr : bm = none ∨ a.records.length < 2 ^ 32) :
    ∃ chunks : List (List B64), chunks.flatten = a.records.map (readBack E a.cfg) ∧
      chunks.length = m.footer.chunks ∧
      (∀ (i : Nat) (c : List B64), chunks[i]? = some c → m.numberOfRecords i = .ok c.length) ∧
      Decoder.sum E ⟨file, m, prec⟩ bm none = .ok ((partialSums E.o bm 0 chunks).foldl E.o.add 0#64) := by
  unfold Decoder.sum
  rw [(decoder_default h h1 h2 prec).1, (decoder_default h h1 h2 prec).2]
  exact c33_sum h.law a h.valid h.accepts h.len E.o h.encoded bm hr

/-- Filtering and then materializing the result is `filter_materialize`. -/
theorem c32_decoder {E : Env} {a : Args} {file : List Byte} {m : Metadata} (h : Written E a file m)
    (h1 : a.cfg.scheme ≠ .buff) (h2 : a.cfg.scheme ≠ .deltaSprintz) (prec : Option Nat) (p : Predicate B64)
    (bm : Option Bitmap) (hr : a.records.length < 2 ^ 32) :
    ∃ res out, Decoder.filter E ⟨file, m, prec⟩ p bm none = .ok res ∧
      Decoder.filterMaterialize E ⟨file, m, prec⟩ p bm none = .ok out ∧
      Decoder.materialize E ⟨file, m, prec⟩ (some res) none = .ok out ∧
      out = (pick bm (a.records.map (readBack E a.cfg))).filter fun v => p.eval f64Cmp v := by
  unfold Decoder.filter Decoder.filterMaterialize Decoder.materialize
  rw [(decoder_default h h1 h2 prec).1, (decoder_default h h1 h2 prec).2]
  exact c32_filter_then_materialize h.law a h.valid h.accepts h.len E.o h.encoded p bm hr

theorem sampleEnv_lossless : LosslessLibraries sampleEnv where
  zstd := fun bs => ⟨bs, rfl, rfl⟩
  gzip := fun bs => ⟨bs, rfl, rfl⟩
  snappy := fun bs => ⟨bs, rfl, rfl⟩
  alp := fun vs => by simp [sampleEnv]

/-- The hypotheses on the sample arguments, with the Gorilla configuration. -/
example : LosslessLibraries sampleEnv ∧ Supported sampleEnv sampleArgs.cfg ∧ sampleArgs.Valid ∧
    (∀ v ∈ sampleArgs.records, Accepts sampleEnv sampleArgs.cfg v) ∧ sampleArgs.cfg.scheme ≠ .buff ∧
    8 ≤ sampleArgs.src.data.length := by
  refine ⟨sampleEnv_lossless, trivial, sampleArgs_valid, ?_, by decide, by decide +kernel⟩
  have : sampleArgs.records = [0x0707070707030201#64, 0x0707070707070707#64, 0x0907070707070707#64] := by
    decide +kernel
  rw [this]
  simp [sampleArgs, Accepts, nanBits]

/-- And with a BUFF configuration (scale 100, 8 fraction bits in the precision table when
`log10 100 = 2`). -/
example : Supported { sampleEnv with log10Scale := fun _ => 2 } (.buff 100#64) := by
  unfold Supported; decide +kernel

end Ebi.Props
