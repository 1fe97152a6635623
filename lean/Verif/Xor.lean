import Verif.BitReader
import Verif.Word

/-!
# The generic XOR compressor / reader

`ebi/src/compressor/general_xor.rs` and `ebi/src/decoder/chunk_reader/general_xor.rs`: everything that
Gorilla, Chimp, Chimp128 and Elf share. A codec is a pair of state machines (`XorEncoder`,
`XorDecoder` traits).
-/

namespace Ebi

/-- Result of one `XorDecoder::decompress_float` call (`decoder::Result<Option<f64>>`), with the new
decoder state and reader: a value, end of stream (`Ok(None)`), `Err(UnexpectedEndOfChunk)` (or an I/O
error), or a panic (arithmetic underflow/overflow, index out of bounds). -/
inductive DRes (D : Type) where
  | value (v : B64) (d : D) (r : BitReader)
  | done (d : D) (r : BitReader)
  | err
  | panic

/-- The traits `XorEncoder` (general_xor.rs:14-26) and `XorDecoder`
(decoder/chunk_reader/general_xor.rs:14-21). -/
structure XorCodec where
  S : Type
  D : Type
  init : S
  /-- `compress_float`: new state, writer, and the number of bits it claims to have written -/
  compressFloat : S → BitWriter → B64 → S × BitWriter × Nat
  close : S → BitWriter → S × BitWriter
  simulateClose : S → Nat
  dinit : D
  next : D → BitReader → DRes D

/-- Result of draining the decompress iterator (`collect::<Result<Vec<f64>>>()`,
decoder/chunk_reader.rs:358-360). `outOfFuel` is an artefact of the model, proved unreachable. -/
inductive Collect where
  | ok (vs : List B64)
  | err
  | panic
  | outOfFuel
deriving DecidableEq, Repr

namespace XorCodec

variable (C : XorCodec)

/-- `struct GeneralXorCompressor` (general_xor.rs:28-35), without the timer. -/
structure Compressor where
  enc : C.S
  w : BitWriter
  totalBytesIn : Nat

/-- `GeneralXorCompressor::with_capacity` (general_xor.rs:37-60): fresh encoder, empty buffer. -/
def fresh : C.Compressor := ⟨C.init, BitWriter.new, 0⟩

/-- `reset`, general_xor.rs:165-170. -/
def reset (c : C.Compressor) : C.Compressor := ⟨C.init, c.w.reset, 0⟩

/-- The `for value in input` loop, general_xor.rs:137-139. -/
def compressLoop : C.S → BitWriter → List B64 → C.S × BitWriter
  | s, w, [] => (s, w)
  | s, w, v :: vs =>
    let (s, w, _) := C.compressFloat s w v
    compressLoop s w vs

/-- `compress`, general_xor.rs:132-143. -/
def compress (c : C.Compressor) (input : List B64) : C.Compressor :=
  let c := C.reset c
  let (s, w) := C.compressLoop c.enc c.w input
  ⟨s, w, c.totalBytesIn + 8 * input.length⟩

/-- `total_bytes_buffered`, general_xor.rs:149-154. -/
def totalBytesBuffered (c : C.Compressor) : Nat :=
  (c.w.asSlice.length * 8 + C.simulateClose c.enc + 7) / 8

/-- `prepare`, general_xor.rs:156-158. -/
def prepare (c : C.Compressor) : C.Compressor :=
  let (s, w) := C.close c.enc c.w
  { c with enc := s, w := w }

/-- `buffers`, general_xor.rs:160-163: one buffer, the writer's bytes. -/
def buffers (c : C.Compressor) : List Byte := c.w.asSlice

/-- Draining `GeneralXorDecompressIteratorImpl` (decoder/chunk_reader/general_xor.rs:124-133). The
record count in the chunk handle is not used to bound the iteration. -/
def collect : Nat → C.D → BitReader → Collect
  | 0, _, _ => .outOfFuel
  | f + 1, d, r =>
    match C.next d r with
    | .value v d r =>
      match collect f d r with
      | .ok vs => .ok (v :: vs)
      | e => e
    | .done _ _ => .ok []
    | .err => .err
    | .panic => .panic

/-- Decompressing a whole chunk with a fresh reader and decoder. The fuel is one more than the
number of bits in the chunk. -/
def decompress (bytes : List Byte) : Collect :=
  C.collect (8 * bytes.length + 1) C.dinit (BitReader.new bytes)

/-- What has to be known about an encoder: the bits each call emits and the counts it reports. -/
structure EncLaws where
  /-- bits emitted for a value / for closing -/
  emit : C.S → B64 → List Bool
  closeBits : C.S → List Bool
  nextS : C.S → B64 → C.S
  /-- invariant of reachable encoder states -/
  Inv : C.S → Prop
  inv_init : Inv C.init
  inv_next : ∀ {s} v, Inv s → Inv (nextS s v)
  compress_state : ∀ s w v, (C.compressFloat s w v).1 = nextS s v
  compress_rep : ∀ {s w bs} v, Inv s → w.Rep bs → (C.compressFloat s w v).2.1.Rep (bs ++ emit s v)
  close_rep : ∀ {s w bs}, Inv s → w.Rep bs → (C.close s w).2.Rep (bs ++ closeBits s)
  simulateClose_eq : ∀ {s}, Inv s → C.simulateClose s = (closeBits s).length
  emit_pos : ∀ s v, 0 < (emit s v).length

/-- What has to be known about the decoder: a simulation relation with the encoder state. -/
structure Laws extends EncLaws C where
  /-- relation between the encoder state before a value and the decoder state before reading it -/
  Sim : C.S → C.D → Prop
  /-- values the codec can carry -/
  Ok : B64 → Prop
  sim_inv : ∀ {s d}, Sim s d → Inv s
  sim_init : Sim C.init C.dinit
  next_value : ∀ {s d r t} v, Ok v → Sim s d → r.At (emit s v ++ t) →
    ∃ d' r', C.next d r = .value v d' r' ∧ r'.At t ∧ Sim (nextS s v) d'
  next_nan : ∀ {s d r t}, Sim s d → r.At (emit s nanBits ++ t) → ∃ d' r', C.next d r = .done d' r'
  /-- the bits of closing that are read: all but the last -/
  endBits : C.S → List Bool
  closeBits_eq : ∀ s, closeBits s = endBits s ++ [false]
  next_close : ∀ {s d r t}, Sim s d → r.At (endBits s ++ t) → ∃ d' r', C.next d r = .done d' r' ∧ r'.At t

/-- A decoder makes progress: every value it returns consumed at least one bit. -/
def Progress : Prop := ∀ {d r v d' r'}, r.WF → C.next d r = .value v d' r' →
  r'.WF ∧ r'.rest.length < r.rest.length

variable {C}

namespace EncLaws

variable (L : C.EncLaws)

def nextAll (s : C.S) (vs : List B64) : C.S := vs.foldl L.nextS s

def emitAll : C.S → List B64 → List Bool
  | _, [] => []
  | s, v :: vs => L.emit s v ++ emitAll (L.nextS s v) vs

theorem compressLoop_state (s : C.S) (w : BitWriter) (vs : List B64) :
    (C.compressLoop s w vs).1 = L.nextAll s vs := by
  induction vs generalizing s w with
  | nil => rfl
  | cons v vs ih =>
    simp only [compressLoop, nextAll, List.foldl_cons, ← L.compress_state s w v]
    exact ih _ _

theorem compressLoop_rep {s : C.S} {w : BitWriter} {bs : List Bool} (vs : List B64)
    (h : L.Inv s) (hw : w.Rep bs) :
    (C.compressLoop s w vs).2.Rep (bs ++ L.emitAll s vs) := by
  induction vs generalizing s w bs with
  | nil => simpa [compressLoop, emitAll] using hw
  | cons v vs ih =>
    have h1 := L.compress_rep v h hw
    have h2 := L.compress_state s w v
    simp only [compressLoop, emitAll, ← List.append_assoc]
    rw [h2]
    exact ih (L.inv_next v h) h1

theorem inv_nextAll {s : C.S} (vs : List B64) (h : L.Inv s) : L.Inv (L.nextAll s vs) := by
  induction vs generalizing s with
  | nil => exact h
  | cons v vs ih => exact ih (L.inv_next v h)

theorem emitAll_length (s : C.S) (vs : List B64) : vs.length ≤ (L.emitAll s vs).length := by
  induction vs generalizing s with
  | nil => simp
  | cons v vs ih =>
    have := ih (L.nextS s v)
    have := L.emit_pos s v
    simp [emitAll]; omega

/-- Compressing puts exactly the emitted bits in the writer. -/
theorem compress_rep_all (c : C.Compressor) (vs : List B64) :
    (C.compress c vs).w.Rep (L.emitAll C.init vs) ∧
    (C.compress c vs).enc = L.nextAll C.init vs ∧
    (C.compress c vs).totalBytesIn = 8 * vs.length := by
  have h1 := L.compressLoop_rep vs L.inv_init (BitWriter.rep_reset c.w)
  have h2 := L.compressLoop_state C.init c.w.reset vs
  rw [List.nil_append] at h1
  exact ⟨h1, h2, by simp [compress, reset]⟩

/-- The bytes produced by compressing `vs` represent exactly the emitted bits. -/
theorem prepare_rep_all (c : C.Compressor) (vs : List B64) :
    (C.prepare (C.compress c vs)).w.Rep
      (L.emitAll C.init vs ++ L.closeBits (L.nextAll C.init vs)) := by
  obtain ⟨h1, h2, -⟩ := L.compress_rep_all c vs
  have h3 := L.close_rep (L.inv_nextAll vs L.inv_init) h1
  rw [← h2] at h3 ⊢
  exact h3

include L in
/-- The size announced before `prepare` bounds what `prepare` produces, and is at most one byte
too large. -/
theorem buffered_bound (c : C.Compressor) (vs : List B64) :
    (C.buffers (C.prepare (C.compress c vs))).length ≤ C.totalBytesBuffered (C.compress c vs) ∧
    C.totalBytesBuffered (C.compress c vs) ≤ (C.buffers (C.prepare (C.compress c vs))).length + 1 := by
  obtain ⟨h1, h2, -⟩ := L.compress_rep_all c vs
  have h3 := L.prepare_rep_all c vs
  have e1 := BitWriter.rep_bytes_length h1
  have e3 := BitWriter.rep_bytes_length h3
  have e4 := L.simulateClose_eq (L.inv_nextAll vs L.inv_init)
  unfold totalBytesBuffered buffers BitWriter.asSlice
  rw [h2, e4]
  rw [List.length_append] at e3
  omega

include L in
/-- Compressing with a used compressor gives the same bytes and statistics as with a fresh one. -/
theorem reuse (c : C.Compressor) (vs : List B64) :
    C.buffers (C.prepare (C.compress c vs)) = C.buffers (C.prepare (C.compress C.fresh vs)) ∧
    C.totalBytesBuffered (C.compress c vs) = C.totalBytesBuffered (C.compress C.fresh vs) ∧
    (C.compress c vs).totalBytesIn = (C.compress C.fresh vs).totalBytesIn := by
  have hw : (C.compress c vs).w = (C.compress C.fresh vs).w :=
    BitWriter.rep_unique (L.compress_rep_all c vs).1 (L.compress_rep_all C.fresh vs).1
  have he : (C.compress c vs).enc = (C.compress C.fresh vs).enc := by
    rw [(L.compress_rep_all c vs).2.1, (L.compress_rep_all C.fresh vs).2.1]
  refine ⟨?_, ?_, ?_⟩
  · unfold buffers
    rw [BitWriter.rep_unique (L.prepare_rep_all c vs) (L.prepare_rep_all C.fresh vs)]
  · unfold totalBytesBuffered; rw [hw, he]
  · rw [(L.compress_rep_all c vs).2.2, (L.compress_rep_all C.fresh vs).2.2]

end EncLaws

namespace Laws

variable (L : C.Laws)

theorem collect_at {s : C.S} {d : C.D} {r : BitReader} {t : List Bool} (vs : List B64)
    (hok : ∀ v ∈ vs, L.Ok v) (h : L.Sim s d)
    (hr : r.At (L.emitAll s vs ++ (L.closeBits (L.nextAll s vs) ++ t))) (fuel : Nat)
    (hf : vs.length < fuel) : C.collect fuel d r = .ok vs := by
  induction vs generalizing s d r fuel with
  | nil =>
    obtain ⟨f, rfl⟩ : ∃ f, fuel = f + 1 := ⟨fuel - 1, by simp at hf; omega⟩
    simp only [EncLaws.emitAll, EncLaws.nextAll, List.foldl_nil, L.closeBits_eq, List.nil_append, List.append_assoc] at hr
    obtain ⟨d', r', hn, -⟩ := L.next_close h hr
    simp [collect, hn]
  | cons v vs ih =>
    obtain ⟨f, rfl⟩ : ∃ f, fuel = f + 1 := ⟨fuel - 1, by simp at hf; omega⟩
    simp only [EncLaws.emitAll, List.append_assoc] at hr
    obtain ⟨d', r', hn, hr', hs'⟩ := L.next_value v (hok v (by simp)) h hr
    rw [collect, hn]
    simp only
    rw [ih (fun x hx => hok x (by simp [hx])) hs' hr' f (by simp at hf; omega)]

theorem collect_nan {s : C.S} {d : C.D} {r : BitReader} {t : List Bool} (vs : List B64)
    (hok : ∀ v ∈ vs, L.Ok v) (h : L.Sim s d)
    (hr : r.At (L.emitAll s vs ++ (L.emit (L.nextAll s vs) nanBits ++ t))) (fuel : Nat)
    (hf : vs.length < fuel) : C.collect fuel d r = .ok vs := by
  induction vs generalizing s d r fuel with
  | nil =>
    obtain ⟨f, rfl⟩ : ∃ f, fuel = f + 1 := ⟨fuel - 1, by simp at hf; omega⟩
    obtain ⟨d', r', hn⟩ := L.next_nan h hr
    simp [collect, hn]
  | cons v vs ih =>
    obtain ⟨f, rfl⟩ : ∃ f, fuel = f + 1 := ⟨fuel - 1, by simp at hf; omega⟩
    simp only [EncLaws.emitAll, List.append_assoc] at hr
    obtain ⟨d', r', hn, hr', hs'⟩ := L.next_value v (hok v (by simp)) h hr
    rw [collect, hn]
    simp only
    rw [ih (fun x hx => hok x (by simp [hx])) hs' hr' f (by simp at hf; omega)]

theorem emitAll_append (s : C.S) (vs us : List B64) :
    L.emitAll s (vs ++ us) = L.emitAll s vs ++ L.emitAll (L.nextAll s vs) us := by
  induction vs generalizing s with
  | nil => rfl
  | cons v vs ih =>
    simp only [List.cons_append, EncLaws.emitAll, ih, List.append_assoc]
    rfl

/-- A reserved NaN in the input silently cuts the stream. -/
theorem cut_at_nan (c : C.Compressor) (vs us : List B64) (hok : ∀ v ∈ vs, L.Ok v) :
    C.decompress (C.buffers (C.prepare (C.compress c (vs ++ nanBits :: us)))) = .ok vs := by
  have hrep := L.prepare_rep_all c (vs ++ nanBits :: us)
  have hat := BitReader.at_new (C.prepare (C.compress c (vs ++ nanBits :: us))).w.buf
  have hl := congrArg List.length hrep.2.2
  rw [hrep.2.2, emitAll_append] at hat
  simp only [EncLaws.emitAll, List.append_assoc] at hat
  unfold decompress buffers BitWriter.asSlice
  refine L.collect_nan vs hok L.sim_init hat _ ?_
  have := L.emitAll_length C.init (vs ++ nanBits :: us)
  simp at hl this
  omega

/-- Generic losslessness. -/
theorem round_trip (c : C.Compressor) (vs : List B64) (hok : ∀ v ∈ vs, L.Ok v) :
    C.decompress (C.buffers (C.prepare (C.compress c vs))) = .ok vs := by
  have hrep := L.prepare_rep_all c vs
  have hat := BitReader.at_new (C.prepare (C.compress c vs)).w.buf
  rw [hrep.2.2, List.append_assoc] at hat
  unfold decompress buffers BitWriter.asSlice
  refine L.collect_at vs hok L.sim_init hat _ ?_
  have hl := congrArg List.length hrep.2.2
  have := L.emitAll_length C.init vs
  simp at hl
  omega

end Laws

/-- A decoder that makes progress never runs out of fuel, and yields no more values than the bits
it consumed. -/
theorem collect_total (hp : C.Progress) (f : Nat) (d : C.D) (r : BitReader) (hr : r.WF)
    (hf : r.rest.length < f) :
    C.collect f d r ≠ .outOfFuel ∧ ∀ vs, C.collect f d r = .ok vs → vs.length ≤ r.rest.length := by
  induction f generalizing d r with
  | zero => omega
  | succ f ih =>
    rw [collect]
    cases hn : C.next d r with
    | value v d' r' =>
      obtain ⟨hw, hl⟩ := hp hr hn
      obtain ⟨h1, h2⟩ := ih d' r' hw (by omega)
      simp only
      cases hc : C.collect f d' r' with
      | ok vs =>
        have := h2 vs hc
        simp; omega
      | err => simp
      | panic => simp
      | outOfFuel => exact absurd hc h1
    | done d' r' => simp
    | err => simp
    | panic => simp

/-- Beyond one unit of fuel per remaining bit the amount of fuel is irrelevant: the unbounded
iteration of the code gives the same result. -/
theorem collect_fuel (hp : C.Progress) (f g : Nat) (d : C.D) (r : BitReader) (hr : r.WF)
    (hf : r.rest.length < f) (hg : r.rest.length < g) : C.collect f d r = C.collect g d r := by
  induction f generalizing g d r with
  | zero => omega
  | succ f ih =>
    obtain ⟨g, rfl⟩ : ∃ g', g = g' + 1 := ⟨g - 1, by omega⟩
    rw [collect, collect]
    cases hn : C.next d r with
    | value v d' r' =>
      obtain ⟨hw, hl⟩ := hp hr hn
      simp only
      rw [ih g d' r' hw (by omega) (by omega)]
    | done d' r' => rfl
    | err => rfl
    | panic => rfl

end XorCodec
end Ebi
