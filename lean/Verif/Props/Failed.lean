import Verif.FailedLemmas
import Verif.Props.ChunkReader

/-!
# C60: a query that failed with an error fails again

The queries of a chunk reader take `&mut self` and return `Result`. A caller that gets an error may ask
again, the same query or another one, on the same reader.
-/

namespace Ebi.Props

open Ebi

/-- The schemes whose readers stay failed. -/
def staysFailed : SchemeId → Bool
  | .uncompressed | .rle | .gorilla | .chimp | .chimp128 | .elfOnChimp => true
  | _ => false

/-! ## Lemmas -/

/-- In order. -/
def Sound (s : Opened) : Prop :=
  match s.reader with
  | .uncompressed _ | .rle _ => True
  | .gorilla r | .chimp r | .chimp128 r | .elfOnChimp r => r.bits.WF
  | _ => False

/-- Failed, with less input left than the first value needs. -/
def Dry (s : Opened) : Prop :=
  match s.reader with
  | .uncompressed r => r.values = none ∧ r.rest.length < 8 * r.numberOfRecords
  | .rle r => r.decompressed = none ∧ 0 < r.numberOfFields ∧ r.rest.length < 9
  | .gorilla r | .chimp r | .chimp128 r | .elfOnChimp r => r.Stuck
  | _ => False

theorem takeExact_none {n : Nat} {bs : List Byte} : takeExact n bs = none ↔ bs.length < n := by
  unfold takeExact
  split <;> simp_all

section

variable {short : List Byte → List Byte} (hs : ∀ bs, (short bs).length ≤ bs.length)
include hs

theorem uncompressed_err {r r' : Uncompressed.Reader} (h : r.attempt short = .err r') :
    r'.values = none ∧ r'.rest.length < 8 * r'.numberOfRecords := by
  unfold Uncompressed.Reader.attempt at h
  cases hv : r.values with
  | some vs => rw [hv] at h; cases h
  | none =>
    rw [hv] at h
    simp only at h
    cases ht : takeExact (8 * r.numberOfRecords) r.rest with
    | none =>
      rw [ht] at h
      cases h
      have := takeExact_none.1 ht
      have := hs r.rest
      exact ⟨rfl, by simp only; omega⟩
    | some p => rw [ht] at h; cases h

theorem fields_err {n : Nat} {bs bs' : List Byte} (h : RunLength.fieldsE short n bs = .err bs') :
    0 < n ∧ bs'.length < 9 := by
  induction n generalizing bs with
  | zero => cases h
  | succ n ih =>
    rw [RunLength.fieldsE] at h
    cases ht : takeExact 9 bs with
    | none =>
      rw [ht] at h
      cases h
      have := takeExact_none.1 ht
      have := hs bs
      exact ⟨by omega, by omega⟩
    | some p =>
      rw [ht] at h
      simp only at h
      cases hf : RunLength.fieldsE short n p.2 <;> rw [hf] at h <;> cases h
      exact ⟨by omega, (ih hf).2⟩

theorem rle_err {r r' : RunLength.Reader} (h : r.attempt short = .err r') :
    r'.decompressed = none ∧ 0 < r'.numberOfFields ∧ r'.rest.length < 9 := by
  unfold RunLength.Reader.attempt at h
  cases hv : r.decompressed with
  | some vs => rw [hv] at h; cases h
  | none =>
    rw [hv] at h
    simp only at h
    cases hf : RunLength.fieldsE short r.numberOfFields r.rest <;> rw [hf] at h <;> cases h
    have := fields_err hs hf
    exact ⟨rfl, this.1, this.2⟩

omit hs in
theorem uncompressed_dry {r : Uncompressed.Reader} (hv : r.values = none)
    (hl : r.rest.length < 8 * r.numberOfRecords) : ∃ r', r.attempt short = .err r' := by
  unfold Uncompressed.Reader.attempt
  rw [hv]
  simp only
  rw [takeExact_none.2 hl]
  exact ⟨_, rfl⟩

omit hs in
theorem rle_dry {r : RunLength.Reader} (hv : r.decompressed = none) (hn : 0 < r.numberOfFields)
    (hl : r.rest.length < 9) : ∃ r', r.attempt short = .err r' := by
  unfold RunLength.Reader.attempt
  rw [hv]
  simp only
  obtain ⟨n, e⟩ : ∃ n, r.numberOfFields = n + 1 := ⟨r.numberOfFields - 1, by omega⟩
  rw [e, RunLength.fieldsE, takeExact_none.2 hl]
  exact ⟨_, rfl⟩

omit hs in
theorem elfOnChimp_low (lg : B64 → B64) (d : Elf.Dec Chimp.codec) :
    Low 64 ((Elf.keeps lg Chimp.keeps).nextE d) :=
  Low.bind (Elf.nextE_low lg (by omega) Chimp.nextE_low _ _) fun _ => Low.pure _

omit hs in
theorem elfOnChimp_hungry (lg : B64 → B64) :
    Hungry ((Elf.keeps lg Chimp.keeps).nextE (Elf.codec lg Chimp.codec).dinit) :=
  (Elf.hungry lg Chimp.hungry _).bind

omit hs in
/-- Readers that decompress and then compute: the query is `decompress` followed by a pure function. -/
theorem attempt_of_decompress {E : Env} {s : Opened} (off : Nat) (q : ChunkQuery) (h : Sound s ∨ Dry s) :
    s.attempt short E off q = (s.decompress short E).map (fun vs => defaultAnswer E.o off vs q) id := by
  obtain ⟨r, size, after⟩ := s
  cases r <;> first
    | rfl
    | exact absurd h (by simp [Sound, Dry])

omit hs in
theorem sound_new {id : SchemeId} (hid : staysFailed id = true) {n : Nat} {chunk after : List Byte} {s : Opened}
    (h : Opened.new id n chunk after = .ok s) : Sound s := by
  cases id <;> first | exact absurd hid (by decide) | skip
  all_goals unfold Opened.new AnyReader.new at h
  case rle =>
    cases hr : RunLength.Reader.new n chunk <;> rw [hr] at h <;> cases h
    trivial
  all_goals cases h
  all_goals first | trivial | exact BitReader.wf_new chunk

theorem decompress_step {E : Env} {s : Opened} (h : Sound s) :
    match s.decompress short E with
    | .ok _ s' => Sound s'
    | .err s' => Dry s'
    | .panic => True := by
  obtain ⟨r, size, after⟩ := s
  cases r with
  | uncompressed r =>
    simp only [Opened.decompress]
    cases e : r.attempt short with
    | ok vs r' => trivial
    | err r' => exact uncompressed_err hs e
    | panic => trivial
  | rle r =>
    simp only [Opened.decompress]
    cases e : r.attempt short with
    | ok vs r' => trivial
    | err r' => exact rle_err hs e
    | panic => trivial
  | gorilla r =>
    simp only [Opened.decompress]
    cases e : Gorilla.keeps.decompress r with
    | ok vs r' => exact XorCodec.Keeps.decompress_ok e Gorilla.nextE_low h
    | err r' => exact XorCodec.Keeps.decompress_err e Gorilla.nextE_low h
    | panic => trivial
  | chimp r =>
    simp only [Opened.decompress]
    cases e : Chimp.keeps.decompress r with
    | ok vs r' => exact XorCodec.Keeps.decompress_ok e Chimp.nextE_low h
    | err r' => exact XorCodec.Keeps.decompress_err e Chimp.nextE_low h
    | panic => trivial
  | chimp128 r =>
    simp only [Opened.decompress]
    cases e : Chimp128.keeps.decompress r with
    | ok vs r' => exact XorCodec.Keeps.decompress_ok e Chimp128.nextE_low h
    | err r' => exact XorCodec.Keeps.decompress_err e Chimp128.nextE_low h
    | panic => trivial
  | elfOnChimp r =>
    simp only [Opened.decompress]
    cases e : (Elf.keeps E.log10 Chimp.keeps).decompress r with
    | ok vs r' => exact XorCodec.Keeps.decompress_ok e (elfOnChimp_low E.log10) h
    | err r' => exact XorCodec.Keeps.decompress_err e (elfOnChimp_low E.log10) h
    | panic => trivial
  | _ => exact absurd h (by simp [Sound])

theorem decompress_dry {E : Env} {s : Opened} (h : Dry s) : ∃ s', s.decompress short E = .err s' ∧ Dry s' := by
  obtain ⟨r, size, after⟩ := s
  cases r with
  | uncompressed r =>
    obtain ⟨r', e⟩ := uncompressed_dry (short := short) h.1 h.2
    exact ⟨⟨.uncompressed r', size, after⟩, by simp only [Opened.decompress, e]; rfl, uncompressed_err hs e⟩
  | rle r =>
    obtain ⟨r', e⟩ := rle_dry (short := short) h.1 h.2.1 h.2.2
    exact ⟨⟨.rle r', size, after⟩, by simp only [Opened.decompress, e]; rfl, rle_err hs e⟩
  | gorilla r =>
    obtain ⟨r', e, h'⟩ := XorCodec.Keeps.decompress_stuck (K := Gorilla.keeps) Gorilla.nextE_low Gorilla.hungry h
    exact ⟨⟨.gorilla r', size, after⟩, by simp only [Opened.decompress, e]; rfl, h'⟩
  | chimp r =>
    obtain ⟨r', e, h'⟩ := XorCodec.Keeps.decompress_stuck (K := Chimp.keeps) Chimp.nextE_low Chimp.hungry h
    exact ⟨⟨.chimp r', size, after⟩, by simp only [Opened.decompress, e]; rfl, h'⟩
  | chimp128 r =>
    obtain ⟨r', e, h'⟩ := XorCodec.Keeps.decompress_stuck (K := Chimp128.keeps) Chimp128.nextE_low Chimp128.hungry h
    exact ⟨⟨.chimp128 r', size, after⟩, by simp only [Opened.decompress, e]; rfl, h'⟩
  | elfOnChimp r =>
    obtain ⟨r', e, h'⟩ := XorCodec.Keeps.decompress_stuck (K := Elf.keeps E.log10 Chimp.keeps)
      (elfOnChimp_low E.log10) (elfOnChimp_hungry E.log10) h
    exact ⟨⟨.elfOnChimp r', size, after⟩, by simp only [Opened.decompress, e]; rfl, h'⟩
  | _ => exact absurd h (by simp [Dry])

theorem attempt_sound {E : Env} {s : Opened} {off : Nat} {q : ChunkQuery} (h : Sound s) :
    match s.attempt short E off q with
    | .ok _ s' => Sound s'
    | .err s' => Dry s'
    | .panic => True := by
  rw [attempt_of_decompress off q (.inl h)]
  have := decompress_step hs (E := E) h
  cases e : s.decompress short E <;> rw [e] at this <;> exact this

theorem attempt_dry {E : Env} {s : Opened} {off : Nat} {q : ChunkQuery} (h : Dry s) :
    ∃ s', s.attempt short E off q = .err s' ∧ Dry s' := by
  obtain ⟨s', e, h'⟩ := decompress_dry hs (E := E) h
  exact ⟨s', by rw [attempt_of_decompress off q (.inr h), e]; rfl, h'⟩

theorem history_ok {E : Env} {off : Nat} (qs : List ChunkQuery) {s s' : Opened} (h : Sound s ∨ Dry s)
    (e : s.history short E off qs = some s') : Sound s' ∨ Dry s' := by
  induction qs generalizing s with
  | nil => cases e; exact h
  | cons q qs ih =>
    rw [Opened.history] at e
    rcases h with h | h
    · have := attempt_sound hs (E := E) (off := off) (q := q) h
      cases ha : s.attempt short E off q <;> rw [ha] at this e
      · exact ih (.inl this) e
      · exact ih (.inr this) e
      · cases e
    · obtain ⟨s1, ha, h1⟩ := attempt_dry hs (E := E) (off := off) (q := q) h
      rw [ha] at e
      exact ih (.inr h1) e

theorem history_dry {E : Env} {off : Nat} (qs : List ChunkQuery) {s : Opened} (h : Dry s) :
    ∃ s', s.history short E off qs = some s' ∧ Dry s' := by
  induction qs generalizing s with
  | nil => exact ⟨s, rfl, h⟩
  | cons q qs ih =>
    obtain ⟨s1, ha, h1⟩ := attempt_dry hs (E := E) (off := off) (q := q) h
    rw [Opened.history, ha]
    exact ih h1

/-! ## Readers that stay failed -/

/-- **C60**, the part that holds for every query. Uncompressed, RLE, Gorilla, Chimp, Chimp128 and ElfOnChimp:
whatever was asked before (`before`, with any mixture of answers and errors), once a query (`q`) has returned an
error, every later query does, whatever was asked in between (`between`), and none panics. The chunk bytes are
arbitrary, and so are the external parts `E` and what a cursor has left after a failed `read_exact` (`short`). -/
theorem c60_stays_failed (E : Env) {id : SchemeId} (hid : staysFailed id = true) (n off : Nat)
    (chunk after : List Byte) (before between : List ChunkQuery) (q q' : ChunkQuery) {s0 s1 s2 : Opened}
    (h0 : Opened.new id n chunk after = .ok s0) (h1 : s0.history short E off before = some s1)
    (h2 : s1.attempt short E off q = .err s2) :
    ∃ s3 s4, s2.history short E off between = some s3 ∧ s3.attempt short E off q' = .err s4 := by
  have hd : Dry s2 := by
    rcases history_ok hs before (.inl (sound_new hid h0)) h1 with h | h
    · have := attempt_sound hs (E := E) (off := off) (q := q) h
      rw [h2] at this
      exact this
    · obtain ⟨s, e, h⟩ := attempt_dry hs (E := E) (off := off) (q := q) h
      rw [h2] at e
      cases e
      exact h
  obtain ⟨s3, e3, h3⟩ := history_dry hs (E := E) (off := off) between hd
  obtain ⟨s4, e4, -⟩ := attempt_dry hs (E := E) (off := off) (q := q') h3
  exact ⟨s3, s4, e3, e4⟩

end

/-! ## BUFF and DeltaSprintz -/

/-- **C60** for BUFF: an error leaves the reader as it was, so the same query gives the same error, from any
state of the reader. -/
theorem c60_buff (short : List Byte → List Byte) (E : Env) (r : Buff.Reader) (size off : Nat) (after : List Byte)
    (q : ChunkQuery) {s : Opened} (h : (Opened.mk (.buff r) size after).attempt short E off q = .err s) :
    s.attempt short E off q = .err s := by
  have e : s = ⟨.buff r, size, after⟩ := by
    simp only [Opened.attempt, Buff.Reader.attempt] at h
    cases hx : r.exec E.o E.useSimd off q with
    | ok p => rw [hx] at h; cases h
    | err => rw [hx] at h; cases h; rfl
    | panic => rw [hx] at h; cases h
  rw [e] at h ⊢
  exact h

/-- Queries that DeltaSprintz answers from the start of the chunk (the others go on reading where the last
query stopped). -/
def startsOver : ChunkQuery → Prop
  | .materialize _ | .filter _ _ | .sum _ | .min _ | .max _ => True
  | .filterMaterialize _ _ | .distanceSquared _ _ | .dotProduct _ _ => False

/-- **C60** for DeltaSprintz, queries that start over: from any state of the reader, an error is followed by
the same error, in the same state. -/
theorem c60_sprintz_starts_over (short : List Byte → List Byte) (E : Env) (r : Sprintz.Reader)
    (size off : Nat) (after : List Byte) (q : ChunkQuery) (hq : startsOver q) {s : Opened}
    (h : (Opened.mk (.deltaSprintz r) size after).attempt short E off q = .err s) :
    s.attempt short E off q = .err s := by
  simp only [Opened.attempt] at h
  obtain ⟨r', h', e⟩ := Sprintz.Attempt.map_eq_err h
  subst e
  obtain ⟨hd, A, f, hf, hb, e⟩ := Sprintz.Reader.attempt_err h'
  have hres : Sprintz.resets q = true := by cases q <;> first | rfl | exact hq.elim
  rw [hres, if_pos rfl] at hb
  have hbuf := (Sprintz.header_bind_err (K := 256) (by omega) (fun h => hf 256 h) (BitReader.wf_reset _)
    (fun h c => Sprintz.headerE_width_lt) hb).2.1
  have hreset : r'.br.reset = r.br.reset := by
    rw [BitReader.reset_eq, BitReader.reset_eq, hbuf]
    rfl
  have hsame : r'.attempt E.o off q = r.attempt E.o off q := by
    have hn : r'.numberOfRecords = r.numberOfRecords := by rw [e]
    have hd' : r'.decompressed = none := by rw [e]; exact hd
    have hr' : ({ r' with br := r'.br.reset } : Sprintz.Reader) = { r with br := r.br.reset } := by
      rw [hreset, hn, hd, hd']
    have hagg : ∀ f init cached empty bm, bm ≠ some [] →
        r'.numberE E.o f init cached empty bm off = r.numberE E.o f init cached empty bm off := by
      intro f init cached empty bm hbm
      unfold Sprintz.Reader.numberE
      rw [hd, hd']
      simp only [if_neg hbm]
      unfold Sprintz.Reader.aggregateE
      rw [hr', hn]
    have hne : ∀ f init cached empty bm (g : B64 → Answer),
        (r.numberE E.o f init cached empty bm off).map g _root_.id = .err r' → bm ≠ some [] := by
      intro f init cached empty bm g h0 hbm
      unfold Sprintz.Reader.numberE at h0
      rw [hd, hbm] at h0
      cases h0
    cases q with
    | materialize bm => simp only [Sprintz.Reader.attempt]; rw [hr']
    | filter p bm => simp only [Sprintz.Reader.attempt, Sprintz.Reader.filterQ]; rw [hr', hn, hd, hd']
    | sum bm => simp only [Sprintz.Reader.attempt] at h' ⊢; rw [hagg _ _ _ _ _ (hne _ _ _ _ _ _ h')]
    | min bm => simp only [Sprintz.Reader.attempt] at h' ⊢; rw [hagg _ _ _ _ _ (hne _ _ _ _ _ _ h')]
    | max bm => simp only [Sprintz.Reader.attempt] at h' ⊢; rw [hagg _ _ _ _ _ (hne _ _ _ _ _ _ h')]
    | filterMaterialize p bm => exact hq.elim
    | distanceSquared i t => exact hq.elim
    | dotProduct i t => exact hq.elim
  simp only [Opened.attempt]
  rw [hsame, h']
  rfl

/-- **C60** for DeltaSprintz, all queries, partly: the width of the deltas (byte 12 of the chunk) is at most 64, as in
every chunk the compressor writes, and the failed query is the first. Not true without: `c60_sprintz_wide`. -/
theorem c60_sprintz_partial (short : List Byte → List Byte) (E : Env) (n off : Nat) (chunk after : List Byte)
    (hw : (chunk.getD 12 0#8).toNat ≤ 64) (q : ChunkQuery) {s0 s1 : Opened}
    (h0 : Opened.new .deltaSprintz n chunk after = .ok s0) (h1 : s0.attempt short E off q = .err s1) :
    ∃ s2, s1.attempt short E off q = .err s2 := by
  cases h0
  by_cases hq : startsOver q
  · exact ⟨_, c60_sprintz_starts_over short E _ _ off after q hq h1⟩
  · simp only [Opened.attempt] at h1
    obtain ⟨r', h', e⟩ := Sprintz.Attempt.map_eq_err h1
    subst e
    obtain ⟨hd, A, f, hf, hb, e⟩ := Sprintz.Reader.attempt_err h'
    have hres : Sprintz.resets q = false := by cases q <;> first | rfl | exact absurd trivial hq
    rw [hres, if_neg (by decide)] at hb
    obtain ⟨hwf, -, hl⟩ := Sprintz.header_bind_err (K := 64) (by omega) (fun h => hf 64 h) (BitReader.wf_new chunk)
      (fun h c e => by rw [Sprintz.headerE_width e]; exact hw) hb
    obtain ⟨b, eb⟩ := Sprintz.headerE_hungry (fun h => Sprintz.iterE E.o h.2.1 h.2.2 r'.numberOfRecords h.1)
      r'.br hwf hl
    have hdec : r'.decompressE E.o = .err { r' with br := b } := by
      unfold Sprintz.Reader.decompressE Sprintz.Reader.run
      rw [show r'.decompressed = none by rw [e]; exact hd, eb]
      rfl
    refine ⟨⟨.deltaSprintz { r' with br := b }, chunk.length, after⟩, ?_⟩
    cases q with
    | filterMaterialize p bm => simp only [Opened.attempt, Sprintz.Reader.attempt, hdec]; rfl
    | distanceSquared i t => simp only [Opened.attempt, Sprintz.Reader.attempt, hdec]; rfl
    | dotProduct i t => simp only [Opened.attempt, Sprintz.Reader.attempt, hdec]; rfl
    | _ => exact absurd trivial hq

/-! ## Where it does not hold -/

/-- The libraries that can reject a chunk. -/
def libraryOf (E : Env) : SchemeId → Option External.ByteCodec
  | .zstd => some E.zstd
  | .gzip => some E.gzip
  | .snappy => some E.snappy
  | _ => none

theorem external_next_chunk (short : List Byte → List Byte) {dec : Nat → List Byte → Res (List B64)} {n : Nat}
    {bad good rest : List Byte} {vs : List B64} (hl : good.length = bad.length) (hbad : dec n bad = .err)
    (hgood : dec n good = .ok vs) :
    External.attempt short dec ⟨n, bad, none⟩ bad.length (good ++ rest) =
      .err (⟨n, good, none⟩, rest) ∧
    ∃ p, External.attempt short dec ⟨n, good, none⟩ bad.length rest = .ok vs p := by
  have ht : (good ++ rest).take bad.length = good := by rw [← hl]; simp
  have hd : (good ++ rest).drop bad.length = rest := by rw [← hl]; simp
  constructor
  · simp only [External.attempt]
    rw [if_neg (by omega), hbad, ht, hd]
  · simp only [External.attempt]
    rw [if_neg (by omega), hgood]
    exact ⟨_, rfl⟩

/-- Zstd, Gzip, Snappy: a reader whose chunk cannot be decoded has nevertheless consumed it. The same query again is
answered with the values of the bytes that follow in the file, here a chunk of the same size. -/
theorem c60_library_answers_next_chunk (short : List Byte → List Byte) (E : Env) {id : SchemeId}
    {k : External.ByteCodec} (hid : libraryOf E id = some k) (n off : Nat) (bad good rest : List Byte)
    (vs : List B64) (hl : good.length = bad.length) (hn : vs.length = n) (hbad : k.dec bad = none)
    (hgood : k.dec good = some (ofF64s vs)) (q : ChunkQuery) {s0 : Opened}
    (h0 : Opened.new id n bad (good ++ rest) = .ok s0) :
    ∃ s1 s2, s0.attempt short E off q = .err s1 ∧
      s1.attempt short E off q = .ok (defaultAnswer E.o off vs q) s2 := by
  have hx : External.decodeExact k n bad = .err ∧ External.decodeExact k n good = .ok vs := by
    refine ⟨by simp only [External.decodeExact, hbad], ?_⟩
    simp only [External.decodeExact, hgood, ofF64s_length, hn]
    rw [if_neg (by omega), List.take_of_length_le (by simp [hn]), toF64s_ofF64s]
  have hz : External.decodeZstd k n bad = .err ∧ External.decodeZstd k n good = .ok vs := by
    refine ⟨by simp only [External.decodeZstd, hbad], ?_⟩
    simp only [External.decodeZstd, hgood, ofF64s_length, hn]
    rw [if_neg (by omega), Nat.sub_self, List.replicate_zero, List.append_nil, toF64s_ofF64s]
  have hid' : id = .zstd ∧ E.zstd = k ∨ id = .gzip ∧ E.gzip = k ∨ id = .snappy ∧ E.snappy = k := by
    cases id <;> simp_all [libraryOf]
  rcases hid' with ⟨rfl, rfl⟩ | ⟨rfl, rfl⟩ | ⟨rfl, rfl⟩
  · cases h0
    obtain ⟨e1, p, e2⟩ := external_next_chunk short (rest := rest) hl hz.1 hz.2
    refine ⟨⟨.zstd ⟨n, good, none⟩, bad.length, rest⟩, ⟨.zstd p.1, bad.length, p.2⟩, ?_, ?_⟩ <;>
      simp only [Opened.attempt, Opened.decompress, External.Reader.new, e1, e2] <;> rfl
  · cases h0
    obtain ⟨e1, p, e2⟩ := external_next_chunk short (rest := rest) hl hx.1 hx.2
    refine ⟨⟨.gzip ⟨n, good, none⟩, bad.length, rest⟩, ⟨.gzip p.1, bad.length, p.2⟩, ?_, ?_⟩ <;>
      simp only [Opened.attempt, Opened.decompress, External.Reader.new, e1, e2] <;> rfl
  · cases h0
    obtain ⟨e1, p, e2⟩ := external_next_chunk short (rest := rest) hl hx.1 hx.2
    refine ⟨⟨.snappy ⟨n, good, none⟩, bad.length, rest⟩, ⟨.snappy p.1, bad.length, p.2⟩, ?_, ?_⟩ <;>
      simp only [Opened.attempt, Opened.decompress, External.Reader.new, e1, e2] <;> rfl

/-- The outcomes of two attempts at the same query. -/
def twice (E : Env) (id : SchemeId) (n : Nat) (chunk after : List Byte) (q : ChunkQuery) :
    Res (Res Answer × Res Answer) :=
  (Opened.new id n chunk after).bind fun s =>
    let first := s.attempt (fun bs => bs) E 0 q
    match first.state with
    | some s => .ok (first.forget.map Prod.fst, (s.attempt (fun bs => bs) E 0 q).forget.map Prod.fst)
    | none => .panic

/-- Elf: the first value may take as few as nine bits, so a retry finds one in what the failed attempt left. Six bytes
that are no chunk of one record: the first `materialize` says so, the second returns a value (-0). -/
theorem c60_elf_makes_up : twice sampleEnv .elf 1 [0x80#8, 0x4f#8, 0xe8#8, 0x6f#8, 0xff#8, 0x80#8] [] (.materialize none) =
    .ok (.err, .ok (.values [0x8000000000000000#64])) := by
  decide +kernel

/-- DeltaSprintz with a width above 64: the first `filter_materialize` fails, the second takes the bytes at which the
first one stopped for a header and answers. -/
theorem c60_sprintz_wide : twice sampleEnv .deltaSprintz 1
    (List.replicate 12 0#8 ++ [200#8] ++ [0#8, 0#8, 0#8, 0#8, 0#8, 0#8, 0#8, 5#8, 0#8, 0#8, 0#8, 1#8, 0#8] ++
      List.replicate 11 0#8) [] (.filterMaterialize (.ne 0#64) none) =
    .ok (.err, .ok (.values [0x4014000000000000#64])) := by
  decide +kernel

/-! ## Instances -/

/-- A Gorilla chunk cut off after its first value: `sum` fails, and so does it again. -/
example : twice sampleEnv .gorilla 2 [0x40#8, 0#8, 0#8, 0#8, 0#8, 0#8, 0#8, 0#8] [] (.sum none) = .ok (.err, .err) := by
  decide +kernel

/-- An uncompressed chunk of two records with one and a half. -/
example : twice sampleEnv .uncompressed 2 (List.replicate 12 1#8) [] (.materialize none) = .ok (.err, .err) := by
  decide +kernel

/-- A run-length chunk with two fields announced and one present. -/
example : twice sampleEnv .rle 2 ([2#8, 0#8, 0#8, 0#8, 0#8, 0#8, 0#8, 0#8] ++ List.replicate 9 1#8) []
    (.max none) = .ok (.err, .err) := by
  decide +kernel

/-- A BUFF chunk that ends within its header: `min` without a bitmask is an error (other queries panic). -/
example : twice sampleEnv .buff 2 (List.replicate 6 1#8) [] (.min none) = .ok (.err, .err) := by
  decide +kernel

/-- DeltaSprintz, width 8, two records announced, one present. -/
example : twice sampleEnv .deltaSprintz 2 (List.replicate 11 0#8 ++ [1#8, 8#8, 2#8]) [] (.filter (.ne 0#64) none)
      = .ok (.err, .err) ∧
    twice sampleEnv .deltaSprintz 2 (List.replicate 11 0#8 ++ [1#8, 8#8, 2#8]) [] (.dotProduct 0 [0#64])
      = .ok (.err, .err) := by
  decide +kernel

/-- A library that rejects chunks starting with 0, and two chunks of eight bytes in the file. -/
def pickyEnv : Env :=
  { sampleEnv with gzip := ⟨some, fun bs => if bs.headD 0#8 = 0#8 then none else some bs⟩ }

example : twice pickyEnv .gzip 1 (List.replicate 8 0#8) (f64Bytes 0x3ff00000000000ab#64 ++ [7#8]) (.sum none) =
    .ok (.err, .ok (.number 0x3ff00000000000ab#64)) := by
  decide +kernel

end Ebi.Props
