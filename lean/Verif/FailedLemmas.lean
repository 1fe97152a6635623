import Verif.Failed

/-! # Lemmas on readers after a failed operation -/

namespace Ebi

open BitM

theorem bits_erase (n : Nat) (r : BitReader) : (bits n r).forget = .ofOption (r.readBits n) := by
  unfold bits
  cases r.readBits n <;> rfl

theorem byte_erase (r : BitReader) : (byte r).forget = .ofOption r.readByte := by
  unfold byte
  cases r.readByte <;> rfl

theorem erase_bind {A B : Type} {m : BitM A} {r : BitReader} {x : Option (A × BitReader)} {g : A → BitM B}
    {h : A × BitReader → Option (B × BitReader)} (hm : (m r).forget = .ofOption x)
    (hg : ∀ p, (g p.1 p.2).forget = .ofOption (h p)) : ((m >>= g) r).forget = .ofOption (x >>= h) := by
  simp only [bind_apply]
  cases h1 : m r <;> cases x <;> rw [h1] at hm <;> cases hm
  · exact hg (_, _)
  · rfl

namespace Sprintz

theorem headerE_erase (r : BitReader) : (headerE r).forget = .ofOption (readHeader r) :=
  erase_bind (bits_erase 64 r) fun p => erase_bind (bits_erase 32 p.2) fun p' =>
    erase_bind (byte_erase p'.2) fun _ => rfl

theorem deltaE_erase (nb : Nat) (prev : BitVec 64) (r : BitReader) :
    (deltaE nb prev r).forget = .ofOption (readDelta nb prev r) :=
  erase_bind (bits_erase nb r) fun _ => rfl

theorem iterE_erase (o : FloatOps) (scale nb k : Nat) (prev : BitVec 64) (r : BitReader) :
    (iterE o scale nb k prev r).forget = .ofOption (iterLoop o scale nb k prev r) := by
  induction k generalizing prev r with
  | zero => rfl
  | succ k ih =>
    rw [iterE, iterLoop]
    split
    · exact erase_bind (ih prev r) fun _ => rfl
    · exact erase_bind (deltaE_erase nb prev r) fun p => erase_bind (ih p.1 p.2) fun _ => rfl

theorem filterE_erase (p : Predicate (BitVec 64)) (off nb k i : Nat) (prev : BitVec 64) (bm : Bitmap)
    (r : BitReader) : (filterE p off nb k i prev bm r).forget = .ofOption (filterLoop p off nb k i prev r bm) := by
  induction k generalizing i prev bm r with
  | zero => rfl
  | succ k ih =>
    rw [filterE, filterLoop]
    exact erase_bind (deltaE_erase nb prev r) fun x => ih (i + 1) x.1 _ x.2

theorem foldE_erase {A : Type} (f : A → BitVec 64 → A) (nb k : Nat) (prev : BitVec 64) (acc : A)
    (r : BitReader) : (foldE f nb k prev acc r).forget = .ofOption (foldLoop f nb k prev r acc) := by
  induction k generalizing prev acc r with
  | zero => rfl
  | succ k ih =>
    rw [foldE, foldLoop]
    exact erase_bind (deltaE_erase nb prev r) fun x => ih x.1 _ x.2

theorem scanE_erase {A : Type} (f : A → BitVec 64 → A) (off nb k i : Nat) (prev : BitVec 64) (acc : A)
    (next : Nat) (more : List Nat) (r : BitReader) : (scanE f off nb k i prev acc next more r).forget =
      .ofOption (scanLoop f off nb k i prev r acc next more) := by
  induction k generalizing i prev acc next more r with
  | zero => rfl
  | succ k ih =>
    rw [scanE, scanLoop]
    refine erase_bind (deltaE_erase nb prev r) fun x => ?_
    obtain ⟨q, r⟩ := x
    simp only
    split
    · exact ih _ q acc next more r
    · cases more with
      | nil => rfl
      | cons n more => exact ih _ q _ n more r

theorem Reader.run_erase {A : Type} {r : Reader} {m : BitM A} {x : Option (A × BitReader)}
    (h : (m r.br).forget = .ofOption x) :
    (r.run m).forget = (Res.ofOption x).map fun p => (p.1, { r with br := p.2 }) := by
  unfold Reader.run
  rw [Attempt.forget_map, h]
  rfl

theorem Reader.decompressE_erase (o : FloatOps) (r : Reader) : (r.decompressE o).forget = r.decompress o := by
  unfold decompressE decompress
  cases r.decompressed with
  | some vs => rfl
  | none =>
    have h := Reader.run_erase (r := r) (erase_bind (headerE_erase r.br)
      (g := fun h => iterE o h.2.1 h.2.2 r.numberOfRecords h.1) (h := fun p => iterLoop o p.1.2.1 p.1.2.2 r.numberOfRecords p.1.1 p.2)
      (fun p => iterE_erase o p.1.2.1 p.1.2.2 r.numberOfRecords p.1.1 p.2))
    simp only
    cases h1 : readHeader r.br with
    | none =>
      rw [h1] at h
      cases h2 : r.run (headerE >>= fun h => iterE o h.2.1 h.2.2 r.numberOfRecords h.1) <;> rw [h2] at h <;>
        cases h
      rfl
    | some p =>
      obtain ⟨⟨init, scale, nb⟩, br⟩ := p
      rw [h1] at h
      simp only [Option.bind_eq_bind, Option.bind_some] at h
      simp only
      cases h3 : iterLoop o scale nb r.numberOfRecords init br <;> rw [h3] at h <;>
        cases h2 : r.run (headerE >>= fun h => iterE o h.2.1 h.2.2 r.numberOfRecords h.1) <;> rw [h2] at h <;>
        cases h <;> rfl

theorem Reader.filterQ_erase (o : FloatOps) (r : Reader) (p : Predicate B64) (bm : Option Bitmap) (off : Nat) :
    (r.filterQ o p bm off).forget = r.filter o p bm off := by
  unfold filterQ filter
  simp only
  cases r.decompressed with
  | some vs => rfl
  | none =>
    simp only
    rw [Reader.run_erase (x := readHeader r.br.reset >>= fun x =>
      if r.numberOfRecords = 0 then some ([], x.2)
      else filterLoop (p.map (quantize o x.1.2.1)) off x.1.2.2 r.numberOfRecords 0 x.1.1 x.2 [] >>= fun y =>
        some ((match bm with
          | some b => Bitmap.inter y.1 b
          | none => y.1), y.2))]
    · cases readHeader r.br.reset with
      | none => rfl
      | some x =>
        obtain ⟨⟨init, scale, nb⟩, br⟩ := x
        simp only [Option.bind_eq_bind, Option.bind_some]
        split
        · rfl
        · cases filterLoop (p.map (quantize o scale)) off nb r.numberOfRecords 0 init br [] <;> rfl
    · refine erase_bind (headerE_erase _) fun x => ?_
      split
      · rfl
      · exact erase_bind (filterE_erase _ _ _ _ _ _ _ _) fun y => rfl

theorem Reader.aggregateE_erase (o : FloatOps) (f : BitVec 64 → BitVec 64 → BitVec 64) (init : BitVec 64)
    (r : Reader) (bm : Option Bitmap) (off : Nat) :
    (r.aggregateE o f init bm off).forget = r.aggregate o f init bm off := by
  unfold aggregateE aggregate
  cases bm with
  | none =>
    simp only
    rw [Reader.run_erase (x := readHeader r.br.reset >>= fun x =>
      foldLoop f x.1.2.2 r.numberOfRecords x.1.1 x.2 init >>= fun y => some (dequantize o x.1.2.1 y.1, y.2))]
    · cases readHeader r.br.reset with
      | none => rfl
      | some x =>
        obtain ⟨⟨q0, scale, nb⟩, br⟩ := x
        simp only [Option.bind_eq_bind, Option.bind_some]
        cases foldLoop f nb r.numberOfRecords q0 br init <;> rfl
    · exact erase_bind (headerE_erase _) fun x => erase_bind (foldE_erase _ _ _ _ _ _) fun y => rfl
  | some b =>
    simp only
    cases hc : inChunk off r.numberOfRecords b with
    | nil =>
      simp only
      rw [Reader.run_erase (x := readHeader r.br.reset >>= fun x => some (nanBits, x.2))]
      · cases readHeader r.br.reset <;> rfl
      · exact erase_bind (headerE_erase _) fun x => rfl
    | cons n more =>
      simp only
      rw [Reader.run_erase (x := readHeader r.br.reset >>= fun x =>
        scanLoop f off x.1.2.2 r.numberOfRecords 0 x.1.1 x.2 init n more >>= fun y =>
          some (dequantize o x.1.2.1 y.1, y.2))]
      · cases readHeader r.br.reset with
        | none => rfl
        | some x =>
          obtain ⟨⟨q0, scale, nb⟩, br⟩ := x
          simp only [Option.bind_eq_bind, Option.bind_some]
          cases scanLoop f off nb r.numberOfRecords 0 q0 br init n more <;> rfl
      · exact erase_bind (headerE_erase _) fun x => erase_bind (scanE_erase _ _ _ _ _ _ _ _ _ _) fun y => rfl

theorem Reader.attempt_erase (o : FloatOps) (r : Reader) (off : Nat) (q : ChunkQuery) :
    (r.attempt o off q).forget = r.exec o off q := by
  have hn : ∀ f init cached empty bm, (r.numberE o f init cached empty bm off).forget =
      match r.decompressed with
      | some vs => Res.ok (cached vs, r)
      | none => if bm = some [] then .ok (empty, r) else r.aggregate o f init bm off := by
    intro f init cached empty bm
    unfold numberE
    cases r.decompressed with
    | some vs => rfl
    | none =>
      simp only
      split
      · rfl
      · exact r.aggregateE_erase o f init bm off
  cases q with
  | materialize bm =>
    unfold attempt exec materialize
    rw [Attempt.forget_map, decompressE_erase]
    cases Reader.decompress o { r with br := r.br.reset } <;> rfl
  | filter p bm => unfold attempt exec; rw [Attempt.forget_map, filterQ_erase]; rfl
  | sum bm => unfold attempt exec; rw [Attempt.forget_map, hn]; rfl
  | min bm => unfold attempt exec; rw [Attempt.forget_map, hn]; rfl
  | max bm => unfold attempt exec; rw [Attempt.forget_map, hn]; rfl
  | filterMaterialize p bm => unfold attempt exec; rw [Attempt.forget_map, decompressE_erase]; rfl
  | distanceSquared i t => unfold attempt exec; rw [Attempt.forget_map, decompressE_erase]; rfl
  | dotProduct i t => unfold attempt exec; rw [Attempt.forget_map, decompressE_erase]; rfl

end Sprintz

theorem Buff.Reader.attempt_erase (o : FloatOps) (useSimd : Nat → Nat → Bool) (r : Buff.Reader) (off : Nat)
    (q : ChunkQuery) : (r.attempt o useSimd off q).forget = r.exec o useSimd off q := by
  unfold attempt
  cases h : r.exec o useSimd off q <;> rfl

/-- Does the reader hold the file? -/
def AnyReader.onLibrary : AnyReader → Bool
  | .zstd _ | .gzip _ | .snappy _ | .ffiAlp _ => true
  | _ => false

/-- The bytes a library reader is about to decode. -/
def AnyReader.pending : AnyReader → List Byte
  | .zstd r | .gzip r | .snappy r | .ffiAlp r => r.pending
  | _ => []

/-- Up to the state after an error, the readers that hold their chunk are those of `ChunkReader.lean`. -/
theorem Opened.attempt_erase (short : List Byte → List Byte) (E : Env) (s : Opened) (off : Nat)
    (q : ChunkQuery) (h : s.reader.onLibrary = false) :
    (s.attempt short E off q).forget.map (fun p => (p.1, p.2.reader)) = s.reader.exec E off q := by
  obtain ⟨r, size, after⟩ := s
  have hx : ∀ {R A : Type} (a : Attempt R (List B64)) (mk : R → AnyReader),
      (((a.map id fun r => (⟨mk r, size, after⟩ : Opened)).map (fun vs => defaultAnswer E.o off vs q) id).forget.map
        fun p => (p.1, p.2.reader)) =
      (a.forget.map fun p => (p.1, mk p.2)).map fun p => (defaultAnswer E.o off p.1 q, p.2) := by
    intro R A a mk
    cases a <;> rfl
  cases r with
  | zstd r => cases h
  | gzip r => cases h
  | snappy r => cases h
  | ffiAlp r => cases h
  | uncompressed r => 
    simp only [attempt, decompress, AnyReader.exec, defaultExec, AnyReader.decompress]
    rw [hx (A := Unit), Uncompressed.Reader.attempt_erase]
  | rle r =>
    simp only [attempt, decompress, AnyReader.exec, defaultExec, AnyReader.decompress]
    rw [hx (A := Unit), RunLength.Reader.attempt_erase]
  | gorilla r =>
    simp only [attempt, decompress, AnyReader.exec, defaultExec, AnyReader.decompress]
    rw [hx (A := Unit), XorCodec.Keeps.decompress_erase]
  | chimp r =>
    simp only [attempt, decompress, AnyReader.exec, defaultExec, AnyReader.decompress]
    rw [hx (A := Unit), XorCodec.Keeps.decompress_erase]
  | chimp128 r =>
    simp only [attempt, decompress, AnyReader.exec, defaultExec, AnyReader.decompress]
    rw [hx (A := Unit), XorCodec.Keeps.decompress_erase]
  | elfOnChimp r =>
    simp only [attempt, decompress, AnyReader.exec, defaultExec, AnyReader.decompress]
    rw [hx (A := Unit), XorCodec.Keeps.decompress_erase]
    rfl
  | elf r =>
    simp only [attempt, decompress, AnyReader.exec, defaultExec, AnyReader.decompress]
    rw [hx (A := Unit), XorCodec.Keeps.decompress_erase]
    rfl
  | deltaSprintz r =>
    simp only [attempt, AnyReader.exec]
    rw [← Sprintz.Reader.attempt_erase]
    cases r.attempt E.o off q <;> rfl
  | buff r =>
    simp only [attempt, AnyReader.exec]
    rw [← Buff.Reader.attempt_erase]
    cases r.attempt E.o E.useSimd off q <;> rfl

/-- Library readers that have not consumed their chunk: same answers as in `ChunkReader.lean`. -/
theorem Opened.attempt_erase_library (short : List Byte → List Byte) (E : Env) (s : Opened) (off : Nat)
    (q : ChunkQuery) (h : s.reader.onLibrary = true) (hp : s.reader.pending.length = s.size) :
    (s.attempt short E off q).forget.map Prod.fst = (s.reader.exec E off q).map Prod.fst := by
  obtain ⟨r, size, after⟩ := s
  have hx : ∀ (dec : Nat → List Byte → Res (List B64)) (r : External.Reader), r.pending.length = size →
      (External.attempt short dec r size after).forget.map Prod.fst =
        (External.Reader.decompress dec r).map Prod.fst := by
    intro dec r hr
    unfold External.attempt External.Reader.decompress
    cases r.decompressed with
    | some vs => rfl
    | none =>
      simp only
      rw [if_neg (by omega)]
      cases dec r.numberOfRecords r.pending <;> rfl
  have hy : ∀ {R S T U : Type} (a : Attempt R (List B64)) (b : Res (List B64 × S)) (f : List B64 → Answer)
      (mk : R → T) (mk' : S → U), a.forget.map Prod.fst = b.map Prod.fst →
      ((a.map id mk).map f id).forget.map Prod.fst =
        ((b.map fun p => (p.1, mk' p.2)).map fun p => (f p.1, p.2)).map Prod.fst := by
    intro R S T U a b f mk mk' e
    cases a <;> cases b <;> cases e <;> rfl
  cases r <;> first
    | (cases h; done)
    | (simp only [attempt, decompress, AnyReader.exec, defaultExec, AnyReader.decompress]
       exact hy _ _ _ _ _ (hx _ _ hp))

/-! ## What is left after an error -/

/-- Keeps the bit reader in order; after an error fewer than `K` bits are left. -/
def Low (K : Nat) {A : Type} (m : BitM A) : Prop :=
  ∀ r : BitReader, r.WF →
    match m r with
    | .ok _ r' => r'.WF ∧ r'.buf = r.buf ∧ r'.rest.length ≤ r.rest.length
    | .err r' => r'.WF ∧ r'.buf = r.buf ∧ r'.rest.length ≤ r.rest.length ∧ r'.rest.length < K
    | .panic => True

theorem readBits_none_iff {r : BitReader} (h : r.WF) {n : Nat} : r.readBits n = none ↔ r.rest.length < n := by
  rw [BitReader.readBits_eq h]
  split <;> simp_all

namespace Low

variable {K : Nat} {A B : Type}

theorem pure (a : A) : Low K (Pure.pure a : BitM A) := fun _ h => ⟨h, rfl, Nat.le_refl _⟩

theorem panic : Low K (BitM.panic : BitM A) := fun _ _ => trivial

theorem bits {n : Nat} (hn : n ≤ K) : Low K (bits n) := by
  intro r h
  cases hr : r.readBits n with
  | none => rw [bits_none hr]; exact ⟨h, rfl, Nat.le_refl _, by have := (readBits_none_iff h).1 hr; omega⟩
  | some p =>
    rw [bits_some (v := p.1) (r' := p.2) hr]
    have := BitReader.readBits_progress h hr
    exact ⟨this.1, BitReader.readBits_buf h hr, by omega⟩

theorem bit (hK : 1 ≤ K) : Low K bit := by
  intro r h
  cases hr : r.readBit with
  | none =>
    rw [bit_none hr]
    rw [BitReader.readBit_eq h] at hr
    cases e : r.rest with
    | nil => exact ⟨h, rfl, by rw [e]; exact Nat.le_refl _, by rw [e]; exact hK⟩
    | cons b t => rw [e] at hr; cases hr
  | some p =>
    rw [bit_some (v := p.1) (r' := p.2) hr]
    have := BitReader.readBit_progress h hr
    refine ⟨this.1, ?_, by omega⟩
    rw [BitReader.readBit_eq h] at hr
    cases e : r.rest with
    | nil => rw [e] at hr; cases hr
    | cons b t => rw [e] at hr; cases hr; rfl

theorem byte (hK : 8 ≤ K) : Low K byte := by
  intro r h
  unfold BitM.byte BitReader.readByte
  rw [BitReader.readByteRaw_eq h]
  by_cases hl : r.rest.length < 8
  · simp only [if_pos hl]
    exact ⟨h, trivial, Nat.le_refl _, by omega⟩
  · simp only [if_neg hl]
    have : (r.adv 8).rest.length ≤ r.rest.length := by
      rw [BitReader.rest_adv, List.length_drop]
      omega
    exact ⟨BitReader.wf_adv h (by omega), rfl, this⟩

theorem bind {m : BitM A} {f : A → BitM B} (hm : Low K m) (hf : ∀ a, Low K (f a)) : Low K (m >>= f) := by
  intro r h
  have h1 := hm r h
  simp only [bind_apply]
  cases hr : m r with
  | ok a r' =>
    rw [hr] at h1
    obtain ⟨w, b, l⟩ := h1
    have h2 := hf a r' w
    simp only
    cases hs : f a r' with
    | ok c r'' => rw [hs] at h2; exact ⟨h2.1, h2.2.1.trans b, Nat.le_trans h2.2.2 l⟩
    | err r'' => rw [hs] at h2; exact ⟨h2.1, h2.2.1.trans b, Nat.le_trans h2.2.2.1 l, h2.2.2.2⟩
    | panic => trivial
  | err r' => rw [hr] at h1; exact h1
  | panic => trivial

theorem ite {c : Prop} [Decidable c] {a b : BitM A} (ha : Low K a) (hb : Low K b) :
    Low K (if c then a else b) := by
  split
  · exact ha
  · exact hb

end Low

theorem Gorilla.nextE_low (d : Gorilla.Dec) : Low 64 (Gorilla.nextE d) := by
  have hs : ∀ d, Low 64 (readSigE d) := fun d => .bind (.bits (by omega)) fun _ => .pure _
  refine .ite (.pure _) (.bind (.ite (.bind (.bits (Nat.le_refl _)) fun _ => .pure _) (.bind (.bit (by omega)) ?_))
    fun _ => .ite (.pure _) (.pure _))
  rintro (_ | _)
  · exact .pure _
  · refine .bind (.bit (by omega)) ?_
    rintro (_ | _)
    · exact hs _
    · exact .bind (.bits (by omega)) fun _ => .bind (.bits (by omega)) fun _ => .ite .panic (hs _)

theorem Chimp.nextE_low (d : Chimp.Dec) : Low 64 (Chimp.nextE d) := by
  have hx : ∀ d n s, n ≤ 64 → Low 64 (xorBitsE d n s) := fun d n s hn => .bind (.bits hn) fun _ => .pure _
  refine .ite (.pure _) (.bind (.ite (.bind (.bits (Nat.le_refl _)) fun _ => .pure _) (.bind (.bits (by omega)) ?_))
    fun _ => .ite (.pure _) (.pure _))
  rintro (_ | _ | _ | _ | n)
  · exact .pure _
  · exact .bind (.bits (by omega)) fun _ => .bind (.bits (by omega)) fun _ =>
      .ite .panic (hx _ _ _ (by omega))
  · exact .ite .panic (hx _ _ _ (by omega))
  · exact .bind (.bits (by omega)) fun _ => hx _ _ _ (by omega)
  · exact .pure _

theorem Chimp128.nextE_low (d : Chimp128.Dec) : Low 64 (Chimp128.nextE d) := by
  have hx : ∀ d n s, n ≤ 64 → Low 64 (xorBitsE d n s) := fun d n s hn => .bind (.bits hn) fun _ => .pure _
  refine .ite (.pure _) (.ite (.bind (.bits (Nat.le_refl _)) fun _ => .pure _) (.bind (.bits (by omega)) ?_))
  rintro (_ | _ | _ | _ | n)
  · exact .bind (.bits (by omega)) fun _ => .pure _
  · exact .bind (.bits (by omega)) fun _ => .ite .panic (hx _ _ _ (by omega))
  · exact .ite .panic (hx _ _ _ (by omega))
  · exact .bind (.bits (by omega)) fun _ => hx _ _ _ (by omega)
  · exact .bind (.bits (by omega)) fun _ => .pure _

theorem Elf.nextE_low {D : Type} (lg : B64 → B64) {next : D → BitM (Option B64 × D)} {K : Nat} (hK : 4 ≤ K)
    (h : ∀ x, Low K (next x)) (last : Int) (x : D) : Low K (Elf.nextE lg next last x) := by
  have he : ∀ last x, Low K (readErasedE lg next last x) := fun _ x => .bind (h x) fun _ => .pure _
  refine .bind (.bit (by omega)) ?_
  rintro (_ | _)
  · exact he _ _
  · refine .bind (.bit (by omega)) ?_
    rintro (_ | _)
    · exact .bind (h x) fun _ => .pure _
    · exact .bind (.bits (by omega)) fun _ => he _ _

/-! ## Decoders that need 64 bits for their first value -/

/-- Fails on every reader with fewer than 64 bits left. -/
def Hungry {A : Type} (m : BitM A) : Prop :=
  ∀ r : BitReader, r.WF → r.rest.length < 64 → ∃ r', m r = .err r'

theorem Hungry.bits64 {A : Type} (f : Nat → BitM A) : Hungry (bits 64 >>= f) := by
  intro r h hl
  refine ⟨r, ?_⟩
  rw [bind_apply, bits_none ((readBits_none_iff h).2 hl)]

theorem Hungry.bind {A B : Type} {m : BitM A} {f : A → BitM B} (hm : Hungry m) : Hungry (m >>= f) := by
  intro r h hl
  obtain ⟨r', e⟩ := hm r h hl
  exact ⟨r', by rw [bind_apply, e]⟩

theorem Hungry.after {A B : Type} {m : BitM A} {f : A → BitM B} {K : Nat} (hp : ∀ r, m r ≠ .panic)
    (hm : Low K m) (hf : ∀ a, Hungry (f a)) : Hungry (m >>= f) := by
  intro r h hl
  have h1 := hm r h
  rw [bind_apply]
  cases hr : m r with
  | ok a r' =>
    rw [hr] at h1
    obtain ⟨r'', e⟩ := hf a r' h1.1 (by omega)
    exact ⟨r'', e⟩
  | err r' => exact ⟨r', rfl⟩
  | panic => exact absurd hr (hp r)

theorem bits_ne_panic (n : Nat) (r : BitReader) : bits n r ≠ .panic := by
  unfold bits
  split <;> simp

theorem bit_ne_panic (r : BitReader) : bit r ≠ .panic := by
  unfold bit
  split <;> simp

theorem Gorilla.hungry : Hungry (Gorilla.nextE Gorilla.codec.dinit) := (Hungry.bits64 _).bind
theorem Chimp.hungry : Hungry (Chimp.nextE Chimp.codec.dinit) := (Hungry.bits64 _).bind
theorem Chimp128.hungry : Hungry (Chimp128.nextE Chimp128.codec.dinit) := Hungry.bits64 _

theorem Elf.hungry {D : Type} (lg : B64 → B64) {next : D → BitM (Option B64 × D)} {x : D} (h : Hungry (next x))
    (last : Int) : Hungry (Elf.nextE lg next last x) := by
  refine Hungry.after (K := 64) bit_ne_panic (.bit (by omega)) ?_
  rintro (_ | _)
  · exact h.bind
  · refine Hungry.after (K := 64) bit_ne_panic (.bit (by omega)) ?_
    rintro (_ | _)
    · exact h.bind
    · exact Hungry.after (K := 64) (bits_ne_panic 4) (.bits (by omega)) fun _ => h.bind

namespace XorCodec

variable {C : XorCodec} {K : C.Keeps}

theorem Keeps.collect_low {n : Nat} (h : ∀ d, Low n (K.nextE d)) (f : Nat) (d : C.D) : Low n (K.collect f d) := by
  induction f generalizing d with
  | zero => exact .panic
  | succ f ih =>
    rw [Keeps.collect]
    refine .bind (h d) ?_
    rintro ⟨_ | v, d⟩
    · exact .pure _
    · exact .bind (ih d) fun _ => .pure _

/-- A failed reader without enough bits for a first value. -/
def Reader.Stuck (r : Reader) : Prop := r.decompressed = none ∧ r.bits.WF ∧ r.bits.rest.length < 64

theorem Keeps.decompress_ok {r r' : Reader} {vs : List B64} (hr : K.decompress r = .ok vs r')
    (h : ∀ d, Low 64 (K.nextE d)) (hw : r.bits.WF) : r'.bits.WF := by
  unfold Keeps.decompress at hr
  cases hd : r.decompressed with
  | some vs => rw [hd] at hr; cases hr; exact hw
  | none =>
    rw [hd] at hr
    simp only at hr
    have := Keeps.collect_low h (8 * r.bits.buf.length + 1) C.dinit r.bits hw
    cases he : K.collect (8 * r.bits.buf.length + 1) C.dinit r.bits <;> rw [he] at hr this <;> cases hr
    exact this.1

theorem Keeps.decompress_err {r r' : Reader} (hr : K.decompress r = .err r')
    (h : ∀ d, Low 64 (K.nextE d)) (hw : r.bits.WF) : r'.Stuck := by
  unfold Keeps.decompress at hr
  cases hd : r.decompressed with
  | some vs => rw [hd] at hr; cases hr
  | none =>
    rw [hd] at hr
    simp only at hr
    have := Keeps.collect_low h (8 * r.bits.buf.length + 1) C.dinit r.bits hw
    cases he : K.collect (8 * r.bits.buf.length + 1) C.dinit r.bits <;> rw [he] at hr this <;> cases hr
    exact ⟨rfl, this.1, this.2.2.2⟩

theorem Keeps.decompress_stuck {r : Reader} (h : ∀ d, Low 64 (K.nextE d)) (hh : Hungry (K.nextE C.dinit))
    (hr : r.Stuck) : ∃ r', K.decompress r = .err r' ∧ r'.Stuck := by
  have : ∃ r', K.decompress r = .err r' := by
    unfold Keeps.decompress
    rw [hr.1]
    simp only
    have hc : Hungry (K.collect (8 * r.bits.buf.length + 1) C.dinit) := by
      rw [Keeps.collect]
      exact hh.bind
    obtain ⟨r', e⟩ := hc r.bits hr.2.1 hr.2.2
    rw [e]
    exact ⟨_, rfl⟩
  obtain ⟨r', e⟩ := this
  exact ⟨r', e, Keeps.decompress_err e h hr.2.1⟩

end XorCodec

/-! ## DeltaSprintz -/

namespace Sprintz

variable {K nb : Nat}

theorem headerE_low (hK : 64 ≤ K) : Low K headerE :=
  .bind (.bits hK) fun _ => .bind (.bits (by omega)) fun _ => .bind (.byte (by omega)) fun _ => .pure _

theorem headerE_hungry {A : Type} (f : BitVec 64 × Nat × Nat → BitM A) : Hungry (headerE >>= f) :=
  Hungry.bind (Hungry.bits64 _)

theorem deltaE_low (h : nb ≤ K) (prev : BitVec 64) : Low K (deltaE nb prev) := .bind (.bits h) fun _ => .pure _

theorem iterE_low (o : FloatOps) (scale : Nat) (h : nb ≤ K) (k : Nat) (prev : BitVec 64) :
    Low K (iterE o scale nb k prev) := by
  induction k generalizing prev with
  | zero => exact .pure _
  | succ k ih =>
    exact .ite (.bind (ih _) fun _ => .pure _) (.bind (deltaE_low h _) fun _ => .bind (ih _) fun _ => .pure _)

theorem filterE_low (p : Predicate (BitVec 64)) (off : Nat) (h : nb ≤ K) (k i : Nat) (prev : BitVec 64)
    (bm : Bitmap) : Low K (filterE p off nb k i prev bm) := by
  induction k generalizing i prev bm with
  | zero => exact .pure _
  | succ k ih => exact .bind (deltaE_low h _) fun _ => ih _ _ _

theorem foldE_low {A : Type} (f : A → BitVec 64 → A) (h : nb ≤ K) (k : Nat) (prev : BitVec 64) (acc : A) :
    Low K (foldE f nb k prev acc) := by
  induction k generalizing prev acc with
  | zero => exact .pure _
  | succ k ih => exact .bind (deltaE_low h _) fun _ => ih _ _

theorem scanE_low {A : Type} (f : A → BitVec 64 → A) (off : Nat) (h : nb ≤ K) (k i : Nat) (prev : BitVec 64)
    (acc : A) (next : Nat) (more : List Nat) : Low K (scanE f off nb k i prev acc next more) := by
  induction k generalizing i prev acc next more with
  | zero => exact .pure _
  | succ k ih =>
    refine .bind (deltaE_low h _) fun _ => .ite (ih _ _ _ _ _) ?_
    cases more with
    | nil => exact .pure _
    | cons n more => exact ih _ _ _ _ _

/-- `r'` comes from `r` by reading bits. -/
def Reader.SameChunk (r r' : Reader) : Prop :=
  r'.decompressed = r.decompressed ∧ r'.numberOfRecords = r.numberOfRecords ∧ r'.br.buf = r.br.buf

/-- Does the query start reading at the beginning of the chunk? -/
def resets : ChunkQuery → Bool
  | .filterMaterialize _ _ | .distanceSquared _ _ | .dotProduct _ _ => false
  | _ => true

theorem Reader.run_err {A : Type} {r r' : Reader} {m : BitM A} (h : r.run m = .err r') :
    m r.br = .err r'.br ∧ r' = { r with br := r'.br } := by
  unfold Reader.run at h
  cases e : m r.br <;> rw [e] at h <;> cases h
  exact ⟨rfl, rfl⟩

theorem Reader.decompressE_err {o : FloatOps} {r r' : Reader} (h : r.decompressE o = .err r') :
    r.decompressed = none ∧ r.run (headerE >>= fun h => iterE o h.2.1 h.2.2 r.numberOfRecords h.1) = .err r' := by
  unfold Reader.decompressE at h
  cases hd : r.decompressed with
  | some vs => rw [hd] at h; cases h
  | none =>
    rw [hd] at h
    simp only at h
    cases e : r.run (headerE >>= fun h => iterE o h.2.1 h.2.2 r.numberOfRecords h.1) <;> rw [e] at h <;> cases h
    exact ⟨rfl, rfl⟩

theorem Attempt.map_eq_err {S T A B : Type} {f : A → B} {g : S → T} {x : Attempt S A} {t : T}
    (h : x.map f g = .err t) : ∃ s, x = .err s ∧ g s = t := by
  cases x <;> cases h
  exact ⟨_, rfl, rfl⟩

/-- How a query fails: while reading the header or the deltas. -/
theorem Reader.attempt_err {o : FloatOps} {r r' : Reader} {off : Nat} {q : ChunkQuery}
    (h : r.attempt o off q = .err r') :
    r.decompressed = none ∧ ∃ (A : Type) (f : BitVec 64 × Nat × Nat → BitM A),
      (∀ K h, h.2.2 ≤ K → Low K (f h)) ∧
      (headerE >>= f) (if resets q then r.br.reset else r.br) = .err r'.br ∧ r' = { r with br := r'.br } := by
  have hagg : ∀ {f init cached empty bm}, r.numberE o f init cached empty bm off = .err r' →
      r.decompressed = none ∧ ∃ (A : Type) (f : BitVec 64 × Nat × Nat → BitM A),
        (∀ K h, h.2.2 ≤ K → Low K (f h)) ∧ (headerE >>= f) r.br.reset = .err r'.br ∧ r' = { r with br := r'.br } := by
    intro f init cached empty bm h
    unfold numberE at h
    cases hd : r.decompressed with
    | some vs => rw [hd] at h; cases h
    | none =>
      rw [hd] at h
      simp only at h
      split at h
      · cases h
      · unfold aggregateE at h
        obtain ⟨e, e'⟩ := run_err h
        refine ⟨rfl, _, _, ?_, e, ?_⟩
        · intro K h hk
          split
          · exact .bind (foldE_low _ hk _ _ _) fun _ => .pure _
          · split
            · exact .pure _
            · exact .bind (scanE_low _ _ hk _ _ _ _ _ _) fun _ => .pure _
        · rw [e', hd]
  have hdec : ∀ {r : Reader}, r.decompressE o = .err r' →
      r.decompressed = none ∧ ∃ (A : Type) (f : BitVec 64 × Nat × Nat → BitM A),
        (∀ K h, h.2.2 ≤ K → Low K (f h)) ∧ (headerE >>= f) r.br = .err r'.br ∧ r' = { r with br := r'.br } := by
    intro r h
    obtain ⟨hd, h⟩ := decompressE_err h
    obtain ⟨e, e'⟩ := run_err h
    exact ⟨hd, _, _, fun K h hk => iterE_low _ _ hk _ _, e, e'⟩
  cases q with
  | materialize bm =>
    simp only [attempt] at h; obtain ⟨s, h', e⟩ := Attempt.map_eq_err h; clear h; subst e; have h := h'
    exact hdec h
  | filter p bm =>
    simp only [attempt] at h; obtain ⟨s, h', e⟩ := Attempt.map_eq_err h; clear h; subst e; have h := h'
    unfold filterQ at h
    simp only at h
    cases hd : r.decompressed with
    | some vs => rw [hd] at h; cases h
    | none =>
      rw [hd] at h
      simp only at h
      obtain ⟨e, e'⟩ := run_err h
      refine ⟨rfl, _, _, ?_, e, ?_⟩
      · intro K h hk
        exact .ite (.pure _) (.bind (filterE_low _ _ hk _ _ _ _) fun _ => .pure _)
      · rw [id, e']
  | sum bm => simp only [attempt] at h; obtain ⟨s, h', e⟩ := Attempt.map_eq_err h; clear h; subst e; have h := h'; exact hagg h
  | min bm => simp only [attempt] at h; obtain ⟨s, h', e⟩ := Attempt.map_eq_err h; clear h; subst e; have h := h'; exact hagg h
  | max bm => simp only [attempt] at h; obtain ⟨s, h', e⟩ := Attempt.map_eq_err h; clear h; subst e; have h := h'; exact hagg h
  | filterMaterialize p bm => simp only [attempt] at h; obtain ⟨s, h', e⟩ := Attempt.map_eq_err h; clear h; subst e; have h := h'; exact hdec h
  | distanceSquared i t => simp only [attempt] at h; obtain ⟨s, h', e⟩ := Attempt.map_eq_err h; clear h; subst e; have h := h'; exact hdec h
  | dotProduct i t => simp only [attempt] at h; obtain ⟨s, h', e⟩ := Attempt.map_eq_err h; clear h; subst e; have h := h'; exact hdec h

/-- The header and what follows, from a reader in order. -/
theorem header_bind_err {A : Type} {f : BitVec 64 × Nat × Nat → BitM A} {b b' : BitReader} (hK : 64 ≤ K)
    (hf : ∀ h, h.2.2 ≤ K → Low K (f h)) (hb : b.WF) (hw : ∀ h c, headerE b = .ok h c → h.2.2 ≤ K)
    (e : (headerE >>= f) b = .err b') : b'.WF ∧ b'.buf = b.buf ∧ b'.rest.length < K := by
  have h1 := headerE_low hK b hb
  rw [bind_apply] at e
  cases he : headerE b with
  | ok h c =>
    rw [he] at h1 e
    have h2 := hf h (hw h c he) c h1.1
    simp only at e
    rw [e] at h2
    exact ⟨h2.1, h2.2.1.trans h1.2.1, h2.2.2.2⟩
  | err c => rw [he] at h1 e; cases e; exact ⟨h1.1, h1.2.1, h1.2.2.2⟩
  | panic => rw [he] at e; cases e

theorem headerE_width_lt {b c : BitReader} {h : BitVec 64 × Nat × Nat} (e : headerE b = .ok h c) :
    h.2.2 ≤ 256 := by
  have h1 := headerE_erase b
  rw [e] at h1
  simp only [Attempt.forget] at h1
  unfold readHeader at h1
  cases e1 : b.readBits 64 with
  | none => rw [e1] at h1; cases h1
  | some p1 =>
    cases e2 : p1.2.readBits 32 with
    | none => rw [e1] at h1; simp only [Option.bind_eq_bind, Option.bind_some, e2] at h1; cases h1
    | some p2 =>
      rw [e1] at h1
      simp only [Option.bind_eq_bind, Option.bind_some, e2] at h1
      cases e3 : p2.2.readByte with
      | none => rw [e3] at h1; cases h1
      | some p3 =>
        rw [e3] at h1
        cases h1
        exact Nat.le_of_lt p3.1.isLt

/-- The width is byte 12 of the chunk. -/
theorem headerE_width {chunk : List Byte} {c : BitReader} {h : BitVec 64 × Nat × Nat}
    (e : headerE (BitReader.new chunk) = .ok h c) : h.2.2 = (chunk.getD 12 0#8).toNat := by
  have h1 := headerE_erase (BitReader.new chunk)
  rw [e] at h1
  simp only [Attempt.forget] at h1
  unfold readHeader at h1
  have w := BitReader.wf_new chunk
  have l := BitReader.rest_new chunk
  have ll : (BitReader.new chunk).rest.length = 8 * chunk.length := by rw [l, bytesBits_length]
  rw [BitReader.readBits_eq w] at h1
  by_cases c1 : (BitReader.new chunk).rest.length < 64
  · rw [if_pos c1] at h1; cases h1
  · rw [if_neg c1] at h1
    have w1 := BitReader.wf_adv w (n := 64) (by omega)
    have l1 := BitReader.rest_adv (BitReader.new chunk) 64
    simp only [Option.bind_eq_bind, Option.bind_some] at h1
    rw [BitReader.readBits_eq w1] at h1
    by_cases c2 : ((BitReader.new chunk).adv 64).rest.length < 32
    · rw [if_pos c2] at h1; cases h1
    · rw [if_neg c2] at h1
      have w2 := BitReader.wf_adv w1 (n := 32) (by omega)
      have l2 := BitReader.rest_adv ((BitReader.new chunk).adv 64) 32
      simp only [Option.bind_some, BitReader.readByte] at h1
      rw [BitReader.readByteRaw_eq w2] at h1
      by_cases c3 : (((BitReader.new chunk).adv 64).adv 32).rest.length < 8
      · rw [if_pos c3] at h1; cases h1
      · rw [if_neg c3] at h1
        cases h1
        rw [l2, l1, l, List.drop_drop, show (64 + 32 : Nat) = 8 * 12 + 0 from rfl, BitReader.drop_bytesBits,
          List.drop_zero] at c3 ⊢
        cases hd : chunk.drop 12 with
        | nil => rw [hd] at c3; simp at c3
        | cons b t =>
          have hg : chunk.getD 12 0#8 = b := by
            rw [List.getD_eq_getElem?_getD]
            have : chunk[12]? = (chunk.drop 12)[0]? := by rw [List.getElem?_drop]
            rw [this, hd]
            rfl
          rw [hg]
          simp only [bytesBits_cons]
          rw [List.take_append_of_le_length (by simp), List.take_of_length_le (by simp), byteBits,
            bitsNat_natBits]
          have := b.isLt
          simp
          omega

end Sprintz

end Ebi
