import Verif.Timing
import Verif.ChunkReaderLemmas
import Verif.ApiLemmas
import Verif.Props.InSitu

/-!
# C79: what the segmented execution times are the sums of

The log of all stopped measurements is compared with what the timers report.
-/

namespace Ebi.Props

open Ebi Timing

/-- What was measured under a kind. -/
def spent (l : Log) (k : Kind) : Nat := ((l.filter fun e => e.1 = k).map Prod.snd).sum

theorem spent_append (a b : Log) (k : Kind) : spent (a ++ b) k = spent a k + spent b k := by
  simp [spent]

theorem spent_single (k k' : Kind) (n : Nat) : spent [(k, n)] k' = if k' = k then n else 0 := by
  unfold spent
  by_cases h : k = k'
  · simp [h]
  · have h' : ¬k' = k := fun e => h e.symm
    simp [h, h']

theorem spent_other {l : Log} {k : Kind} (h : k ∉ l.map Prod.fst) : spent l k = 0 := by
  have : (l.filter fun e => decide (e.1 = k)) = [] := by
    rw [List.filter_eq_nil_iff]
    intro e he
    have : e.1 ≠ k := fun hk => h (hk ▸ List.mem_map_of_mem he)
    simpa using this
  simp [spent, this]

/-! ## Helpers -/

/-- From one state to the next, measurements of the kinds `ks` were made, and all of them were added. -/
def Adds (ks : List Kind) (s s' : Tally × Log) : Prop :=
  ∃ new, s'.2 = s.2 ++ new ∧ new.map Prod.fst = ks ∧ ∀ k, s'.1 k = s.1 k + spent new k

theorem Adds.refl (s : Tally × Log) : Adds [] s s := ⟨[], by simp, rfl, fun k => by simp [spent]⟩

theorem Adds.trans {a b : List Kind} {s s' s'' : Tally × Log} (h : Adds a s s') (h' : Adds b s' s'') :
    Adds (a ++ b) s s'' := by
  obtain ⟨n, h1, h2, h3⟩ := h
  obtain ⟨n', h1', h2', h3'⟩ := h'
  refine ⟨n ++ n', by rw [h1', h1, List.append_assoc], by simp [h2, h2'], fun k => ?_⟩
  rw [h3', h3, spent_append]
  omega

theorem measure_adds (c : Clock) (k : Kind) (s : Tally × Log) : Adds [k] s (Timing.measure c k s) := by
  refine ⟨[(k, c s.2.length)], rfl, rfl, fun x => ?_⟩
  rw [spent_single]
  simp only [Timing.measure, SegmentTimer.stop, SegmentTimer.drop, SegmentTimer.record, SegmentTimer.addition, Tally.addAt,
    if_true, Bool.false_eq_true, if_false]
  split <;> simp

theorem measureAll_adds (c : Clock) (ks : List Kind) (s : Tally × Log) : Adds ks s (measureAll c ks s) := by
  induction ks generalizing s with
  | nil => exact Adds.refl s
  | cons k ks ih => exact (measure_adds c k s).trans (ih _)

/-- Adding what a fresh timer collected is adding the measurements. -/
theorem Adds.plus {ks : List Kind} {t t' : Tally} {l l' : Log} (h : Adds ks (Tally.zero, l) (t', l')) :
    Adds ks (t, l) (t.plus t', l') := by
  obtain ⟨n, h1, h2, h3⟩ := h
  exact ⟨n, h1, h2, fun k => by have := h3 k; simp only [Tally.zero] at this; simp [Tally.plus, this]⟩

theorem openTimed_adds {E : Env} {c : Clock} {d : Decoder} {i : Nat} {l l' : Log} {x : Timed}
    (h : openTimed E c d i l = .ok (x, l')) :
    d.chunkReader E i = .ok x.handle ∧ Adds (openSegments d.info.header.scheme) (Tally.zero, l) (x.timer, l') := by
  obtain ⟨y, hy, he⟩ := Res.map_eq_ok h
  simp only [Prod.mk.injEq] at he
  obtain ⟨rfl, rfl⟩ := he
  exact ⟨hy, measureAll_adds c _ _⟩

theorem openTimed_map (E : Env) (c : Clock) (d : Decoder) (i : Nat) (l : Log) :
    (openTimed E c d i l).map (fun p => p.1.handle) = d.chunkReader E i := by
  unfold openTimed
  cases d.chunkReader E i <;> rfl

theorem exec_adds {E : Env} {c : Clock} {x x' : Timed} {q : ChunkQuery} {l l' : Log} {a : Answer}
    (h : x.exec E c q l = .ok (a, x', l')) :
    x.handle.exec E q = .ok (a, x'.handle) ∧
      Adds (segments x.handle.reader x.handle.off q) (x.timer, l) (x'.timer, l') := by
  obtain ⟨y, hy, he⟩ := Res.map_eq_ok h
  obtain ⟨a1, h1⟩ := y
  simp only [Prod.mk.injEq] at he
  obtain ⟨rfl, rfl, rfl⟩ := he
  exact ⟨hy, measureAll_adds c _ _⟩

theorem exec_map (E : Env) (c : Clock) (x : Timed) (q : ChunkQuery) (l : Log) :
    (x.exec E c q l).map (fun p => (p.1, p.2.1.handle)) = x.handle.exec E q := by
  unfold Timed.exec
  cases x.handle.exec E q <;> rfl

/-- A loop whose body keeps more gives the same when the rest is dropped. -/
theorem chunkLoop_map {A B : Type} (g : B → A) {m : Metadata} {bm : Option Bitmap} {cid : Option Nat}
    {f : Nat → A → Res A} {f' : Nat → B → Res B} (h : ∀ i b, (f' i b).map g = f i (g b)) (is : List Nat) (b : B) :
    (chunkLoop m bm cid f' is b).map g = chunkLoop m bm cid f is (g b) := by
  induction is generalizing b with
  | nil => rfl
  | cons i is ih =>
    unfold chunkLoop
    split
    · cases m.recordRangeU32 i with
      | err => rfl
      | panic => rfl
      | ok r =>
        simp only [Res.bind_ok]
        split
        · exact ih b
        · rw [← h i b]
          cases f' i b with
          | err => rfl
          | panic => rfl
          | ok b' => exact ih b'
    · exact ih b

/-- A property kept by the body is kept by the loop. -/
theorem chunkLoop_keeps {A : Type} {m : Metadata} {bm : Option Bitmap} {cid : Option Nat} {f : Nat → A → Res A}
    (P : A → Prop) (h : ∀ i a a', f i a = .ok a' → P a → P a') {is : List Nat} {a a' : A}
    (hl : chunkLoop m bm cid f is a = .ok a') (h0 : P a) : P a' := by
  induction is generalizing a with
  | nil => cases hl; exact h0
  | cons i is ih =>
    unfold chunkLoop at hl
    split at hl
    · obtain ⟨r, _, hl⟩ := Res.bind_eq_ok hl
      split at hl
      · exact ih hl h0
      · obtain ⟨b, hb, hl⟩ := Res.bind_eq_ok hl
        exact ih hl (h i a b hb h0)
    · exact ih hl h0

/-! ## Timers -/

/-- A timer that is stopped is recorded once, one that is dropped without being stopped not at all: none of the callers
asks for `stop_on_drop`. Had they done so, dropping would record, and `stop` would record twice — an addition counts the
time before the stop double. -/
theorem c79_timer (k : Kind) (t : Tally) (e later : Nat) :
    (∀ x, (SegmentTimer.addition k).stop e later t x = if x = k then t x + e else t x) ∧
      (∀ x, (SegmentTimer.plain k).stop e later t x = if x = k then e else t x) ∧
      (SegmentTimer.addition k).drop e t = t ∧ (SegmentTimer.plain k).drop e t = t ∧
      (∀ x, (SegmentTimer.mk true true k).drop e t x = if x = k then t x + e else t x) ∧
      (∀ x, (SegmentTimer.mk true true k).stop e later t x = if x = k then t x + e + later else t x) := by
  refine ⟨fun x => rfl, fun x => rfl, rfl, rfl, fun x => rfl, fun x => ?_⟩
  simp only [SegmentTimer.stop, SegmentTimer.drop, SegmentTimer.record, Tally.addAt, if_true]
  split <;> rfl

example : (SegmentTimer.mk true true .sum).stop 3 4 Tally.zero .sum = 7 := rfl

/-! ## Queries -/

theorem queryTimed_map {A : Type} (E : Env) (c : Clock) (d : Decoder) (q : ChunkQuery) (join : A → Answer → Res A)
    (bm : Option Bitmap) (cid : Option Nat) (init : A) (l : Log) :
    (queryTimed E c d q join bm cid init l).map Prod.fst =
      chunkLoop d.info bm cid (fun i a => do
        let h ← d.chunkReader E i
        let p ← h.exec E q
        join a p.1) (Query.handles d.info) init := by
  unfold queryTimed
  refine chunkLoop_map Prod.fst ?_ _ (init, Tally.zero, l)
  rintro i ⟨a, t, l⟩
  dsimp only
  rw [← openTimed_map E c d i l]
  cases openTimed E c d i l with
  | err => rfl
  | panic => rfl
  | ok p =>
    obtain ⟨x, l1⟩ := p
    simp only [Res.bind_ok, Res.map_ok]
    rw [← exec_map E c x q l1]
    cases x.exec E c q l1 with
    | err => rfl
    | panic => rfl
    | ok y =>
      obtain ⟨ans, x', l2⟩ := y
      simp only [Res.bind_ok, Res.map_ok]
      cases join a ans <;> rfl

theorem chunkReader_unfold (E : Env) (d : Decoder) (i : Nat) {B : Type} (f : Handle → Res B) :
    (d.chunkReader E i >>= f) = (do
      let (n, bs, off) ← loadChunk (E.scheme d.info.footer.config) d.file d.info i
      let h ← freshHandle d.info.header.scheme d.precision n bs off
      f h) := by
  unfold Decoder.chunkReader
  cases loadChunk (E.scheme d.info.footer.config) d.file d.info i <;> rfl

/-- The times change nothing: without them the answers are those of the queries. -/
theorem c79_answers (E : Env) (c : Clock) (d : Decoder) (p : Predicate B64) (bm : Option Bitmap) (cid : Option Nat)
    (l : Log) :
    (queryTimed E c d (.materialize bm) joinValues bm cid [] l).map Prod.fst = d.materialize E bm cid ∧
      (queryTimed E c d (.filter p bm) joinBitmaps bm cid [] l).map Prod.fst = d.filter E p bm cid ∧
      (queryTimed E c d (.filterMaterialize p bm) joinValues bm cid [] l).map Prod.fst =
        d.filterMaterialize E p bm cid ∧
      (queryTimed E c d (.sum bm) (joinNumbers E.o.add) bm cid 0#64 l).map Prod.fst = d.sum E bm cid ∧
      (queryTimed E c d (.min bm) (joinNumbers E.o.fmin) bm cid posInf l).map Prod.fst = d.min E bm cid ∧
      (queryTimed E c d (.max bm) (joinNumbers E.o.fmax) bm cid negInf l).map Prod.fst = d.max E bm cid := by
  have key : ∀ {A B : Type} (join : A → Answer → Res A) (q : ChunkQuery) (g : A → B → A)
      (pick : Handle → Res (B × Handle))
      (_ : ∀ h a, (h.exec E q >>= fun p => join a p.1) = ((pick h).map Prod.fst >>= fun v => .ok (g a v))) (init : A),
      chunkLoop d.info bm cid (fun i a => do
        let h ← d.chunkReader E i
        let p ← h.exec E q
        join a p.1) (Query.handles d.info) init =
      chunkLoop d.info bm cid (fun i a => do
        let (n, bs, off) ← loadChunk (E.scheme d.info.footer.config) d.file d.info i
        let v ← (do
          let h ← freshHandle d.info.header.scheme d.precision n bs off
          (pick h).map Prod.fst)
        .ok (g a v)) (Query.handles d.info) init := by
    intro A B join q g pick hp init
    congr 1
    funext i a
    rw [chunkReader_unfold]
    cases loadChunk (E.scheme d.info.footer.config) d.file d.info i with
    | err => rfl
    | panic => rfl
    | ok y =>
      simp only [Res.bind_ok]
      cases freshHandle d.info.header.scheme d.precision y.1 y.2.1 y.2.2 with
      | err => rfl
      | panic => rfl
      | ok h => exact hp h a
  have hv : ∀ (q : ChunkQuery) (h : Handle) (a : List B64), (h.exec E q >>= fun p => joinValues a p.1) =
      ((h.values E q).map Prod.fst >>= fun v => .ok (a ++ v)) := by
    intro q h a
    unfold Handle.values
    cases h.exec E q with
    | err => rfl
    | panic => rfl
    | ok y => obtain ⟨ans, h'⟩ := y; cases ans <;> rfl
  have hb : ∀ (q : ChunkQuery) (h : Handle) (a : Bitmap), (h.exec E q >>= fun p => joinBitmaps a p.1) =
      ((h.bitmap E q).map Prod.fst >>= fun v => .ok (Bitmap.union a v)) := by
    intro q h a
    unfold Handle.bitmap
    cases h.exec E q with
    | err => rfl
    | panic => rfl
    | ok y => obtain ⟨ans, h'⟩ := y; cases ans <;> rfl
  have hn : ∀ (f : B64 → B64 → B64) (q : ChunkQuery) (h : Handle) (a : B64),
      (h.exec E q >>= fun p => joinNumbers f a p.1) = ((h.number E q).map Prod.fst >>= fun v => .ok (f a v)) := by
    intro f q h a
    unfold Handle.number
    cases h.exec E q with
    | err => rfl
    | panic => rfl
    | ok y => obtain ⟨ans, h'⟩ := y; cases ans <;> rfl
  refine ⟨?_, ?_, ?_, ?_, ?_, ?_⟩ <;> rw [queryTimed_map]
  · exact key joinValues _ (· ++ ·) _ (hv _) []
  · exact key joinBitmaps _ Bitmap.union _ (hb _) []
  · exact key joinValues _ (· ++ ·) _ (hv _) []
  · exact key (joinNumbers E.o.add) _ E.o.add _ (hn _ _) _
  · exact key (joinNumbers E.o.fmin) _ E.o.fmin _ (hn _ _) _
  · exact key (joinNumbers E.o.fmax) _ E.o.fmax _ (hn _ _) _

/-- The decoder reports after a query exactly what was measured during the query, kind by kind: nothing of what went
before, nothing twice, nothing left out — whatever the query, the chunks visited and the durations. -/
theorem c79_query {A : Type} {E : Env} {c : Clock} {d : Decoder} {q : ChunkQuery} {join : A → Answer → Res A}
    {bm : Option Bitmap} {cid : Option Nat} {init a : A} {t : Tally} {l l' : Log}
    (h : queryTimed E c d q join bm cid init l = .ok (a, t, l')) :
    ∃ new, l' = l ++ new ∧ ∀ k, t k = spent new k := by
  have := chunkLoop_keeps (fun s : A × Tally × Log => ∃ ks, Adds ks (Tally.zero, l) s.2) ?_ h ⟨[], Adds.refl _⟩
  · obtain ⟨ks, new, h1, _, h3⟩ := this
    exact ⟨new, h1, fun k => by simpa [Tally.zero] using h3 k⟩
  · rintro i ⟨a, t, l1⟩ s' hb ⟨ks, hk⟩
    obtain ⟨⟨x, l2⟩, ho, hb⟩ := Res.bind_eq_ok hb
    obtain ⟨⟨ans, x', l3⟩, he, hb⟩ := Res.bind_eq_ok hb
    obtain ⟨a', _, hb⟩ := Res.bind_eq_ok hb
    cases hb
    exact ⟨_, hk.trans ((openTimed_adds ho).2.trans (exec_adds he).2).plus⟩

/-! ### Under which kinds -/

/-- How the readers decompress. -/
inductive Method where
  | copy | words | library | integers | planes | runs
deriving DecidableEq

def method : SchemeId → Method
  | .uncompressed => .copy
  | .rle => .runs
  | .gorilla | .chimp | .chimp128 | .elfOnChimp | .elf => .words
  | .deltaSprintz => .integers
  | .buff => .planes
  | .zstd | .gzip | .snappy | .ffiAlp => .library

/-- What answering a query from decompressed values is measured as. -/
def finalKind : ChunkQuery → Kind
  | .materialize _ | .filterMaterialize .. => .ioWrite
  | .filter .. | .min _ | .max _ => .compareInsert
  | .sum _ | .distanceSquared .. | .dotProduct .. => .sum

/-- The measurements of one query on one chunk, in order. -/
def expected (m : Method) (q : ChunkQuery) : List Kind :=
  match m, q with
  | .copy, q => [.ioRead, .ioRead, finalKind q]
  | .runs, q | .library, q => [.ioRead, .decompression, finalKind q]
  | .words, q => [.ioRead, .xor, finalKind q]
  | .integers, .filter .. | .integers, .min _ | .integers, .max _ | .integers, .sum _ => [.ioRead, .compareInsert]
  | .integers, q => [.ioRead, .decompression, finalKind q]
  | .planes, .filter .. | .planes, .min _ | .planes, .max _ => [.ioRead, .compareInsert]
  | .planes, .sum _ => [.ioRead, .sum]
  | .planes, .filterMaterialize .. => [.ioRead, .compareInsert, .bitPacking, .ioWrite]
  | .planes, q => [.ioRead, .bitPacking, finalKind q]

/-- A query without a bitmask. -/
def Unmasked : ChunkQuery → Prop
  | .materialize bm | .sum bm | .min bm | .max bm | .filter _ bm | .filterMaterialize _ bm => bm = none
  | .distanceSquared .. | .dotProduct .. => True

theorem fresh_segments {id : SchemeId} {prec : Option Nat} {n off : Nat} {bs : List Byte} {h : Handle} {q : ChunkQuery}
    (hq : Unmasked q) (hn : n ≠ 0) (hf : freshHandle id prec n bs off = .ok h) :
    openSegments id ++ segments h.reader h.off q = expected (method id) q := by
  obtain ⟨r, hr, hf⟩ := Res.bind_eq_ok hf
  cases hf
  cases id <;> simp only [AnyReader.new] at hr
  case rle =>
    obtain ⟨r', hr', rfl⟩ := Res.map_eq_ok hr
    have hd : r'.decompressed = none := by
      unfold RunLength.Reader.new at hr'
      split at hr'
      · cases hr'
      · cases hr'
        rfl
    cases prec <;> cases q <;>
      simp [openSegments, segments, defaultSegments, decompressSegments, defaultKind, expected, method, finalKind,
        AnyReader.withPrecision, hd]
  all_goals
    cases hr
    cases prec <;> cases q <;>
      simp_all [openSegments, segments, defaultSegments, decompressSegments, defaultKind, expected, method, finalKind,
        AnyReader.withPrecision, Uncompressed.Reader.new, XorCodec.Reader.new, External.Reader.new, Sprintz.Reader.new,
        Buff.Reader.new, sprintzAggregate, Unmasked, Buff.Reader.restrict, Buff.Reader.withControlledPrecision]

/-- A query over the whole file makes the measurements of the table for every chunk and no others, and reports their sums.
-/
theorem c79_kinds {A : Type} {E : Env} {c : Clock} {d : Decoder} {q : ChunkQuery} {join : A → Answer → Res A}
    {init a : A} {t : Tally} {l l' : Log} (hq : Unmasked q)
    (hn : ∀ i < d.info.footer.chunks, ∀ h, d.chunkReader E i = .ok h → h.records ≠ 0)
    (h : queryTimed E c d q join none none init l = .ok (a, t, l')) :
    ∃ new, l' = l ++ new ∧
      new.map Prod.fst =
        (List.replicate d.info.footer.chunks (expected (method d.info.header.scheme) q)).flatten ∧
      ∀ k, t k = spent new k := by
  have gen : ∀ (is : List Nat) (s s' : A × Tally × Log), (∀ i ∈ is, i < d.info.footer.chunks) →
      chunkLoop d.info none none (fun i (s : A × Tally × Log) => do
        let (x, l) ← openTimed E c d i s.2.2
        let (answer, x, l) ← x.exec E c q l
        let a ← join s.1 answer
        .ok (a, s.2.1.plus x.timer, l)) is s = .ok s' →
      Adds (List.replicate is.length (expected (method d.info.header.scheme) q)).flatten s.2 s'.2 := by
    intro is
    induction is with
    | nil => intro s s' _ h; cases h; exact Adds.refl _
    | cons i is ih =>
      intro s s' hi h
      unfold chunkLoop at h
      simp only [Option.all_none, if_true] at h
      obtain ⟨r, _, h⟩ := Res.bind_eq_ok h
      simp only [rangeDisjoint, Bool.false_eq_true, if_false] at h
      obtain ⟨s1, hb, h⟩ := Res.bind_eq_ok h
      obtain ⟨⟨x, l2⟩, ho, hb⟩ := Res.bind_eq_ok hb
      obtain ⟨⟨ans, x', l3⟩, he, hb⟩ := Res.bind_eq_ok hb
      obtain ⟨a', _, hb⟩ := Res.bind_eq_ok hb
      cases hb
      have hr := hn i (hi i (List.mem_cons_self ..)) _ (openTimed_adds ho).1
      have hc := (openTimed_adds ho).1
      unfold Decoder.chunkReader at hc
      obtain ⟨y, _, hc⟩ := Res.bind_eq_ok hc
      have hy : y.1 ≠ 0 := by
        have hc' := hc
        obtain ⟨_, _, hc'⟩ := Res.bind_eq_ok hc'
        injection hc' with hxx
        rw [← hxx] at hr
        exact hr
      have hs := fresh_segments hq hy hc
      have := ((openTimed_adds ho).2.trans (exec_adds he).2).plus (t := s.2.1)
      rw [hs] at this
      have := this.trans (ih _ _ (fun j hj => hi j (List.mem_cons_of_mem _ hj)) h)
      simpa [List.replicate_succ] using this
  have := gen _ _ _ (by simp [Query.handles]) h
  obtain ⟨new, h1, h2, h3⟩ := this
  refine ⟨new, h1, ?_, fun k => by simpa [Tally.zero] using h3 k⟩
  rw [h2]
  simp [Query.handles]

/-- How the reader of a chunk decompresses. -/
def readerMethod : AnyReader → Method
  | .uncompressed _ => .copy
  | .rle _ => .runs
  | .gorilla _ | .chimp _ | .chimp128 _ | .elfOnChimp _ | .elf _ => .words
  | .deltaSprintz _ => .integers
  | .buff _ => .planes
  | .zstd _ | .gzip _ | .snappy _ | .ffiAlp _ => .library

theorem decompress_cached {E : Env} {r r' : AnyReader} {vs : List B64} (h : AnyReader.decompress E r = .ok (vs, r')) :
    readerMethod r' = readerMethod r ∧ decompressSegments r' =
      match readerMethod r with
      | .words => [.xor]
      | .integers => [.decompression]
      | _ => [] := by
  cases r <;> simp only [AnyReader.decompress] at h <;> obtain ⟨⟨ws, r1⟩, h1, h2⟩ := Res.map_eq_ok h <;> cases h2
  case uncompressed r =>
    refine ⟨rfl, ?_⟩
    have : r1.values.isSome = true := by
      unfold Uncompressed.Reader.decompress at h1
      split at h1
      · rename_i hv; cases h1; rw [hv]; rfl
      · split at h1
        · cases h1
        · cases h1; rfl
    simp [decompressSegments, readerMethod, this]
  case rle r =>
    refine ⟨rfl, ?_⟩
    have : r1.decompressed.isSome = true := by
      unfold RunLength.Reader.decompress at h1
      split at h1
      · rename_i hv; cases h1; rw [hv]; rfl
      · split at h1
        · cases h1
        · cases h1; rfl
    simp [decompressSegments, readerMethod, this]
  case buff r =>
    refine ⟨rfl, ?_⟩
    have : r1.decompressed.isSome = true := by
      unfold Buff.Reader.decompress at h1
      split at h1
      · rename_i hv; cases h1; rw [hv]; rfl
      · split at h1
        · cases h1; rfl
        · cases h1
        · cases h1
    simp [decompressSegments, readerMethod, this]
  case zstd r | gzip r | snappy r | ffiAlp r =>
    refine ⟨rfl, ?_⟩
    have : r1.decompressed.isSome = true := by
      unfold External.Reader.decompress at h1
      split at h1
      · rename_i hv; cases h1; rw [hv]; rfl
      · obtain ⟨_, _, h3⟩ := Res.map_eq_ok h1
        cases h3
        rfl
    simp [decompressSegments, readerMethod, this]
  all_goals exact ⟨rfl, rfl⟩

/-- A reader that was asked to materialize and is asked again: nothing is read or decompressed a second time, and nothing
measured as such — but the XOR readers and DeltaSprintz measure finding the values. -/
theorem c79_again {E : Env} {r r' : AnyReader} {off : Nat} {bm : Option Bitmap} {a : Answer}
    (h : AnyReader.exec E r off (.materialize bm) = .ok (a, r')) (off' : Nat) (bm' : Option Bitmap) :
    segments r' off' (.materialize bm') =
      match readerMethod r with
      | .words => [.xor, .ioWrite]
      | .integers => [.decompression, .ioWrite]
      | _ => [.ioWrite] := by
  have hd : ∃ r0 vs, readerMethod r0 = readerMethod r ∧ AnyReader.decompress E r0 = .ok (vs, r') := by
    cases r <;> simp only [AnyReader.exec] at h
    case deltaSprintz r =>
      obtain ⟨⟨a1, r1⟩, h1, h2⟩ := Res.map_eq_ok h
      cases h2
      simp only [Sprintz.Reader.exec] at h1
      obtain ⟨⟨ws, r2⟩, h3, h4⟩ := Res.map_eq_ok h1
      cases h4
      unfold Sprintz.Reader.materialize at h3
      split at h3
      · rename_i vs r3 h5
        cases h3
        exact ⟨.deltaSprintz { r with br := r.br.reset }, vs, rfl,
          by simp only [AnyReader.decompress]; rw [h5]; rfl⟩
      · cases h3
      · cases h3
    case buff r =>
      obtain ⟨⟨a1, r1⟩, h1, h2⟩ := Res.map_eq_ok h
      cases h2
      simp only [Buff.Reader.exec] at h1
      obtain ⟨⟨vs, r3⟩, h5, h6⟩ := Res.map_eq_ok h1
      cases h6
      exact ⟨_, vs, rfl, by simp only [AnyReader.decompress, h5, Res.map_ok]⟩
    all_goals
      obtain ⟨⟨vs, r1⟩, h1, h2⟩ := Res.map_eq_ok h
      cases h2
      exact ⟨_, vs, rfl, h1⟩
  obtain ⟨r0, vs, h0, hd⟩ := hd
  obtain ⟨h1, h2⟩ := decompress_cached hd
  have h3 : segments r' off' (.materialize bm') = decompressSegments r' ++ [.ioWrite] := by
    cases r' <;> rfl
  rw [h3, h2, h0]
  cases readerMethod r <;> rfl

/-- Of a file whose chunks hold `css` no chunk is without records, so `c79_kinds` applies. -/
theorem c79_whole_file {E : Env} {d : Decoder} {css : List (List B64)} (h : Opens E d css) :
    ∀ i < d.info.footer.chunks, ∀ x, d.chunkReader E i = .ok x → x.records ≠ 0 := by
  intro i hi x hx
  rw [h.chunks] at hi
  obtain ⟨y, hy, hh⟩ := h.reader i css[i] (List.getElem?_eq_getElem hi)
  rw [hx] at hy
  cases hy
  have := h.nonempty _ (List.getElem_mem hi)
  have h2 := hh.records
  rw [h2]
  simpa using this

/-- `sum` over a file compressed with DeltaSprintz: not a nanosecond is reported as `Sum`, nor as decompression; the time
goes to `CompareInsert`. -/
theorem c79_sum_mislabelled {A : Type} {E : Env} {c : Clock} {d : Decoder} {join : A → Answer → Res A} {init a : A}
    {t : Tally} {l l' : Log} (hs : d.info.header.scheme = .deltaSprintz)
    (hn : ∀ i < d.info.footer.chunks, ∀ h, d.chunkReader E i = .ok h → h.records ≠ 0)
    (h : queryTimed E c d (.sum none) join none none init l = .ok (a, t, l')) :
    ∀ k, k ≠ .ioRead → k ≠ .compareInsert → t k = 0 := by
  obtain ⟨new, _, h2, h3⟩ := c79_kinds (show Unmasked (.sum none) from rfl) hn h
  intro k h4 h5
  rw [h3]
  refine spent_other ?_
  rw [h2, hs]
  simp [method, expected, h4, h5]

/-- Over a file compressed with anything else nothing of a `sum` is reported as `CompareInsert`. -/
theorem c79_sum_elsewhere {A : Type} {E : Env} {c : Clock} {d : Decoder} {join : A → Answer → Res A} {init a : A}
    {t : Tally} {l l' : Log} (hs : d.info.header.scheme ≠ .deltaSprintz)
    (hn : ∀ i < d.info.footer.chunks, ∀ h, d.chunkReader E i = .ok h → h.records ≠ 0)
    (h : queryTimed E c d (.sum none) join none none init l = .ok (a, t, l')) : t .compareInsert = 0 := by
  obtain ⟨new, _, h2, h3⟩ := c79_kinds (show Unmasked (.sum none) from rfl) hn h
  rw [h3]
  refine spent_other ?_
  rw [h2]
  cases hi : d.info.header.scheme <;> simp_all [method, expected, finalKind]

/-! ## Nearest neighbour and matrix product -/

theorem number_adds {E : Env} {c : Clock} {x x' : Timed} {q : ChunkQuery} {l l' : Log} {v : B64}
    (h : x.number E c q l = .ok (v, x', l')) : ∃ ks, Adds ks (x.timer, l) (x'.timer, l') := by
  unfold Timed.number at h
  split at h
  · rename_i he
    cases h
    exact ⟨_, (exec_adds he).2⟩
  all_goals cases h

theorem number_map (E : Env) (c : Clock) (x : Timed) (q : ChunkQuery) (l : Log) :
    (x.number E c q l).map (fun p => (p.1, p.2.1.handle)) = x.handle.number E q := by
  unfold Timed.number Handle.number
  rw [← exec_map E c x q l]
  cases x.exec E c q l with
  | err => rfl
  | panic => rfl
  | ok y => obtain ⟨a, y⟩ := y; cases a <;> rfl

theorem knnWhile_map (E : Env) (c : Clock) (target : List B64) (n fuel : Nat) (x : Timed) (offset : Nat) (s : KnnState)
    (l : Log) :
    (knnWhileTimed E c target n fuel x offset s l).map (·.map fun p => (p.1.handle, p.2.1)) =
      knnWhile E target n fuel x.handle offset s := by
  induction fuel generalizing x offset s l with
  | zero =>
    unfold knnWhileTimed knnWhile
    split <;> rfl
  | succ fuel ih =>
    unfold knnWhileTimed knnWhile
    split
    · dsimp only
      rw [← number_map E c x _ l]
      cases x.number E c (.distanceSquared offset (target.take (min target.length (n - offset)))) l with
      | err => rfl
      | panic => rfl
      | ok y =>
        obtain ⟨v, x', l'⟩ := y
        simp only [Res.map_ok]
        split
        · exact ih _ _ _ _
        · exact ih _ _ _ _
    · rfl

theorem knnWhile_adds {E : Env} {c : Clock} {target : List B64} {n fuel : Nat} {x x' : Timed} {offset : Nat}
    {s s' : KnnState} {l l' : Log} (h : knnWhileTimed E c target n fuel x offset s l = some (.ok (x', s', l'))) :
    ∃ ks, Adds ks (x.timer, l) (x'.timer, l') := by
  induction fuel generalizing x offset s l with
  | zero =>
    unfold knnWhileTimed at h
    split at h
    · cases h
    · cases h; exact ⟨_, Adds.refl _⟩
  | succ fuel ih =>
    unfold knnWhileTimed at h
    split at h
    · dsimp only at h
      split at h
      · cases h
      · cases h
      · rename_i hx
        obtain ⟨ks, hk⟩ := number_adds hx
        split at h
        · obtain ⟨ks', hk'⟩ := ih h
          exact ⟨_, hk.trans hk'⟩
        · obtain ⟨ks', hk'⟩ := ih h
          exact ⟨_, hk.trans hk'⟩
    · cases h; exact ⟨_, Adds.refl _⟩

theorem knnContinue_map (E : Env) (c : Clock) (target : List B64) (x : Timed) (s : KnnState) (l : Log) :
    (knnContinueTimed E c target x s l).map (fun p => (p.1.handle, p.2.1)) = knnContinue E target x.handle s := by
  unfold knnContinueTimed knnContinue
  split
  · rw [← number_map E c x _ l]
    cases x.number E c _ l <;> rfl
  · rfl

theorem knnContinue_adds {E : Env} {c : Clock} {target : List B64} {x x' : Timed} {s s' : KnnState} {l l' : Log}
    (h : knnContinueTimed E c target x s l = .ok (x', s', l')) : ∃ ks, Adds ks (x.timer, l) (x'.timer, l') := by
  unfold knnContinueTimed at h
  split at h
  · split at h
    · cases h
    · cases h
    · rename_i hx
      cases h
      exact number_adds hx
  · cases h; exact ⟨_, Adds.refl _⟩

theorem knn_map (E : Env) (c : Clock) (d : Decoder) (target : List B64) (fuel : Nat) (is : List Nat) (s : KnnState)
    (t : Tally) (l : Log) :
    (knnTimed E c d target fuel is s t l).map (·.map Prod.fst) = knnLoop E d target fuel is s := by
  induction is generalizing s t l with
  | nil => rfl
  | cons i is ih =>
    unfold knnTimed knnLoop
    rw [← openTimed_map E c d i l]
    cases openTimed E c d i l with
    | err => rfl
    | panic => rfl
    | ok p =>
      obtain ⟨x, l1⟩ := p
      simp only [Res.map_ok]
      rw [← knnContinue_map E c target x s l1]
      cases knnContinueTimed E c target x s l1 with
      | err => rfl
      | panic => rfl
      | ok p =>
        obtain ⟨x1, s1, l2⟩ := p
        simp only [Res.map_ok]
        rw [← knnWhile_map E c target _ fuel x1 0 s1 l2]
        cases knnWhileTimed E c target x1.handle.records fuel x1 0 s1 l2 with
        | none => rfl
        | some r =>
          cases r with
          | err => rfl
          | panic => rfl
          | ok p => exact ih _ _ _

theorem knn_adds {E : Env} {c : Clock} {d : Decoder} {target : List B64} {fuel : Nat} {is : List Nat}
    {s s' : KnnState} {t t' : Tally} {l l' : Log}
    (h : knnTimed E c d target fuel is s t l = some (.ok (s', t', l'))) : ∃ ks, Adds ks (t, l) (t', l') := by
  induction is generalizing s t l with
  | nil => cases h; exact ⟨_, Adds.refl _⟩
  | cons i is ih =>
    unfold knnTimed at h
    split at h
    · cases h
    · cases h
    · rename_i ho
      split at h
      · cases h
      · cases h
      · rename_i hc
        split at h
        · cases h
        · cases h
        · cases h
        · rename_i hw
          obtain ⟨_, h2⟩ := knnContinue_adds hc
          obtain ⟨_, h3⟩ := knnWhile_adds hw
          obtain ⟨_, h4⟩ := ih h
          exact ⟨_, (((openTimed_adds ho).2.trans h2).trans h3).plus.trans h4⟩

/-- `knn1`: the result does not depend on the measurements, and all of them are reported. -/
theorem c79_knn (E : Env) (c : Clock) (d : Decoder) (target : List B64) (fuel : Nat) (l : Log) :
    (knnTimed E c d target fuel (Query.handles d.info) KnnState.init Tally.zero l).map (·.map fun p => p.1.best) =
        d.knn1 E target fuel ∧
      ∀ s t l', knnTimed E c d target fuel (Query.handles d.info) KnnState.init Tally.zero l = some (.ok (s, t, l')) →
        ∃ new, l' = l ++ new ∧ ∀ k, t k = spent new k := by
  constructor
  · unfold Decoder.knn1
    rw [← knn_map E c d target fuel _ _ Tally.zero l]
    cases knnTimed E c d target fuel (Query.handles d.info) KnnState.init Tally.zero l with
    | none => rfl
    | some r => cases r <;> rfl
  · intro s t l' h
    obtain ⟨_, new, h1, _, h3⟩ := knn_adds h
    exact ⟨new, h1, fun k => by simpa [Tally.zero] using h3 k⟩

theorem dotColumns_map (E : Env) (c : Clock) (at' : Nat) (cols : List (List B64)) (x : Timed) (l : Log) :
    (dotColumnsTimed E c at' cols x l).map (fun p => (p.1, p.2.1.handle)) = dotColumns E at' cols x.handle := by
  induction cols generalizing x l with
  | nil => rfl
  | cons col cols ih =>
    unfold dotColumnsTimed dotColumns
    rw [← number_map E c x _ l]
    cases x.number E c (.dotProduct at' col) l with
    | err => rfl
    | panic => rfl
    | ok p =>
      obtain ⟨v, x1, l1⟩ := p
      simp only [Res.bind_ok, Res.map_ok]
      rw [← ih x1 l1]
      cases dotColumnsTimed E c at' cols x1 l1 <;> rfl

theorem dotColumns_adds {E : Env} {c : Clock} {at' : Nat} {cols : List (List B64)} {x x' : Timed} {l l' : Log}
    {vs : List B64} (h : dotColumnsTimed E c at' cols x l = .ok (vs, x', l')) :
    ∃ ks, Adds ks (x.timer, l) (x'.timer, l') := by
  induction cols generalizing x l vs with
  | nil => cases h; exact ⟨_, Adds.refl _⟩
  | cons col cols ih =>
    obtain ⟨⟨v, x1, l1⟩, h1, h⟩ := Res.bind_eq_ok h
    obtain ⟨⟨ws, x2, l2⟩, h2, h⟩ := Res.bind_eq_ok h
    cases h
    obtain ⟨_, h3⟩ := number_adds h1
    obtain ⟨_, h4⟩ := ih h2
    exact ⟨_, h3.trans h4⟩

theorem dotRows_map (E : Env) (c : Clock) (cols : List (List B64)) (offset dc k row : Nat) (x : Timed) (l : Log) :
    (dotRowsTimed E c cols offset dc k row x l).map (fun p => (p.1, p.2.1.handle)) =
      dotRows E cols offset dc k row x.handle := by
  induction k generalizing row x l with
  | zero => rfl
  | succ k ih =>
    unfold dotRowsTimed dotRows
    rw [← dotColumns_map E c _ cols x l]
    cases dotColumnsTimed E c (offset + row * dc) cols x l with
    | err => rfl
    | panic => rfl
    | ok p =>
      obtain ⟨v, x1, l1⟩ := p
      simp only [Res.bind_ok, Res.map_ok]
      rw [← ih (row + 1) x1 l1]
      cases dotRowsTimed E c cols offset dc k (row + 1) x1 l1 <;> rfl

theorem dotRows_adds {E : Env} {c : Clock} {cols : List (List B64)} {offset dc k row : Nat} {x x' : Timed} {l l' : Log}
    {vs : List B64} (h : dotRowsTimed E c cols offset dc k row x l = .ok (vs, x', l')) :
    ∃ ks, Adds ks (x.timer, l) (x'.timer, l') := by
  induction k generalizing row x l vs with
  | zero => cases h; exact ⟨_, Adds.refl _⟩
  | succ k ih =>
    obtain ⟨⟨v, x1, l1⟩, h1, h⟩ := Res.bind_eq_ok h
    obtain ⟨⟨ws, x2, l2⟩, h2, h⟩ := Res.bind_eq_ok h
    cases h
    obtain ⟨_, h3⟩ := dotColumns_adds h1
    obtain ⟨_, h4⟩ := ih h2
    exact ⟨_, h3.trans h4⟩

theorem matmul_map (E : Env) (c : Clock) (d : Decoder) (cols : List (List B64)) (dr dc b chunk offset : Nat) (x : Timed)
    (t : Tally) (l : Log) :
    (matmulTimed E c d cols dr dc b chunk offset x t l).map Prod.fst =
      matmulLoop E d cols dr dc b chunk offset x.handle := by
  induction b generalizing chunk offset x t l with
  | zero => rfl
  | succ b ih =>
    have go : ∀ (chunk offset : Nat) (x : Timed) (t : Tally) (l : Log),
        Res.map Prod.fst (do
          let (vs, x, l) ← dotRowsTimed E c cols offset dc dr 0 x l
          let (ws, t, l) ← matmulTimed E c d cols dr dc b chunk (offset + dr * dc) x t l
          Res.ok (vs ++ ws, t, l)) = (do
          let (vs, h) ← dotRows E cols offset dc dr 0 x.handle
          let ws ← matmulLoop E d cols dr dc b chunk (offset + dr * dc) h
          Res.ok (vs ++ ws)) := by
      intro chunk offset x t l
      rw [← dotRows_map E c cols offset dc dr 0 x l]
      cases dotRowsTimed E c cols offset dc dr 0 x l with
      | err => rfl
      | panic => rfl
      | ok p =>
        obtain ⟨v, x1, l1⟩ := p
        simp only [Res.bind_ok, Res.map_ok]
        rw [← ih chunk (offset + dr * dc) x1 t l1]
        cases matmulTimed E c d cols dr dc b chunk (offset + dr * dc) x1 t l1 <;> rfl
    unfold matmulTimed matmulLoop
    split
    · rw [← openTimed_map E c d (chunk + 1) l]
      cases openTimed E c d (chunk + 1) l with
      | err => rfl
      | panic => rfl
      | ok p => exact go _ _ _ _ _
    · exact go _ _ _ _ _

theorem matmul_adds {E : Env} {c : Clock} {d : Decoder} {cols : List (List B64)} {dr dc b chunk offset : Nat} {x : Timed}
    {t t' : Tally} {l0 l l' : Log} {vs : List B64} {ks : List Kind} (hx : Adds ks (Tally.zero, l0) (t.plus x.timer, l))
    (h : matmulTimed E c d cols dr dc b chunk offset x t l = .ok (vs, t', l')) :
    ∃ ks, Adds ks (Tally.zero, l0) (t', l') := by
  have step : ∀ {ks ks' : List Kind} {t : Tally} {x x' : Timed} {l l' : Log},
      Adds ks (Tally.zero, l0) (t.plus x.timer, l) → Adds ks' (x.timer, l) (x'.timer, l') →
      Adds (ks ++ ks') (Tally.zero, l0) (t.plus x'.timer, l') := by
    intro ks ks' t x x' l l' h h'
    refine h.trans ?_
    obtain ⟨n, h1, h2, h3⟩ := h'
    exact ⟨n, h1, h2, fun k => by have := h3 k; simp only [Tally.plus] at *; omega⟩
  induction b generalizing chunk offset x t l vs ks with
  | zero => cases h; exact ⟨_, hx⟩
  | succ b ih =>
    have go : ∀ {ks : List Kind} {chunk offset : Nat} {x : Timed} {t : Tally} {l : Log},
        Adds ks (Tally.zero, l0) (t.plus x.timer, l) → (do
          let (vs, x, l) ← dotRowsTimed E c cols offset dc dr 0 x l
          let (ws, t, l) ← matmulTimed E c d cols dr dc b chunk (offset + dr * dc) x t l
          Res.ok (vs ++ ws, t, l)) = Res.ok (vs, t', l') → ∃ ks, Adds ks (Tally.zero, l0) (t', l') := by
      intro ks chunk offset x t l hx h
      obtain ⟨⟨v, x2, l2⟩, h2, h⟩ := Res.bind_eq_ok h
      obtain ⟨⟨w, t3, l3⟩, h3, h⟩ := Res.bind_eq_ok h
      cases h
      obtain ⟨_, h4⟩ := dotRows_adds h2
      exact ih (step hx h4) h3
    unfold matmulTimed at h
    split at h
    · obtain ⟨⟨y, l2⟩, h2, h⟩ := Res.bind_eq_ok h
      exact go (hx.trans (openTimed_adds h2).2.plus) h
    · exact go hx h

/-- `matmul`: the result does not depend on the measurements, and all of them are reported, those of the readers that were
replaced on the way as well as those of the last. -/
theorem c79_matmul (E : Env) (c : Clock) (d : Decoder) (cols : List (List B64)) (dr dc b : Nat) (l : Log) :
    ((openTimed E c d 0 l) >>= fun p => (matmulTimed E c d cols dr dc b 0 0 p.1 Tally.zero p.2).map Prod.fst) =
        (d.chunkReader E 0 >>= matmulLoop E d cols dr dc b 0 0) ∧
      ∀ x l1 vs t l', openTimed E c d 0 l = .ok (x, l1) →
        matmulTimed E c d cols dr dc b 0 0 x Tally.zero l1 = .ok (vs, t, l') →
        ∃ new, l' = l ++ new ∧ ∀ k, t k = spent new k := by
  constructor
  · rw [← openTimed_map E c d 0 l]
    cases openTimed E c d 0 l with
    | err => rfl
    | panic => rfl
    | ok p => exact matmul_map E c d cols dr dc b 0 0 p.1 Tally.zero p.2
  · intro x l1 vs t l' h1 h2
    obtain ⟨_, new, h3, _, h5⟩ := matmul_adds ((openTimed_adds h1).2.plus (t := Tally.zero)) h2
    exact ⟨new, h3, fun k => by simpa [Tally.zero] using h5 k⟩

/-! ## Expressions -/

/-- Whether a reader loads its chunk when it is opened. -/
def loadsAtOnce (d : Decoder) : Bool := decide (d.info.header.scheme ∉ [.zstd, .gzip, .snappy, .ffiAlp])

/-- Between two states `n` reads were measured that are in no timer; everything else was added. -/
def Loses (n : Nat) (s s' : Tally × Log) : Prop :=
  ∃ new lost, s'.2 = s.2 ++ new ∧ lost.Sublist new ∧ lost.length = n ∧ (∀ e ∈ lost, e.1 = .ioRead) ∧
    ∀ k, s'.1 k + spent lost k = s.1 k + spent new k

theorem Loses.trans {m n : Nat} {s s' s'' : Tally × Log} (h : Loses m s s') (h' : Loses n s' s'') :
    Loses (m + n) s s'' := by
  obtain ⟨a, b, h1, h2, h3, h4, h5⟩ := h
  obtain ⟨a', b', h1', h2', h3', h4', h5'⟩ := h'
  refine ⟨a ++ a', b ++ b', by rw [h1', h1, List.append_assoc], h2.append h2', by simp [h3, h3'], ?_, fun k => ?_⟩
  · intro e he
    rcases List.mem_append.1 he with he | he
    · exact h4 e he
    · exact h4' e he
  · have := h5 k
    have := h5' k
    rw [spent_append, spent_append]
    omega

theorem Adds.loses {ks : List Kind} {s s' : Tally × Log} (h : Adds ks s s') : Loses 0 s s' := by
  obtain ⟨n, h1, _, h3⟩ := h
  exact ⟨n, [], h1, by simp, rfl, by simp, fun k => by simp [h3, spent]⟩

theorem openAll_map (E : Env) (c : Clock) (i : Nat) (ds : List Decoder) (l : Log) :
    (openAllTimed E c i ds l).map (fun p => p.1.map Timed.handle) = openReaders E i ds := by
  induction ds generalizing l with
  | nil => rfl
  | cons d ds ih =>
    unfold openAllTimed openReaders
    rw [← openTimed_map E c d i l]
    cases openTimed E c d i l with
    | err => rfl
    | panic => rfl
    | ok p =>
      obtain ⟨x, l1⟩ := p
      simp only [Res.bind_ok, Res.map_ok]
      rw [← ih l1]
      cases openAllTimed E c i ds l1 <;> rfl

theorem openAll_loses {E : Env} {c : Clock} {i : Nat} {ds : List Decoder} {l l' : Log} {xs : List Timed}
    (h : openAllTimed E c i ds l = .ok (xs, l')) (t : Tally) : Loses (ds.countP loadsAtOnce) (t, l) (t, l') := by
  induction ds generalizing l xs with
  | nil => cases h; exact (Adds.refl _).loses
  | cons d ds ih =>
    obtain ⟨⟨x, l1⟩, h1, h⟩ := Res.bind_eq_ok h
    obtain ⟨⟨ys, l2⟩, h2, h⟩ := Res.bind_eq_ok h
    cases h
    obtain ⟨new, h3, h4, _⟩ := (openTimed_adds h1).2
    have : Loses (if loadsAtOnce d then 1 else 0) (t, l) (t, l1) := by
      refine ⟨new, new, h3, List.Sublist.refl _, ?_, ?_, fun k => rfl⟩
      · rw [← List.length_map (f := Prod.fst), h4]
        unfold loadsAtOnce
        cases d.info.header.scheme <;> rfl
      · intro e he
        have he := List.mem_map_of_mem (f := Prod.fst) he
        rw [h4] at he
        revert he
        cases d.info.header.scheme <;> simp [openSegments]
    have := this.trans (ih h2)
    rw [List.countP_cons]
    rw [Nat.add_comm] at this
    exact this

theorem compute_map (E : Env) (c : Clock) (bm : Option Bitmap) (e : Expr) (xs : List Timed) (s : Tally × Log) :
    (computeTimed E c bm e xs s).map (fun p => (p.1, p.2.1.map Timed.handle)) =
      e.computeChunk E bm (xs.map Timed.handle) := by
  induction e generalizing xs s with
  | literal v => rfl
  | index i =>
    unfold computeTimed Expr.computeChunk
    rw [List.getElem?_map]
    cases hx : xs[i]? with
    | none => rfl
    | some x =>
      simp only [Option.map_some]
      unfold Handle.values
      have := exec_map E c ⟨x.handle, Tally.zero⟩ (.materialize bm) s.2
      dsimp only at this
      rw [← this]
      cases Timed.exec E c ⟨x.handle, Tally.zero⟩ (.materialize bm) s.2 with
      | err => rfl
      | panic => rfl
      | ok y =>
        obtain ⟨a, x', l'⟩ := y
        cases a with
        | values vs =>
          simp only [Res.map_ok]
          split
          · rfl
          · simp [Res.map, List.map_set]
        | bitmap b => rfl
        | number v => rfl
  | binary op l r ihl ihr =>
    unfold computeTimed Expr.computeChunk
    cases l.asLiteral <;> cases r.asLiteral <;> simp only
    · rw [← ihl xs s]
      cases computeTimed E c bm l xs s with
      | err => rfl
      | panic => rfl
      | ok p =>
        obtain ⟨ls, ys, s1⟩ := p
        simp only [Res.bind_ok, Res.map_ok]
        rw [← ihr ys s1]
        cases computeTimed E c bm r ys s1 <;> rfl
    · rw [← ihl xs s]
      cases computeTimed E c bm l xs s <;> rfl
    · rw [← ihr xs s]
      cases computeTimed E c bm r xs s <;> rfl
    · rfl

theorem compute_adds {E : Env} {c : Clock} {bm : Option Bitmap} {e : Expr} {xs xs' : List Timed} {s s' : Tally × Log}
    {vs : List B64} (h : computeTimed E c bm e xs s = .ok (vs, xs', s')) : ∃ ks, Adds ks s s' := by
  induction e generalizing xs xs' s s' vs with
  | literal v => cases h
  | index i =>
    unfold computeTimed at h
    split at h
    · cases h
    · split at h
      · rename_i he
        split at h
        · cases h
        · cases h
          exact ⟨_, (exec_adds he).2.plus⟩
      all_goals cases h
  | binary op l r ihl ihr =>
    unfold computeTimed at h
    split at h
    · obtain ⟨⟨ls, ys, s1⟩, h1, h⟩ := Res.bind_eq_ok h
      obtain ⟨⟨rs, zs, s2⟩, h2, h⟩ := Res.bind_eq_ok h
      cases h
      obtain ⟨_, h3⟩ := ihl h1
      obtain ⟨_, h4⟩ := ihr h2
      exact ⟨_, h3.trans h4⟩
    · obtain ⟨⟨ls, ys, s1⟩, h1, h⟩ := Res.bind_eq_ok h
      cases h
      exact ihl h1
    · obtain ⟨⟨ls, ys, s1⟩, h1, h⟩ := Res.bind_eq_ok h
      cases h
      exact ihr h1
    · cases h

theorem dispatch_map (E : Env) (c : Clock) (k : AggKind) (d : Decoder) (bm : Option Bitmap) (l : Log) :
    (dispatchTimed E c k d bm l).map Prod.fst = k.dispatch E d bm := by
  have h := c79_answers E c d (.eq 0#64) bm none l
  unfold dispatchTimed AggKind.dispatch
  cases k with
  | none => rfl
  | max => simp only; rw [← h.2.2.2.2.2, Res.map_map, Res.map_map]; rfl
  | min => simp only; rw [← h.2.2.2.2.1, Res.map_map, Res.map_map]; rfl
  | sum => simp only; rw [← h.2.2.2.1, Res.map_map, Res.map_map]; rfl

theorem dispatch_adds {E : Env} {c : Clock} {k : AggKind} {d : Decoder} {bm : Option Bitmap} {l l' : Log} {r : AggResult}
    {t : Tally} (h : dispatchTimed E c k d bm l = .ok (r, t, l')) (t0 : Tally) :
    ∃ ks, Adds ks (t0, l) (t0.plus t, l') := by
  have key : ∀ {A : Type} {q : ChunkQuery} {join : A → Answer → Res A} {init a : A} {t : Tally} {l' : Log},
      queryTimed E c d q join bm none init l = .ok (a, t, l') → ∃ ks, Adds ks (t0, l) (t0.plus t, l') := by
    intro A q join init a t l' h
    obtain ⟨new, h1, h2⟩ := c79_query h
    exact ⟨_, new, h1, rfl, fun k => by simp [Tally.plus, h2]⟩
  unfold dispatchTimed at h
  cases k with
  | none => cases h
  | max => obtain ⟨⟨a, t, l'⟩, h1, h2⟩ := Res.map_eq_ok h; cases h2; exact key h1
  | min => obtain ⟨⟨a, t, l'⟩, h1, h2⟩ := Res.map_eq_ok h; cases h2; exact key h1
  | sum => obtain ⟨⟨a, t, l'⟩, h1, h2⟩ := Res.map_eq_ok h; cases h2; exact key h1

theorem agg_map (E : Env) (c : Clock) (a : Aggregation) (ds : List Decoder) (bm : Option Bitmap) (is : List Nat)
    (acc : AggResult) (s : Tally × Log) :
    (aggTimed E c a ds bm is acc s).map Prod.fst = aggLoop E a ds bm is acc := by
  induction is generalizing acc s with
  | nil => rfl
  | cons i is ih =>
    unfold aggTimed aggLoop
    rw [← openAll_map E c i ds s.2]
    cases openAllTimed E c i ds s.2 with
    | err => rfl
    | panic => rfl
    | ok p =>
      obtain ⟨xs, l⟩ := p
      simp only [Res.bind_ok, Res.map_ok]
      rw [← compute_map E c bm a.expr xs (s.1, l)]
      cases computeTimed E c bm a.expr xs (s.1, l) with
      | err => rfl
      | panic => rfl
      | ok p =>
        obtain ⟨vs, ys, s1⟩ := p
        simp only [Res.bind_ok, Res.map_ok]
        cases AggResult.concat E.o a.kind acc (a.kind.dispatchOnVec E.o vs) with
        | err => rfl
        | panic => rfl
        | ok acc' => exact ih acc' s1

theorem agg_loses {E : Env} {c : Clock} {a : Aggregation} {ds : List Decoder} {bm : Option Bitmap} {is : List Nat}
    {acc acc' : AggResult} {s s' : Tally × Log} (h : aggTimed E c a ds bm is acc s = .ok (acc', s')) :
    Loses (is.length * ds.countP loadsAtOnce) s s' := by
  induction is generalizing acc s with
  | nil => cases h; simpa using (Adds.refl s').loses
  | cons i is ih =>
    obtain ⟨⟨xs, l⟩, h1, h⟩ := Res.bind_eq_ok h
    obtain ⟨⟨vs, ys, s1⟩, h2, h⟩ := Res.bind_eq_ok h
    obtain ⟨acc1, _, h⟩ := Res.bind_eq_ok h
    obtain ⟨_, h4⟩ := compute_adds h2
    have := ((openAll_loses h1 s.1).trans h4.loses).trans (ih h)
    simp only [List.length_cons, Nat.succ_mul]
    rw [Nat.add_zero, Nat.add_comm] at this
    exact this

theorem start_map (E : Env) (c : Clock) (ds : List Decoder) (bm : Option Bitmap) (as : List Aggregation)
    (s : Tally × Log) : (startTimed E c ds bm as s).map Prod.fst = startAll E ds bm as := by
  have tail : ∀ (as : List Aggregation) (s : Tally × Log) (r : AggResult × Bool),
      (startTimed E c ds bm as s).map Prod.fst = startAll E ds bm as →
      Res.map Prod.fst (do
        let (rs, s) ← startTimed E c ds bm as s
        Res.ok (r :: rs, s)) = (do
        let rs ← startAll E ds bm as
        Res.ok (r :: rs)) := by
    intro as s r h
    rw [← h]
    cases startTimed E c ds bm as s <;> rfl
  induction as generalizing s with
  | nil => rfl
  | cons a as ih =>
    obtain ⟨k, e⟩ := a
    unfold startTimed startAll
    cases e with
    | literal v => exact tail as _ _ (ih _)
    | binary op l r => exact tail as _ _ (ih _)
    | index i =>
      dsimp only
      cases decoderAt ds i with
      | err => rfl
      | panic => rfl
      | ok d =>
        simp only [Res.bind_ok]
        rw [← dispatch_map E c k d bm s.2]
        cases dispatchTimed E c k d bm s.2 with
        | err => rfl
        | panic => rfl
        | ok r => exact tail as _ _ (ih _)

theorem start_adds {E : Env} {c : Clock} {ds : List Decoder} {bm : Option Bitmap} {as : List Aggregation}
    {s s' : Tally × Log} {rs : List (AggResult × Bool)} (h : startTimed E c ds bm as s = .ok (rs, s')) :
    ∃ ks, Adds ks s s' := by
  induction as generalizing s rs with
  | nil => cases h; exact ⟨_, Adds.refl _⟩
  | cons a as ih =>
    have tail : ∀ {s : Tally × Log} {r : AggResult × Bool}, (do
        let (rs, s) ← startTimed E c ds bm as s
        Res.ok (r :: rs, s)) = Res.ok (rs, s') → ∃ ks, Adds ks s s' := by
      intro s r h
      obtain ⟨⟨rs', s2⟩, h2, h⟩ := Res.bind_eq_ok h
      cases h
      exact ih h2
    obtain ⟨k, e⟩ := a
    unfold startTimed at h
    cases e with
    | literal v => exact tail h
    | binary op l r => exact tail h
    | index i =>
      dsimp only at h
      obtain ⟨d, _, h⟩ := Res.bind_eq_ok h
      obtain ⟨⟨r, t, l⟩, h1, h⟩ := Res.bind_eq_ok h
      obtain ⟨_, h3⟩ := dispatch_adds h1 s.1
      obtain ⟨_, h4⟩ := tail h
      exact ⟨_, h3.trans h4⟩

theorem step_map (E : Env) (c : Clock) (bm : Option Bitmap) (as : List Aggregation) (rs : List (AggResult × Bool))
    (xs : List Timed) (s : Tally × Log) :
    (stepTimed E c bm as rs xs s).map Prod.fst = stepAll E bm as rs (xs.map Timed.handle) := by
  induction as generalizing rs xs s with
  | nil => unfold stepTimed stepAll; rfl
  | cons a as ih =>
    cases rs with
    | nil => unfold stepTimed stepAll; rfl
    | cons r rs =>
      obtain ⟨acc, done⟩ := r
      unfold stepTimed stepAll
      split
      · rw [← ih rs xs s]
        cases stepTimed E c bm as rs xs s <;> rfl
      · rw [← compute_map E c bm a.expr xs s]
        cases computeTimed E c bm a.expr xs s with
        | err => rfl
        | panic => rfl
        | ok p =>
          obtain ⟨vs, ys, s1⟩ := p
          simp only [Res.bind_ok, Res.map_ok]
          cases AggResult.concat E.o a.kind acc (a.kind.dispatchOnVec E.o vs) with
          | err => rfl
          | panic => rfl
          | ok acc' =>
            simp only [Res.bind_ok]
            rw [← ih rs ys s1]
            cases stepTimed E c bm as rs ys s1 <;> rfl

theorem step_adds {E : Env} {c : Clock} {bm : Option Bitmap} {as : List Aggregation} {rs rs' : List (AggResult × Bool)}
    {xs : List Timed} {s s' : Tally × Log} (h : stepTimed E c bm as rs xs s = .ok (rs', s')) : ∃ ks, Adds ks s s' := by
  induction as generalizing rs rs' xs s with
  | nil => unfold stepTimed at h; cases h; exact ⟨_, Adds.refl _⟩
  | cons a as ih =>
    cases rs with
    | nil => unfold stepTimed at h; cases h; exact ⟨_, Adds.refl _⟩
    | cons r rs =>
      obtain ⟨acc, done⟩ := r
      unfold stepTimed at h
      split at h
      · obtain ⟨⟨r1, s1⟩, h1, h⟩ := Res.bind_eq_ok h
        cases h
        exact ih h1
      · obtain ⟨⟨vs, ys, s1⟩, h1, h⟩ := Res.bind_eq_ok h
        obtain ⟨acc1, _, h⟩ := Res.bind_eq_ok h
        obtain ⟨⟨r1, s2⟩, h2, h⟩ := Res.bind_eq_ok h
        cases h
        obtain ⟨_, h3⟩ := compute_adds h1
        obtain ⟨_, h4⟩ := ih h2
        exact ⟨_, h3.trans h4⟩

theorem multi_map (E : Env) (c : Clock) (as : List Aggregation) (ds : List Decoder) (bm : Option Bitmap) (is : List Nat)
    (rs : List (AggResult × Bool)) (s : Tally × Log) :
    (multiTimed E c as ds bm is rs s).map Prod.fst = multiLoop E as ds bm is rs := by
  induction is generalizing rs s with
  | nil => rfl
  | cons i is ih =>
    unfold multiTimed multiLoop
    rw [← openAll_map E c i ds s.2]
    cases openAllTimed E c i ds s.2 with
    | err => rfl
    | panic => rfl
    | ok p =>
      obtain ⟨xs, l⟩ := p
      simp only [Res.bind_ok, Res.map_ok]
      rw [← step_map E c bm as rs xs (s.1, l)]
      cases stepTimed E c bm as rs xs (s.1, l) with
      | err => rfl
      | panic => rfl
      | ok p => exact ih p.1 p.2

theorem multi_loses {E : Env} {c : Clock} {as : List Aggregation} {ds : List Decoder} {bm : Option Bitmap} {is : List Nat}
    {rs rs' : List (AggResult × Bool)} {s s' : Tally × Log} (h : multiTimed E c as ds bm is rs s = .ok (rs', s')) :
    Loses (is.length * ds.countP loadsAtOnce) s s' := by
  induction is generalizing rs s with
  | nil => cases h; simpa using (Adds.refl s').loses
  | cons i is ih =>
    obtain ⟨⟨xs, l⟩, h1, h⟩ := Res.bind_eq_ok h
    obtain ⟨⟨rs1, s1⟩, h2, h⟩ := Res.bind_eq_ok h
    obtain ⟨_, h4⟩ := step_adds h2
    have := ((openAll_loses h1 s.1).trans h4.loses).trans (ih h)
    simp only [List.length_cons, Nat.succ_mul]
    rw [Nat.add_zero, Nat.add_comm] at this
    exact this

/-- `compute_multiple`: the results do not depend on the measurements. Of the measurements all are added to the timer but
the reads made when the chunks of the expressions are opened — `compute_chunk` resets the reader's timer first. For every
chunk and every decoder whose reader loads the chunk at once, one read is lost, even if all aggregations are bare columns
and the readers are opened for nothing. -/
theorem c79_multiple (E : Env) (c : Clock) (as : List Aggregation) (ds : List Decoder) (bm : Option Bitmap)
    (s : Tally × Log) :
    (computeMultipleTimed E c as ds bm s).map Prod.fst = Aggregation.computeMultiple E as ds bm ∧
      ∀ rs s' d, computeMultipleTimed E c as ds bm s = .ok (rs, s') → ds[0]? = some d →
        ∃ new lost, s'.2 = s.2 ++ new ∧ lost.Sublist new ∧
          lost.length = d.info.footer.chunks * ds.countP loadsAtOnce ∧ (∀ e ∈ lost, e.1 = .ioRead) ∧
          ∀ k, s'.1 k + spent lost k = s.1 k + spent new k := by
  constructor
  · unfold computeMultipleTimed Aggregation.computeMultiple
    rw [← start_map E c ds bm as s]
    cases startTimed E c ds bm as s with
    | err => rfl
    | panic => rfl
    | ok p =>
      obtain ⟨rs, s1⟩ := p
      simp only [Res.bind_ok, Res.map_ok]
      cases decoderAt ds 0 with
      | err => rfl
      | panic => rfl
      | ok d =>
        simp only [Res.bind_ok]
        rw [← multi_map E c as ds bm _ rs s1]
        cases multiTimed E c as ds bm (List.range d.info.footer.chunks) rs s1 <;> rfl
  · intro rs s' d h hd
    obtain ⟨⟨r1, s1⟩, h1, h⟩ := Res.bind_eq_ok h
    obtain ⟨d', hd', h⟩ := Res.bind_eq_ok h
    obtain ⟨⟨r2, s2⟩, h2, h⟩ := Res.bind_eq_ok h
    cases h
    simp only [decoderAt, hd] at hd'
    cases hd'
    obtain ⟨_, h3⟩ := start_adds h1
    have := h3.loses.trans (multi_loses h2)
    rw [Nat.zero_add, List.length_range] at this
    exact this

/-- `compute` on an expression loses the same reads; on a bare column it adds nothing to the timer it was given, however
much was measured. -/
theorem c79_compute (E : Env) (c : Clock) (a : Aggregation) (ds : List Decoder) (bm : Option Bitmap) (s : Tally × Log) :
    (computeAllTimed E c a ds bm s).map Prod.fst = a.compute E ds bm ∧
      ∀ r s', computeAllTimed E c a ds bm s = .ok (r, s') →
        ((∃ i, a.expr = .index i) → s'.1 = s.1) ∧
        ((∀ i, a.expr ≠ .index i) → ∀ d, ds[0]? = some d →
          ∃ new lost, s'.2 = s.2 ++ new ∧ lost.Sublist new ∧
            lost.length = d.info.footer.chunks * ds.countP loadsAtOnce ∧ (∀ e ∈ lost, e.1 = .ioRead) ∧
            ∀ k, s'.1 k + spent lost k = s.1 k + spent new k) := by
  constructor
  · obtain ⟨k, e⟩ := a
    have other : (∀ i, e ≠ .index i) → Res.map Prod.fst (do
        let d ← decoderAt ds 0
        aggTimed E c ⟨k, e⟩ ds bm (List.range d.info.footer.chunks) (AggResult.zero k) s) = (do
        let d ← decoderAt ds 0
        aggLoop E ⟨k, e⟩ ds bm (List.range d.info.footer.chunks) (AggResult.zero k)) := by
      intro _
      cases decoderAt ds 0 with
      | err => rfl
      | panic => rfl
      | ok d => exact agg_map E c ⟨k, e⟩ ds bm _ _ s
    unfold computeAllTimed Aggregation.compute
    cases e with
    | literal v => exact other (by simp)
    | binary op l r => exact other (by simp)
    | index i =>
      dsimp only
      cases decoderAt ds i with
      | err => rfl
      | panic => rfl
      | ok d =>
        simp only [Res.bind_ok]
        rw [← dispatch_map E c k d bm s.2]
        cases dispatchTimed E c k d bm s.2 <;> rfl
  · intro r s' h
    unfold computeAllTimed at h
    constructor
    · rintro ⟨i, hi⟩
      rw [hi] at h
      obtain ⟨d, _, h⟩ := Res.bind_eq_ok h
      obtain ⟨p, _, h⟩ := Res.bind_eq_ok h
      cases h
      rfl
    · intro hi d hd
      split at h
      · rename_i he
        exact absurd he (hi _)
      · simp only [decoderAt, hd, Res.bind_ok] at h
        have := agg_loses h
        rw [List.length_range] at this
        exact this

/-! ### Files of which no read is reported -/

/-- Whether decompressing measures a read. -/
def readsLater : AnyReader → Bool
  | .uncompressed _ | .zstd _ | .gzip _ | .snappy _ | .ffiAlp _ => true
  | _ => false

theorem exec_readsLater {E : Env} {h h' : Handle} {q : ChunkQuery} {a : Answer} (he : h.exec E q = .ok (a, h')) :
    readsLater h'.reader = readsLater h.reader := by
  obtain ⟨⟨a1, r⟩, h1, h2⟩ := Res.map_eq_ok he
  cases h2
  dsimp only
  cases hr : h.reader <;> rw [hr] at h1 <;> simp only [AnyReader.exec] at h1
  case deltaSprintz => obtain ⟨y, _, h3⟩ := Res.map_eq_ok h1; cases h3; rfl
  case buff => obtain ⟨y, _, h3⟩ := Res.map_eq_ok h1; cases h3; rfl
  all_goals
    obtain ⟨y, h4, h3⟩ := Res.map_eq_ok h1
    cases h3
    obtain ⟨z, _, h5⟩ := Res.map_eq_ok h4
    cases h5
    rfl

theorem materialize_noRead {r : AnyReader} (h : readsLater r = false) (off : Nat) (bm : Option Bitmap) :
    Kind.ioRead ∉ segments r off (.materialize bm) := by
  cases r <;> simp_all [readsLater, segments, defaultSegments, decompressSegments, defaultKind] <;> split <;> simp

theorem chunkReader_readsLater {E : Env} {d : Decoder} {i : Nat} {h : Handle} (hr : d.chunkReader E i = .ok h)
    (hd : d.info.header.scheme ∉ [.uncompressed, .zstd, .gzip, .snappy, .ffiAlp]) : readsLater h.reader = false := by
  obtain ⟨y, _, hr⟩ := Res.bind_eq_ok hr
  obtain ⟨r, hn, hr⟩ := Res.bind_eq_ok hr
  cases hr
  cases hs : d.info.header.scheme <;> rw [hs] at hn hd <;> simp only [AnyReader.new] at hn <;>
    first
      | (exfalso; revert hd; decide)
      | (obtain ⟨_, _, hn⟩ := Res.map_eq_ok hn; subst hn; cases d.precision <;> rfl)
      | (cases hn; cases d.precision <;> rfl)

theorem openAll_readsLater {E : Env} {c : Clock} {i : Nat} {ds : List Decoder} {l l' : Log} {xs : List Timed}
    (h : openAllTimed E c i ds l = .ok (xs, l'))
    (hd : ∀ d ∈ ds, d.info.header.scheme ∉ [.uncompressed, .zstd, .gzip, .snappy, .ffiAlp]) :
    ∀ x ∈ xs, readsLater x.handle.reader = false := by
  induction ds generalizing l xs with
  | nil => cases h; simp
  | cons d ds ih =>
    obtain ⟨⟨x, l1⟩, h1, h⟩ := Res.bind_eq_ok h
    obtain ⟨⟨ys, l2⟩, h2, h⟩ := Res.bind_eq_ok h
    cases h
    intro y hy
    rcases List.mem_cons.1 hy with rfl | hy
    · exact chunkReader_readsLater (openTimed_adds h1).1 (hd d (List.mem_cons_self ..))
    · exact ih h2 (fun d hd' => hd d (List.mem_cons_of_mem _ hd')) y hy

theorem compute_noRead {E : Env} {c : Clock} {bm : Option Bitmap} {e : Expr} {xs xs' : List Timed} {s s' : Tally × Log}
    {vs : List B64} (h : computeTimed E c bm e xs s = .ok (vs, xs', s'))
    (hx : ∀ x ∈ xs, readsLater x.handle.reader = false) :
    s'.1 .ioRead = s.1 .ioRead ∧ ∀ x ∈ xs', readsLater x.handle.reader = false := by
  induction e generalizing xs xs' s s' vs with
  | literal v => cases h
  | index i =>
    unfold computeTimed at h
    split at h
    · cases h
    · rename_i x hi
      split at h
      · rename_i he
        split at h
        · cases h
        · cases h
          have hxi := hx x (List.mem_of_getElem? hi)
          obtain ⟨h1, new, _, h3, h4⟩ := exec_adds he
          constructor
          · have := h4 .ioRead
            have h5 := materialize_noRead hxi x.handle.off bm
            rw [← h3] at h5
            rw [spent_other h5] at this
            simp only [Tally.zero] at this
            simp [Tally.plus, this]
          · intro y hy
            rcases List.mem_or_eq_of_mem_set hy with hy | rfl
            · exact hx y hy
            · rw [exec_readsLater h1]
              exact hxi
      all_goals cases h
  | binary op l r ihl ihr =>
    unfold computeTimed at h
    split at h
    · obtain ⟨⟨ls, ys, s1⟩, h1, h⟩ := Res.bind_eq_ok h
      obtain ⟨⟨rs, zs, s2⟩, h2, h⟩ := Res.bind_eq_ok h
      cases h
      obtain ⟨a1, a2⟩ := ihl h1 hx
      obtain ⟨b1, b2⟩ := ihr h2 a2
      exact ⟨b1.trans a1, b2⟩
    · obtain ⟨⟨ls, ys, s1⟩, h1, h⟩ := Res.bind_eq_ok h
      cases h
      exact ihl h1 hx
    · obtain ⟨⟨ls, ys, s1⟩, h1, h⟩ := Res.bind_eq_ok h
      cases h
      exact ihr h1 hx
    · cases h

theorem agg_noRead {E : Env} {c : Clock} {a : Aggregation} {ds : List Decoder} {bm : Option Bitmap} {is : List Nat}
    {acc acc' : AggResult} {s s' : Tally × Log} (h : aggTimed E c a ds bm is acc s = .ok (acc', s'))
    (hd : ∀ d ∈ ds, d.info.header.scheme ∉ [.uncompressed, .zstd, .gzip, .snappy, .ffiAlp]) :
    s'.1 .ioRead = s.1 .ioRead := by
  induction is generalizing acc s with
  | nil => cases h; rfl
  | cons i is ih =>
    obtain ⟨⟨xs, l⟩, h1, h⟩ := Res.bind_eq_ok h
    obtain ⟨⟨vs, ys, s1⟩, h2, h⟩ := Res.bind_eq_ok h
    obtain ⟨acc1, _, h⟩ := Res.bind_eq_ok h
    exact (ih h).trans (compute_noRead h2 (openAll_readsLater h1 hd)).1

/-- An expression over files of the in-house schemes (other than plain doubles) reports no time for reading at all, though
every chunk of every file was read: the measured reads are in the log, `IORead` stays what it was. -/
theorem c79_reads_unreported {E : Env} {c : Clock} {a : Aggregation} {ds : List Decoder} {bm : Option Bitmap}
    {s s' : Tally × Log} {r : AggResult} {d : Decoder} (h : computeAllTimed E c a ds bm s = .ok (r, s'))
    (ha : ∀ i, a.expr ≠ .index i) (h0 : ds[0]? = some d)
    (hd : ∀ d ∈ ds, d.info.header.scheme ∉ [.uncompressed, .zstd, .gzip, .snappy, .ffiAlp]) :
    s'.1 .ioRead = s.1 .ioRead ∧ ∃ new, s'.2 = s.2 ++ new ∧
      d.info.footer.chunks * ds.length ≤ (new.filter fun e => e.1 = .ioRead).length := by
  obtain ⟨new, lost, h1, h2, h3, h4, _⟩ := ((c79_compute E c a ds bm s).2 r s' h).2 ha d h0
  constructor
  · unfold computeAllTimed at h
    split at h
    · rename_i he
      exact absurd he (ha _)
    · simp only [decoderAt, h0, Res.bind_ok] at h
      exact agg_noRead h hd
  · refine ⟨new, h1, ?_⟩
    have hc : ds.countP loadsAtOnce = ds.length := by
      rw [List.countP_eq_length]
      intro x hx
      have := hd x hx
      simp only [loadsAtOnce, decide_eq_true_eq]
      simp only [List.mem_cons, not_or] at this ⊢
      exact this.2
    rw [hc] at h3
    rw [← h3]
    have := (h2.filter fun e => decide (e.1 = Kind.ioRead)).length_le
    have he : lost.filter (fun e => decide (e.1 = Kind.ioRead)) = lost :=
      List.filter_eq_self.2 fun e he => decide_eq_true (h4 e he)
    rw [he] at this
    exact this

/-! ## Encoder -/

theorem remeasureAll_adds (c : Clock) (ks : List Kind) (s : Tally × Log) (hn : ks.Nodup) (hz : ∀ k ∈ ks, s.1 k = 0) :
    Adds ks s (remeasureAll c ks s) := by
  induction ks generalizing s with
  | nil => exact Adds.refl s
  | cons k ks ih =>
    have h1 : Adds [k] s (remeasure c k s) := by
      refine ⟨[(k, c s.2.length)], rfl, rfl, fun x => ?_⟩
      rw [spent_single]
      simp only [remeasure, SegmentTimer.stop, SegmentTimer.drop, SegmentTimer.record, SegmentTimer.plain, Tally.updateAt,
        Bool.false_eq_true, if_false]
      split
      · rename_i hk
        rw [hk, hz k (List.mem_cons_self ..), Nat.zero_add]
      · rfl
    refine h1.trans (ih _ (List.nodup_cons.1 hn).2 fun x hx => ?_)
    have : x ≠ k := fun h => (List.nodup_cons.1 hn).1 (h ▸ hx)
    simp only [remeasure, SegmentTimer.stop, SegmentTimer.drop, SegmentTimer.record, SegmentTimer.plain, Tally.updateAt,
      Bool.false_eq_true, if_false, if_neg this]
    exact hz x (List.mem_cons_of_mem _ hx)

/-- What the compressors measure, by how they work. -/
def compressing (m : Method) (flat : Bool) : List Kind :=
  match m with
  | .words => [.xor]
  | .planes => [.quantization, .delta, .bitPacking]
  | .integers => if flat then [.quantization, .delta] else [.quantization, .delta, .bitPacking]
  | .copy | .runs | .library => []

theorem compress_adds (c : Clock) (id : SchemeId) (flat : Bool) (t : Tally) (l : Log) :
    Adds (compressing (method id) flat) (Tally.zero, l) (compressTimed c id flat t l) := by
  unfold compressTimed compressorSegments
  cases id <;> cases flat <;> simp only [method, compressing] <;>
    first
      | exact Adds.refl _
      | exact remeasureAll_adds c _ _ (by decide) (fun _ _ => rfl)

theorem write_adds (c : Clock) (id : SchemeId) (flat : Bool) (t : Tally) (l : Log) :
    Adds (.ioRead :: compressing (method id) flat ++ [.ioWrite]) (Tally.zero, l)
      ((writeTimed c id flat t l).1, (writeTimed c id flat t l).2.2) := by
  have h1 := measure_adds c .ioRead (Tally.zero, l)
  unfold writeTimed
  simp only
  generalize Timing.measure c .ioRead (Tally.zero, l) = p at h1 ⊢
  obtain ⟨t1, l1⟩ := p
  have h2 := compress_adds c id flat t l1
  simp only
  have hd : (compressorSegments id flat).isSome = false → compressTimed c id flat t l1 = (Tally.zero, l1) := by
    unfold compressTimed
    cases compressorSegments id flat with
    | none => intro _; rfl
    | some ks => intro h; cases h
  cases hs : (compressorSegments id flat).isSome with
  | true =>
    generalize compressTimed c id flat t l1 = p at h2 ⊢
    obtain ⟨t2, l2⟩ := p
    simp only [if_true]
    exact (h1.trans h2.plus).trans (measure_adds c .ioWrite _)
  | false =>
    rw [hd hs] at h2 ⊢
    simp only [Bool.false_eq_true, if_false]
    have h3 : Adds (compressing (method id) flat) (t1, l1) (t1, l1) := by
      have := h2.plus (t := t1)
      exact this
    exact (h1.trans h3).trans (measure_adds c .ioWrite _)

/-- The times written into the footer are the sums of what was measured while encoding: for every chunk a read, the steps
of the compressor and a write, and one more read that finds the end of the input. Each measurement is counted once, though
the compressor and its timer are passed from chunk to chunk. -/
theorem c79_encoder (c : Clock) (id : SchemeId) (flats : List Bool) (t0 : Tally) (l : Log) :
    ∃ new, (encodeTimed c id flats Tally.zero t0 l).2 = l ++ new ∧
      new.map Prod.fst =
        (flats.map fun flat => .ioRead :: compressing (method id) flat ++ [.ioWrite]).flatten ++ [.ioRead] ∧
      ∀ k, (encodeTimed c id flats Tally.zero t0 l).1 k = spent new k := by
  have gen : ∀ (flats : List Bool) (total comp : Tally) (l : Log),
      Adds ((flats.map fun flat => Kind.ioRead :: compressing (method id) flat ++ [.ioWrite]).flatten ++ [.ioRead])
        (total, l) (encodeTimed c id flats total comp l) := by
    intro flats
    induction flats with
    | nil => intro total comp l; exact (measure_adds c .ioRead (Tally.zero, l)).plus
    | cons f fs ih =>
      intro total comp l
      unfold encodeTimed
      rw [List.map_cons, List.flatten_cons, List.append_assoc]
      have := (write_adds c id f comp l).plus (t := total)
      exact this.trans (ih _ _ _)
  obtain ⟨new, h1, h2, h3⟩ := gen flats Tally.zero t0 l
  exact ⟨new, h1, h2, fun k => by simpa [Tally.zero] using h3 k⟩

/-- Every kind is stored in the footer in its own place, and read back as it was. -/
theorem c79_footer (t : Tally) (h : ∀ k, t k < 2 ^ 64 * 1000000000) (rest : List Byte) :
    Times.parse (t.times.bytes ++ rest) = .ok (t.times, rest) ∧
      t.times.ioRead.asNanos = t .ioRead ∧ t.times.ioWrite.asNanos = t .ioWrite ∧ t.times.xor.asNanos = t .xor ∧
      t.times.delta.asNanos = t .delta ∧ t.times.quantization.asNanos = t .quantization ∧
      t.times.bitPacking.asNanos = t .bitPacking ∧ t.times.compareInsert.asNanos = t .compareInsert ∧
      t.times.sum.asNanos = t .sum ∧ t.times.decompression.asNanos = t .decompression := by
  have hw : ∀ n, n < 2 ^ 64 * 1000000000 → (Duration.ofNanos n).WF ∧ (Duration.ofNanos n).asNanos = n := by
    intro n hn
    have h1 : n / 1000000000 < 2 ^ 64 := Nat.div_lt_of_lt_mul (by omega)
    refine ⟨⟨by simp [Duration.ofNanos]; omega, by simp [Duration.ofNanos]; omega⟩, ?_⟩
    simp only [Duration.ofNanos, Duration.asNanos]
    omega
  refine ⟨Times.parse_bytes ⟨(hw _ (h _)).1, (hw _ (h _)).1, (hw _ (h _)).1, (hw _ (h _)).1, (hw _ (h _)).1,
    (hw _ (h _)).1, (hw _ (h _)).1, (hw _ (h _)).1, (hw _ (h _)).1⟩ rest, (hw _ (h _)).2, (hw _ (h _)).2, (hw _ (h _)).2,
    (hw _ (h _)).2, (hw _ (h _)).2, (hw _ (h _)).2, (hw _ (h _)).2, (hw _ (h _)).2, (hw _ (h _)).2⟩

example : ∀ k, (encodeTimed (· + 1) .deltaSprintz [false, true] Tally.zero Tally.zero []).1 k < 2 ^ 64 * 1000000000 := by
  intro k; cases k <;> decide

/-- With run lengths, plain doubles or a library the compression itself is in none of the times. -/
theorem c79_compression_unmeasured (c : Clock) {id : SchemeId} (flats : List Bool) (t0 : Tally) (l : Log)
    (h : id ∈ [.uncompressed, .rle, .zstd, .gzip, .snappy, .ffiAlp]) (k : Kind) (h1 : k ≠ .ioRead) (h2 : k ≠ .ioWrite) :
    (encodeTimed c id flats Tally.zero t0 l).1 k = 0 := by
  obtain ⟨new, _, h3, h4⟩ := c79_encoder c id flats t0 l
  rw [h4]
  refine spent_other ?_
  rw [h3]
  have : ∀ flat, compressing (method id) flat = [] := by
    intro flat
    simp only [List.mem_cons, List.not_mem_nil, or_false] at h
    rcases h with rfl | rfl | rfl | rfl | rfl | rfl <;> rfl
  simp [this, h1, h2]

/-- Two chunks compressed by DeltaSprintz, the second of equal values; the i-th measurement takes i + 1 ns. -/
example : let r := encodeTimed (· + 1) .deltaSprintz [false, true] Tally.zero Tally.zero []
    r.2 = [(.ioRead, 1), (.quantization, 2), (.delta, 3), (.bitPacking, 4), (.ioWrite, 5), (.ioRead, 6),
      (.quantization, 7), (.delta, 8), (.ioWrite, 9), (.ioRead, 10)] ∧
    r.1 .ioRead = 17 ∧ r.1 .ioWrite = 14 ∧ r.1 .quantization = 9 ∧ r.1 .bitPacking = 4 ∧ r.1 .xor = 0 := by
  decide

/-! ## Witnesses -/

/-- The hypotheses of `c79_kinds`, `c79_sum_mislabelled`: three chunks. -/
example : ∃ d, fileDecoder (.deltaSprintz 100#64 10#64) queryData 2 = some d ∧
    d.info.header.scheme = .deltaSprintz ∧ d.info.footer.chunks = 3 ∧
    (∀ i < d.info.footer.chunks, ∀ h, d.chunkReader queryEnv i = .ok h → h.records ≠ 0) ∧
    ((queryTimed queryEnv (· + 1) d (.sum none) (joinNumbers Soft.ops.add) none none 0#64 []).map fun r =>
      (r.2.1 .ioRead, r.2.1 .compareInsert, r.2.1 .sum)) = .ok (9, 12, 0) := by
  have h : (fileDecoder (.deltaSprintz 100#64 10#64) queryData 2).map (fun d =>
      ((queryTimed queryEnv (· + 1) d (.sum none) (joinNumbers Soft.ops.add) none none 0#64 []).map fun r =>
        (r.2.1 .ioRead, r.2.1 .compareInsert, r.2.1 .sum),
        decide (d.info.header.scheme = .deltaSprintz), d.info.footer.chunks,
        (List.range 3).map fun i => (d.chunkReader queryEnv i).map Handle.records)) =
      some (.ok (9, 12, 0), true, 3, [.ok 2, .ok 2, .ok 1]) := by
    decide +kernel
  obtain ⟨d, hd, e⟩ := Option.map_eq_some_iff.1 h
  simp only [Prod.mk.injEq] at e
  obtain ⟨e4, e1, e2, e3⟩ := e
  refine ⟨d, hd, of_decide_eq_true e1, e2, ?_, e4⟩
  rw [e2]
  intro i hi x hx
  have hm := congrArg (fun xs => xs[i]?) e3
  simp only [List.getElem?_map, List.getElem?_range hi, Option.map_some, hx, Res.map_ok] at hm
  match i, hi with
  | 0, _ => simp at hm; omega
  | 1, _ => simp at hm; omega
  | 2, _ => simp at hm; omega

/-- The hypothesis of `c79_again`: the first chunk materialized twice. -/
example : (fileDecoder (.deltaSprintz 100#64 10#64) queryData 2).map (fun d =>
    (d.chunkReader queryEnv 0).bind fun h => (h.exec queryEnv (.materialize none)).map fun r =>
      (segments h.reader h.off (.materialize none), segments r.2.reader r.2.off (.materialize none))) =
    some (.ok ([.decompression, .ioWrite], [.decompression, .ioWrite])) := by
  decide +kernel

/-- `column 0 + 1` over the same file, the hypotheses of `c79_reads_unreported`: three reads of 1, 4 and 7 ns are measured,
none is reported. -/
example : (fileDecoder (.deltaSprintz 100#64 10#64) queryData 2).map (fun d =>
    (computeAllTimed queryEnv (· + 1) ⟨.sum, .binary .add (.index 0) (.literal 0x3ff0000000000000#64)⟩ [d] none
      (Tally.zero, [])).map fun r => (r.2.1 .ioRead, r.2.1 .decompression, r.2.2)) =
    some (.ok (0, 15, [(.ioRead, 1), (.decompression, 2), (.ioWrite, 3), (.ioRead, 4), (.decompression, 5), (.ioWrite, 6),
      (.ioRead, 7), (.decompression, 8), (.ioWrite, 9)])) := by
  decide +kernel

/-- `compute` on a bare column adds nothing to the timer although 45 ns were measured, `compute_multiple` adds them. -/
theorem c79_column_unreported :
    (fileDecoder (.deltaSprintz 100#64 10#64) queryData 2).map (fun d =>
      ((computeAllTimed queryEnv (· + 1) ⟨.max, .index 0⟩ [d] none (Tally.zero, [])).map fun r =>
        (r.2.1 .ioRead, r.2.1 .compareInsert, (r.2.2.map Prod.snd).sum),
      (computeMultipleTimed queryEnv (· + 1) [⟨.max, .index 0⟩] [d] none (Tally.zero, [])).map fun r =>
        (r.2.1 .ioRead, r.2.1 .compareInsert, (r.2.2.map Prod.snd).sum))) =
    some (.ok (0, 0, 21), .ok (9, 12, 45)) := by
  decide +kernel

end Ebi.Props
