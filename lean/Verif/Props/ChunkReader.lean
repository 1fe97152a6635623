import Verif.ChunkReaderLemmas
import Verif.SoftFloat

/-!
# C40: answers do not depend on earlier queries

`HistoryFree` says it for one reader: after any history of queries that succeeded, each query answers
(value, error or panic) as on the reader before the history. A query that failed leaves the cursor
somewhere the model does not follow, so such histories are not covered.

It holds for every scheme but DeltaSprintz. There it holds between in-situ queries, and again once the
chunk is materialized, but not from one to the other (witnesses at the end and in `Props/Sprintz`).
-/

namespace Ebi.Props

open Ebi AnyReader

/-- Whatever queries succeeded before, every query gives the answer it would have given first. -/
def HistoryFree (E : Env) (r : AnyReader) (off : Nat) : Prop :=
  ∀ hist r', execAll E r off hist = .ok r' →
    ∀ q, (exec E r' off q).map Prod.fst = (exec E r off q).map Prod.fst

theorem HistoryFree.of_step {E : Env} {off : Nat} (I : AnyReader → Prop) {r : AnyReader} (h0 : I r)
    (hstep : ∀ s q a s', I s → exec E s off q = .ok (a, s') → I s')
    (hans : ∀ s q, I s → (exec E s off q).map Prod.fst = (exec E r off q).map Prod.fst) :
    HistoryFree E r off := by
  intro hist r' h q
  refine hans r' q ?_
  clear hans
  induction hist generalizing r with
  | nil => cases h; exact h0
  | cons k ks ih =>
    obtain ⟨⟨a, s⟩, h1, h2⟩ := Res.bind_eq_ok h
    exact ih (hstep _ _ _ _ h0 h1) h2

/-! ## The readers without in-situ queries -/

/-- Uncompressed, RLE, the XOR family, Zstd, Gzip, Snappy, ALP: for every chunk, well formed or not. -/
theorem c40_default (E : Env) (id : SchemeId) (h1 : id ≠ .buff) (h2 : id ≠ .deltaSprintz) (n : Nat)
    (chunk : List Byte) (r : AnyReader) (hr : AnyReader.new id n chunk = .ok r) (off : Nat) :
    HistoryFree E r off := by
  have hp : Plain r := by
    cases id <;> simp only [AnyReader.new] at hr <;>
      first
      | exact absurd rfl h1
      | exact absurd rfl h2
      | (cases hr; trivial)
      | (obtain ⟨a, -, h2⟩ := Res.map_eq_ok hr; cases h2; trivial)
  cases hd : decompress E r with
  | ok p =>
    obtain ⟨vs, r1⟩ := p
    intro hist r' h q
    rw [execAll_plain hp hd] at h
    cases h
    split
    · rfl
    · rw [exec_plain (plain_decompress hp hd), exec_plain hp, defaultExec, defaultExec, decompress_idem hd, hd]
  | err =>
    intro hist r' h q
    cases hist with
    | nil => cases h; rfl
    | cons k ks => rw [execAll, exec_plain hp, defaultExec, hd] at h; cases h
  | panic =>
    intro hist r' h q
    cases hist with
    | nil => cases h; rfl
    | cons k ks => rw [execAll, exec_plain hp, defaultExec, hd] at h; cases h

/-- On a chunk that decodes, no history fails, and the answers are those of the `default_*` functions on
the decoded values. -/
theorem c40_default_answers (E : Env) (id : SchemeId) (h1 : id ≠ .buff) (h2 : id ≠ .deltaSprintz) (n : Nat)
    (chunk : List Byte) (r r1 : AnyReader) (vs : List B64) (hr : AnyReader.new id n chunk = .ok r)
    (hd : decompress E r = .ok (vs, r1)) (off : Nat) (hist : List ChunkQuery) (q : ChunkQuery) :
    ∃ r', execAll E r off hist = .ok r' ∧
      (exec E r' off q).map Prod.fst = .ok (defaultAnswer E.o off vs q) := by
  have hp : Plain r := by
    cases id <;> simp only [AnyReader.new] at hr <;>
      first
      | exact absurd rfl h1
      | exact absurd rfl h2
      | (cases hr; trivial)
      | (obtain ⟨a, -, h2⟩ := Res.map_eq_ok hr; cases h2; trivial)
  refine ⟨_, execAll_plain hp hd off hist, ?_⟩
  rw [c40_default E id h1 h2 n chunk r hr off hist _ (execAll_plain hp hd off hist) q, exec_plain hp,
    defaultExec, hd]
  rfl

/-- materialize, distance and dot product on every scheme, BUFF and DeltaSprintz included: among each
other they have no memory. -/
theorem c40_value_queries (E : Env) (id : SchemeId) (n : Nat) (chunk : List Byte) (r r1 : AnyReader)
    (vs : List B64) (hr : AnyReader.new id n chunk = .ok r) (hd : decompress E r = .ok (vs, r1)) (off : Nat)
    (hist : List ChunkQuery) (hh : ∀ k ∈ hist, k.ofValues = true) (q : ChunkQuery) (hq : q.ofValues = true) :
    ∃ r', execAll E r off hist = .ok r' ∧
      (exec E r' off q).map Prod.fst = .ok (defaultAnswer E.o off vs q) := by
  have key : ∀ (hist : List ChunkQuery) (r : AnyReader), (∀ k ∈ hist, k.ofValues = true) → Gives E r vs →
      ∃ r', execAll E r off hist = .ok r' ∧ Gives E r' vs := by
    intro hist
    induction hist with
    | nil => intro r _ hg; exact ⟨r, rfl, hg⟩
    | cons k ks ih =>
      intro r hh hg
      obtain ⟨r2, e, hg2⟩ := hg.exec off (hh k (by simp))
      obtain ⟨r3, e3, hg3⟩ := ih r2 (fun k hk => hh k (by simp [hk])) hg2
      exact ⟨r3, by rw [execAll, e]; exact e3, hg3⟩
  obtain ⟨r', e, hg⟩ := key hist r hh (Gives.new hr hd)
  obtain ⟨r2, e2, -⟩ := hg.exec off hq
  exact ⟨r', e, by rw [e2]; rfl⟩

/-! ## BUFF -/

/-- BUFF, with or without controlled precision, from any state of the cache: for every chunk. -/
theorem c40_buff (E : Env) (b : Buff.Reader) (off : Nat) : HistoryFree E (.buff b) off := by
  let I : AnyReader → Prop := fun s => s = .buff b ∨
    ∃ vs, b.decompress E.o = .ok (vs, { b with decompressed := some vs }) ∧
      s = .buff { b with decompressed := some vs }
  have hdec : ∀ s vs s', I s → (∃ t, s = .buff t ∧ t.decompress E.o = .ok (vs, s')) →
      b.decompress E.o = .ok (vs, s') ∧ I (.buff s') := by
    rintro s vs s' hs ⟨t, rfl, ht⟩
    rcases hs with hs | ⟨ws, h1, hs⟩
    · cases hs
      have := Buff.Reader.decompress_ok ht
      exact ⟨ht, Or.inr ⟨vs, by rw [← this]; exact ht, by rw [this]⟩⟩
    · cases hs
      have := Buff.Reader.decompress_idem h1
      rw [this] at ht
      cases ht
      exact ⟨h1, Or.inr ⟨vs, h1, rfl⟩⟩
  have hsome : ∀ s, I s → ∃ t, s = .buff t ∧ t.numberOfRecords = b.numberOfRecords ∧ t.bytes = b.bytes ∧
      (t.decompress E.o).map Prod.fst = (b.decompress E.o).map Prod.fst := by
    rintro s (rfl | ⟨vs, h1, rfl⟩)
    · exact ⟨b, rfl, rfl, rfl, rfl⟩
    · exact ⟨_, rfl, rfl, rfl, by rw [Buff.Reader.decompress_idem h1, h1]⟩
  refine HistoryFree.of_step I (Or.inl rfl) ?_ ?_
  · intro s q a s' hs h
    obtain ⟨t, rfl, -, -, -⟩ := hsome s hs
    simp only [AnyReader.exec] at h
    obtain ⟨⟨a1, t1⟩, h1, h2⟩ := Res.map_eq_ok h
    cases h2
    have hdef : ∀ q, defaultExec E.o (Buff.Reader.decompress E.o) t off q = .ok (a1, t1) → I (.buff t1) := by
      intro q h1
      obtain ⟨⟨vs, t2⟩, h3, h4⟩ := Res.map_eq_ok h1
      cases h4
      exact (hdec _ _ _ hs ⟨t, rfl, h3⟩).2
    cases q <;> simp only [Buff.Reader.exec] at h1
    case materialize => exact hdef _ h1
    case distanceSquared => exact hdef _ h1
    case dotProduct => exact hdef _ h1
    case filterMaterialize p bm =>
      obtain ⟨⟨vs, t2⟩, h3, h4⟩ := Res.map_eq_ok h1
      cases h4
      unfold Buff.Reader.filterMaterialize at h3
      split at h3
      · split at h3
        · rename_i h5
          cases h3
          exact (hdec _ _ _ hs ⟨t, rfl, h5⟩).2
        · cases h3
        · cases h3
      · cases h3
      · cases h3
    all_goals
      obtain ⟨x, h3, h4⟩ := Res.map_eq_ok h1
      cases h4
      exact hs
  · intro s q hs
    obtain ⟨t, rfl, hn, hb, hd⟩ := hsome s hs
    have hf : ∀ p bm, t.filter E.useSimd p bm off = b.filter E.useSimd p bm off := by
      intro p bm
      simp only [Buff.Reader.filter, Buff.Reader.restrict, hn, hb]
    have hdef : ∀ q, (defaultExec E.o (Buff.Reader.decompress E.o) t off q).map Prod.fst
        = (defaultExec E.o (Buff.Reader.decompress E.o) b off q).map Prod.fst := by
      intro q
      simp only [defaultExec, Res.map_map]
      have h1 := congrArg (Res.map fun vs => defaultAnswer E.o off vs q) hd
      rw [Res.map_map, Res.map_map] at h1
      exact h1
    simp only [AnyReader.exec, Res.map_map]
    have e : ∀ x : Res (Answer × Buff.Reader),
        x.map (Prod.fst ∘ fun p => (p.1, AnyReader.buff p.2)) = x.map Prod.fst := by
      intro x; cases x <;> rfl
    rw [e, e]
    cases q <;> simp only [Buff.Reader.exec]
    case materialize => exact hdef _
    case distanceSquared => exact hdef _
    case dotProduct => exact hdef _
    case filter p bm => rw [hf]; simp only [Res.map_map]; rfl
    case filterMaterialize p bm =>
      simp only [Buff.Reader.filterMaterialize, hf]
      cases b.filter E.useSimd p bm off with
      | err => rfl
      | panic => rfl
      | ok sel =>
        simp only
        cases h1 : t.decompress E.o <;> cases h2 : b.decompress E.o <;> rw [h1, h2] at hd <;>
          simp_all
    all_goals
      simp only [Buff.Reader.sum, Buff.Reader.min, Buff.Reader.max, Buff.Reader.restrict, hn, hb,
        Res.map_map]
      rfl

/-! ## DeltaSprintz -/

/-- filter, sum, min, max: DeltaSprintz answers them on the stored bits. -/
def inSitu : ChunkQuery → Bool
  | .filter _ _ | .sum _ | .min _ | .max _ => true
  | _ => false

/-- Queries that start by rewinding the bit reader. -/
def rewinds : ChunkQuery → Bool
  | .filter _ _ | .sum _ | .min _ | .max _ | .materialize _ => true
  | _ => false

/-- `s` differs from `r` by the position in the chunk only, and has not decompressed. -/
structure Moved (r s : Sprintz.Reader) : Prop where
  buf : s.br.buf = r.br.buf
  n : s.numberOfRecords = r.numberOfRecords
  cold : s.decompressed = none

theorem Moved.reset {r s : Sprintz.Reader} (h : Moved r s) : s.br.reset = r.br.reset := by
  rw [BitReader.reset_eq, BitReader.reset_eq, h.buf]

/-- `r'` continues `r` in the same buffer. -/
def Onward (r r' : BitReader) : Prop := r'.WF ∧ r'.buf = r.buf

theorem onward_readBits {r : BitReader} (h : r.WF) {n v : Nat} {r' : BitReader}
    (e : r.readBits n = some (v, r')) : Onward r r' := by
  rw [BitReader.readBits_eq h] at e
  split at e
  · cases e
  · rename_i hl
    cases e
    exact ⟨BitReader.wf_adv h (by omega), rfl⟩

theorem onward_readByte {r : BitReader} (h : r.WF) {v : Byte} {r' : BitReader}
    (e : r.readByte = some (v, r')) : Onward r r' := by
  unfold BitReader.readByte at e
  rw [BitReader.readByteRaw_eq h] at e
  split at e
  · rename_i hl
    split at hl
    · cases hl
    · cases hl
      cases e
      exact ⟨BitReader.wf_adv h (by omega), rfl⟩
  · cases e

theorem Onward.trans {a b c : BitReader} (h1 : Onward a b) (h2 : Onward b c) : Onward a c :=
  ⟨h2.1, h2.2.trans h1.2⟩

theorem onward_readHeader {r : BitReader} (h : r.WF) {x : BitVec 64 × Nat × Nat} {r' : BitReader}
    (e : Sprintz.readHeader r = some (x, r')) : Onward r r' := by
  unfold Sprintz.readHeader at e
  simp only [Option.bind_eq_bind, Option.bind_eq_some_iff] at e
  obtain ⟨⟨a, r1⟩, h1, ⟨b, r2⟩, h2, ⟨c, r3⟩, h3, h4⟩ := e
  cases h4
  have o1 := onward_readBits h h1
  have o2 := onward_readBits o1.1 h2
  exact (o1.trans o2).trans (onward_readByte o2.1 h3)

theorem onward_readDelta {r : BitReader} (h : r.WF) {nb : Nat} {p q : BitVec 64} {r' : BitReader}
    (e : Sprintz.readDelta nb p r = some (q, r')) : Onward r r' := by
  unfold Sprintz.readDelta at e
  simp only [Option.bind_eq_bind, Option.bind_eq_some_iff] at e
  obtain ⟨⟨a, r1⟩, h1, h2⟩ := e
  cases h2
  exact onward_readBits h h1

theorem onward_filterLoop {p : Predicate (BitVec 64)} {off nb : Nat} (k i : Nat) (prev : BitVec 64)
    {r : BitReader} (h : r.WF) (bm : Bitmap) {res : Bitmap} {r' : BitReader}
    (e : Sprintz.filterLoop p off nb k i prev r bm = some (res, r')) : Onward r r' := by
  induction k generalizing i prev r bm with
  | zero => cases e; exact ⟨h, rfl⟩
  | succ k ih =>
    simp only [Sprintz.filterLoop, Option.bind_eq_bind, Option.bind_eq_some_iff] at e
    obtain ⟨⟨q, r1⟩, h1, h2⟩ := e
    have o1 := onward_readDelta h h1
    exact o1.trans (ih _ _ o1.1 _ h2)

theorem onward_foldLoop {A : Type} {f : A → BitVec 64 → A} {nb : Nat} (k : Nat) (prev : BitVec 64)
    {r : BitReader} (h : r.WF) (acc : A) {res : A} {r' : BitReader}
    (e : Sprintz.foldLoop f nb k prev r acc = some (res, r')) : Onward r r' := by
  induction k generalizing prev r acc with
  | zero => cases e; exact ⟨h, rfl⟩
  | succ k ih =>
    simp only [Sprintz.foldLoop, Option.bind_eq_bind, Option.bind_eq_some_iff] at e
    obtain ⟨⟨q, r1⟩, h1, h2⟩ := e
    have o1 := onward_readDelta h h1
    exact o1.trans (ih _ o1.1 _ h2)

theorem onward_scanLoop {A : Type} {f : A → BitVec 64 → A} {off nb : Nat} (k i : Nat) (prev : BitVec 64)
    {r : BitReader} (h : r.WF) (acc : A) (next : Nat) (more : List Nat) {res : A} {r' : BitReader}
    (e : Sprintz.scanLoop f off nb k i prev r acc next more = some (res, r')) : Onward r r' := by
  induction k generalizing i prev r acc next more with
  | zero => cases e; exact ⟨h, rfl⟩
  | succ k ih =>
    simp only [Sprintz.scanLoop, Option.bind_eq_bind, Option.bind_eq_some_iff] at e
    obtain ⟨⟨q, r1⟩, h1, h2⟩ := e
    have o1 := onward_readDelta h h1
    simp only at h2
    split at h2
    · exact o1.trans (ih _ _ o1.1 _ _ _ h2)
    · cases more with
      | nil => cases h2; exact o1
      | cons m more => exact o1.trans (ih _ _ o1.1 _ _ _ h2)

theorem moved_aggregate {o : FloatOps} {f : BitVec 64 → BitVec 64 → BitVec 64} {init : BitVec 64}
    {r s s' : Sprintz.Reader} (hm : Moved r s) {bm : Option Bitmap} {off : Nat} {v : B64}
    (e : s.aggregate o f init bm off = .ok (v, s')) : Moved r s' := by
  unfold Sprintz.Reader.aggregate at e
  have hw := BitReader.wf_reset s.br
  split at e
  · cases e
  · rename_i hh
    have o1 := onward_readHeader hw hh
    have fin : ∀ br, Onward s.br.reset br → Moved r { s with br := br } :=
      fun br hb => ⟨hb.2.trans hm.buf, hm.n, hm.cold⟩
    split at e
    · split at e
      · cases e
      · rename_i hl
        cases e
        exact fin _ (o1.trans (onward_foldLoop _ _ o1.1 _ hl))
    · split at e
      · cases e
        exact fin _ o1
      · split at e
        · cases e
        · rename_i hl
          cases e
          exact fin _ (o1.trans (onward_scanLoop _ _ _ o1.1 _ _ _ hl))

theorem moved_filter {o : FloatOps} {r s s' : Sprintz.Reader} (hm : Moved r s) {p : Predicate B64}
    {bm : Option Bitmap} {off : Nat} {res : Bitmap} (e : s.filter o p bm off = .ok (res, s')) :
    Moved r s' := by
  have hw := BitReader.wf_reset s.br
  have fin : ∀ br, Onward s.br.reset br → Moved r ⟨br, s.numberOfRecords, none⟩ :=
    fun br hb => ⟨hb.2.trans hm.buf, hm.n, rfl⟩
  simp only [Sprintz.Reader.filter, hm.cold] at e
  split at e
  · cases e
  · rename_i hh
    have o1 := onward_readHeader hw hh
    split at e
    · cases e
      exact fin _ o1
    · split at e
      · cases e
      · rename_i hl
        cases e
        exact fin _ (o1.trans (onward_filterLoop _ _ _ o1.1 _ hl))

/-- An in-situ query moves the reader at most. -/
theorem moved_exec {o : FloatOps} {r s s' : Sprintz.Reader} (hm : Moved r s) {q : ChunkQuery}
    (hq : inSitu q = true) {off : Nat} {a : Answer} (e : s.exec o off q = .ok (a, s')) : Moved r s' := by
  cases q <;> simp only [inSitu, Bool.false_eq_true] at hq <;> simp only [Sprintz.Reader.exec] at e <;>
    obtain ⟨⟨x, t⟩, h1, h2⟩ := Res.map_eq_ok e <;> cases h2
  · exact moved_filter hm h1
  all_goals
    simp only [Sprintz.Reader.sum, Sprintz.Reader.min, Sprintz.Reader.max, hm.cold] at h1
    split at h1
    · cases h1; exact hm
    · exact moved_aggregate hm h1

theorem moved_answer {o : FloatOps} {r s : Sprintz.Reader} (hr : r.decompressed = none) (hm : Moved r s)
    {q : ChunkQuery} (hq : rewinds q = true) (off : Nat) :
    (s.exec o off q).map Prod.fst = (r.exec o off q).map Prod.fst := by
  have hagg : ∀ f init bm, (s.aggregate o f init bm off).map Prod.fst
      = (r.aggregate o f init bm off).map Prod.fst := by
    intro f init bm
    simp only [Sprintz.Reader.aggregate, hm.reset, hm.n]
    cases Sprintz.readHeader r.br.reset with
    | none => rfl
    | some x =>
      obtain ⟨⟨q0, scale, nb⟩, br⟩ := x
      simp only
      cases bm with
      | none =>
        simp only
        cases Sprintz.foldLoop f nb r.numberOfRecords q0 br init <;> rfl
      | some b =>
        simp only
        cases Sprintz.inChunk off r.numberOfRecords b with
        | nil => rfl
        | cons n more =>
          simp only
          cases Sprintz.scanLoop f off nb r.numberOfRecords 0 q0 br init n more <;> rfl
  have hcomp : ∀ {X : Type} (f : X → Answer) (x y : Res (X × Sprintz.Reader)),
      x.map Prod.fst = y.map Prod.fst →
      (x.map fun p => (f p.1, p.2)).map Prod.fst = (y.map fun p => (f p.1, p.2)).map Prod.fst := by
    intro X f x y h
    cases x <;> cases y <;> simp_all
  cases q <;> simp only [rewinds, Bool.false_eq_true] at hq <;> simp only [Sprintz.Reader.exec] <;>
    apply hcomp
  · have e : ({ s with br := s.br.reset } : Sprintz.Reader) = { r with br := r.br.reset } := by
      rw [hm.reset]
      have h1 := hm.n
      have h2 := hm.cold
      cases s; cases r
      simp_all
    simp only [Sprintz.Reader.materialize, e]
  · simp only [Sprintz.Reader.filter, hm.reset, hm.n, hm.cold, hr]
  all_goals
    simp only [Sprintz.Reader.sum, Sprintz.Reader.min, Sprintz.Reader.max, hm.cold, hr]
    split
    · rfl
    · exact hagg _ _ _

/-- DeltaSprintz, any chunk, before materialization: after any history of in-situ queries, those queries
and `materialize` answer as if asked first. Missing: `filter_materialize`, `distance_squared` and
`dot_product` do not rewind (`c40_sprintz_filter_history`, `c40_sprintz_garbage`), and materializing
changes later answers (`c40_sprintz_min_history`, `c40_sprintz_predicate_rounded`). -/
theorem c40_sprintz_partial (E : Env) (n : Nat) (chunk : List Byte) (off : Nat) (hist : List ChunkQuery)
    (hh : ∀ k ∈ hist, inSitu k = true) (r' : AnyReader)
    (h : execAll E (.deltaSprintz (Sprintz.Reader.new n chunk)) off hist = .ok r') (q : ChunkQuery)
    (hq : rewinds q = true) :
    (exec E r' off q).map Prod.fst
      = (exec E (.deltaSprintz (Sprintz.Reader.new n chunk)) off q).map Prod.fst := by
  have key : ∀ (hist : List ChunkQuery) (s : Sprintz.Reader), (∀ k ∈ hist, inSitu k = true) →
      Moved (Sprintz.Reader.new n chunk) s → execAll E (.deltaSprintz s) off hist = .ok r' →
      ∃ t, r' = .deltaSprintz t ∧ Moved (Sprintz.Reader.new n chunk) t := by
    intro hist
    induction hist with
    | nil => intro s _ hm h; cases h; exact ⟨s, rfl, hm⟩
    | cons k ks ih =>
      intro s hh hm h
      obtain ⟨⟨a, s1⟩, h1, h2⟩ := Res.bind_eq_ok h
      obtain ⟨⟨a2, t⟩, h3, h4⟩ := Res.map_eq_ok h1
      cases h4
      exact ih t (fun k hk => hh k (by simp [hk])) (moved_exec hm (hh k (by simp)) h3) h2
  obtain ⟨t, rfl, hm⟩ := key hist _ hh ⟨rfl, rfl, rfl⟩ h
  have e : ∀ x : Res (Answer × Sprintz.Reader),
      (x.map fun p => (p.1, AnyReader.deltaSprintz p.2)).map Prod.fst = x.map Prod.fst := by
    intro x; cases x <;> rfl
  simp only [AnyReader.exec, e]
  exact moved_answer rfl hm hq off

/-- Once materialized, DeltaSprintz answers everything from the decompressed values: no history matters
any more. -/
theorem c40_sprintz_cached (E : Env) (s : Sprintz.Reader) (vs : List B64) (hs : s.decompressed = some vs)
    (off : Nat) : HistoryFree E (.deltaSprintz s) off := by
  have hexec : ∀ q (t : Sprintz.Reader), t.decompressed = some vs → ∃ t', t.exec E.o off q
      = .ok (match q with
        | .min bm => .number (defaultMax E.o bm off vs)
        | q => defaultAnswer E.o off vs q, t') ∧ t'.decompressed = some vs := by
    intro q t ht
    cases q <;> simp only [Sprintz.Reader.exec, defaultExec, Sprintz.Reader.materialize,
      Sprintz.Reader.decompress, Sprintz.Reader.filter,
      Sprintz.Reader.sum, Sprintz.Reader.min, Sprintz.Reader.max, ht, Res.map_ok,
      Res.ok.injEq, Prod.mk.injEq, defaultAnswer, true_and]
    all_goals first | exact ⟨_, rfl, ht⟩ | exact ⟨_, rfl, rfl⟩
  refine HistoryFree.of_step (fun x => ∃ t, x = .deltaSprintz t ∧ t.decompressed = some vs)
    ⟨s, rfl, hs⟩ ?_ ?_
  · rintro x q a x' ⟨t, rfl, ht⟩ h
    obtain ⟨t', e, ht'⟩ := hexec q t ht
    simp only [AnyReader.exec, e, Res.map_ok] at h
    cases h
    exact ⟨t', rfl, ht'⟩
  · rintro x q ⟨t, rfl, ht⟩
    obtain ⟨t', e, -⟩ := hexec q t ht
    obtain ⟨t2, e2, -⟩ := hexec q s hs
    simp only [AnyReader.exec, e, e2, Res.map_ok]

/-! ## Instances and witnesses -/

/-- An environment for the examples: soft floats, libraries that store. -/
def sampleEnv : Env where
  o := Soft.ops
  log10 := fun _ => 0#64
  log10Scale := fun _ => 0
  useSimd := fun _ _ => false
  zstd := ⟨some, some⟩
  gzip := ⟨some, some⟩
  snappy := ⟨some, some⟩
  alp := ⟨ofF64s, fun _ bs => toF64s bs⟩

/-- Three queries on an uncompressed chunk of two records, the last two after the first has cached. -/
example : (AnyReader.new .uncompressed 2 (ofF64s [0x3ff8000000000000#64, 0x4002000000000000#64])).bind
    (fun r => (execAll sampleEnv r 0 [.max none, .filter (.eq 0#64) (some [1])]).bind
      (fun r => (exec sampleEnv r 0 (.min (some [1, 7]))).map Prod.fst))
    = .ok (.number 0x4002000000000000#64) := by
  decide +kernel

/-- BUFF: `materialize` fills the cache, `min` answers from the columns, and both agree with the first
time. -/
example : (Buff.encode [48#64, -72#64, 319#64] 5).bind
    (fun bytes => (execAll sampleEnv (.buff (Buff.Reader.new 3 bytes)) 0
        [.min none, .materialize none, .filter (.ne 0#64) none]).bind
      (fun r => (exec sampleEnv r 0 (.min none)).map Prod.fst))
    = .ok (.number 0xc002000000000000#64) := by
  decide +kernel

/-- DeltaSprintz: `sum`, `filter`, then `min`. -/
example : (((Sprintz.Comp.new 100).compress Soft.ops [0x3ff8000000000000#64, 0x4002000000000000#64]).bind
    fun c => (execAll sampleEnv (.deltaSprintz (Sprintz.Reader.new 2 c.prepare.buffers)) 0
        [.sum none, .filter (.ne 0#64) (some [1])]).bind
      (fun r => (exec sampleEnv r 0 (.min none)).map Prod.fst)) = .ok (.number 0x3ff8000000000000#64) := by
  decide +kernel

/-- A silent wrong answer: on the chunk 0, 2^58, 2^58, 2^58 (scale 1), the sum of record 1 stops reading
after it; `filter_materialize` (values other than 0) then takes the rest of the deltas for a header and
writes four NaNs instead of three times 2^58. -/
theorem c40_sprintz_garbage :
    (((Sprintz.Comp.new 1).compress Soft.ops
        [0#64, 0x4390000000000000#64, 0x4390000000000000#64, 0x4390000000000000#64]).bind
      fun c => (exec sampleEnv (.deltaSprintz (Sprintz.Reader.new 4 c.prepare.buffers)) 0
        (.filterMaterialize (.ne 0#64) none)).map Prod.fst)
      = .ok (.values [0x4390000000000000#64, 0x4390000000000000#64, 0x4390000000000000#64]) ∧
    (((Sprintz.Comp.new 1).compress Soft.ops
        [0#64, 0x4390000000000000#64, 0x4390000000000000#64, 0x4390000000000000#64]).bind
      fun c => (execAll sampleEnv (.deltaSprintz (Sprintz.Reader.new 4 c.prepare.buffers)) 0
        [.sum (some [1])]).bind fun r =>
          (exec sampleEnv r 0 (.filterMaterialize (.ne 0#64) none)).map Prod.fst)
      = .ok (.values [nanBits, nanBits, nanBits, nanBits]) := by
  decide +kernel

/-- `with_precision` on a BUFF reader that has decompressed keeps the cached values when the precision is
lowered: reading with precision 0 gives other values on a fresh reader. (Setting the precision is not a
query, so this does not contradict C40.) -/
theorem c40_buff_precision_cache :
    ((Buff.encode [48#64, -72#64, 319#64] 5).bind fun bytes =>
      (exec sampleEnv (withPrecision 0 (.buff (Buff.Reader.new 3 bytes))) 0 (.materialize none)).map Prod.fst)
      = .ok (.values [0x3ff8000000000000#64, 0xc002000000000000#64, 0x4023e00000000000#64]) ∧
    ((Buff.encode [48#64, -72#64, 319#64] 5).bind fun bytes =>
      (execAll sampleEnv (withPrecision 1 (.buff (Buff.Reader.new 3 bytes))) 0 [.materialize none]).bind
        fun r => (exec sampleEnv (withPrecision 0 r) 0 (.materialize none)).map Prod.fst)
      = .ok (.values [0x3ff8000000000000#64, 0xc002000000000000#64, 0x4023f00000000000#64]) := by
  decide +kernel

end Ebi.Props
