import Verif.Props.InSitu

/-!
# C61: a chunk that is not in the file

What happens when the directory points beyond the end of the file: the chunk reader cannot be made.
-/

namespace Ebi.Props

open Ebi

/-- The readers whose constructors unwrap the result of reading their chunk. -/
def unwrapsRead (id : SchemeId) : Bool := id == .buff || id == .chimp128

/-- The failure: a panic for a size no vector can have and for the readers that unwrap, an error otherwise. -/
def shortFailure (A : Type) (id : SchemeId) (size : Nat) : Res A :=
  if 2 ^ 63 ≤ size || unwrapsRead id then .panic else .err

theorem scheme_shortPanics (E : Env) (cfg : Config) : (E.scheme cfg).shortPanics = unwrapsRead cfg.scheme := by
  cases cfg <;> rfl

theorem loadChunk_beyond (E : Env) (cfg : Config) {file : List Byte} {m : Metadata} {i size : Nat} {f : ChunkFooter}
    (hf : m.chunkFooter i = .ok f) (hs : m.chunkSize i = .ok size) (hpos : 0 < size) (h : file.length < f.physical + size) :
    loadChunk (E.scheme cfg) file m i = shortFailure _ cfg.scheme size := by
  unfold loadChunk
  have hn : ∃ n, m.numberOfRecords i = .ok n := by
    unfold Metadata.numberOfRecords
    rw [hf]; exact ⟨_, rfl⟩
  obtain ⟨n, hn⟩ := hn
  rw [hf, hn, hs]
  have ht : takeExact size (file.drop f.physical) = none := by
    unfold takeExact
    rw [if_neg (by rw [List.length_drop]; omega)]
  show (if 2 ^ 63 ≤ size then Res.panic else _) = _
  rw [ht, scheme_shortPanics]
  unfold shortFailure
  by_cases h1 : 2 ^ 63 ≤ size
  · simp [h1]
  · cases unwrapsRead cfg.scheme <;> simp [h1]

theorem chunkLoop_alone {A : Type} {m : Metadata} {i : Nat} {body : Nat → A → Res A} {e : Res A} {f : ChunkFooter}
    (hf : m.chunkFooter i = .ok f) (he : e = .err ∨ e = .panic) (hb : ∀ a, body i a = e) (is : List Nat) (h : i ∈ is) (a : A) :
    chunkLoop m none (some i) body is a = e := by
  induction is with
  | nil => cases h
  | cons j is ih =>
    rw [chunkLoop]
    by_cases hj : i = j
    · subst hj
      rw [if_pos (by simp)]
      have hr : m.recordRangeU32 i = .ok (f.logical % 2 ^ 32, m.nextLogical i % 2 ^ 32) := by
        unfold Metadata.recordRangeU32; rw [hf]; rfl
      rw [hr]
      show (body i a >>= fun a => chunkLoop m none (some i) body is a) = e
      rw [hb]
      rcases he with rfl | rfl <;> rfl
    · rw [if_neg (by simpa using hj)]
      exact ih (by
        rcases List.mem_cons.1 h with h | h
        · exact absurd h hj
        · exact h)

/-- Every query for a chunk that lies beyond the end of the file fails, whatever the file: with a panic for BUFF and
Chimp128, with an error for every other scheme. -/
theorem c61_beyond_end (E : Env) (d : Decoder) {i size : Nat} {f : ChunkFooter} (hf : d.info.chunkFooter i = .ok f)
    (hs : d.info.chunkSize i = .ok size) (hpos : 0 < size) (h : d.file.length < f.physical + size)
    (hi : i < d.info.footer.chunks) (p : Predicate B64) :
    d.chunkReader E i = shortFailure _ d.info.footer.config.scheme size ∧
    d.materialize E none (some i) = shortFailure _ d.info.footer.config.scheme size ∧
    d.filter E p none (some i) = shortFailure _ d.info.footer.config.scheme size ∧
    d.filterMaterialize E p none (some i) = shortFailure _ d.info.footer.config.scheme size ∧
    d.sum E none (some i) = shortFailure _ d.info.footer.config.scheme size ∧
    d.min E none (some i) = shortFailure _ d.info.footer.config.scheme size ∧
    d.max E none (some i) = shortFailure _ d.info.footer.config.scheme size := by
  have hl := loadChunk_beyond E d.info.footer.config hf hs hpos h
  have hm : i ∈ List.range d.info.footer.chunks := List.mem_range.2 hi
  have two : ∀ A : Type, shortFailure A d.info.footer.config.scheme size = .err ∨
      shortFailure A d.info.footer.config.scheme size = .panic := by
    intro A; unfold shortFailure; split <;> simp
  have bind : ∀ {A B : Type} (g : A → Res B), (shortFailure A d.info.footer.config.scheme size >>= g) =
      shortFailure B d.info.footer.config.scheme size := by
    intro A B g
    unfold shortFailure
    split <;> rfl
  refine ⟨?_, ?_, ?_, ?_, ?_, ?_, ?_⟩
  · unfold Decoder.chunkReader
    rw [hl]; exact bind _
  all_goals
    first
      | unfold Decoder.materialize Query.materialize
      | unfold Decoder.filter Query.filter
      | unfold Decoder.filterMaterialize Query.filterMaterialize
      | unfold Decoder.sum Query.sum
      | unfold Decoder.min Query.min
      | unfold Decoder.max Query.max
    refine chunkLoop_alone hf (two _) (fun a => ?_) _ hm _
    rw [hl]; exact bind _

/-- 1, 2, 3. -/
def threeRecords : List B64 := [0x3ff0000000000000#64, 0x4000000000000000#64, 0x4008000000000000#64]

/-- The hypotheses, for a Gorilla and a Chimp128 file whose last bytes were lost after they had been opened. -/
example : (fileDecoder (.gorilla 100#64) threeRecords 3).map (fun d =>
      (d.info.chunkFooter 0).bind fun f => (d.info.chunkSize 0).bind fun size => .ok
        (decide (0 < size ∧ (d.file.take 40).length < f.physical + size ∧ 0 < d.info.footer.chunks),
          Decoder.sum queryEnv { d with file := d.file.take 40 } none (some 0))) = some (.ok (true, .err)) ∧
    (fileDecoder (.chimp128 100#64) threeRecords 3).map (fun d =>
      (d.info.chunkFooter 0).bind fun f => (d.info.chunkSize 0).bind fun size => .ok
        (decide (0 < size ∧ (d.file.take 40).length < f.physical + size ∧ 0 < d.info.footer.chunks),
          Decoder.sum queryEnv { d with file := d.file.take 40 } none (some 0))) = some (.ok (true, .panic)) := by
  decide +kernel

end Ebi.Props
