import Verif.EncoderLemmas
import Verif.Decoder

/-!
# Lemmas about the decoder on encoded files
-/

namespace Ebi

/-- Sizes the on-disk format can express. -/
structure Fits (cfg : Config) (opt : ChunkOption) (version : Nat × Nat × Nat) (times : Times)
    (elapsed : Duration) (cs : List (List B64 × List Byte)) : Prop where
  option : opt.WF
  v0 : version.1 < 2 ^ 16
  v1 : version.2.1 < 2 ^ 16
  v2 : version.2.2 < 2 ^ 16
  times : times.WF
  elapsed : elapsed.WF
  size : headerSize + (blobs cs).length < 2 ^ 63
  records : recordCount cs < 2 ^ 63
  chunks : cs.length < 2 ^ 59

/-- The chunk directory as stored. -/
def stored (cs : List (List B64 × List Byte)) : List ChunkFooter := (directory headerSize 0 cs).dropLast

/-- The metadata of an encoded file. -/
def metadataOf (cfg : Config) (opt : ChunkOption) (version : Nat × Nat × Nat) (times : Times)
    (elapsed : Duration) (cs : List (List B64 × List Byte)) : Metadata where
  header := ⟨magicNumber, cfg.scheme, opt, headerSize + (blobs cs).length, version⟩
  footer := ⟨recordCount cs, cs.length, stored cs, cfg, elapsed.asNanos, times, 0⟩

theorem directory_dropLast_cons (p l : Nat) (c : List B64) (b : List Byte)
    (cs : List (List B64 × List Byte)) :
    (directory p l ((c, b) :: cs)).dropLast
      = ⟨p, l⟩ :: (directory (p + b.length) (l + c.length) cs).dropLast := by
  rw [directory, List.dropLast_cons_of_ne_nil (directory_ne_nil _ _ _)]

theorem directory_dropLast_length (p l : Nat) (cs : List (List B64 × List Byte)) :
    (directory p l cs).dropLast.length = cs.length := by
  simp [directory_length]

theorem stored_length (cs : List (List B64 × List Byte)) : (stored cs).length = cs.length :=
  directory_dropLast_length _ _ _

theorem stored_eq_nil {cs : List (List B64 × List Byte)} : stored cs = [] ↔ cs = [] := by
  rw [← List.length_eq_zero_iff, stored_length, List.length_eq_zero_iff]

theorem directory_bounds {p l : Nat} {cs : List (List B64 × List Byte)} {f : ChunkFooter}
    (h : f ∈ directory p l cs) :
    p ≤ f.physical ∧ f.physical ≤ p + (blobs cs).length ∧ l ≤ f.logical ∧
      f.logical ≤ l + recordCount cs := by
  induction cs generalizing p l with
  | nil => simp [directory] at h; subst h; simp
  | cons q cs ih =>
    obtain ⟨c, b⟩ := q
    simp only [directory, List.mem_cons] at h
    simp only [blobs, recordCount, List.flatMap_cons, List.length_append] at ih ⊢
    rcases h with rfl | h
    · simp
    · have := ih h; omega

theorem blobs_append (xs ys : List (List B64 × List Byte)) : blobs (xs ++ ys) = blobs xs ++ blobs ys := by
  simp [blobs]

theorem recordCount_append (xs ys : List (List B64 × List Byte)) :
    recordCount (xs ++ ys) = recordCount xs + recordCount ys := by
  simp [recordCount]

theorem blobs_cons (c : List B64) (b : List Byte) (cs : List (List B64 × List Byte)) :
    blobs ((c, b) :: cs) = b ++ blobs cs := by simp [blobs]

theorem recordCount_cons (c : List B64) (b : List Byte) (cs : List (List B64 × List Byte)) :
    recordCount ((c, b) :: cs) = c.length + recordCount cs := by simp [recordCount]

/-- The footer of the chunk following the prefix `pre`. -/
theorem directory_getElem (p l : Nat) (pre suf : List (List B64 × List Byte)) :
    (directory p l (pre ++ suf))[pre.length]? = some ⟨p + (blobs pre).length, l + recordCount pre⟩ := by
  induction pre generalizing p l with
  | nil =>
    cases suf with
    | nil => simp [directory, blobs, recordCount]
    | cons q suf => obtain ⟨c, b⟩ := q; simp [directory, blobs, recordCount]
  | cons q pre ih =>
    obtain ⟨c, b⟩ := q
    simp only [List.cons_append, directory, List.length_cons, List.getElem?_cons_succ, ih, blobs_cons,
      recordCount_cons, List.length_append]
    congr 2 <;> omega

theorem stored_getElem (pre : List (List B64 × List Byte)) (c : List B64) (b : List Byte)
    (suf : List (List B64 × List Byte)) :
    (stored (pre ++ (c, b) :: suf))[pre.length]?
      = some ⟨headerSize + (blobs pre).length, recordCount pre⟩ := by
  rw [stored, List.dropLast_eq_take, List.getElem?_take, directory_length, if_pos (by simp),
    directory_getElem]
  simp

theorem stored_getElem_end (cs : List (List B64 × List Byte)) : (stored cs)[cs.length]? = none := by
  rw [List.getElem?_eq_none_iff, stored_length]
  exact Nat.le_refl _

theorem stored_wf {cs : List (List B64 × List Byte)} (h1 : headerSize + (blobs cs).length < 2 ^ 63)
    (h2 : recordCount cs < 2 ^ 63) : ∀ f ∈ stored cs, f.WF := by
  intro f hf
  have := directory_bounds ((List.dropLast_sublist _).subset hf)
  unfold ChunkFooter.WF
  omega

/-- Opening an encoded file with at least one chunk. -/
theorem openFile_layout {cfg : Config} {opt : ChunkOption} {version : Nat × Nat × Nat} {times : Times}
    {elapsed : Duration} {cs : List (List B64 × List Byte)}
    (h : Fits cfg opt version times elapsed cs) (hne : cs ≠ []) :
    openFile (layout cfg opt version times elapsed cs)
      = .ok (metadataOf cfg opt version times elapsed cs) := by
  have hsz := h.size
  have hw : (Header.mk magicNumber cfg.scheme opt (headerSize + (blobs cs).length) version).WF :=
    ⟨rfl, h.option, by simp only; omega, h.v0, h.v1, h.v2⟩
  have hl := Header.bytes_length _ hw.magic
  unfold openFile layout
  rw [readExact_append _ _ hl]
  simp only [Res.bind_ok, Header.parse_bytes _ hw]
  rw [← List.append_assoc, List.drop_append_of_le_length (by simp [hl]),
    List.drop_of_length_le (by simp [hl]), List.nil_append]
  have hs : stored cs ≠ [] := fun e => hne (stored_eq_nil.1 e)
  have hr := h.records
  have he : elapsed.asNanos < 2 ^ 128 := by
    have := Duration.asNanos_lt h.elapsed; simpa using this
  have hf := fetchFooter_bytes (elapsed := elapsed.asNanos) (records := recordCount cs)
    (cfs := stored cs) cfg he (by omega) (stored_wf hsz hr)
    (by rw [stored_length]; exact h.chunks) h.times hs []
  rw [List.append_nil] at hf
  rw [show (directory headerSize 0 cs).dropLast = stored cs from rfl, hf]
  simp [metadataOf, stored_length]

/-- Opening an encoded file without chunks panics. -/
theorem openFile_layout_nil {cfg : Config} {opt : ChunkOption} {version : Nat × Nat × Nat} {times : Times}
    {elapsed : Duration} (h : Fits cfg opt version times elapsed []) :
    openFile (layout cfg opt version times elapsed []) = .panic := by
  have hsz := h.size
  have hw : (Header.mk magicNumber cfg.scheme opt (headerSize + (blobs []).length) version).WF :=
    ⟨rfl, h.option, by simp only; omega, h.v0, h.v1, h.v2⟩
  have hl := Header.bytes_length _ hw.magic
  unfold openFile layout
  rw [readExact_append _ _ hl]
  simp only [Res.bind_ok, Header.parse_bytes _ hw]
  rw [← List.append_assoc, List.drop_append_of_le_length (by simp [hl]),
    List.drop_of_length_le (by simp [hl]), List.nil_append]
  unfold footerBytesWith
  simp only [directory, List.dropLast_singleton, List.length_nil]
  rw [fetchFooter_no_chunks]
  rfl

section Handles

variable {cfg : Config} {opt : ChunkOption} {version : Nat × Nat × Nat} {times : Times}
  {elapsed : Duration} {pre suf : List (List B64 × List Byte)} {c : List B64} {b : List Byte}

theorem chunkFooter_layout :
    (metadataOf cfg opt version times elapsed (pre ++ (c, b) :: suf)).chunkFooter pre.length
      = .ok ⟨headerSize + (blobs pre).length, recordCount pre⟩ := by
  simp [Metadata.chunkFooter, metadataOf, stored_getElem]

theorem next_layout :
    (metadataOf cfg opt version times elapsed (pre ++ (c, b) :: suf)).nextPhysical pre.length
        = headerSize + (blobs pre).length + b.length ∧
    (metadataOf cfg opt version times elapsed (pre ++ (c, b) :: suf)).nextLogical pre.length
        = recordCount pre + c.length := by
  have e : pre ++ (c, b) :: suf = (pre ++ [(c, b)]) ++ suf := by simp
  cases suf with
  | nil =>
    have h1 : (stored (pre ++ [(c, b)]))[pre.length + 1]? = none := by
      have := stored_getElem_end (pre ++ [(c, b)])
      simpa using this
    simp only [Metadata.nextPhysical, Metadata.nextLogical, metadataOf, h1, blobs_append,
      recordCount_append, blobs_cons, recordCount_cons, List.length_append]
    simp [blobs, recordCount]; omega
  | cons q suf =>
    obtain ⟨c', b'⟩ := q
    have h1 := stored_getElem (pre ++ [(c, b)]) c' b' suf
    rw [List.length_append, List.length_singleton, ← e] at h1
    simp only [Metadata.nextPhysical, Metadata.nextLogical, metadataOf, h1, blobs_append,
      recordCount_append, blobs_cons, recordCount_cons, List.length_append]
    simp [blobs, recordCount]; omega

theorem sizes_layout (h : Fits cfg opt version times elapsed (pre ++ (c, b) :: suf)) :
    (metadataOf cfg opt version times elapsed (pre ++ (c, b) :: suf)).chunkSize pre.length
        = .ok b.length ∧
    (metadataOf cfg opt version times elapsed (pre ++ (c, b) :: suf)).numberOfRecords pre.length
        = .ok c.length := by
  obtain ⟨n1, n2⟩ := next_layout (cfg := cfg) (opt := opt) (version := version) (times := times)
    (elapsed := elapsed) (pre := pre) (suf := suf) (c := c) (b := b)
  have h1 := h.size
  have h2 := h.records
  rw [blobs_append, blobs_cons, List.length_append, List.length_append] at h1
  rw [recordCount_append, recordCount_cons] at h2
  simp only [Metadata.chunkSize, Metadata.numberOfRecords, chunkFooter_layout, Res.bind_ok, n1, n2,
    Res.ok.injEq]
  omega

theorem recordRange_layout (h : recordCount (pre ++ (c, b) :: suf) < 2 ^ 32) :
    (metadataOf cfg opt version times elapsed (pre ++ (c, b) :: suf)).recordRangeU32 pre.length
        = .ok (recordCount pre, recordCount pre + c.length) := by
  obtain ⟨-, n2⟩ := next_layout (cfg := cfg) (opt := opt) (version := version) (times := times)
    (elapsed := elapsed) (pre := pre) (suf := suf) (c := c) (b := b)
  rw [recordCount_append, recordCount_cons] at h
  simp only [Metadata.recordRangeU32, chunkFooter_layout, Res.bind_ok, n2, Res.ok.injEq, Prod.mk.injEq]
  omega

/-- The bytes of a chunk are where its handle says. -/
theorem loadChunk_layout (S : Scheme) (h : Fits cfg opt version times elapsed (pre ++ (c, b) :: suf)) :
    loadChunk S (layout cfg opt version times elapsed (pre ++ (c, b) :: suf))
      (metadataOf cfg opt version times elapsed (pre ++ (c, b) :: suf)) pre.length
      = .ok (c.length, b, recordCount pre) := by
  obtain ⟨h1, h2⟩ := sizes_layout h
  have hb : b.length < 2 ^ 63 := by
    have := h.size
    rw [blobs_append, blobs_cons, List.length_append, List.length_append] at this
    omega
  have hl : (Header.mk magicNumber cfg.scheme opt
      (headerSize + (blobs (pre ++ (c, b) :: suf)).length) version).bytes.length = headerSize :=
    Header.bytes_length _ rfl
  have hd : (layout cfg opt version times elapsed (pre ++ (c, b) :: suf)).drop
      (headerSize + (blobs pre).length)
      = b ++ (blobs suf ++ footerBytesWith elapsed.asNanos (recordCount (pre ++ (c, b) :: suf))
        (directory headerSize 0 (pre ++ (c, b) :: suf)).dropLast cfg times) := by
    unfold layout
    rw [blobs_append, blobs_cons] at hl ⊢
    simp only [List.append_assoc]
    rw [← List.append_assoc, List.drop_append_of_le_length (by rw [List.length_append, hl]; exact Nat.le_refl _),
      List.drop_of_length_le (by rw [List.length_append, hl]; exact Nat.le_refl _), List.nil_append]
  simp only [loadChunk, chunkFooter_layout, Res.bind_ok, h1, h2]
  rw [if_neg (by omega), hd, takeExact_append]

end Handles

/-! ## The query loop as a walk over the chunks -/

/-- Walk over the chunks with their index and offset, skipping like the code. -/
def walk {A : Type} (bm : Option Bitmap) (cid : Option Nat) (g : Nat → List B64 × List Byte → A → Res A) :
    Nat → Nat → List (List B64 × List Byte) → A → Res A
  | _, _, [], a => .ok a
  | i, off, c :: cs, a =>
    if cid.all (· == i) then
      if rangeDisjoint bm (off, off + c.1.length) then walk bm cid g (i + 1) (off + c.1.length) cs a
      else do
        let a ← g off c a
        walk bm cid g (i + 1) (off + c.1.length) cs a
    else walk bm cid g (i + 1) (off + c.1.length) cs a

theorem chunkLoop_walk {cfg : Config} {opt : ChunkOption} {version : Nat × Nat × Nat} {times : Times}
    {elapsed : Duration} {cs : List (List B64 × List Byte)} {A : Type} (bm : Option Bitmap)
    (hr : bm = none ∨ recordCount cs < 2 ^ 32) (cid : Option Nat) (body : Nat → A → Res A)
    (g : Nat → List B64 × List Byte → A → Res A)
    (hbody : ∀ pre q suf a, cs = pre ++ q :: suf → body pre.length a = g (recordCount pre) q a)
    (a : A) :
    chunkLoop (metadataOf cfg opt version times elapsed cs) bm cid body (List.range cs.length) a
      = walk bm cid g 0 0 cs a := by
  suffices H : ∀ (suf pre : List (List B64 × List Byte)) (a : A), cs = pre ++ suf →
      chunkLoop (metadataOf cfg opt version times elapsed cs) bm cid body
        (List.range' pre.length suf.length) a = walk bm cid g pre.length (recordCount pre) suf a by
    have := H cs [] a rfl
    rwa [List.length_nil, ← List.range_eq_range'] at this
  intro suf
  induction suf with
  | nil => intro pre a _; rfl
  | cons q suf ih =>
    intro pre a e
    obtain ⟨c, b⟩ := q
    have hrr : ∃ range, (metadataOf cfg opt version times elapsed cs).recordRangeU32 pre.length
        = .ok range ∧ rangeDisjoint bm range
          = rangeDisjoint bm (recordCount pre, recordCount pre + c.length) := by
      rcases hr with rfl | hr
      · refine ⟨(recordCount pre % 2 ^ 32, (metadataOf cfg opt version times elapsed
          cs).nextLogical pre.length % 2 ^ 32), ?_, rfl⟩
        rw [e]
        simp only [Metadata.recordRangeU32, chunkFooter_layout, Res.bind_ok]
      · exact ⟨_, by rw [e]; exact recordRange_layout (by rw [← e]; exact hr), rfl⟩
    obtain ⟨range, hrr, hrd⟩ := hrr
    have ih' := fun a => ih (pre ++ [(c, b)]) a (by simp [e])
    simp only [List.length_append, List.length_singleton, recordCount_append] at ih'
    have hrc : recordCount [(c, b)] = c.length := by simp [recordCount]
    simp only [hrc] at ih'
    rw [List.length_cons, List.range'_succ, chunkLoop, walk]
    simp only [ih', hrr, Res.bind_ok, hrd]
    rw [hbody pre (c, b) suf a e]

end Ebi
