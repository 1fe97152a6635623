import Verif.Props.Trailing

/-!
# C56: damage stays in its chunk

A query depends on the header, the footer and the bytes of the chunks it needs. So if the bytes of one chunk
are damaged, the queries that do not need this chunk answer as before. The format has no checksum, so the others
may return wrong values without an error.
-/

namespace Ebi.Props

/-- The files agree in the bytes from `lo` up to `hi`. -/
def SameBytes (file file' : List Byte) (lo hi : Nat) : Prop :=
  ∀ j, lo ≤ j → j < hi → file[j]? = file'[j]?

/-- Chunk `i` is asked for: by its number, and by a member of the bitmask among its records. -/
structure Needed (m : Metadata) (bm : Option Bitmap) (cid : Option Nat) (i : Nat) : Prop where
  announced : i < m.footer.chunks
  number : ∀ k, cid = some k → k = i
  record : ∀ b, bm = some b → ∀ lo hi, m.recordRangeU32 i = .ok (lo, hi) → ∃ x ∈ b, lo ≤ x ∧ x < hi

/-- The files agree in the bytes of chunk `i`. -/
def SameChunk (file file' : List Byte) (m : Metadata) (i : Nat) : Prop :=
  ∀ f n, m.footer.chunkFooters[i]? = some f → m.chunkSize i = .ok n →
    SameBytes file file' f.physical (f.physical + n)

theorem take_same {file file' : List Byte} {p n : Nat} (h : SameBytes file file' p (p + n)) :
    (file.drop p).take n = (file'.drop p).take n := by
  apply List.ext_getElem?
  intro j
  rw [List.getElem?_take, List.getElem?_take]
  by_cases hj : j < n
  · rw [if_pos hj, if_pos hj, List.getElem?_drop, List.getElem?_drop]
    exact h (p + j) (by omega) (by omega)
  · rw [if_neg hj, if_neg hj]

theorem takeExact_same {xs ys : List Byte} {n : Nat} (h : xs.take n = ys.take n) :
    (takeExact n xs).map Prod.fst = (takeExact n ys).map Prod.fst := by
  have hl : (xs.take n).length = (ys.take n).length := by rw [h]
  rw [List.length_take, List.length_take] at hl
  unfold takeExact
  by_cases h1 : n ≤ xs.length
  · rw [if_pos h1, if_pos (by omega)]
    simp [h]
  · rw [if_neg h1, if_neg (by omega)]

theorem loadChunk_same {S : Scheme} {file file' : List Byte} {m : Metadata} {i : Nat}
    (h : SameChunk file file' m i) : loadChunk S file m i = loadChunk S file' m i := by
  unfold loadChunk
  cases hf : m.footer.chunkFooters[i]? with
  | none =>
    have e : m.chunkFooter i = .panic := by simp [Metadata.chunkFooter, hf]
    rw [e]
    rfl
  | some f =>
    have e : m.chunkFooter i = .ok f := by simp [Metadata.chunkFooter, hf]
    cases hn : m.chunkSize i with
    | err => rfl
    | panic => rfl
    | ok n =>
      have h1 := takeExact_same (take_same (h f n hf hn))
      rw [e]
      simp only [Res.bind_ok]
      congr 1
      funext r
      split
      · rfl
      · cases h2 : takeExact n (file.drop f.physical) <;> cases h3 : takeExact n (file'.drop f.physical) <;>
          rw [h2, h3] at h1 <;> simp_all

theorem rangeDisjoint_false {bm : Option Bitmap} {lo hi : Nat} (h : rangeDisjoint bm (lo, hi) = false) :
    ∀ b, bm = some b → ∃ x ∈ b, lo ≤ x ∧ x < hi := by
  rintro b rfl
  simpa [rangeDisjoint] using h

/-- The loop runs its body for needed chunks only. -/
theorem chunkLoop_same {A : Type} {m : Metadata} {bm : Option Bitmap} {cid : Option Nat} {f g : Nat → A → Res A}
    (is : List Nat) (h1 : ∀ i ∈ is, i < m.footer.chunks) (h2 : ∀ i, Needed m bm cid i → ∀ a, f i a = g i a) (a : A) :
    chunkLoop m bm cid f is a = chunkLoop m bm cid g is a := by
  induction is generalizing a with
  | nil => rfl
  | cons i is ih =>
    have hi := ih fun j hj => h1 j (List.mem_cons_of_mem _ hj)
    unfold chunkLoop
    split
    · rename_i hc
      cases hr : m.recordRangeU32 i with
      | err => rfl
      | panic => rfl
      | ok range =>
        obtain ⟨lo, hi'⟩ := range
        simp only [Res.bind_ok]
        cases hd : rangeDisjoint bm (lo, hi') with
        | true => simp only [if_true]; exact hi a
        | false =>
          have hN : Needed m bm cid i := by
            refine ⟨h1 i (List.mem_cons_self ..), ?_, ?_⟩
            · rintro k rfl
              simpa using hc
            · intro b hb lo2 hi2 h
              rw [hr] at h
              cases h
              exact rangeDisjoint_false hd b hb
          simp only [Bool.false_eq_true, if_false, h2 i hN a, hi]
    · exact hi a

/-- The decoder of another file with the same metadata. -/
def onFile (d : Decoder) (file : List Byte) : Decoder := { d with file := file }

/-- A query reads no chunk that it does not need: on two files that agree in the needed chunks it has the same
result, success or failure. The metadata need not come from a complete file. -/
theorem c56_local {E : Env} {d : Decoder} {file' : List Byte} {bm : Option Bitmap} {cid : Option Nat}
    (h : ∀ i, Needed d.info bm cid i → SameChunk d.file file' d.info i) (p : Predicate B64) :
    (onFile d file').materialize E bm cid = d.materialize E bm cid ∧
    (onFile d file').filter E p bm cid = d.filter E p bm cid ∧
    (onFile d file').filterMaterialize E p bm cid = d.filterMaterialize E p bm cid ∧
    (onFile d file').sum E bm cid = d.sum E bm cid ∧
    (onFile d file').min E bm cid = d.min E bm cid ∧
    (onFile d file').max E bm cid = d.max E bm cid := by
  have e : ∀ i, Needed d.info bm cid i → loadChunk (E.scheme d.info.footer.config) file' d.info i
      = loadChunk (E.scheme d.info.footer.config) d.file d.info i := fun i hi => (loadChunk_same (h i hi)).symm
  have hm : ∀ i ∈ Query.handles d.info, i < d.info.footer.chunks := fun i hi => List.mem_range.1 hi
  refine ⟨?_, ?_, ?_, ?_, ?_, ?_⟩
  · exact chunkLoop_same _ hm (fun i hi a => by
      show (loadChunk (E.scheme d.info.footer.config) file' d.info i).bind _ = _
      rw [e i hi]; rfl) _
  · exact chunkLoop_same _ hm (fun i hi a => by
      show (loadChunk (E.scheme d.info.footer.config) file' d.info i).bind _ = _
      rw [e i hi]; rfl) _
  · exact chunkLoop_same _ hm (fun i hi a => by
      show (loadChunk (E.scheme d.info.footer.config) file' d.info i).bind _ = _
      rw [e i hi]; rfl) _
  · exact chunkLoop_same _ hm (fun i hi a => by
      show (loadChunk (E.scheme d.info.footer.config) file' d.info i).bind _ = _
      rw [e i hi]; rfl) _
  · exact chunkLoop_same _ hm (fun i hi a => by
      show (loadChunk (E.scheme d.info.footer.config) file' d.info i).bind _ = _
      rw [e i hi]; rfl) _
  · exact chunkLoop_same _ hm (fun i hi a => by
      show (loadChunk (E.scheme d.info.footer.config) file' d.info i).bind _ = _
      rw [e i hi]; rfl) _

/-- Opening reads the header and what begins at the footer offset. -/
theorem c56_open {file file' : List Byte} {m : Metadata} (h : openFile file = .ok m)
    (h1 : SameBytes file file' 0 headerSize) (h2 : ∀ j, m.header.footerOffset ≤ j → file[j]? = file'[j]?) :
    openFile file' = .ok m := by
  unfold openFile at h ⊢
  obtain ⟨⟨hb, r⟩, e1, h⟩ := Res.bind_eq_ok h
  obtain ⟨hd, e2, h⟩ := Res.bind_eq_ok h
  obtain ⟨f, e3, h⟩ := Res.bind_eq_ok h
  cases h
  have ht : file.take headerSize = file'.take headerSize := by
    have := take_same (p := 0) (n := headerSize) (by simpa using h1)
    simpa using this
  have e4 : file'.drop hd.footerOffset = file.drop hd.footerOffset := by
    apply List.ext_getElem?
    intro j
    rw [List.getElem?_drop, List.getElem?_drop]
    exact (h2 (hd.footerOffset + j) (Nat.le_add_right ..)).symm
  have e5 : ∃ r', readExact headerSize file' = .ok (hb, r') := by
    have h3 := takeExact_same ht
    unfold readExact at e1 ⊢
    cases h4 : takeExact headerSize file with
    | none => rw [h4] at e1; cases e1
    | some q =>
      rw [h4] at e1 h3
      cases e1
      cases h5 : takeExact headerSize file' with
      | none => rw [h5] at h3; cases h3
      | some q' =>
        rw [h5] at h3
        obtain ⟨x, y⟩ := q'
        simp only [Option.map_some, Option.some.injEq] at h3
        exact ⟨y, by rw [h3]⟩
  obtain ⟨r', e5⟩ := e5
  rw [e5]
  simp only [Res.bind_ok, e2, e4, e3]

/-! ## Complete files -/

/-- The bytes and the records of chunk `k` of a written file. -/
theorem written_chunk {E : Env} {a : Args} {file : List Byte} {m : Metadata} (h : Written E a file m) :
    ∃ cs : List Chunk, file = a.layout cs ∧ m = a.metadata cs ∧ Fits a.cfg a.opt a.version a.times a.elapsed cs ∧
      recordCount cs = a.records.length := by
  obtain ⟨cs, h1, h2, h3, -, -, -, h4⟩ := h.encoded.chunks h.law h.valid h.accepts h.len
  exact ⟨cs, h1, h2, h3, h4⟩

/-- Only bytes of chunk `k` differ. -/
def DamagedIn (file file' : List Byte) (m : Metadata) (k : Nat) : Prop :=
  ∃ f n, m.footer.chunkFooters[k]? = some f ∧ m.chunkSize k = .ok n ∧
    ∀ j, j < f.physical ∨ f.physical + n ≤ j → file[j]? = file'[j]?

/-- A query with this bitmask and chunk id can do without chunk `k`. -/
def Avoids (m : Metadata) (bm : Option Bitmap) (cid : Option Nat) (k : Nat) : Prop :=
  (∃ c, cid = some c ∧ c ≠ k) ∨
    ∃ b f n, bm = some b ∧ m.footer.chunkFooters[k]? = some f ∧ m.numberOfRecords k = .ok n ∧
      ∀ x ∈ b, x < f.logical ∨ f.logical + n ≤ x

theorem damaged_chunks {a : Args} {cs : List Chunk} {file' : List Byte} {k : Nat}
    (hf : Fits a.cfg a.opt a.version a.times a.elapsed cs)
    (hd : DamagedIn (a.layout cs) file' (a.metadata cs) k) :
    ∃ pre c b suf, cs = pre ++ (c, b) :: suf ∧ k = pre.length ∧
      ∀ j, j < headerSize + (blobs pre).length ∨ headerSize + (blobs pre).length + b.length ≤ j →
        (a.layout cs)[j]? = file'[j]? := by
  obtain ⟨f, n, h1, h2, h3⟩ := hd
  have hk : k < cs.length := by
    have := (List.getElem?_eq_some_iff.1 h1).1
    have hl : (a.metadata cs).footer.chunkFooters.length = cs.length := directory_dropLast_length _ _ _
    omega
  obtain ⟨pre, c, suf, rfl, rfl⟩ : ∃ pre c suf, cs = pre ++ c :: suf ∧ k = pre.length :=
    ⟨cs.take k, cs[k], cs.drop (k + 1), by simp, by simp; omega⟩
  obtain ⟨c, b⟩ := c
  refine ⟨pre, c, b, suf, rfl, rfl, ?_⟩
  have e1 := stored_getElem pre c b suf
  have e2 := (sizes_layout hf).1
  have e3 : f = ⟨headerSize + (blobs pre).length, recordCount pre⟩ := by
    rw [show (a.metadata (pre ++ (c, b) :: suf)).footer.chunkFooters = stored (pre ++ (c, b) :: suf) from rfl,
      e1] at h1
    exact (Option.some.inj h1).symm
  have e4 : n = b.length := by
    rw [show (a.metadata (pre ++ (c, b) :: suf)).chunkSize pre.length = .ok b.length from e2] at h2
    exact (Res.ok.inj h2).symm
  subst e3 e4
  exact h3

/-- Another chunk lies elsewhere. -/
theorem other_chunk {a : Args} {pre suf : List Chunk} {c : List B64} {b : List Byte} {file' : List Byte} {i : Nat}
    (hf : Fits a.cfg a.opt a.version a.times a.elapsed (pre ++ (c, b) :: suf))
    (hd : ∀ j, j < headerSize + (blobs pre).length ∨ headerSize + (blobs pre).length + b.length ≤ j →
        (a.layout (pre ++ (c, b) :: suf))[j]? = file'[j]?) (hi : i ≠ pre.length) :
    SameChunk (a.layout (pre ++ (c, b) :: suf)) file' (a.metadata (pre ++ (c, b) :: suf)) i := by
  intro f n h1 h2 j hj1 hj2
  apply hd
  generalize hcs : pre ++ (c, b) :: suf = cs at *
  have hk : i < cs.length := by
    have := (List.getElem?_eq_some_iff.1 h1).1
    have hl : (a.metadata cs).footer.chunkFooters.length = cs.length := directory_dropLast_length _ _ _
    omega
  obtain ⟨pre', c', suf', hcs', rfl⟩ : ∃ pre' c' suf', cs = pre' ++ c' :: suf' ∧ i = pre'.length :=
    ⟨cs.take i, cs[i], cs.drop (i + 1), by simp, by simp; omega⟩
  obtain ⟨c', b'⟩ := c'
  have e1 := stored_getElem pre' c' b' suf'
  have e2 := (sizes_layout (hcs' ▸ hf)).1
  have e3 : f = ⟨headerSize + (blobs pre').length, recordCount pre'⟩ := by
    rw [hcs', show (a.metadata (pre' ++ (c', b') :: suf')).footer.chunkFooters
      = stored (pre' ++ (c', b') :: suf') from rfl, e1] at h1
    exact (Option.some.inj h1).symm
  have e4 : n = b'.length := by
    rw [hcs', show (a.metadata (pre' ++ (c', b') :: suf')).chunkSize pre'.length = .ok b'.length from e2] at h2
    exact (Res.ok.inj h2).symm
  subst e3 e4
  simp only at hj1 hj2
  rw [← hcs] at hcs'
  rcases Nat.lt_or_gt_of_ne hi with hlt | hgt
  · left
    have h3 : pre = pre' ++ (c', b') :: (suf'.take (pre.length - pre'.length - 1)) := by
      have := congrArg (List.take pre.length) hcs'
      rw [List.take_append_of_le_length (Nat.le_refl _), List.take_length, List.take_append,
        List.take_of_length_le (by omega)] at this
      obtain ⟨d, hd⟩ : ∃ d, pre.length - pre'.length = d + 1 := ⟨pre.length - pre'.length - 1, by omega⟩
      rw [hd, List.take_succ_cons] at this
      rw [hd, Nat.add_sub_cancel]
      exact this
    have h4 : (blobs pre).length = (blobs pre').length + (b'.length +
        (blobs (suf'.take (pre.length - pre'.length - 1))).length) := by
      conv => lhs; rw [h3]
      rw [blobs_append, blobs_cons, List.length_append, List.length_append]
    omega
  · right
    have h3 : pre' = pre ++ (c, b) :: (suf.take (pre'.length - pre.length - 1)) := by
      have := congrArg (List.take pre'.length) hcs'.symm
      rw [List.take_append_of_le_length (Nat.le_refl _), List.take_length, List.take_append,
        List.take_of_length_le (by omega)] at this
      obtain ⟨d, hd⟩ : ∃ d, pre'.length - pre.length = d + 1 := ⟨pre'.length - pre.length - 1, by omega⟩
      rw [hd, List.take_succ_cons] at this
      rw [hd, Nat.add_sub_cancel]
      exact this
    have h4 : (blobs pre').length = (blobs pre).length + (b.length +
        (blobs (suf.take (pre'.length - pre.length - 1))).length) := by
      conv => lhs; rw [h3]
      rw [blobs_append, blobs_cons, List.length_append, List.length_append]
    omega

/-- Damage in one chunk of a complete file: it opens as before, and every query that can do without the chunk has
the result it has on the intact file. -/
theorem c56_isolated {E : Env} {a : Args} {file : List Byte} {m : Metadata} (h : Written E a file m)
    (hr : a.records.length < 2 ^ 32) {file' : List Byte} {k : Nat} (hd : DamagedIn file file' m k)
    (prec : Option Nat) {bm : Option Bitmap} {cid : Option Nat} (hv : Avoids m bm cid k) (p : Predicate B64) :
    openFile file' = .ok m ∧
    Decoder.materialize E ⟨file', m, prec⟩ bm cid = Decoder.materialize E ⟨file, m, prec⟩ bm cid ∧
    Decoder.filter E ⟨file', m, prec⟩ p bm cid = Decoder.filter E ⟨file, m, prec⟩ p bm cid ∧
    Decoder.filterMaterialize E ⟨file', m, prec⟩ p bm cid = Decoder.filterMaterialize E ⟨file, m, prec⟩ p bm cid ∧
    Decoder.sum E ⟨file', m, prec⟩ bm cid = Decoder.sum E ⟨file, m, prec⟩ bm cid ∧
    Decoder.min E ⟨file', m, prec⟩ bm cid = Decoder.min E ⟨file, m, prec⟩ bm cid ∧
    Decoder.max E ⟨file', m, prec⟩ bm cid = Decoder.max E ⟨file, m, prec⟩ bm cid := by
  have ho := h.encoded.opened
  obtain ⟨cs, rfl, rfl, hf, hc⟩ := written_chunk h
  obtain ⟨pre, c, b, suf, rfl, rfl, hs⟩ := damaged_chunks hf hd
  refine ⟨c56_open ho ?_ ?_, ?_⟩
  · intro j _ hj
    exact hs j (Or.inl (by omega))
  · intro j hj
    apply hs j
    right
    have : (a.metadata (pre ++ (c, b) :: suf)).header.footerOffset
      = headerSize + (blobs (pre ++ (c, b) :: suf)).length := rfl
    rw [this, blobs_append, blobs_cons, List.length_append, List.length_append] at hj
    omega
  · apply c56_local (d := ⟨a.layout (pre ++ (c, b) :: suf), a.metadata (pre ++ (c, b) :: suf), prec⟩)
    intro i hi
    apply other_chunk hf hs
    rintro rfl
    rcases hv with ⟨c', h1, h2⟩ | ⟨bm', f, n, h1, h2, h3, h4⟩
    · exact h2 (hi.number c' h1)
    · have hr1 : (a.metadata (pre ++ (c, b) :: suf)).recordRangeU32 pre.length
          = .ok (recordCount pre, recordCount pre + c.length) := recordRange_layout (by omega)
      obtain ⟨x, hx, hx1, hx2⟩ := hi.record bm' h1 _ _ hr1
      have e1 := stored_getElem pre c b suf
      have e3 : f = ⟨headerSize + (blobs pre).length, recordCount pre⟩ := by
        rw [show (a.metadata (pre ++ (c, b) :: suf)).footer.chunkFooters = stored (pre ++ (c, b) :: suf) from rfl,
          e1] at h2
        exact (Option.some.inj h2).symm
      have e4 : n = c.length := by
        rw [show (a.metadata (pre ++ (c, b) :: suf)).numberOfRecords pre.length = .ok c.length from
          (sizes_layout hf).2] at h3
        exact (Res.ok.inj h3).symm
      subst e3 e4
      have := h4 x hx
      simp only at this
      omega

/-- In particular the records outside the damaged chunk can be recovered, with every scheme. -/
theorem c56_recover {E : Env} {a : Args} {file : List Byte} {m : Metadata} (h : Written E a file m)
    (hr : a.records.length < 2 ^ 32) {file' : List Byte} {k : Nat} (hd : DamagedIn file file' m k)
    (prec : Option Nat) (hp : prec = none ∨ a.cfg.scheme ≠ .buff) {b : Bitmap} (hv : Avoids m (some b) none k) :
    Decoder.materialize E ⟨file', m, prec⟩ (some b) none
      = .ok (pick (some b) (a.records.map (readBack E a.cfg))) := by
  rw [(c56_isolated h hr hd prec hv (.ne 0#64)).2.1]
  exact c30_every_scheme h prec hp (some b) (Or.inr hr)

/-! ## No checksum -/

theorem directory_congr {cs cs' : List Chunk}
    (h : cs.map (fun p => (p.1.length, p.2.length)) = cs'.map (fun p => (p.1.length, p.2.length))) (p l : Nat) :
    directory p l cs = directory p l cs' := by
  induction cs generalizing cs' p l with
  | nil =>
    cases cs' with
    | nil => rfl
    | cons c cs' => simp at h
  | cons c cs ih =>
    cases cs' with
    | nil => simp at h
    | cons c' cs' =>
      obtain ⟨c, b⟩ := c
      obtain ⟨c', b'⟩ := c'
      simp only [List.map_cons, List.cons.injEq, Prod.mk.injEq] at h
      obtain ⟨⟨h1, h2⟩, h3⟩ := h
      simp only [directory, ih h3, h1, h2]

theorem counts_congr {cs cs' : List Chunk}
    (h : cs.map (fun p => (p.1.length, p.2.length)) = cs'.map (fun p => (p.1.length, p.2.length))) :
    cs.length = cs'.length ∧ recordCount cs = recordCount cs' ∧ (blobs cs).length = (blobs cs').length := by
  induction cs generalizing cs' with
  | nil =>
    cases cs' with
    | nil => exact ⟨rfl, rfl, rfl⟩
    | cons c cs' => simp at h
  | cons c cs ih =>
    cases cs' with
    | nil => simp at h
    | cons c' cs' =>
      obtain ⟨c, b⟩ := c
      obtain ⟨c', b'⟩ := c'
      simp only [List.map_cons, List.cons.injEq, Prod.mk.injEq] at h
      obtain ⟨⟨h1, h2⟩, h3⟩ := h
      obtain ⟨h4, h5, h6⟩ := ih h3
      refine ⟨by simp [h4], by rw [recordCount_cons, recordCount_cons, h1, h5], ?_⟩
      rw [blobs_cons, blobs_cons, List.length_append, List.length_append, h2, h6]

/-- Any bytes as long as the chunks of plain doubles are chunks of plain doubles. -/
theorem rechunk (cs : List Chunk) (h : ∀ p ∈ cs, p.2.length = 8 * p.1.length) (P : List Byte)
    (hP : P.length = (blobs cs).length) :
    ∃ cs' : List Chunk, blobs cs' = P ∧ (∀ p ∈ cs', p.2 = ofF64s p.1) ∧
      cs.map (fun p => (p.1.length, p.2.length)) = cs'.map (fun p => (p.1.length, p.2.length)) := by
  induction cs generalizing P with
  | nil =>
    have : P = [] := List.length_eq_zero_iff.1 (by simpa [blobs] using hP)
    exact ⟨[], by rw [this]; rfl, by simp, rfl⟩
  | cons c cs ih =>
    obtain ⟨c, b⟩ := c
    have hb : b.length = 8 * c.length := h (c, b) (List.mem_cons_self ..)
    rw [blobs_cons, List.length_append] at hP
    obtain ⟨cs', h1, h2, h3⟩ := ih (fun p hp => h p (List.mem_cons_of_mem _ hp)) (P.drop b.length)
      (by rw [List.length_drop]; omega)
    have hl : (P.take b.length).length = 8 * c.length := by rw [List.length_take]; omega
    have hv : ofF64s (toF64s (P.take b.length)) = P.take b.length := by
      rw [ofF64s_toF64s_take, hl, Nat.mul_div_cancel_left _ (by omega), List.take_of_length_le (by omega)]
    have hv2 : (toF64s (P.take b.length)).length = c.length := by
      rw [toF64s_length, hl, Nat.mul_div_cancel_left _ (by omega)]
    refine ⟨(toF64s (P.take b.length), P.take b.length) :: cs', ?_, ?_, ?_⟩
    · rw [blobs_cons, h1, List.take_append_drop]
    · intro p hp
      rcases List.mem_cons.1 hp with rfl | hp
      · exact hv.symm
      · exact h2 p hp
    · rw [List.map_cons, List.map_cons, ← h3]
      show (c.length, b.length) :: _ = ((toF64s (P.take b.length)).length, (P.take b.length).length) :: _
      rw [hv2, hl, hb]

theorem ofF64s_flatMap (cs : List Chunk) (h : ∀ p ∈ cs, p.2 = ofF64s p.1) :
    ofF64s (cs.flatMap Prod.fst) = blobs cs := by
  induction cs with
  | nil => rfl
  | cons c cs ih =>
    obtain ⟨c, b⟩ := c
    rw [List.flatMap_cons, ofF64s_append, ih fun p hp => h p (List.mem_cons_of_mem _ hp), blobs_cons,
      show b = ofF64s c from h (c, b) (List.mem_cons_self ..)]

theorem uncompressed_produces {vs : List B64} {bs : List Byte} (h : Uncompressed.scheme.Produces vs bs) :
    bs = ofF64s vs := by
  obtain ⟨c, c1, c2, -, h1, h2, h3⟩ := h
  cases h1
  cases h2
  rw [h3]
  simp [Uncompressed.scheme, Uncompressed.Comp.compress, Uncompressed.Comp.prepare, Uncompressed.Comp.buffers,
    Uncompressed.Comp.reset]

/-- With the Uncompressed scheme no damage to the chunks is noticed: a file that differs from a complete one in
the chunk bytes only opens and is read without an error, whatever these bytes are. -/
theorem c56_undetected {E : Env} {a : Args} {file : List Byte} {m : Metadata} (h : Written E a file m)
    {w : BitVec 64} (hc : a.cfg = .uncompressed w) {file' : List Byte} (hl : file'.length = file.length)
    (hs : ∀ j, j < headerSize ∨ m.header.footerOffset ≤ j → file[j]? = file'[j]?) :
    openFile file' = .ok m ∧
      Decoder.materialize E ⟨file', m, none⟩ none none
        = .ok (toF64s ((file'.drop headerSize).take (m.header.footerOffset - headerSize))) := by
  refine ⟨c56_open h.encoded.opened (fun j _ hj => hs j (Or.inl hj)) (fun j hj => hs j (Or.inr hj)), ?_⟩
  obtain ⟨cs, rfl, rfl, hf, -, h3, -, -⟩ := h.encoded.chunks h.law h.valid h.accepts h.len
  have hb : ∀ p ∈ cs, p.2 = ofF64s p.1 := by
    intro p hp
    obtain ⟨-, h4⟩ := h3 p hp
    rw [hc] at h4
    exact uncompressed_produces h4
  have ho : (a.metadata cs).header.footerOffset = headerSize + (blobs cs).length := rfl
  rw [ho] at hs ⊢
  rw [Nat.add_sub_cancel_left]
  have hlen := a.layout_length cs
  generalize hP : (file'.drop headerSize).take (blobs cs).length = P
  have hPl : P.length = (blobs cs).length := by
    rw [← hP, List.length_take, List.length_drop, hl, hlen]
    omega
  obtain ⟨cs', e1, e2, e3⟩ := rechunk cs (fun p hp => by rw [hb p hp, ofF64s_length]) P hPl
  obtain ⟨g1, g2, g3⟩ := counts_congr e3
  have hm : a.metadata cs = a.metadata cs' := by
    unfold Args.metadata metadataOf stored
    rw [g1, g2, g3, directory_congr e3]
  have hfile : file' = a.layout cs' := by
    have t1 : file'.take headerSize = (a.layout cs).take headerSize := by
      have := take_same (file := file') (file' := a.layout cs) (p := 0) (n := headerSize)
        (fun j _ hj => (hs j (Or.inl (by omega))).symm)
      simpa using this
    have t2 : file'.drop (headerSize + (blobs cs).length) = (a.layout cs).drop (headerSize + (blobs cs).length) := by
      apply List.ext_getElem?
      intro j
      rw [List.getElem?_drop, List.getElem?_drop]
      exact (hs _ (Or.inr (Nat.le_add_right ..))).symm
    have t3 : file' = file'.take headerSize ++ (P ++ file'.drop (headerSize + (blobs cs).length)) := by
      rw [← hP, ← List.drop_drop, List.take_append_drop, List.take_append_drop]
    rw [t3, t1, t2, ← e1]
    have hh : (Header.mk magicNumber a.cfg.scheme a.opt (headerSize + (blobs cs).length) a.version).bytes.length
        = headerSize := Header.bytes_length _ rfl
    unfold Args.layout layout
    rw [List.take_left' hh, ← List.drop_drop, List.drop_left' hh, List.drop_left' rfl, g2, g3,
      directory_congr e3]
  have hf' : Fits a.cfg a.opt a.version a.times a.elapsed cs' :=
    ⟨hf.option, hf.v0, hf.v1, hf.v2, hf.times, hf.elapsed, by rw [← g3]; exact hf.size,
      by rw [← g2]; exact hf.records, by rw [← g1]; exact hf.chunks⟩
  rw [hfile, hm]
  show Query.materialize (E.scheme a.cfg) (AnyReader.ops E a.cfg.scheme none) _ _ none none = _
  rw [materialize_layout (a := a) hf' (E.scheme a.cfg) (view := id) none (Or.inl rfl) ?_, List.map_id,
    defaultMaterialize_none, ← e1, ← ofF64s_flatMap cs' e2, toF64s_ofF64s]
  intro p hmem off
  have hdec : (E.scheme a.cfg).decode p.1.length p.2 = .ok (p.1.map id) := by
    rw [hc, e2 p hmem, List.map_id]
    show (Uncompressed.Reader.new p.1.length (ofF64s p.1)).decompress.map Prod.fst = _
    rw [Uncompressed.decompress_new]
    rfl
  obtain ⟨hd, h6, h7⟩ := freshHandle_holds E a.cfg none (Or.inl rfl) hdec (by simp) off
  obtain ⟨hd', h8, -⟩ := h7.exec (q := .materialize none) rfl
  simp only [AnyReader.ops, h6, Res.bind_ok, Handle.values_of_exec h8, Res.map_ok]

/-- Six records in two chunks; a byte of the first chunk is changed. The second chunk is read as before through a
bitmask or by its number, and reading everything gives a wrong first value. -/
example : ∃ d, plainDecoder knnData 4 = some d ∧ Written sampleEnv (plainArgs knnData 4) d.file d.info ∧
    (plainArgs knnData 4).records.length < 2 ^ 32 ∧ DamagedIn d.file (d.file.set 37 0x41#8) d.info 0 ∧
    Avoids d.info (some [4, 5]) none 0 ∧ Avoids d.info none (some 1) 0 ∧
    Decoder.materialize sampleEnv (onFile d (d.file.set 37 0x41#8)) (some [4, 5]) none
      = .ok [0x4022000000000000#64, 0x4022000000000000#64] ∧
    Decoder.materialize sampleEnv (onFile d (d.file.set 37 0x41#8)) (some [0]) none
      = .ok [0x4114000000000000#64] := by
  have h : (plainDecoder knnData 4).map (fun d => (decide (d.file.length < 900),
      d.info.footer.chunkFooters[0]?.map (fun f => (f.physical, f.logical)))) = some (true, some (30, 0)) := by
    decide +kernel
  have h' : (plainDecoder knnData 4).map (fun d => (d.info.chunkSize 0, d.info.numberOfRecords 0))
      = some (.ok 32, .ok 4) := by decide +kernel
  have h'' : (plainDecoder knnData 4).map (fun d =>
      (Decoder.materialize sampleEnv (onFile d (d.file.set 37 0x41#8)) (some [4, 5]) none,
        Decoder.materialize sampleEnv (onFile d (d.file.set 37 0x41#8)) (some [0]) none))
      = some (.ok [0x4022000000000000#64, 0x4022000000000000#64], .ok [0x4114000000000000#64]) := by
    decide +kernel
  obtain ⟨d, hd, h2⟩ := Option.map_eq_some_iff.1 h
  rw [hd] at h' h''
  simp only [Prod.mk.injEq, decide_eq_true_eq, Option.map_some, Option.some.injEq] at h2 h' h''
  obtain ⟨g1, g2⟩ := h2
  obtain ⟨g3, g4⟩ := h'
  obtain ⟨g5, g6⟩ := h''
  obtain ⟨⟨p, l⟩, g2, g7⟩ := Option.map_eq_some_iff.1 g2
  simp only [Prod.mk.injEq] at g7
  obtain ⟨rfl, rfl⟩ := g7
  have hw := plainDecoder_written hd (by simp [knnData]) (by omega) (by omega) (by simp [knnData]) (by omega)
  refine ⟨d, hd, hw, by rw [plainArgs_records]; simp [knnData], ⟨_, _, g2, g3, ?_⟩, Or.inr ⟨_, _, _, rfl, g2, g4, ?_⟩,
    Or.inl ⟨1, rfl, by omega⟩, g5, g6⟩
  · intro j hj
    rw [List.getElem?_set_ne]
    simp only at hj
    omega
  · simp

end Ebi.Props
