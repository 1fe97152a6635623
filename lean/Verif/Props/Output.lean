import Verif.OutputLemmas
import Verif.Props.File

/-!
# C50, C51: the output device

Whatever the device does, `encode` reports success only when the device holds the whole file, and a
failure leaves one of the states listed by `Left`.
-/

namespace Ebi.Props

/-- `Encoder::encode` onto a device. -/
def runEncoder {K : Type} (D : Device K) (S : Scheme) (a : Args) (k : K) : Option (Res Unit × K) :=
  encodeTo D S a.cfg a.opt a.version a.times a.elapsed a.src k

/-- The file before the two patches. -/
def unpatched (a : Args) (w : FileWriter) : List Byte :=
  w.out ++ footerBytes w.nextLogical w.chunkFooters a.cfg a.times

/-- With the first `j` bytes of the footer offset in place. -/
def offsetPatched (a : Args) (w : FileWriter) (j : Nat) : List Byte :=
  overwrite footerOffsetSlot ((leBytes 8 (headerSize + w.totalBytesOut)).take j) (unpatched a w)

/-- With the footer offset and the first `j` bytes of the elapsed time in place. -/
def elapsedPatched (a : Args) (w : FileWriter) (j : Nat) : List Byte :=
  overwrite (w.elapsedSlot a.cfg) ((leBytes 16 a.elapsed.asNanos).take j) (offsetPatched a w 8)

/-- The chunk loop of the run ends in `w`. -/
def LoopEnds (S : Scheme) (a : Args) (w : FileWriter) : Prop :=
  encodeLoop S a.opt (a.src.weight + 2) none ((FileWriter.new a.src).writeHeader a.cfg a.opt a.version) = some (.ok w)

/-- What a failed run may leave: what a crash before the patches leaves (`Crashed`, as in C29), or all of the
file but for part of one of the patches. -/
def Left (S : Scheme) (a : Args) (s : List Byte) : Prop :=
  Crashed S a s ∨ ∃ w, LoopEnds S a w ∧ (∃ c, Writing S a c w) ∧
    ((∃ j, j ≤ 8 ∧ s = offsetPatched a w j) ∨ ∃ j, j ≤ 16 ∧ s = elapsedPatched a w j)

theorem writing_size {S : Scheme} {a : Args} {c : Option S.Comp} {w : FileWriter} (h : Writing S a c w) :
    w.out.length = headerSize + w.totalBytesOut := by
  induction h with
  | start =>
    show ([] ++ headerBytes a.cfg a.opt a.version).length = _
    rw [List.nil_append, headerBytes, Header.bytes_length _ rfl]
    rfl
  | @chunk c w w' c' _ hw ih =>
    by_cases he : w.reachesEof = false
    · rcases writeChunk_out hw he with ⟨-, h1, h2⟩ | ⟨-, h1, h2⟩
      · rw [h1, h2, ih]
      · rw [h1, h2, List.length_append, ih]; omega
    · unfold FileWriter.writeChunk at hw
      obtain ⟨⟨buf, src⟩, -, hw⟩ := Res.bind_eq_ok hw
      simp only at hw
      split at hw
      · cases hw; exact ih
      · obtain ⟨c1, -, hw⟩ := Res.bind_eq_ok hw
        split at hw
        · cases hw; exact ih
        · obtain ⟨c2, -, hw⟩ := Res.bind_eq_ok hw
          simp only [Res.ok.injEq, Prod.mk.injEq] at hw
          obtain ⟨-, rfl⟩ := hw
          simp only [List.length_append, ih]; omega

theorem unpatched_size {S : Scheme} {a : Args} {c : Option S.Comp} {w : FileWriter} (h : Writing S a c w) :
    footerOffsetSlot + 8 ≤ (unpatched a w).length ∧ w.elapsedSlot a.cfg + 16 ≤ (unpatched a w).length := by
  have h1 := writing_size h
  unfold unpatched FileWriter.elapsedSlot footerBytes
  simp only [List.length_append, leBytes_length, chunkFooters_length, Config.serialize_length, h1, footerOffsetSlot,
    headerSize, footer0Size, chunkFooterSize]
  omega

theorem offsetPatched_length {S : Scheme} {a : Args} {c : Option S.Comp} {w : FileWriter} (h : Writing S a c w) (j : Nat) :
    (offsetPatched a w j).length = (unpatched a w).length := by
  have h1 := (unpatched_size h).1
  exact (overwrite_front (by rw [List.length_take, leBytes_length]; omega) []).2

section
variable {K : Type} {D : Device K} {At : List Byte → Nat → List Byte → K → Prop} {Good : K → Prop} (L : D.Law At Good)
include L

/-- The chunk loop: it stops with everything written, or leaves part of it. -/
theorem encodeLoopTo_spec {S : Scheme} {a : Args} {old : List Byte} (fuel : Nat) {c : Option S.Comp} {w : FileWriter}
    {k : K} (hw : Writing S a c w) (hk : At old 0 w.out k) {r : Res FileWriter} {k' : K}
    (h : encodeLoopTo D S a.opt fuel c w k = some (r, k')) :
    (∃ c' w', r = .ok w' ∧ Writing S a c' w' ∧ encodeLoop S a.opt fuel c w = some (.ok w') ∧ At old 0 w'.out k' ∧
      (Good k → Good k')) ∨
    ((∀ w', r ≠ .ok w') ∧ (∃ s, Crashed S a s ∧ At old 0 s k') ∧
      (Good k → encodeLoop S a.opt fuel c w = some r)) := by
  induction fuel generalizing c w k with
  | zero => cases h
  | succ fuel ih =>
    unfold encodeLoopTo at h
    unfold encodeLoop
    have crashed : ∀ {c' : Option S.Comp} {w' : FileWriter} (n : Nat), Writing S a c' w' → n ≤ w'.out.length →
        Crashed S a (w'.out.take n) := by
      intro c' w' n hw' hn
      exact ⟨c', w', n, hw', by rw [List.take_append_of_le_length hn]⟩
    split at h
    · rename_i he
      simp only [Option.some.injEq, Prod.mk.injEq] at h
      obtain ⟨rfl, rfl⟩ := h
      exact Or.inl ⟨c, w, rfl, hw, by rw [if_pos he], hk, id⟩
    · rename_i he
      rw [if_neg he]
      have he' : w.reachesEof = false := by simpa using he
      have self : Crashed S a w.out := by
        have := crashed w.out.length hw (Nat.le_refl _)
        rwa [List.take_length] at this
      split at h
      · rename_i c1 w1 hc
        have hw1 : Writing S a (some c1) w1 := .chunk hw hc
        -- the bytes of the chunk
        obtain ⟨s1, f1, g1, g2, g3, g4⟩ : ∃ (s1 : List Byte) (f1 : Res Unit × K),
            f1 = (if w1.reachesEof then (.ok (), k) else D.writeAll (S.buffers c1) k) ∧
            At old 0 s1 f1.2 ∧ Crashed S a s1 ∧
            ((f1.1 = .ok () ∧ s1 = w1.out ∨ f1.1 = .err) ∧
              (Good k → f1.1 = .ok () ∧ Good f1.2)) := by
          rcases writeChunk_out hc he' with ⟨e1, e2, -⟩ | ⟨e1, e2, -⟩
          · exact ⟨w.out, _, rfl, by rw [if_pos e1]; exact hk, self, by
              rw [if_pos e1]; exact ⟨Or.inl ⟨rfl, e2.symm⟩, fun h => ⟨rfl, h⟩⟩⟩
          · obtain ⟨j, j1, j2, j3, j4⟩ := L.write (Nat.zero_le _) hk (S.buffers c1)
            have hn : ¬ w1.reachesEof = true := by simp [e1]
            refine ⟨_, _, rfl, by rw [if_neg hn]; exact j2, ?_, ?_⟩
            · have := crashed (w.out.length + j) hw1 (by rw [e2, List.length_append]; omega)
              rwa [e2, List.take_length_add_append] at this
            · rw [if_neg hn]
              refine ⟨?_, j4⟩
              rcases j3 with ⟨j3, rfl⟩ | j3
              · exact Or.inl ⟨j3, by rw [List.take_length, e2]⟩
              · exact Or.inr j3
        rw [← g1] at h
        obtain ⟨f, kf⟩ := f1
        rcases g4.1 with ⟨e, rfl⟩ | e
        · simp only at e
          subst e
          simp only [andThen] at h
          obtain ⟨m1, m2, m3⟩ := L.flush (Nat.zero_le _) g2
          simp only at m1 m2 m3
          generalize D.flush kf = r2 at *
          obtain ⟨r2, k2⟩ := r2
          rcases m2 with ⟨m2, -⟩ | m2
          · simp only at m2
            subst m2
            simp only at h
            rcases ih hw1 m1 h with ⟨c', w', i1, i2, i4, i5, i6⟩ | ⟨i1, i2, i3⟩
            · exact Or.inl ⟨c', w', i1, i2, by rw [hc]; exact i4, i5, fun ha => i6 (m3 (g4.2 ha).2).2⟩
            · exact Or.inr ⟨i1, i2, fun ha => by rw [hc]; exact i3 (m3 (g4.2 ha).2).2⟩
          · simp only at m2
            subst m2
            simp only [Option.some.injEq, Prod.mk.injEq] at h
            obtain ⟨rfl, rfl⟩ := h
            exact Or.inr ⟨by simp, ⟨w1.out, g3, m1⟩, fun ha => absurd (m3 (g4.2 ha).2).1 (by simp)⟩
        · simp only at e
          subst e
          simp only [andThen, Option.some.injEq, Prod.mk.injEq] at h
          obtain ⟨rfl, rfl⟩ := h
          exact Or.inr ⟨by simp, ⟨s1, g3, g2⟩, fun ha => absurd (g4.2 ha).1 (by simp)⟩
      · rename_i hc
        simp only [Option.some.injEq, Prod.mk.injEq] at h
        obtain ⟨rfl, rfl⟩ := h
        exact Or.inr ⟨by simp, ⟨w.out, self, hk⟩, fun _ => by rw [hc]⟩
      · rename_i hc
        simp only [Option.some.injEq, Prod.mk.injEq] at h
        obtain ⟨rfl, rfl⟩ := h
        exact Or.inr ⟨by simp, ⟨w.out, self, hk⟩, fun _ => by rw [hc]⟩

omit L in
theorem overwrite_zero (s old : List Byte) : overwrite 0 s old = s ++ old.drop s.length := by
  have := overwrite_at [] s old
  simpa using this

/-- Whatever part of the accepted bytes is on the device, it is one of the states of `Left`. -/
def LeftAt (At : List Byte → Nat → List Byte → K → Prop) (S : Scheme) (a : Args) (old : List Byte) (k : K) : Prop :=
  ∃ f p bs, p ≤ f.length ∧ At f p bs k ∧
    ∀ j, j ≤ bs.length → ∃ s, Left S a s ∧ overwrite p (bs.take j) f = s ++ old.drop s.length

omit L in
theorem LeftAt.crashed {S : Scheme} {a : Args} {old s : List Byte} {k : K} (hs : Crashed S a s) (h : At old 0 s k) :
    LeftAt At S a old k := by
  refine ⟨old, 0, s, Nat.zero_le _, h, fun j hj => ⟨s.take j, Or.inl ?_, overwrite_zero _ _⟩⟩
  obtain ⟨c, w, n, hw, rfl⟩ := hs
  exact ⟨c, w, min j n, hw, by rw [List.take_take]⟩

omit L in
theorem LeftAt.patched {S : Scheme} {a : Args} {old P bs : List Byte} {q : Nat} {k : K}
    (hq : q + bs.length ≤ P.length) (hl : ∀ j, j ≤ bs.length → Left S a (overwrite q (bs.take j) P))
    (h : At (P ++ old.drop P.length) q bs k) : LeftAt At S a old k := by
  refine ⟨_, q, bs, by rw [List.length_append]; omega, h, fun j hj => ⟨_, hl j hj, ?_⟩⟩
  obtain ⟨o1, o2⟩ := overwrite_front (p := q) (f := P) (b := bs.take j) (by rw [List.length_take]; omega)
    (old.drop P.length)
  rw [o1, o2]

/-- The rest: footer and patches. -/
theorem finishTo_spec {S : Scheme} {a : Args} {old : List Byte} {c : Option S.Comp} {w : FileWriter}
    (hw : Writing S a c w) (he : LoopEnds S a w) {k : K} (hk : At old 0 w.out k) :
    LeftAt At S a old (w.finishTo D a.cfg a.times a.elapsed k).2 ∧
      ((w.finishTo D a.cfg a.times a.elapsed k).1 = .ok () ∧
        D.disk (w.finishTo D a.cfg a.times a.elapsed k).2
          = overwrite 0 (w.finish a.cfg a.times a.elapsed) old ∧
        D.disk (D.drop (w.finishTo D a.cfg a.times a.elapsed k).2)
          = overwrite 0 (w.finish a.cfg a.times a.elapsed) old ∨
        (w.finishTo D a.cfg a.times a.elapsed k).1 = .err) ∧
      (Good k → (w.finishTo D a.cfg a.times a.elapsed k).1 = .ok ()) := by
  obtain ⟨u1, u2⟩ := unpatched_size (a := a) hw
  have u3 := offsetPatched_length (a := a) hw
  unfold FileWriter.finishTo FileWriter.writeFooterTo
  -- footer
  obtain ⟨j, j1, j2, j3, j4⟩ := L.writeParts (Nat.zero_le _) hk [leBytes 8 w.nextLogical ++ leBytes 8 w.chunkFooters.length,
    w.chunkFooters.flatMap ChunkFooter.bytes, a.cfg.serialize, leBytes 16 0 ++ (a.times.bytes ++ leBytes 4 0)]
  have hfb : [leBytes 8 w.nextLogical ++ leBytes 8 w.chunkFooters.length,
    w.chunkFooters.flatMap ChunkFooter.bytes, a.cfg.serialize, leBytes 16 0 ++ (a.times.bytes ++ leBytes 4 0)].flatten
      = footerBytes w.nextLogical w.chunkFooters a.cfg a.times := by
    simp [footerBytes]
  rw [hfb] at j1 j2 j3
  generalize D.writeParts _ k = r at *
  obtain ⟨r, k1⟩ := r
  rcases j3 with ⟨j3, rfl⟩ | j3 <;> simp only at j3 <;> subst j3 <;> simp only [andThen]
  case inr =>
    refine ⟨.crashed ⟨c, w, w.out.length + j, hw, ?_⟩ j2, Or.inr trivial, fun ha => absurd (j4 ha).1 (by simp)⟩
    rw [List.take_length_add_append]
  rw [List.take_length] at j2
  have f1 : At old 0 (unpatched a w) k1 := j2
  have hcr : Crashed S a (unpatched a w) := ⟨c, w, (unpatched a w).length, hw, List.take_length.symm⟩
  -- first seek
  obtain ⟨s2, s3⟩ := L.seek (Nat.zero_le _) f1 footerOffsetSlot (by rw [overwrite_zero, List.length_append]; omega)
  rw [overwrite_zero] at s2
  generalize D.seek footerOffsetSlot k1 = r at *
  obtain ⟨r, k2⟩ := r
  rcases s2 with ⟨s2, f2⟩ | ⟨s2, f2⟩ <;> simp only at s2 <;> subst s2 <;> simp only
  case inr => exact ⟨.crashed hcr f2, Or.inr trivial, fun ha => absurd (s3 (j4 ha).2).1 (by simp)⟩
  simp only at f2 s3
  -- footer offset
  have hp1 : footerOffsetSlot ≤ (unpatched a w ++ old.drop (unpatched a w).length).length := by
    rw [List.length_append]; omega
  obtain ⟨i, i1, i2, i3, i4⟩ := L.write hp1 f2 (leBytes 8 (headerSize + w.totalBytesOut))
  rw [leBytes_length] at i1 i3
  rw [List.nil_append] at i2
  have left1 : ∀ i, i ≤ 8 → ∀ {k : K}, At (unpatched a w ++ old.drop (unpatched a w).length) footerOffsetSlot
      ((leBytes 8 (headerSize + w.totalBytesOut)).take i) k → LeftAt At S a old k := by
    intro i hi k hk
    refine .patched (by rw [List.length_take, leBytes_length]; omega) (fun j hj => ?_) hk
    refine Or.inr ⟨w, he, ⟨c, hw⟩, Or.inl ⟨min j i, by omega, ?_⟩⟩
    rw [List.take_take]
    rfl
  generalize D.writeAll _ k2 = r at *
  obtain ⟨r, k3⟩ := r
  rcases i3 with ⟨i3, rfl⟩ | i3 <;> simp only at i3 <;> subst i3 <;> simp only
  case inr => exact ⟨left1 i i1 i2, Or.inr trivial, fun ha => absurd (i4 (s3 (j4 ha).2).2).1 (by simp)⟩
  simp only at i2 i4
  -- second seek
  have hov : overwrite footerOffsetSlot ((leBytes 8 (headerSize + w.totalBytesOut)).take 8)
      (unpatched a w ++ old.drop (unpatched a w).length) = offsetPatched a w 8 ++ old.drop (offsetPatched a w 8).length := by
    rw [(overwrite_front (by rw [List.length_take, leBytes_length]; omega) _).1, u3]
    rfl
  obtain ⟨t2, t3⟩ := L.seek hp1 i2 (w.elapsedSlot a.cfg) (by rw [hov, List.length_append, u3]; omega)
  rw [hov] at t2
  generalize D.seek (w.elapsedSlot a.cfg) k3 = r at *
  obtain ⟨r, k4⟩ := r
  rcases t2 with ⟨t2, f4⟩ | ⟨t2, f4⟩ <;> simp only at t2 <;> subst t2 <;> simp only
  case inr =>
    exact ⟨left1 8 i1 f4, Or.inr trivial, fun ha => absurd (t3 (i4 (s3 (j4 ha).2).2).2).1 (by simp)⟩
  simp only at f4 t3
  -- elapsed time
  have hp2 : w.elapsedSlot a.cfg ≤ (offsetPatched a w 8 ++ old.drop (offsetPatched a w 8).length).length := by
    rw [List.length_append, u3]; omega
  obtain ⟨l, l1, l2, l3, l4⟩ := L.write hp2 f4 (leBytes 16 a.elapsed.asNanos)
  rw [leBytes_length] at l1 l3
  rw [List.nil_append] at l2
  have left2 : ∀ l, l ≤ 16 → ∀ {k : K}, At (offsetPatched a w 8 ++ old.drop (offsetPatched a w 8).length)
      (w.elapsedSlot a.cfg) ((leBytes 16 a.elapsed.asNanos).take l) k → LeftAt At S a old k := by
    intro l hl k hk
    refine .patched (by rw [List.length_take, leBytes_length, u3]; omega) (fun j hj => ?_) hk
    refine Or.inr ⟨w, he, ⟨c, hw⟩, Or.inr ⟨min j l, by omega, ?_⟩⟩
    rw [List.take_take]
    rfl
  generalize D.writeAll _ k4 = r at *
  obtain ⟨r, k5⟩ := r
  rcases l3 with ⟨l3, rfl⟩ | l3 <;> simp only at l3 <;> subst l3 <;> simp only
  case inr =>
    exact ⟨left2 l l1 l2, Or.inr trivial, fun ha => absurd (l4 (t3 (i4 (s3 (j4 ha).2).2).2).2).1 (by simp)⟩
  simp only at l2 l4
  -- flush
  obtain ⟨m1, m2, m3⟩ := L.flush hp2 l2
  have hfin : overwrite (w.elapsedSlot a.cfg) ((leBytes 16 a.elapsed.asNanos).take 16)
      (offsetPatched a w 8 ++ old.drop (offsetPatched a w 8).length)
      = overwrite 0 (w.finish a.cfg a.times a.elapsed) old := by
    obtain ⟨o1, o2⟩ := overwrite_front (p := w.elapsedSlot a.cfg) (f := offsetPatched a w 8)
      (b := (leBytes 16 a.elapsed.asNanos).take 16) (by rw [List.length_take, leBytes_length, u3]; omega)
      (old.drop (offsetPatched a w 8).length)
    have e : overwrite (w.elapsedSlot a.cfg) ((leBytes 16 a.elapsed.asNanos).take 16) (offsetPatched a w 8)
        = w.finish a.cfg a.times a.elapsed := by
      unfold offsetPatched unpatched FileWriter.finish
      rw [List.take_of_length_le (by simp), List.take_of_length_le (by simp)]
    rw [o1, ← o2, e, overwrite_zero]
  rw [hfin] at m2
  exact ⟨left2 16 l1 m1, m2, fun ha => (m3 (l4 (t3 (i4 (s3 (j4 ha).2).2).2).2).2).1⟩

omit L in
theorem encodeLoopTo_terminates {S : Scheme} {opt : ChunkOption} (fuel : Nat) {c : Option S.Comp} {w : FileWriter}
    {k : K} (h : encodeLoopTo D S opt fuel c w k = none) : encodeLoop S opt fuel c w = none := by
  induction fuel generalizing c w k with
  | zero => rfl
  | succ fuel ih =>
    unfold encodeLoopTo at h
    unfold encodeLoop
    split at h
    · cases h
    · rename_i he
      rw [if_neg he]
      split at h
      · rename_i hc
        rw [hc]
        split at h
        · exact ih h
        · cases h
        · cases h
      · cases h
      · cases h

/-- The whole run. -/
theorem runEncoder_spec {S : Scheme} {a : Args} {old : List Byte} {k0 : K} (h0 : At old 0 [] k0) :
    ∃ r k, runEncoder D S a k0 = some (r, k) ∧ LeftAt At S a old k ∧
      (r = .ok () → ∃ s, a.encode S = some (.ok s) ∧ D.disk k = overwrite 0 s old ∧
        D.disk (D.drop k) = overwrite 0 s old) ∧
      (Good k0 → ∀ s, a.encode S = some (.ok s) → r = .ok ()) := by
  obtain ⟨j, j1, j2, j3, j4⟩ := L.write (Nat.zero_le _) h0 (headerBytes a.cfg a.opt a.version)
  rw [List.nil_append] at j2
  unfold runEncoder encodeTo
  simp only
  generalize D.writeAll _ _ = r at *
  obtain ⟨r, k1⟩ := r
  have hst : Writing S a none ((FileWriter.new a.src).writeHeader a.cfg a.opt a.version) := .start
  have hout : ((FileWriter.new a.src).writeHeader a.cfg a.opt a.version).out = headerBytes a.cfg a.opt a.version := by
    simp [FileWriter.new, FileWriter.writeHeader]
  rcases j3 with ⟨j3, rfl⟩ | j3 <;> simp only at j3 <;> subst j3 <;> simp only
  case inr =>
    refine ⟨_, _, rfl, .crashed ⟨_, _, j, hst, ?_⟩ j2, by simp, fun ha => absurd (j4 ha).1 (by simp)⟩
    rw [hout, List.take_append_of_le_length j1]
  rw [List.take_length] at j2
  have hk1 : At old 0 ((FileWriter.new a.src).writeHeader a.cfg a.opt a.version).out k1 := by rw [hout]; exact j2
  have hterm := encode_terminates S a.cfg a.opt a.version a.times a.elapsed a.src
  cases hl : encodeLoopTo D S a.opt (a.src.weight + 2) none
      ((FileWriter.new a.src).writeHeader a.cfg a.opt a.version) k1 with
  | none =>
    exfalso
    have := encodeLoopTo_terminates _ hl
    unfold encode at hterm
    simp only [this] at hterm
    obtain ⟨r, hr⟩ := hterm
    cases hr
  | some p =>
    obtain ⟨r, k2⟩ := p
    rcases encodeLoopTo_spec L (a := a) _ hst hk1 hl with ⟨c', w', rfl, i2, i4, i5, i6⟩ | ⟨i1, ⟨s, i2, i3⟩, i4⟩
    · simp only
      have henc : a.encode S = some (.ok (w'.finish a.cfg a.times a.elapsed)) := by
        unfold Args.encode encode
        simp only [i4, Option.map_some, Res.map]
      obtain ⟨g1, g2, g3⟩ := finishTo_spec L i2 i4 i5
      refine ⟨_, _, rfl, g1, fun hr => ?_, fun ha _ _ => g3 (i6 (j4 ha).2)⟩
      rcases g2 with ⟨-, g2, g4⟩ | g2
      · exact ⟨_, henc, g2, g4⟩
      · cases g2.symm.trans hr
    · have hno : ∀ s, Good k0 → a.encode S ≠ some (.ok s) := by
        intro s ha he
        unfold Args.encode encode at he
        simp only [i4 (j4 ha).2, Option.map_some, Option.some.injEq] at he
        cases r with
        | ok w => exact i1 w rfl
        | err => cases he
        | panic => cases he
      cases r with
      | ok w => exact absurd rfl (i1 w)
      | err => exact ⟨_, _, rfl, .crashed i2 i3, by simp, fun ha s hs => absurd hs (hno s ha)⟩
      | panic => exact ⟨_, _, rfl, .crashed i2 i3, by simp, fun ha s hs => absurd hs (hno s ha)⟩

/-- What is on the device, before and after it is dropped. -/
theorem LeftAt.disk {S : Scheme} {a : Args} {old : List Byte} {k : K} (h : LeftAt At S a old k) :
    (∃ s, Left S a s ∧ D.disk k = s ++ old.drop s.length) ∧
    (∃ s, Left S a s ∧ D.disk (D.drop k) = s ++ old.drop s.length) := by
  obtain ⟨f, p, bs, hp, hat, hl⟩ := h
  constructor
  · obtain ⟨j, hj, e⟩ := L.disk hat
    obtain ⟨s, h1, h2⟩ := hl j hj
    exact ⟨s, h1, e.trans h2⟩
  · obtain ⟨j, hj, e⟩ := L.disk (L.drop hp hat)
    obtain ⟨s, h1, h2⟩ := hl j hj
    exact ⟨s, h1, e.trans h2⟩

end

theorem fresh_output (old : List Byte) (ev : List WriteEvent) : Output.At old 0 [] ⟨old, 0, ev⟩ :=
  ⟨by rw [overwrite_zero]; simp, rfl⟩

theorem fresh_buffered (capacity : Nat) (old : List Byte) (ev : List WriteEvent) :
    Buffered.At old 0 [] (.new capacity ⟨old, 0, ev⟩) :=
  ⟨0, Nat.le_refl _, fresh_output old ev, rfl, Nat.zero_le _⟩

/-! ## C50: success -/

/-- Every run ends, with a result. -/
theorem c50_terminates (S : Scheme) (a : Args) (old : List Byte) (ev : List WriteEvent) (capacity : Nat) :
    (∃ r k, runEncoder Output.device S a ⟨old, 0, ev⟩ = some (r, k)) ∧
    ∃ r b, runEncoder Buffered.device S a (.new capacity ⟨old, 0, ev⟩) = some (r, b) := by
  obtain ⟨r, k, h, -⟩ := runEncoder_spec Output.law (S := S) (a := a) (fresh_output old ev)
  obtain ⟨r', b, h', -⟩ := runEncoder_spec Buffered.law (S := S) (a := a) (fresh_buffered capacity old ev)
  exact ⟨⟨r, k, h⟩, ⟨r', b, h'⟩⟩

/-- Whatever the device does and holds at first: if `encode` reports success, the device holds exactly the
file, followed by what was there beyond its end. -/
theorem c50_success_is_complete {S : Scheme} {a : Args} {old : List Byte} {ev : List WriteEvent} {k : Output}
    (h : runEncoder Output.device S a ⟨old, 0, ev⟩ = some (.ok (), k)) :
    ∃ file, a.encode S = some (.ok file) ∧ k.file = file ++ old.drop file.length := by
  obtain ⟨r, k', e, -, h1, -⟩ := runEncoder_spec Output.law (S := S) (a := a) (fresh_output old ev)
  rw [h] at e
  cases e
  obtain ⟨s, h2, h3, -⟩ := h1 rfl
  exact ⟨s, h2, h3.trans (overwrite_zero _ _)⟩

/-- The same through a `BufWriter` of any capacity: nothing is left in the buffer, before it is dropped or
after. -/
theorem c50_buffered_success_is_complete {S : Scheme} {a : Args} {capacity : Nat} {old : List Byte}
    {ev : List WriteEvent} {b : Buffered}
    (h : runEncoder Buffered.device S a (.new capacity ⟨old, 0, ev⟩) = some (.ok (), b)) :
    ∃ file, a.encode S = some (.ok file) ∧ b.inner.file = file ++ old.drop file.length ∧
      b.drop.inner.file = file ++ old.drop file.length := by
  obtain ⟨r, k', e, -, h1, -⟩ := runEncoder_spec Buffered.law (S := S) (a := a) (fresh_buffered capacity old ev)
  rw [h] at e
  cases e
  obtain ⟨s, h2, h3, h4⟩ := h1 rfl
  exact ⟨s, h2, h3.trans (overwrite_zero _ _), h4.trans (overwrite_zero _ _)⟩

/-- Success does not depend on how many bytes the device takes per call, nor on buffering. -/
theorem c50_short_writes {S : Scheme} {a : Args} (old : List Byte) {ev : List WriteEvent} (hev : Accepting ev)
    (capacity : Nat) {file : List Byte} (h : a.encode S = some (.ok file)) :
    (∃ k, runEncoder Output.device S a ⟨old, 0, ev⟩ = some (.ok (), k) ∧ k.file = file ++ old.drop file.length) ∧
    ∃ b, runEncoder Buffered.device S a (.new capacity ⟨old, 0, ev⟩) = some (.ok (), b) ∧
      b.inner.file = file ++ old.drop file.length := by
  constructor
  · obtain ⟨r, k, e, -, h1, h3⟩ := runEncoder_spec Output.law (S := S) (a := a) (fresh_output old ev)
    have hr := h3 hev file h
    subst hr
    obtain ⟨s, h2, h4, -⟩ := h1 rfl
    rw [h] at h2
    cases h2
    exact ⟨k, e, h4.trans (overwrite_zero _ _)⟩
  · obtain ⟨r, k, e, -, h1, h3⟩ := runEncoder_spec Buffered.law (S := S) (a := a) (fresh_buffered capacity old ev)
    have hr := h3 hev file h
    subst hr
    obtain ⟨s, h2, h4, -⟩ := h1 rfl
    rw [h] at h2
    cases h2
    exact ⟨k, e, h4.trans (overwrite_zero _ _)⟩

/-- An interrupted write is retried: `write_all` only fails if the device fails or takes nothing. -/
theorem c50_interrupted_write (k : Output) (bs : List Byte) (hp : k.pos ≤ k.file.length)
    (h : ∀ e ∈ k.events, e ≠ .failed ∧ e ≠ .accept 0) :
    (k.writeAll bs).1 = .ok () ∧ (k.writeAll bs).2.file = overwrite k.pos bs k.file := by
  obtain ⟨j, -, h2, -, -, h4, -, h6⟩ := writeLoop_spec k.events bs k.file k.pos hp
  refine ⟨h6 h, ?_⟩
  rcases h4 with ⟨-, rfl⟩ | h4
  · rw [List.take_length] at h2
    exact h2
  · cases (h6 h).symm.trans h4

/-! ## C51: failure -/

/-- Whatever makes `encode` fail, a device or an input error or a panic: the device holds some `s` of `Left`,
followed by what was there beyond it. -/
theorem c51_failure_leaves {S : Scheme} {a : Args} {old : List Byte} {ev : List WriteEvent} {r : Res Unit} {k : Output}
    (h : runEncoder Output.device S a ⟨old, 0, ev⟩ = some (r, k)) :
    ∃ s, Left S a s ∧ k.file = s ++ old.drop s.length := by
  obtain ⟨r', k', e, h1, -⟩ := runEncoder_spec Output.law (S := S) (a := a) (fresh_output old ev)
  rw [h] at e
  cases e
  exact (h1.disk Output.law).1

/-- Through a `BufWriter` the same states remain, before it is dropped (which may write more) and after. -/
theorem c51_buffered_failure_leaves {S : Scheme} {a : Args} {capacity : Nat} {old : List Byte} {ev : List WriteEvent}
    {r : Res Unit} {b : Buffered}
    (h : runEncoder Buffered.device S a (.new capacity ⟨old, 0, ev⟩) = some (r, b)) :
    (∃ s, Left S a s ∧ b.inner.file = s ++ old.drop s.length) ∧
    ∃ s, Left S a s ∧ b.drop.inner.file = s ++ old.drop s.length := by
  obtain ⟨r', k', e, h1, -⟩ := runEncoder_spec Buffered.law (S := S) (a := a) (fresh_buffered capacity old ev)
  rw [h] at e
  cases e
  exact h1.disk Buffered.law

theorem take_leBytes (n x j : Nat) (h : j ≤ n) :
    (leBytes n x).take j ++ List.replicate (n - j) 0#8 = leBytes n (x % 256 ^ j) := by
  induction j generalizing n x with
  | zero =>
    rw [Nat.pow_zero, Nat.mod_one]
    simp only [List.take_zero, List.nil_append, Nat.sub_zero]
    clear h
    induction n with
    | zero => rfl
    | succ n ih => rw [List.replicate_succ, ih]; rfl
  | succ j ih =>
    obtain ⟨n, rfl⟩ : ∃ m, n = m + 1 := ⟨n - 1, by omega⟩
    have h1 := ih n (x / 256) (by omega)
    have h2 : x % 256 ^ (j + 1) / 256 = x / 256 % 256 ^ j := by
      rw [Nat.pow_succ, Nat.mul_comm, Nat.mod_mul_right_div_self]
    have h3 : BitVec.ofNat 8 (x % 256 ^ (j + 1)) = BitVec.ofNat 8 x := by
      apply BitVec.eq_of_toNat_eq
      simp only [BitVec.toNat_ofNat]
      rw [Nat.pow_succ, Nat.mul_comm]
      exact Nat.mod_mul_right_mod x 256 (256 ^ j)
    rw [leBytes, leBytes, h2, h3, List.take_succ_cons, List.cons_append, ← h1]
    congr 3
    omega

/-- A failure after the footer offset is in place leaves a complete file, in which only the elapsed time may be
too small: it is the file of a run that took a shorter time. -/
theorem c51_torn_elapsed {S : Scheme} {a : Args} {w : FileWriter} {c : Option S.Comp} (hw : Writing S a c w)
    (he : LoopEnds S a w) (j : Nat) (hj : j ≤ 16) :
    ∃ d : Duration, d.asNanos = a.elapsed.asNanos % 256 ^ j ∧ (a.elapsed.WF → d.WF) ∧
      ({ a with elapsed := d } : Args).encode S = some (.ok (elapsedPatched a w j)) := by
  have hdiv := Nat.div_add_mod (a.elapsed.asNanos % 256 ^ j) 1000000000
  have hlt := Nat.mod_lt (a.elapsed.asNanos % 256 ^ j) (y := 1000000000) (by omega)
  have hd : (⟨a.elapsed.asNanos % 256 ^ j / 1000000000, a.elapsed.asNanos % 256 ^ j % 1000000000⟩ : Duration).asNanos
      = a.elapsed.asNanos % 256 ^ j := by
    unfold Duration.asNanos at *
    simp only
    omega
  refine ⟨⟨a.elapsed.asNanos % 256 ^ j / 1000000000, a.elapsed.asNanos % 256 ^ j % 1000000000⟩, hd, ?_, ?_⟩
  · rintro ⟨h1, h2⟩
    have hle := Nat.mod_le a.elapsed.asNanos (256 ^ j)
    generalize a.elapsed.asNanos % 256 ^ j = x at *
    unfold Duration.asNanos at hle
    refine ⟨?_, hlt⟩
    simp only
    generalize (2 : Nat) ^ 64 = p at *
    omega
  · unfold LoopEnds at he
    unfold Args.encode encode
    simp only [he, Option.map_some, Res.map, Option.some.injEq, Res.ok.injEq]
    unfold FileWriter.finish elapsedPatched offsetPatched unpatched
    simp only
    rw [hd, List.take_of_length_le (i := 8) (by simp)]
    have hl := writing_size hw
    -- everything before the slot
    obtain ⟨X, Y, hX, hX2⟩ : ∃ X Y : List Byte, X.length = w.elapsedSlot a.cfg ∧
        w.out ++ footerBytes w.nextLogical w.chunkFooters a.cfg a.times = X ++ (leBytes 16 0 ++ Y) := by
      refine ⟨w.out ++ (leBytes 8 w.nextLogical ++ (leBytes 8 w.chunkFooters.length ++
        (w.chunkFooters.flatMap ChunkFooter.bytes ++ a.cfg.serialize))), a.times.bytes ++ leBytes 4 0, ?_, ?_⟩
      · unfold FileWriter.elapsedSlot
        simp only [List.length_append, leBytes_length, chunkFooters_length, Config.serialize_length, hl, headerSize,
          footer0Size, chunkFooterSize]
        omega
      · simp [footerBytes]
    rw [hX2]
    have hs : footerOffsetSlot + (leBytes 8 (headerSize + w.totalBytesOut)).length ≤ X.length := by
      rw [leBytes_length, hX]
      unfold FileWriter.elapsedSlot
      simp only [footerOffsetSlot, headerSize]
      omega
    obtain ⟨o1, o2⟩ := overwrite_front hs (leBytes 16 0 ++ Y)
    rw [o1]
    generalize overwrite footerOffsetSlot (leBytes 8 (headerSize + w.totalBytesOut)) X = X' at *
    rw [← hX, ← o2, overwrite_at, overwrite_at, ← take_leBytes 16 _ j hj]
    have hz : leBytes 16 0 = List.replicate 16 0#8 := by decide
    rw [hz, List.length_append, List.length_take, List.length_replicate, leBytes_length, Nat.min_eq_left hj,
      List.drop_append, List.drop_append, List.drop_replicate, List.drop_replicate, List.length_replicate]
    have e1 : j + (16 - j) - 16 = 0 := by omega
    have e2 : 16 - (j + (16 - j)) = 0 := by omega
    have e3 : j - 16 = 0 := by omega
    rw [e1, e2, e3]
    simp

/-- So with the `Full` option and a new output, after a failure, what is left is either not accepted by the decoder, or
has the footer offset begun, or is complete. -/
theorem c51_full_rejected {S : Scheme} {a : Args} (hfull : a.opt = .full) (hv0 : a.version.1 < 2 ^ 16)
    (hv1 : a.version.2.1 < 2 ^ 16) (hv2 : a.version.2.2 < 2 ^ 16) {ev : List WriteEvent} {r : Res Unit} {k : Output}
    (h : runEncoder Output.device S a ⟨[], 0, ev⟩ = some (r, k)) :
    (∀ m, openFile k.file ≠ .ok m) ∨ ∃ w, LoopEnds S a w ∧
      ((∃ j, j ≤ 8 ∧ k.file = offsetPatched a w j) ∨
        ∃ d : Duration, d.asNanos ≤ a.elapsed.asNanos ∧ ({ a with elapsed := d } : Args).encode S = some (.ok k.file)) := by
  obtain ⟨s, hs, hk⟩ := c51_failure_leaves h
  rw [List.drop_nil, List.append_nil] at hk
  subst hk
  rcases hs with hs | ⟨w, he, ⟨c, hw⟩, hs | ⟨j, hj, hs⟩⟩
  · exact Or.inl fun m => c29_full_never_accepted hfull hv0 hv1 hv2 hs m
  · exact Or.inr ⟨w, he, Or.inl hs⟩
  · obtain ⟨d, h1, -, h2⟩ := c51_torn_elapsed hw he j hj
    rw [← hs] at h2
    exact Or.inr ⟨w, he, Or.inr ⟨d, by rw [h1]; exact Nat.mod_le _ _, h2⟩⟩

/-! ## Examples -/

/-- Outcome of the sample run: success, and the number of bytes on the device. -/
def deviceReport (k : Output) : Option (Bool × Nat) :=
  match runEncoder Output.device (Gorilla.codec.scheme false) sampleArgs k with
  | some (.ok _, k) => some (true, k.file.length)
  | some (_, k) => some (false, k.file.length)
  | none => none

/-- Short writes and an interruption: success, over an older and shorter file or a longer one. -/
example : deviceReport ⟨[7#8], 0, [.accept 3, .interrupted, .accept 9, .accept 5]⟩ = some (true, 293) ∧
    deviceReport ⟨List.replicate 500 7#8, 0, [.accept 3, .interrupted, .accept 9]⟩ = some (true, 500) := by
  decide +kernel

example : Accepting [.accept 3, .accept 9] := by simp [Accepting]

/-- Failures: in the header, and on a device that answers `Ok(0)`. -/
example : deviceReport ⟨[], 0, [.accept 9, .failed]⟩ = some (false, 9) ∧
    deviceReport ⟨[], 0, [.accept 30, .accept 7, .accept 0]⟩ = some (false, 37) := by
  decide +kernel

/-- What an interruption of `flush` does: it is not retried. -/
example : deviceReport ⟨[], 0, [.accept 30, .accept 1000, .interrupted]⟩ = some (false, 54) := by
  decide +kernel

/-- Through a buffer of 64 bytes: success, bytes on the device, the same after dropping it. -/
def bufferedReport (k : Output) : Option (Bool × Nat × Nat) :=
  match runEncoder Buffered.device (Gorilla.codec.scheme false) sampleArgs (.new 64 k) with
  | some (.ok _, b) => some (true, b.inner.file.length, b.drop.inner.file.length)
  | some (_, b) => some (false, b.inner.file.length, b.drop.inner.file.length)
  | none => none

/-- A failure whose bytes are only written when the buffer is dropped. -/
example : bufferedReport ⟨[], 0, [.accept 3, .interrupted, .accept 9]⟩ = some (true, 293, 293) ∧
    bufferedReport ⟨[], 0, [.accept 30, .accept 0]⟩ = some (false, 30, 54) := by
  decide +kernel

/-! ## An output that is not at its start -/

/-- Does the run succeed, and can the result be opened at the start of the device or where writing began? -/
def placementReport (k : Output) : Option (Bool × Bool × Bool) :=
  let accepted := fun f => match openFile f with
    | .ok _ => true
    | _ => false
  match runEncoder Output.device (Gorilla.codec.scheme false) sampleArgs k with
  | some (.ok _, k') => some (true, accepted k'.file, accepted (k'.file.drop k.pos))
  | some (_, _) => some (false, false, false)
  | none => none

/-- `encode` writes from the current position of its output but seeks to absolute positions for the two
patches: appending to an output that already holds something reports success and destroys the file. From the
start it works. -/
theorem c50_append_broken : placementReport ⟨List.replicate 16 7#8, 16, []⟩ = some (true, false, false) ∧
    placementReport ⟨List.replicate 16 7#8, 0, []⟩ = some (true, true, true) := by
  decide +kernel

end Ebi.Props
