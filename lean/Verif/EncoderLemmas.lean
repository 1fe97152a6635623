import Verif.Encoder
import Verif.Estimate

/-!
# Lemmas about the encoder: termination, input delivery, layout of the file
-/

namespace Ebi

/-! ## Input -/

/-- All bytes the source will deliver. -/
def Source.data : Source → List Byte
  | [] => []
  | .bytes bs :: rest => bs ++ data rest
  | _ :: rest => data rest

/-- No interruption, no failure, no premature `Ok(0)`: only short reads. -/
def Source.Clean (src : Source) : Prop := ∀ e ∈ src, ∃ bs, e = .bytes bs ∧ bs ≠ []

theorem Source.clean_cons {e : Event} {src : Source} (h : Source.Clean (e :: src)) :
    (∃ bs, e = .bytes bs ∧ bs ≠ []) ∧ Source.Clean src :=
  ⟨h e (by simp), fun x hx => h x (by simp [hx])⟩

theorem Source.read_clean {src : Source} (h : src.Clean) {n : Nat} (hn : 0 < n) :
    ∃ bs src', src.read n = (.got bs, src') ∧ src'.Clean ∧ src.data = bs ++ src'.data ∧
      bs.length ≤ n ∧ (bs = [] → src.data = []) := by
  cases src with
  | nil => exact ⟨[], [], rfl, h, rfl, by simp, by simp [data]⟩
  | cons e rest =>
    obtain ⟨⟨bs, rfl, hb⟩, hr⟩ := Source.clean_cons h
    by_cases hl : bs.length ≤ n
    · exact ⟨bs, rest, by simp [read, hl], hr, rfl, hl, fun e => absurd e hb⟩
    · refine ⟨bs.take n, .bytes (bs.drop n) :: rest, by simp [read, hl], ?_, ?_, by rw [List.length_take]; omega, ?_⟩
      · intro e he
        rcases List.mem_cons.1 he with rfl | he
        · exact ⟨_, rfl, by simp; omega⟩
        · exact hr e he
      · simp [data, ← List.append_assoc]
      · intro e
        rw [List.take_eq_nil_iff] at e
        rcases e with e | e
        · omega
        · exact absurd e hb

theorem readLoop_clean {src : Source} (h : src.Clean) (fuel left : Nat) (acc : List Byte)
    (hf : left ≤ fuel) :
    ∃ src', readLoop fuel left acc src = .ok (acc ++ src.data.take left, src') ∧ src'.Clean ∧
      src'.data = src.data.drop left := by
  induction fuel generalizing left acc src with
  | zero =>
    have : left = 0 := by omega
    subst this
    exact ⟨src, by simp [readLoop], h, by simp⟩
  | succ fuel ih =>
    by_cases h0 : left = 0
    · subst h0; exact ⟨src, by simp [readLoop], h, by simp⟩
    · obtain ⟨bs, src1, hr, hc, hd, hl, he⟩ := Source.read_clean h (n := left) (by omega)
      rw [readLoop, if_neg h0, hr]
      cases bs with
      | nil =>
        have e := he rfl
        rw [List.nil_append] at hd
        refine ⟨src1, by simp [e], hc, by rw [← hd, e]; simp⟩
      | cons b bs =>
        simp only
        simp only [List.length_cons] at hl
        obtain ⟨src2, h1, h2, h3⟩ := ih hc (left - (b :: bs).length) (acc ++ b :: bs)
          (by simp only [List.length_cons]; omega)
        refine ⟨src2, ?_, h2, ?_⟩
        · rw [h1, hd, List.take_append, List.take_of_length_le (l := b :: bs) (by simpa using hl),
            List.append_assoc]
        · rw [h3, hd, List.drop_append, List.drop_of_length_le (l := b :: bs) (by simpa using hl),
            List.nil_append]

theorem readToEnd_clean {src : Source} (h : src.Clean) : readToEnd src = .ok (src.data, []) := by
  induction src with
  | nil => rfl
  | cons e rest ih =>
    obtain ⟨⟨bs, rfl, hb⟩, hr⟩ := Source.clean_cons h
    cases bs with
    | nil => exact absurd rfl hb
    | cons b bs => simp [readToEnd, ih hr, Res.map, Source.data]

/-- Interruptions do not matter to `read_to_end`. -/
def Source.CleanOrInterrupted (src : Source) : Prop :=
  ∀ e ∈ src, e = .interrupted ∨ ∃ bs, e = .bytes bs ∧ bs ≠ []

theorem readToEnd_interrupted {src : Source} (h : src.CleanOrInterrupted) :
    readToEnd src = .ok (src.data, []) := by
  induction src with
  | nil => rfl
  | cons e rest ih =>
    have hr : Source.CleanOrInterrupted rest := fun x hx => h x (by simp [hx])
    rcases h e (by simp) with rfl | ⟨bs, rfl, hb⟩
    · simp [readToEnd, ih hr, Source.data]
    · cases bs with
      | nil => exact absurd rfl hb
      | cons b bs => simp [readToEnd, ih hr, Res.map, Source.data]

theorem toF64s_take (bs : List Byte) (c : Nat) : toF64s (bs.take (c * 8)) = (toF64s bs).take c := by
  induction c generalizing bs with
  | zero => simp [toF64s]
  | succ c ih =>
    by_cases h : bs.length < 8
    · rw [List.take_of_length_le (by omega), toF64s_short h]; simp
    · have e : bs = bs.take 8 ++ bs.drop 8 := by simp
      have l8 : (bs.take 8).length = 8 := by simp; omega
      rw [e, toF64s_append l8, List.take_succ_cons, ← ih, List.take_append, l8,
        List.take_of_length_le (l := bs.take 8) (by omega), toF64s_append l8]
      rw [show (c + 1) * 8 - 8 = c * 8 by omega]

theorem toF64s_drop (bs : List Byte) (c : Nat) : toF64s (bs.drop (c * 8)) = (toF64s bs).drop c := by
  induction c generalizing bs with
  | zero => simp
  | succ c ih =>
    by_cases h : bs.length < 8
    · rw [List.drop_of_length_le (by omega), toF64s_short h]; simp [toF64s]
    · have e : bs = bs.take 8 ++ bs.drop 8 := by simp
      have l8 : (bs.take 8).length = 8 := by simp; omega
      rw [e, toF64s_append l8, List.drop_succ_cons, ← ih, List.drop_append, l8,
        List.drop_of_length_le (l := bs.take 8) (by omega), List.nil_append]
      rw [show (c + 1) * 8 - 8 = c * 8 by omega]

theorem toF64s_length (bs : List Byte) : (toF64s bs).length = bs.length / 8 := by
  induction n : bs.length / 8 generalizing bs with
  | zero => rw [toF64s_short (by omega)]; rfl
  | succ k ih =>
    have e : bs = bs.take 8 ++ bs.drop 8 := by simp
    have l8 : (bs.take 8).length = 8 := by simp; omega
    rw [e, toF64s_append l8, List.length_cons, ih (bs.drop 8) (by rw [List.length_drop]; omega)]

/-- One chunk's worth of records. -/
def firstPart (k : Option Nat) (vs : List B64) : List B64 :=
  match k with
  | none => vs
  | some c => vs.take c

def restPart (k : Option Nat) (vs : List B64) : List B64 :=
  match k with
  | none => []
  | some c => vs.drop c

/-- The records per chunk in effect. -/
def ChunkOption.effective (o : ChunkOption) : Option Nat := o.bytesPerChunk.map (· / 8)

/-- The records per chunk the option asks for: `c` for a record count, `⌈3n/16⌉` for a byte size. -/
def ChunkOption.recordsPerChunk : ChunkOption → Option Nat
  | .full => none
  | .recordCount c => some c
  | .byteSize n => some ((3 * n + 15) / 16)

/-- The option asks for at least one record per chunk, and for less than `2^63` bytes. -/
def ChunkOption.Positive : ChunkOption → Prop
  | .full => True
  | .recordCount c => 0 < c ∧ c < 2 ^ 60
  | .byteSize n => 0 < n ∧ n < 2 ^ 51

theorem bytesPerChunk_aligned {o : ChunkOption} {n : Nat} (h : o.bytesPerChunk = some n) : n = n / 8 * 8 ∧ n < 2 ^ 64 := by
  cases o <;> simp only [ChunkOption.bytesPerChunk, Option.some.injEq, reduceCtorEq] at h <;> omega

theorem bufferLen_aligned {n : Nat} (h : n = n / 8 * 8) (hn : n < 2 ^ 64) : bufferLen n * 8 = n := by
  unfold bufferLen; omega

/-- The option asks for more than a buffer can hold. -/
def ChunkOption.Huge (o : ChunkOption) : Prop := ∃ n, o.bytesPerChunk = some n ∧ 2 ^ 63 ≤ n

theorem readChunk_huge {o : ChunkOption} (h : o.Huge) (src : Source) : readChunk o src = .panic := by
  obtain ⟨n, h1, h2⟩ := h
  obtain ⟨a1, a2⟩ := bytesPerChunk_aligned h1
  unfold readChunk readLessOrEqual
  rw [h1]
  simp only
  rw [bufferLen_aligned a1 a2, if_pos h2]

theorem ChunkOption.Positive.bytes {o : ChunkOption} (h : o.Positive) {n : Nat} (hn : o.bytesPerChunk = some n) :
    n < 2 ^ 63 := by
  cases o with
  | full => cases hn
  | recordCount c =>
    simp only [ChunkOption.bytesPerChunk, Option.some.injEq] at hn
    have h' : 0 < c ∧ c < 2 ^ 60 := h
    omega
  | byteSize m =>
    have h' : 0 < m ∧ m < 2 ^ 51 := h
    simp only [ChunkOption.bytesPerChunk, Option.some.injEq] at hn
    rw [estimateRecords_eq h'.2, Nat.mod_eq_of_lt (by omega)] at hn
    omega

theorem ChunkOption.Positive.not_huge {o : ChunkOption} (h : o.Positive) : ¬ o.Huge := fun ⟨_, h1, h2⟩ =>
  Nat.not_lt.2 h2 (h.bytes h1)

theorem ChunkOption.Positive.effective_eq {o : ChunkOption} (h : o.Positive) : o.effective = o.recordsPerChunk := by
  cases o with
  | full => rfl
  | recordCount c =>
    have h' : 0 < c ∧ c < 2 ^ 60 := h
    simp only [ChunkOption.effective, ChunkOption.bytesPerChunk, ChunkOption.recordsPerChunk, Option.map_some,
      Option.some.injEq]
    omega
  | byteSize m =>
    have h' : 0 < m ∧ m < 2 ^ 51 := h
    simp only [ChunkOption.effective, ChunkOption.bytesPerChunk, ChunkOption.recordsPerChunk, Option.map_some,
      Option.some.injEq]
    rw [estimateRecords_eq h'.2, Nat.mod_eq_of_lt (by omega)]
    omega

theorem readChunk_clean {opt : ChunkOption} (ho : ¬ opt.Huge) {src : Source} (h : src.Clean) :
    ∃ src', readChunk opt src = .ok (firstPart opt.effective (toF64s src.data), src') ∧
      src'.Clean ∧ toF64s src'.data = restPart opt.effective (toF64s src.data) := by
  unfold readChunk ChunkOption.effective
  cases hk : opt.bytesPerChunk with
  | none =>
    refine ⟨[], by simp [readToEnd_clean h, Res.map, firstPart], by intro e he; simp at he, ?_⟩
    simp [Source.data, toF64s, restPart]
  | some n =>
    obtain ⟨a1, a2⟩ := bytesPerChunk_aligned hk
    have hh : n < 2 ^ 63 := Nat.lt_of_not_le fun hc => ho ⟨n, hk, hc⟩
    obtain ⟨src', h1, h2, h3⟩ := readLoop_clean h n n [] (Nat.le_refl _)
    unfold readLessOrEqual
    simp only [Option.map_some]
    rw [bufferLen_aligned a1 a2, if_neg (by omega)]
    generalize n / 8 = c at a1
    subst a1
    refine ⟨src', by simp [h1, Res.map, firstPart, toF64s_take], h2, ?_⟩
    rw [h3, toF64s_drop]
    rfl

/-! ## Termination, for every input behaviour -/

theorem Source.weight_read {src src' : Source} {n : Nat} {bs : List Byte}
    (h : src.read n = (.got bs, src')) : src'.weight + bs.length ≤ src.weight := by
  cases src with
  | nil => simp [read] at h; obtain ⟨rfl, rfl⟩ := h; simp
  | cons e rest =>
    cases e with
    | bytes b =>
      simp only [read] at h
      split at h
      · simp only [Prod.mk.injEq, SourceRead.got.injEq] at h
        obtain ⟨rfl, rfl⟩ := h
        simp [weight]; omega
      · simp only [Prod.mk.injEq, SourceRead.got.injEq] at h
        obtain ⟨rfl, rfl⟩ := h
        simp [weight]; omega
    | interrupted => simp [read] at h
    | failed => simp [read] at h

theorem Source.weight_interrupted {src src' : Source} {n : Nat}
    (h : src.read n = (.interrupted, src')) : src'.weight ≤ src.weight := by
  cases src with
  | nil => simp [read] at h
  | cons e rest =>
    cases e with
    | bytes b => simp only [read] at h; split at h <;> simp at h
    | interrupted => simp [read] at h; subst h; simp [weight]
    | failed => simp [read] at h

theorem readLoop_weight {fuel left : Nat} {acc out : List Byte} {src src' : Source}
    (h : readLoop fuel left acc src = .ok (out, src')) :
    src'.weight + out.length ≤ src.weight + acc.length := by
  induction fuel generalizing left acc src with
  | zero => simp [readLoop] at h; obtain ⟨rfl, rfl⟩ := h; omega
  | succ fuel ih =>
    rw [readLoop] at h
    split at h
    · simp at h; obtain ⟨rfl, rfl⟩ := h; omega
    · split at h
      · rename_i s hr
        have := Source.weight_read hr
        simp at h; obtain ⟨rfl, rfl⟩ := h
        simp at this; omega
      · rename_i bs s _ hr
        have h1 := Source.weight_read hr
        have h2 := ih h
        rw [List.length_append] at h2
        omega
      · rename_i s hr
        have h1 := Source.weight_interrupted hr
        split at h
        · simp at h
        · simp at h; obtain ⟨rfl, rfl⟩ := h; omega
      · simp at h

theorem readToEnd_weight {src src' : Source} {out : List Byte} (h : readToEnd src = .ok (out, src')) :
    src'.weight + out.length ≤ src.weight := by
  induction src generalizing out src' with
  | nil => simp [readToEnd] at h; obtain ⟨rfl, rfl⟩ := h; simp
  | cons e rest ih =>
    cases e with
    | bytes b =>
      cases b with
      | nil => simp [readToEnd] at h; obtain ⟨rfl, rfl⟩ := h; simp [Source.weight]
      | cons b bs =>
        simp only [readToEnd] at h
        cases hr : readToEnd rest with
        | ok p =>
          rw [hr] at h
          simp only [Res.map, Res.ok.injEq, Prod.mk.injEq] at h
          obtain ⟨rfl, rfl⟩ := h
          have := ih hr
          simp [Source.weight]; omega
        | err => rw [hr] at h; simp [Res.map] at h
        | panic => rw [hr] at h; simp [Res.map] at h
    | interrupted =>
      simp only [readToEnd] at h
      have := ih h
      simp [Source.weight]; omega
    | failed => simp [readToEnd] at h

theorem readChunk_weight {opt : ChunkOption} {src src' : Source} {vs : List B64}
    (h : readChunk opt src = .ok (vs, src')) (hne : vs ≠ []) : src'.weight < src.weight := by
  have key : ∀ out : List Byte, vs = toF64s out → src'.weight + out.length ≤ src.weight →
      src'.weight < src.weight := by
    intro out e hw
    have h1 : 0 < (toF64s out).length := by rw [← e]; exact List.length_pos_iff.2 hne
    rw [toF64s_length] at h1
    omega
  unfold readChunk at h
  split at h
  · unfold readLessOrEqual at h
    rename_i n _
    split at h
    · cases h
    · cases hr : readLoop n n [] src with
      | ok p =>
        rw [hr] at h
        simp only [Res.map, Res.ok.injEq, Prod.mk.injEq] at h
        obtain ⟨rfl, rfl⟩ := h
        exact key p.1 rfl (by simpa using readLoop_weight hr)
      | err => rw [hr] at h; simp [Res.map] at h
      | panic => rw [hr] at h; simp [Res.map] at h
  · cases hr : readToEnd src with
    | ok p =>
      rw [hr] at h
      simp only [Res.map, Res.ok.injEq, Prod.mk.injEq] at h
      obtain ⟨rfl, rfl⟩ := h
      exact key p.1 rfl (by simpa using readToEnd_weight hr)
    | err => rw [hr] at h; simp [Res.map] at h
    | panic => rw [hr] at h; simp [Res.map] at h

theorem writeChunk_weight {S : Scheme} {opt : ChunkOption} {c c' : S.Comp} {w w' : FileWriter}
    (h : w.writeChunk S opt c = .ok (c', w')) :
    w'.reachesEof = true ∨ w'.src.weight < w.src.weight := by
  unfold FileWriter.writeChunk at h
  cases hr : readChunk opt w.src with
  | err => rw [hr] at h; simp at h
  | panic => rw [hr] at h; simp at h
  | ok p =>
    obtain ⟨buf, src⟩ := p
    rw [hr] at h
    simp only [Res.bind_ok] at h
    split at h
    · simp only [Res.ok.injEq, Prod.mk.injEq] at h
      obtain ⟨-, rfl⟩ := h; exact Or.inl rfl
    · rename_i hne
      have hw := readChunk_weight hr hne
      cases hc : S.compress c buf with
      | err => rw [hc] at h; simp at h
      | panic => rw [hc] at h; simp at h
      | ok c1 =>
        rw [hc] at h
        simp only [Res.bind_ok] at h
        split at h
        · simp only [Res.ok.injEq, Prod.mk.injEq] at h
          obtain ⟨-, rfl⟩ := h; exact Or.inl rfl
        · cases hp : S.prepare c1 with
          | err => rw [hp] at h; simp at h
          | panic => rw [hp] at h; simp at h
          | ok c2 =>
            rw [hp] at h
            simp only [Res.bind_ok, Res.ok.injEq, Prod.mk.injEq] at h
            obtain ⟨-, rfl⟩ := h; exact Or.inr hw

/-- The chunk loop stops, whatever the compressor does and the input delivers. -/
theorem encodeLoop_terminates (S : Scheme) (opt : ChunkOption) (fuel : Nat) (c : Option S.Comp)
    (w : FileWriter) (h : (if w.reachesEof then 0 else w.src.weight + 1) < fuel) :
    ∃ r, encodeLoop S opt fuel c w = some r := by
  induction fuel generalizing c w with
  | zero => omega
  | succ fuel ih =>
    rw [encodeLoop]
    split
    · exact ⟨_, rfl⟩
    · rename_i he
      rw [if_neg he] at h
      cases hw : w.writeChunk S opt (S.reset (c.getD S.build)) with
      | err => exact ⟨_, rfl⟩
      | panic => exact ⟨_, rfl⟩
      | ok p =>
        obtain ⟨c', w'⟩ := p
        simp only
        apply ih
        rcases writeChunk_weight hw with h1 | h1
        · rw [if_pos h1]; omega
        · split <;> omega

theorem encode_terminates (S : Scheme) (cfg : Config) (opt : ChunkOption) (version : Nat × Nat × Nat)
    (times : Times) (elapsed : Duration) (src : Source) :
    ∃ r, encode S cfg opt version times elapsed src = some r := by
  obtain ⟨r, h⟩ := encodeLoop_terminates S opt (src.weight + 2) none
    ((FileWriter.new src).writeHeader cfg opt version)
    (by simp [FileWriter.new, FileWriter.writeHeader])
  exact ⟨r.map fun w => w.finish cfg times elapsed, by simp [encode, h]⟩

theorem encodeLoop_mono {S : Scheme} {opt : ChunkOption} {fuel fuel' : Nat} {c : Option S.Comp}
    {w : FileWriter} {r : Res FileWriter} (h : encodeLoop S opt fuel c w = some r) (hle : fuel ≤ fuel') :
    encodeLoop S opt fuel' c w = some r := by
  induction fuel generalizing fuel' c w with
  | zero => simp [encodeLoop] at h
  | succ fuel ih =>
    obtain ⟨f', rfl⟩ : ∃ f', fuel' = f' + 1 := ⟨fuel' - 1, by omega⟩
    rw [encodeLoop] at h ⊢
    split
    · rename_i he; rw [if_pos he] at h; exact h
    · rename_i he
      rw [if_neg he] at h
      cases hw : w.writeChunk S opt (S.reset (c.getD S.build)) with
      | err => rw [hw] at h; exact h
      | panic => rw [hw] at h; exact h
      | ok p =>
        rw [hw] at h
        exact ih h (by omega)

/-! ## Only the concatenation of the input matters (without interruptions) -/

/-- A class of inputs from which `readChunk` gets what it wants, and which it does not leave (or the option
panics anyway). -/
def Reads (opt : ChunkOption) (Q : Source → Prop) : Prop := ¬ opt.Huge → ∀ src, Q src →
  ∃ src', readChunk opt src = .ok (firstPart opt.effective (toF64s src.data), src') ∧
    Q src' ∧ toF64s src'.data = restPart opt.effective (toF64s src.data)

theorem reads_clean (opt : ChunkOption) : Reads opt Source.Clean := fun ho _ h => readChunk_clean ho h

theorem reads_interrupted : Reads .full Source.CleanOrInterrupted := by
  intro _ src h
  refine ⟨[], ?_, by intro e he; simp at he, ?_⟩
  · simp [readChunk, ChunkOption.bytesPerChunk, ChunkOption.effective, readToEnd_interrupted h, Res.map, firstPart]
  · simp [Source.data, toF64s, restPart, ChunkOption.bytesPerChunk, ChunkOption.effective]

/-- Same writer up to the way the remaining input is delivered. -/
def SameData (Q : Source → Prop) (w1 w2 : FileWriter) : Prop :=
  Q w1.src ∧ Q w2.src ∧ toF64s w1.src.data = toF64s w2.src.data ∧ w1.footers = w2.footers ∧
    w1.totalBytesIn = w2.totalBytesIn ∧ w1.totalBytesOut = w2.totalBytesOut ∧
    w1.reachesEof = w2.reachesEof ∧ w1.out = w2.out

/-- Lift a relation to results. -/
def Res.Rel {α β : Type} (R : α → β → Prop) : Res α → Res β → Prop
  | .ok a, .ok b => R a b
  | .err, .err => True
  | .panic, .panic => True
  | _, _ => False

theorem writeChunk_sameData {S : Scheme} {opt : ChunkOption} {Q : Source → Prop} (hQ : Reads opt Q)
    (c : S.Comp) {w1 w2 : FileWriter} (h : SameData Q w1 w2) :
    Res.Rel (fun p q => p.1 = q.1 ∧ SameData Q p.2 q.2) (w1.writeChunk S opt c)
      (w2.writeChunk S opt c) := by
  obtain ⟨hc1, hc2, hd, h1, h2, h3, h4, h5⟩ := h
  by_cases ho : opt.Huge
  · unfold FileWriter.writeChunk
    rw [readChunk_huge ho, readChunk_huge ho]
    trivial
  obtain ⟨s1, r1, c1, d1⟩ := hQ ho _ hc1
  obtain ⟨s2, r2, c2, d2⟩ := hQ ho _ hc2
  have hn : w1.nextLogical = w2.nextLogical := by simp [FileWriter.nextLogical, h1]
  have hd' : toF64s s1.data = toF64s s2.data := by rw [d1, d2, hd]
  unfold FileWriter.writeChunk
  rw [r1, r2, hd]
  simp only [Res.bind_ok]
  split
  · exact ⟨rfl, c1, c2, hd', h1, h2, h3, rfl, h5⟩
  · cases hc : S.compress c (firstPart opt.effective (toF64s w2.src.data)) with
    | err => trivial
    | panic => trivial
    | ok c3 =>
      simp only [Res.bind_ok]
      split
      · exact ⟨rfl, c1, c2, hd', h1, h2, h3, rfl, h5⟩
      · cases hp : S.prepare c3 with
        | err => trivial
        | panic => trivial
        | ok c4 =>
          simp only [Res.bind_ok]
          exact ⟨rfl, c1, c2, hd', by simp [h1, h3, hn], by simp [h2], by simp [h3], h4, by simp [h5]⟩

/-- Lift a relation to options. -/
def OptRel {α β : Type} (R : α → β → Prop) : Option α → Option β → Prop
  | some a, some b => R a b
  | none, none => True
  | _, _ => False

theorem encodeLoop_sameData {S : Scheme} {opt : ChunkOption} {Q : Source → Prop} (hQ : Reads opt Q)
    (fuel : Nat) (c : Option S.Comp) {w1 w2 : FileWriter} (h : SameData Q w1 w2) :
    OptRel (Res.Rel (SameData Q)) (encodeLoop S opt fuel c w1) (encodeLoop S opt fuel c w2) := by
  induction fuel generalizing c w1 w2 with
  | zero => trivial
  | succ fuel ih =>
    have he : w1.reachesEof = w2.reachesEof := h.2.2.2.2.2.2.1
    rw [encodeLoop, encodeLoop, he]
    split
    · exact h
    · have hw := writeChunk_sameData (S := S) hQ (S.reset (c.getD S.build)) h
      cases h1 : w1.writeChunk S opt (S.reset (c.getD S.build)) with
      | err =>
        rw [h1] at hw
        cases h2 : w2.writeChunk S opt (S.reset (c.getD S.build)) with
        | err => trivial
        | panic => rw [h2] at hw; exact hw
        | ok q => rw [h2] at hw; exact hw.elim
      | panic =>
        rw [h1] at hw
        cases h2 : w2.writeChunk S opt (S.reset (c.getD S.build)) with
        | err => rw [h2] at hw; exact hw
        | panic => trivial
        | ok q => rw [h2] at hw; exact hw.elim
      | ok p =>
        rw [h1] at hw
        cases h2 : w2.writeChunk S opt (S.reset (c.getD S.build)) with
        | err => rw [h2] at hw; exact hw.elim
        | panic => rw [h2] at hw; exact hw.elim
        | ok q =>
          rw [h2] at hw
          obtain ⟨e, hs⟩ := hw
          simp only
          rw [e]
          exact ih _ hs

/-! ## Layout -/

/-- The chunk directory, including the next chunk footer, of chunks given as (records, bytes). -/
def directory (p l : Nat) : List (List B64 × List Byte) → List ChunkFooter
  | [] => [⟨p, l⟩]
  | (c, b) :: cs => ⟨p, l⟩ :: directory (p + b.length) (l + c.length) cs

/-- All chunk bytes. -/
def blobs (cs : List (List B64 × List Byte)) : List Byte := cs.flatMap Prod.snd

/-- Number of records. -/
def recordCount (cs : List (List B64 × List Byte)) : Nat := (cs.flatMap Prod.fst).length

theorem directory_snoc (p l : Nat) (cs : List (List B64 × List Byte)) (c : List B64) (b : List Byte) :
    directory p l (cs ++ [(c, b)]) = directory p l cs ++
      [⟨p + (blobs cs).length + b.length, l + recordCount cs + c.length⟩] := by
  induction cs generalizing p l with
  | nil => simp [directory, blobs, recordCount]
  | cons q cs ih =>
    obtain ⟨c', b'⟩ := q
    simp [directory, ih, blobs, recordCount]
    omega

theorem directory_ne_nil (p l : Nat) (cs : List (List B64 × List Byte)) : directory p l cs ≠ [] := by
  cases cs with
  | nil => simp [directory]
  | cons q cs => simp [directory]

theorem directory_getLast (p l : Nat) (cs : List (List B64 × List Byte)) :
    (directory p l cs).getLast? = some ⟨p + (blobs cs).length, l + recordCount cs⟩ := by
  induction cs generalizing p l with
  | nil => simp [directory, blobs, recordCount]
  | cons q cs ih =>
    obtain ⟨c', b'⟩ := q
    rw [directory, List.getLast?_cons, ih]
    simp [blobs, recordCount]
    omega

theorem directory_length (p l : Nat) (cs : List (List B64 × List Byte)) :
    (directory p l cs).length = cs.length + 1 := by
  induction cs generalizing p l with
  | nil => rfl
  | cons q cs ih => obtain ⟨c', b'⟩ := q; simp [directory, ih]

/-- How the records are cut into chunks. -/
inductive Split (k : Option Nat) : List B64 → List (List B64) → Prop
  | nil : Split k [] []
  | cons {vs cs} : vs ≠ [] → Split k (restPart k vs) cs → Split k vs (firstPart k vs :: cs)

/-- A compressor works on every non-empty chunk of values satisfying `Ok` with fewer than `maxLen`
records: it accepts the chunk in any (reset) state, accounts for it, and the reader gives back the
values seen through `view` (the identity for lossless schemes). `Good` is an invariant of the
compressor's states (its configuration). -/
structure Scheme.LawWith (S : Scheme) (Good : S.Comp → Prop) (view : B64 → B64) (Ok : B64 → Prop)
    (maxLen : Nat) : Prop where
  build : Good S.build
  chunk : ∀ (c : S.Comp) (vs : List B64), Good c → vs ≠ [] → (∀ v ∈ vs, Ok v) → vs.length < maxLen →
    ∃ c' c'', S.compress (S.reset c) vs = .ok c' ∧ S.totalBytesIn c' = 8 * vs.length ∧
      S.prepare c' = .ok c'' ∧ S.totalBytesIn c'' = 8 * vs.length ∧
      S.decode vs.length (S.buffers c'') = .ok (vs.map view) ∧ Good c''

/-- The same with some invariant. -/
def Scheme.Law (S : Scheme) (view : B64 → B64) (Ok : B64 → Prop) (maxLen : Nat) : Prop :=
  ∃ Good, S.LawWith Good view Ok maxLen

/-- The compressor states between two chunks of an encoder run. -/
inductive Scheme.Reach (S : Scheme) : S.Comp → Prop
  | build : Reach S S.build
  | chunk {c c' c'' : S.Comp} {vs : List B64} : Reach S c → S.compress (S.reset c) vs = .ok c' →
      S.prepare c' = .ok c'' → Reach S c''

/-- The bytes the encoder's compressor, reset, makes of one chunk of records. -/
def Scheme.Produces (S : Scheme) (vs : List B64) (bs : List Byte) : Prop :=
  ∃ c c' c'', S.Reach c ∧ S.compress (S.reset c) vs = .ok c' ∧ S.prepare c' = .ok c'' ∧ bs = S.buffers c''

/-- State of the writer after the chunks `cs`. -/
structure Written (hdr : List Byte) (cs : List (List B64 × List Byte)) (w : FileWriter) : Prop where
  out : w.out = hdr ++ blobs cs
  totalOut : w.totalBytesOut = (blobs cs).length
  totalIn : w.totalBytesIn = 8 * recordCount cs
  footers : w.footers = directory headerSize 0 cs

theorem Written.nextLogical {hdr : List Byte} {cs : List (List B64 × List Byte)} {w : FileWriter}
    (h : Written hdr cs w) : w.nextLogical = recordCount cs := by
  simp [FileWriter.nextLogical, h.footers, directory_getLast]

theorem ChunkOption.Positive.pos {o : ChunkOption} (h : o.Positive) {c : Nat} (hk : o.recordsPerChunk = some c) :
    0 < c := by
  cases o <;> simp only [ChunkOption.recordsPerChunk, Option.some.injEq, reduceCtorEq] at hk <;>
    simp only [ChunkOption.Positive] at h <;> omega

theorem firstPart_ne_nil {o : ChunkOption} (h : o.Positive) {vs : List B64} (hv : vs ≠ []) :
    firstPart o.recordsPerChunk vs ≠ [] := by
  cases hk : o.recordsPerChunk with
  | none => simpa [firstPart] using hv
  | some c =>
    simp only [firstPart, ne_eq, List.take_eq_nil_iff, not_or]
    exact ⟨Nat.pos_iff_ne_zero.1 (h.pos hk), hv⟩

theorem first_append_rest (k : Option Nat) (vs : List B64) : firstPart k vs ++ restPart k vs = vs := by
  cases k <;> simp [firstPart, restPart]

theorem restPart_length {o : ChunkOption} (h : o.Positive) {vs : List B64} (hv : vs ≠ []) :
    (restPart o.recordsPerChunk vs).length < vs.length := by
  have h1 := congrArg List.length (first_append_rest o.recordsPerChunk vs)
  have h2 := List.length_pos_iff.2 (firstPart_ne_nil h hv)
  rw [List.length_append] at h1
  omega

/-- The chunk loop, from any intermediate state. -/
theorem encodeLoop_spec {S : Scheme} {Good : S.Comp → Prop} {view : B64 → B64} {Ok : B64 → Prop}
    {maxLen : Nat} (L : S.LawWith Good view Ok maxLen) {opt : ChunkOption} (hpos : opt.Positive) {hdr : List Byte}
    {done : List (List B64 × List Byte)} (fuel : Nat) (c : Option S.Comp) (hgood : Good (c.getD S.build))
    (hreach : S.Reach (c.getD S.build)) {w : FileWriter} (hw : Written hdr done w) (hsrc : w.src.Clean) (heof : w.reachesEof = false)
    (hok : ∀ v ∈ toF64s w.src.data, Ok v) (hlen : (toF64s w.src.data).length < maxLen)
    (hf : (toF64s w.src.data).length + 2 ≤ fuel) :
    ∃ w' new, encodeLoop S opt fuel c w = some (.ok w') ∧ Written hdr (done ++ new) w' ∧
      Split opt.recordsPerChunk (toF64s w.src.data) (new.map Prod.fst) ∧
      ∀ p ∈ new, S.decode p.1.length p.2 = .ok (p.1.map view) ∧ S.Produces p.1 p.2 := by
  induction fuel generalizing c w done with
  | zero => omega
  | succ fuel ih =>
    obtain ⟨src', hr, hc, hd⟩ := readChunk_clean hpos.not_huge hsrc
    rw [hpos.effective_eq] at hr hd
    rw [encodeLoop, heof, if_neg (by simp)]
    by_cases hv : toF64s w.src.data = []
    · -- end of input
      have hb : firstPart opt.recordsPerChunk (toF64s w.src.data) = [] := by
        rw [hv]; cases opt.recordsPerChunk <;> simp [firstPart]
      obtain ⟨f, rfl⟩ : ∃ f, fuel = f + 1 := ⟨fuel - 1, by omega⟩
      refine ⟨{ w with src := src', reachesEof := true }, [], ?_, ?_, ?_, by simp⟩
      · simp [FileWriter.writeChunk, hr, hb, encodeLoop]
      · rw [List.append_nil]; exact ⟨hw.out, hw.totalOut, hw.totalIn, hw.footers⟩
      · rw [hv]; exact Split.nil
    · have hb := firstPart_ne_nil hpos hv
      have happ := first_append_rest opt.recordsPerChunk (toF64s w.src.data)
      have hl1 := restPart_length hpos hv
      have hl0 := congrArg List.length happ
      rw [List.length_append] at hl0
      obtain ⟨c1, c2, e1, e2, e3, e4, e5, e6⟩ := L.chunk (c.getD S.build)
        (firstPart opt.recordsPerChunk (toF64s w.src.data)) hgood hb
        (fun v hv => hok v (by rw [← happ]; simp [hv])) (by omega)
      have hbl := List.length_pos_iff.2 hb
      generalize hP : firstPart opt.recordsPerChunk (toF64s w.src.data) = P at *
      have hwc : w.writeChunk S opt (S.reset (c.getD S.build)) = .ok (c2, { w with
          src := src'
          out := w.out ++ S.buffers c2
          totalBytesIn := w.totalBytesIn + 8 * P.length
          totalBytesOut := w.totalBytesOut + (S.buffers c2).length
          footers := w.footers ++ [⟨headerSize + (w.totalBytesOut + (S.buffers c2).length),
            w.nextLogical + P.length⟩] }) := by
        have h8 : ¬ 8 * P.length = 0 := by omega
        simp [FileWriter.writeChunk, hr, hb, e1, e2, e3, e4, h8]
      rw [hwc]
      simp only
      have hW : Written hdr (done ++ [(P, S.buffers c2)]) { w with
          src := src'
          out := w.out ++ S.buffers c2
          totalBytesIn := w.totalBytesIn + 8 * P.length
          totalBytesOut := w.totalBytesOut + (S.buffers c2).length
          footers := w.footers ++ [⟨headerSize + (w.totalBytesOut + (S.buffers c2).length),
            w.nextLogical + P.length⟩] } := by
        refine ⟨?_, ?_, ?_, ?_⟩
        · simp [hw.out, blobs]
        · simp [hw.totalOut, blobs]
        · simp [hw.totalIn, recordCount]; omega
        · simp only [hw.footers, directory_snoc, hw.totalOut, hw.nextLogical]
          congr 3
          · omega
          · omega
      obtain ⟨w', new, h1, h2, h3, h4⟩ := ih (some c2) e6 (.chunk hreach e1 e3) hW hc heof
        (by simp only [hd]; intro v hv'; exact hok v (by rw [← happ]; simp [hv']))
        (by simp only [hd]; omega) (by simp only [hd]; omega)
      refine ⟨w', (P, S.buffers c2) :: new, h1, by simpa using h2, ?_, ?_⟩
      · rw [List.map_cons, ← hP]
        refine Split.cons hv ?_
        simpa only [hd] using h3
      · intro p hp
        rcases List.mem_cons.1 hp with rfl | hp
        · exact ⟨e5, _, _, _, hreach, e1, e3, rfl⟩
        · exact h4 p hp

/-! ## The finished file -/

/-- The file with its two patches applied: header, chunks, footer. -/
def layout (cfg : Config) (opt : ChunkOption) (version : Nat × Nat × Nat) (times : Times)
    (elapsed : Duration) (cs : List (List B64 × List Byte)) : List Byte :=
  Header.bytes ⟨magicNumber, cfg.scheme, opt, headerSize + (blobs cs).length, version⟩ ++
    (blobs cs ++ footerBytesWith elapsed.asNanos (recordCount cs) (directory headerSize 0 cs).dropLast
      cfg times)

theorem overwrite_mid (a old new b : List Byte) (h : old.length = new.length) :
    overwrite a.length new (a ++ (old ++ b)) = a ++ (new ++ b) := by
  unfold overwrite
  have : a.length - (a ++ (old ++ b)).length = 0 := by simp
  simp only [this, List.replicate_zero, List.append_nil]
  rw [List.take_append_of_le_length (Nat.le_refl _), List.take_length, List.append_assoc,
    ← List.append_assoc a old, List.drop_append_of_le_length (by simp; omega),
    List.drop_of_length_le (by simp; omega), List.nil_append]

theorem finish_eq {cfg : Config} {opt : ChunkOption} {version : Nat × Nat × Nat}
    {cs : List (List B64 × List Byte)} {w : FileWriter}
    (hw : Written (headerBytes cfg opt version) cs w) (times : Times) (elapsed : Duration) :
    w.finish cfg times elapsed = layout cfg opt version times elapsed cs := by
  have hn := hw.nextLogical
  unfold FileWriter.finish FileWriter.elapsedSlot FileWriter.chunkFooters
  rw [hn, hw.out, hw.totalOut, hw.footers]
  simp only
  generalize hD : (directory headerSize 0 cs).dropLast = D
  -- patch the footer offset
  have hb : ∀ n, Header.bytes ⟨magicNumber, cfg.scheme, opt, n, version⟩
      = (magicNumber ++ (leBytes 1 0 ++ (leBytes 1 cfg.scheme.code ++ opt.bytes))) ++ (leBytes 8 n ++
        (leBytes 2 version.1 ++ (leBytes 2 version.2.1 ++ leBytes 2 version.2.2))) := by
    intro n; simp [Header.bytes]
  have hslot : footerOffsetSlot
      = (magicNumber ++ (leBytes 1 0 ++ (leBytes 1 cfg.scheme.code ++ opt.bytes))).length := by
    simp [magicNumber, footerOffsetSlot, ChunkOption.bytes_length]
  have e1 : overwrite footerOffsetSlot (leBytes 8 (headerSize + (blobs cs).length))
      ((headerBytes cfg opt version ++ blobs cs) ++ footerBytes (recordCount cs) D cfg times)
      = Header.bytes ⟨magicNumber, cfg.scheme, opt, headerSize + (blobs cs).length, version⟩
        ++ (blobs cs ++ footerBytes (recordCount cs) D cfg times) := by
    rw [headerBytes, hb, hb, hslot]
    simp only [List.append_assoc]
    have := overwrite_mid (magicNumber ++ (leBytes 1 0 ++ (leBytes 1 cfg.scheme.code ++ opt.bytes)))
      (leBytes 8 0) (leBytes 8 (headerSize + (blobs cs).length))
      (leBytes 2 version.1 ++ (leBytes 2 version.2.1 ++ (leBytes 2 version.2.2 ++
        (blobs cs ++ footerBytes (recordCount cs) D cfg times)))) (by simp)
    simpa only [List.append_assoc] using this
  rw [e1]
  -- patch the elapsed time
  have hm : (Header.mk magicNumber cfg.scheme opt (headerSize + (blobs cs).length) version).magic.length
      = 4 := rfl
  have e2 := overwrite_mid
    (Header.bytes ⟨magicNumber, cfg.scheme, opt, headerSize + (blobs cs).length, version⟩ ++ (blobs cs ++
      (leBytes 8 (recordCount cs) ++ (leBytes 8 D.length ++ (D.flatMap ChunkFooter.bytes ++
        cfg.serialize)))))
    (leBytes 16 0) (leBytes 16 elapsed.asNanos) (times.bytes ++ leBytes 4 0) (by simp)
  have hl : (Header.bytes ⟨magicNumber, cfg.scheme, opt, headerSize + (blobs cs).length, version⟩ ++
      (blobs cs ++ (leBytes 8 (recordCount cs) ++ (leBytes 8 D.length ++
        (D.flatMap ChunkFooter.bytes ++ cfg.serialize))))).length
      = headerSize + (blobs cs).length + (footer0Size + D.length * chunkFooterSize
        + cfg.serializedSize + 0) := by
    simp only [List.length_append, Header.bytes_length _ hm, leBytes_length, chunkFooters_length,
      Config.serialize_length, footer0Size, chunkFooterSize]
    omega
  rw [hl] at e2
  simp only [layout, footerBytes, footerBytesWith, hD]
  simp only [List.append_assoc] at e2 ⊢
  exact e2

theorem directory_start (p l : Nat) : directory p l [] = [⟨p, l⟩] := rfl

/-- What `encode` writes. -/
theorem encode_spec {S : Scheme} {view : B64 → B64} {Ok : B64 → Prop} {maxLen : Nat}
    (L : S.Law view Ok maxLen) (cfg : Config) {opt : ChunkOption} (hpos : opt.Positive)
    (version : Nat × Nat × Nat) (times : Times) (elapsed : Duration) {src : Source} (hsrc : src.Clean)
    (hok : ∀ v ∈ toF64s src.data, Ok v) (hlen : (toF64s src.data).length < maxLen) :
    ∃ cs, encode S cfg opt version times elapsed src
        = some (.ok (layout cfg opt version times elapsed cs)) ∧
      Split opt.recordsPerChunk (toF64s src.data) (cs.map Prod.fst) ∧
      ∀ p ∈ cs, S.decode p.1.length p.2 = .ok (p.1.map view) ∧ S.Produces p.1 p.2 := by
  obtain ⟨Good, L⟩ := L
  have hdata : ∀ s : Source, s.data.length ≤ s.weight := by
    intro s
    induction s with
    | nil => simp [Source.data]
    | cons e rest ih => cases e <;> simp [Source.data, Source.weight] <;> omega
  have hl := toF64s_length src.data
  have hl2 := hdata src
  have hw0 : Written (headerBytes cfg opt version) [] ((FileWriter.new src).writeHeader cfg opt version) :=
    ⟨by simp [FileWriter.writeHeader, FileWriter.new, blobs],
      by simp [FileWriter.writeHeader, FileWriter.new, blobs],
      by simp [FileWriter.writeHeader, FileWriter.new, recordCount],
      by simp [FileWriter.writeHeader, FileWriter.new, directory]⟩
  obtain ⟨w', new, h1, h2, h3, h4⟩ := encodeLoop_spec L hpos (src.weight + 2) none L.build .build hw0
    (by exact hsrc) rfl (by exact hok) (by exact hlen)
    (by simp only [FileWriter.writeHeader, FileWriter.new]; omega)
  refine ⟨new, ?_, h3, h4⟩
  rw [List.nil_append] at h2
  simp only [encode, h1, Option.map_some, Res.map]
  rw [finish_eq h2]

/-- Two inputs of the same class with the same records give the same outcome. -/
theorem encode_sameData (S : Scheme) (cfg : Config) {opt : ChunkOption} {Q : Source → Prop}
    (hQ : Reads opt Q) (version : Nat × Nat × Nat) (times : Times) (elapsed : Duration)
    {src1 src2 : Source} (h1 : Q src1) (h2 : Q src2) (hd : toF64s src1.data = toF64s src2.data) :
    encode S cfg opt version times elapsed src1 = encode S cfg opt version times elapsed src2 := by
  obtain ⟨r1, e1⟩ := encodeLoop_terminates S opt (src1.weight + 2) none
    ((FileWriter.new src1).writeHeader cfg opt version)
    (by simp [FileWriter.new, FileWriter.writeHeader])
  obtain ⟨r2, e2⟩ := encodeLoop_terminates S opt (src2.weight + 2) none
    ((FileWriter.new src2).writeHeader cfg opt version)
    (by simp [FileWriter.new, FileWriter.writeHeader])
  have m1 := encodeLoop_mono e1 (Nat.le_max_left (src1.weight + 2) (src2.weight + 2))
  have m2 := encodeLoop_mono e2 (Nat.le_max_right (src1.weight + 2) (src2.weight + 2))
  have hs := encodeLoop_sameData (S := S) hQ (max (src1.weight + 2) (src2.weight + 2)) none
    (w1 := (FileWriter.new src1).writeHeader cfg opt version)
    (w2 := (FileWriter.new src2).writeHeader cfg opt version)
    ⟨h1, h2, hd, rfl, rfl, rfl, rfl, rfl⟩
  rw [m1, m2] at hs
  unfold encode
  simp only [e1, e2, Option.map_some, Option.some.injEq]
  cases r1 with
  | err => cases r2 with
    | err => rfl
    | panic => exact hs.elim
    | ok w2 => exact hs.elim
  | panic => cases r2 with
    | err => exact hs.elim
    | panic => rfl
    | ok w2 => exact hs.elim
  | ok w1 => cases r2 with
    | err => exact hs.elim
    | panic => exact hs.elim
    | ok w2 =>
      obtain ⟨-, -, -, a1, a2, a3, a4, a5⟩ := hs
      simp only [Res.map, FileWriter.finish, FileWriter.elapsedSlot, FileWriter.chunkFooters,
        FileWriter.nextLogical, a1, a3, a5]

end Ebi
