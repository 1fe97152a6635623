import Verif.Output
import Verif.EncoderLemmas

/-!
# Lemmas on the output device
-/

namespace Ebi

theorem overwrite_at (s b t : List Byte) : overwrite s.length b (s ++ t) = (s ++ b) ++ t.drop b.length := by
  have h0 : s.length - (s ++ t).length = 0 := by simp
  unfold overwrite
  rw [h0]
  simp only [List.replicate_zero, List.append_nil, List.take_append_of_le_length (Nat.le_refl _), List.take_length]
  rw [List.drop_append]
  simp

theorem overwrite_split {p : Nat} {f : List Byte} (h : p ≤ f.length) (b : List Byte) :
    overwrite p b f = (f.take p ++ b) ++ f.drop (p + b.length) := by
  have h1 := overwrite_at (f.take p) b (f.drop p)
  rw [List.take_append_drop, List.length_take, Nat.min_eq_left h, List.drop_drop] at h1
  exact h1

theorem overwrite_overwrite {p : Nat} {f : List Byte} (h : p ≤ f.length) (a b : List Byte) :
    overwrite (p + a.length) b (overwrite p a f) = overwrite p (a ++ b) f := by
  have hl : p + a.length = (f.take p ++ a).length := by
    rw [List.length_append, List.length_take, Nat.min_eq_left h]
  rw [overwrite_split h a, overwrite_split h (a ++ b)]
  conv => lhs; rw [hl]
  rw [overwrite_at, List.drop_drop, List.length_append]
  simp [Nat.add_assoc, Nat.min_eq_left h]

theorem overwrite_nil {p : Nat} {f : List Byte} (h : p ≤ f.length) : overwrite p [] f = f := by
  rw [overwrite_split h]
  simp

theorem overwrite_le_length {p : Nat} {f : List Byte} (h : p ≤ f.length) (b : List Byte) :
    p + b.length ≤ (overwrite p b f).length := by
  rw [overwrite_split h]
  simp
  omega

theorem overwrite_front {p : Nat} {f b : List Byte} (h : p + b.length ≤ f.length) (t : List Byte) :
    overwrite p b (f ++ t) = overwrite p b f ++ t ∧ (overwrite p b f).length = f.length := by
  have hp : p ≤ f.length := by omega
  constructor
  · rw [overwrite_split hp, overwrite_split (by simp; omega), List.take_append_of_le_length hp,
      List.drop_append_of_le_length h]
    simp
  · rw [overwrite_split hp]
    simp
    omega

/-- `write_all` puts some first part of the bytes in place; success means all of them. -/
theorem writeLoop_spec (ev : List WriteEvent) (bs f : List Byte) (p : Nat) (hp : p ≤ f.length) :
    ∃ j, j ≤ bs.length ∧ (writeLoop ev bs f p).2.2.file = overwrite p (bs.take j) f ∧
      (writeLoop ev bs f p).2.2.pos = p + j ∧ (writeLoop ev bs f p).2.1 = bs.drop j ∧
      ((writeLoop ev bs f p).1 = .ok () ∧ j = bs.length ∨ (writeLoop ev bs f p).1 = .err) ∧
      (∀ e ∈ (writeLoop ev bs f p).2.2.events, e ∈ ev) ∧
      ((∀ e ∈ ev, e ≠ .failed ∧ e ≠ .accept 0) → (writeLoop ev bs f p).1 = .ok ()) := by
  induction ev generalizing bs f p with
  | nil =>
    cases bs with
    | nil => exact ⟨0, by simp [writeLoop, overwrite_nil hp]⟩
    | cons b bs =>
      refine ⟨(b :: bs).length, Nat.le_refl _, ?_, rfl, by rw [List.drop_length]; rfl, Or.inl ⟨rfl, rfl⟩, by simp [writeLoop], fun _ => rfl⟩
      rw [List.take_length]
      rfl
  | cons e ev ih =>
    cases bs with
    | nil => exact ⟨0, by simp [writeLoop, overwrite_nil hp]⟩
    | cons b bs =>
      cases e with
      | failed =>
        refine ⟨0, by simp, by simp [writeLoop, overwrite_nil hp], rfl, rfl, Or.inr rfl, ?_, ?_⟩
        · intro e he; exact List.mem_cons_of_mem _ he
        · intro h; exact absurd rfl (h .failed (by simp)).1
      | interrupted =>
        obtain ⟨j, h1, h2, h3, h0, h4, h5, h6⟩ := ih (b :: bs) f p hp
        refine ⟨j, h1, h2, h3, h0, h4, fun e he => List.mem_cons_of_mem _ (h5 e he), fun h => ?_⟩
        exact h6 fun e he => h e (by simp [he])
      | accept n =>
        cases n with
        | zero =>
          refine ⟨0, by simp, by simp [writeLoop, overwrite_nil hp], rfl, rfl, Or.inr rfl, ?_, ?_⟩
          · intro e he; exact List.mem_cons_of_mem _ he
          · intro h; exact absurd rfl (h (.accept 0) (by simp)).2
        | succ n =>
          generalize hl : b :: bs = l
          have hw : writeLoop (.accept (n + 1) :: ev) l f p
              = writeLoop ev (l.drop (n + 1)) (overwrite p (l.take (n + 1)) f) (p + (l.take (n + 1)).length) := by
            rw [← hl]; rfl
          obtain ⟨j, h1, h2, h3, h0, h4, h5, h6⟩ := ih (l.drop (n + 1)) (overwrite p (l.take (n + 1)) f)
            (p + (l.take (n + 1)).length) (overwrite_le_length hp _)
          rw [hw]
          rw [overwrite_overwrite hp] at h2
          rw [List.length_drop] at h1 h4
          have hsplit : l.take (n + 1) ++ (l.drop (n + 1)).take j = l.take ((l.take (n + 1)).length + j) := by
            rw [List.length_take]
            by_cases hn : n + 1 ≤ l.length
            · rw [Nat.min_eq_left hn]
              exact List.take_add.symm
            · rw [List.drop_of_length_le (by omega), List.take_nil, List.append_nil,
                List.take_of_length_le (by omega), List.take_of_length_le (by omega)]
          have hdrop : (l.drop (n + 1)).drop j = l.drop ((l.take (n + 1)).length + j) := by
            rw [List.length_take, List.drop_drop]
            by_cases hn : n + 1 ≤ l.length
            · rw [Nat.min_eq_left hn]
            · rw [List.drop_of_length_le (by omega), List.drop_of_length_le (by omega)]
          refine ⟨(l.take (n + 1)).length + j, by rw [List.length_take]; omega, by rw [h2, hsplit],
            by rw [h3]; omega, by rw [h0, hdrop], ?_, fun e he => List.mem_cons_of_mem _ (h5 e he), fun h => ?_⟩
          · rcases h4 with ⟨h4, h4'⟩ | h4
            · exact Or.inl ⟨h4, by rw [List.length_take]; omega⟩
            · exact Or.inr h4
          · exact h6 fun e he => h e (by simp [he])

/-- Events that make no call fail. -/
def Accepting (ev : List WriteEvent) : Prop := ∀ e ∈ ev, ∃ n, e = .accept (n + 1)

theorem writeLoop_good {ev : List WriteEvent} {bs f : List Byte} {p : Nat} (hp : p ≤ f.length) (ha : Accepting ev) :
    (writeLoop ev bs f p).1 = .ok () ∧ Accepting (writeLoop ev bs f p).2.2.events := by
  obtain ⟨j, -, -, -, -, -, h5, h6⟩ := writeLoop_spec ev bs f p hp
  refine ⟨h6 fun e he => ?_, fun e he => ha e (h5 e he)⟩
  obtain ⟨n, rfl⟩ := ha e he
  simp

/-! ## What the proofs need of a device -/

/-- `At f p bs k`: with the device positioned at `p` of contents `f`, the bytes `bs` have been written and
accepted (they may not all be on the device yet). `Good k`: no call will fail. -/
structure Device.Law {K : Type} (D : Device K) (At : List Byte → Nat → List Byte → K → Prop) (Good : K → Prop) :
    Prop where
  write : ∀ {f p bs k}, p ≤ f.length → At f p bs k → ∀ new, ∃ i, i ≤ new.length ∧
    At f p (bs ++ new.take i) (D.writeAll new k).2 ∧
    ((D.writeAll new k).1 = .ok () ∧ i = new.length ∨ (D.writeAll new k).1 = .err) ∧
    (Good k → (D.writeAll new k).1 = .ok () ∧ Good (D.writeAll new k).2)
  flush : ∀ {f p bs k}, p ≤ f.length → At f p bs k → At f p bs (D.flush k).2 ∧
    ((D.flush k).1 = .ok () ∧ D.disk (D.flush k).2 = overwrite p bs f ∧
      D.disk (D.drop (D.flush k).2) = overwrite p bs f ∨ (D.flush k).1 = .err) ∧
    (Good k → (D.flush k).1 = .ok () ∧ Good (D.flush k).2)
  seek : ∀ {f p bs k}, p ≤ f.length → At f p bs k → ∀ q, q ≤ (overwrite p bs f).length →
    ((D.seek q k).1 = .ok () ∧ At (overwrite p bs f) q [] (D.seek q k).2 ∨
      (D.seek q k).1 = .err ∧ At f p bs (D.seek q k).2) ∧
    (Good k → (D.seek q k).1 = .ok () ∧ Good (D.seek q k).2)
  drop : ∀ {f p bs k}, p ≤ f.length → At f p bs k → At f p bs (D.drop k)
  disk : ∀ {f p bs k}, At f p bs k → ∃ j, j ≤ bs.length ∧ D.disk k = overwrite p (bs.take j) f

theorem call_spec (k : Output) : k.call.2.file = k.file ∧ k.call.2.pos = k.pos ∧
    (k.call.1 = .ok () ∨ k.call.1 = .err) ∧
    (Accepting k.events → k.call.1 = .ok () ∧ Accepting k.call.2.events) := by
  unfold Output.call
  split
  · exact ⟨rfl, rfl, Or.inl rfl, fun h => ⟨rfl, h⟩⟩
  · rename_i e
    refine ⟨rfl, rfl, Or.inl rfl, fun h => ⟨rfl, fun x hx => h x ?_⟩⟩
    rw [e]
    simp only at hx
    simp [hx]
  · rename_i e ev h1 h2
    refine ⟨rfl, rfl, Or.inr rfl, fun h => ?_⟩
    obtain ⟨n, rfl⟩ := h e (by rw [h2]; simp)
    exact absurd rfl (h1 _)

theorem seek_spec (p : Nat) (k : Output) : (k.seek p).2.file = k.file ∧
    ((k.seek p).1 = .ok () ∧ (k.seek p).2.pos = p ∨ (k.seek p).1 = .err ∧ (k.seek p).2.pos = k.pos) ∧
    (Accepting k.events → (k.seek p).1 = .ok () ∧ Accepting (k.seek p).2.events) := by
  obtain ⟨h1, h2, h3, h4⟩ := call_spec k
  unfold Output.seek
  generalize k.call = r at *
  obtain ⟨r, k1⟩ := r
  rcases h3 with h3 | h3
  · simp only at h3
    subst h3
    exact ⟨h1, Or.inl ⟨rfl, rfl⟩, h4⟩
  · simp only at h3
    subst h3
    exact ⟨h1, Or.inr ⟨rfl, h2⟩, h4⟩

/-- Everything is on the device. -/
structure Output.At (f : List Byte) (p : Nat) (bs : List Byte) (k : Output) : Prop where
  file : k.file = overwrite p bs f
  pos : k.pos = p + bs.length

theorem Output.At.pos_le {f bs : List Byte} {p : Nat} {k : Output} (hp : p ≤ f.length) (h : k.At f p bs) :
    k.pos ≤ k.file.length := by
  rw [h.file, h.pos]
  exact overwrite_le_length hp _

theorem Output.At.writeAll {f bs : List Byte} {p : Nat} {k : Output} (hp : p ≤ f.length) (h : k.At f p bs)
    (new : List Byte) : ∃ i, i ≤ new.length ∧ Output.At f p (bs ++ new.take i) (k.writeAll new).2 ∧
    ((k.writeAll new).1 = .ok () ∧ i = new.length ∨ (k.writeAll new).1 = .err) ∧
    (Accepting k.events → (k.writeAll new).1 = .ok () ∧ Accepting (k.writeAll new).2.events) := by
  obtain ⟨j, h1, h2, h3, -, h4, -⟩ := writeLoop_spec k.events new k.file k.pos (h.pos_le hp)
  refine ⟨j, h1, ⟨?_, ?_⟩, h4, fun ha => writeLoop_good (h.pos_le hp) ha⟩
  · show (writeLoop k.events new k.file k.pos).2.2.file = _
    rw [h2, h.file, h.pos, overwrite_overwrite hp]
  · show (writeLoop k.events new k.file k.pos).2.2.pos = _
    rw [h3, h.pos, List.length_append, List.length_take, Nat.min_eq_left h1, Nat.add_assoc]

theorem Output.law : Output.device.Law Output.At (fun k => Accepting k.events) where
  write hp h new := h.writeAll hp new
  flush {f p bs k} hp h := by
    obtain ⟨h1, h2, h3, h4⟩ := call_spec k
    have hf : k.call.2.file = overwrite p bs f := h1.trans h.file
    exact ⟨⟨hf, h2.trans h.pos⟩, h3.imp (fun h3 => ⟨h3, hf, hf⟩) id, h4⟩
  seek {f p bs k} hp h q hq := by
    obtain ⟨h1, h2, h4⟩ := seek_spec q k
    refine ⟨?_, h4⟩
    have hl : (k.seek q).2.file = overwrite p bs f := h1.trans h.file
    rcases h2 with ⟨h2, h3⟩ | ⟨h2, h3⟩
    · refine Or.inl ⟨h2, ?_, h3⟩
      show (k.seek q).2.file = _
      rw [hl, overwrite_nil hq]
    · exact Or.inr ⟨h2, hl, h3.trans h.pos⟩
  drop _ h := h
  disk {f p bs k} h := ⟨bs.length, Nat.le_refl _, by rw [List.take_length]; exact h.file⟩

/-- The first `j` bytes are on the device, the rest is in the buffer. -/
def Buffered.At (f : List Byte) (p : Nat) (bs : List Byte) (b : Buffered) : Prop :=
  ∃ j, j ≤ bs.length ∧ b.inner.At f p (bs.take j) ∧ b.buf = bs.drop j ∧ b.buf.length ≤ b.capacity

theorem Buffered.flushBuf_spec {f bs : List Byte} {p : Nat} {b : Buffered} (hp : p ≤ f.length) (h : b.At f p bs) :
    b.flushBuf.2.At f p bs ∧ b.flushBuf.2.capacity = b.capacity ∧
    (b.flushBuf.1 = .ok () ∧ b.flushBuf.2.buf = [] ∧ b.flushBuf.2.inner.At f p bs ∨ b.flushBuf.1 = .err) ∧
    (Accepting b.inner.events → b.flushBuf.1 = .ok () ∧ Accepting b.flushBuf.2.inner.events) := by
  obtain ⟨j, hj, h1, h2, h3⟩ := h
  obtain ⟨i, i1, i2, i3, i4, i5, -⟩ := writeLoop_spec b.inner.events b.buf b.inner.file b.inner.pos (h1.pos_le hp)
  have hlen : (bs.take j).length = j := by rw [List.length_take, Nat.min_eq_left hj]
  have hb : b.buf.length = bs.length - j := by rw [h2, List.length_drop]
  rw [h1.file, h1.pos, overwrite_overwrite hp, h2, ← List.take_add] at i2
  rw [h1.pos, hlen] at i3
  have hat : b.flushBuf.2.inner.At f p (bs.take (j + i)) := by
    constructor
    · show (writeLoop b.inner.events b.buf b.inner.file b.inner.pos).2.2.file = _
      rw [h1.file, h1.pos, h2]
      exact i2
    · show (writeLoop b.inner.events b.buf b.inner.file b.inner.pos).2.2.pos = _
      rw [List.length_take, Nat.min_eq_left (by omega), ← Nat.add_assoc, ← i3]
      rw [h1.pos, hlen]
  have hbuf : b.flushBuf.2.buf = bs.drop (j + i) := by
    show (writeLoop b.inner.events b.buf b.inner.file b.inner.pos).2.1 = _
    rw [i4, h2, List.drop_drop]
  refine ⟨⟨j + i, by omega, hat, hbuf, ?_⟩, rfl, ?_, fun ha => writeLoop_good (h1.pos_le hp) ha⟩
  · rw [hbuf, List.length_drop]
    show _ ≤ b.capacity
    omega
  · rcases i5 with ⟨i5, i6⟩ | i5
    · refine Or.inl ⟨i5, ?_, ?_⟩
      · rw [hbuf, List.drop_of_length_le (by omega)]
      · rw [List.take_of_length_le (by omega)] at hat
        exact hat
    · exact Or.inr i5

theorem Buffered.push {f bs : List Byte} {p : Nat} {b : Buffered} (h : b.At f p bs) (new : List Byte)
    (hl : b.buf.length + new.length ≤ b.capacity) : Buffered.At f p (bs ++ new) { b with buf := b.buf ++ new } := by
  obtain ⟨j, hj, h1, h2, h3⟩ := h
  refine ⟨j, by rw [List.length_append]; omega, ?_, ?_, by simpa using hl⟩
  · rw [List.take_append_of_le_length hj]; exact h1
  · rw [List.drop_append_of_le_length hj, ← h2]

theorem Buffered.law : Buffered.device.Law Buffered.At (fun b => Accepting b.inner.events) where
  write {f p bs b} hp h new := by
    show ∃ i, i ≤ new.length ∧ Buffered.At f p (bs ++ new.take i) (b.writeAll new).2 ∧
      ((b.writeAll new).1 = .ok () ∧ i = new.length ∨ (b.writeAll new).1 = .err) ∧
      (Accepting b.inner.events → (b.writeAll new).1 = .ok () ∧ Accepting (b.writeAll new).2.inner.events)
    have hcap : b.buf.length ≤ b.capacity := by obtain ⟨j, -, -, -, h3⟩ := h; exact h3
    unfold Buffered.writeAll
    by_cases h1 : new.length < b.spare
    · rw [if_pos h1]
      refine ⟨new.length, Nat.le_refl _, ?_, Or.inl ⟨rfl, rfl⟩, fun ha => ⟨rfl, ha⟩⟩
      rw [List.take_length]
      unfold Buffered.spare at h1
      exact Buffered.push h new (by omega)
    · rw [if_neg h1]
      -- after making room
      obtain ⟨r1, e1, e2, e3, e4, e5⟩ : ∃ r1 : Res Unit × Buffered,
          r1 = (if b.spare < new.length then b.flushBuf else (.ok (), b)) ∧ r1.2.At f p bs ∧
          r1.2.capacity = b.capacity ∧
          (r1.1 = .ok () ∧ (r1.2.buf = [] ∨ new.length < b.capacity ∧ r1.2.buf.length + new.length ≤ b.capacity) ∨
            r1.1 = .err) ∧
          (Accepting b.inner.events → r1.1 = .ok () ∧ Accepting r1.2.inner.events) := by
        by_cases h2 : b.spare < new.length
        · obtain ⟨g1, g2, g3, g4⟩ := Buffered.flushBuf_spec hp h
          rw [if_pos h2]
          exact ⟨_, rfl, g1, g2, g3.imp (fun g => ⟨g.1, Or.inl g.2.1⟩) id, g4⟩
        · rw [if_neg h2]
          refine ⟨_, rfl, h, rfl, Or.inl ⟨rfl, ?_⟩, fun ha => ⟨rfl, ha⟩⟩
          unfold Buffered.spare at h1 h2
          by_cases hb : b.buf.length = 0
          · exact Or.inl (List.length_eq_zero_iff.1 hb)
          · exact Or.inr ⟨by omega, by simp only; omega⟩
      rw [← e1]
      obtain ⟨r, b1⟩ := r1
      simp only at e2 e3 e4 e5
      rcases e4 with ⟨e4, e6⟩ | e4
      · subst e4
        simp only [andThen]
        by_cases h3 : b1.capacity ≤ new.length
        · rw [if_pos h3]
          have hbuf : b1.buf = [] := by
            rcases e6 with e6 | e6
            · exact e6
            · omega
          obtain ⟨j, hj, g1, g2, g3⟩ := e2
          have hfull : bs.take j = bs := by
            rw [hbuf] at g2
            have := congrArg List.length g2
            rw [List.length_drop] at this
            simp only [List.length_nil] at this
            exact List.take_of_length_le (by omega)
          rw [hfull] at g1
          obtain ⟨i, i1, i2, i3, i4⟩ := g1.writeAll hp new
          refine ⟨i, i1, ⟨(bs ++ new.take i).length, Nat.le_refl _, ?_, ?_, ?_⟩, i3, fun ha => i4 (e5 ha).2⟩
          · rw [List.take_length]; exact i2
          · rw [List.drop_length]; exact hbuf
          · show b1.buf.length ≤ b1.capacity
            rw [hbuf]; simp
        · rw [if_neg h3]
          refine ⟨new.length, Nat.le_refl _, ?_, Or.inl ⟨rfl, rfl⟩, fun ha => ⟨rfl, (e5 ha).2⟩⟩
          rw [List.take_length]
          refine Buffered.push e2 new ?_
          rcases e6 with e6 | e6
          · rw [e6]; simp only [List.length_nil]; omega
          · omega
      · subst e4
        simp only [andThen]
        exact ⟨0, Nat.zero_le _, by simpa using e2, Or.inr trivial, fun ha => absurd (e5 ha).1 (by simp)⟩
  flush {f p bs b} hp h := by
    show Buffered.At f p bs b.flush.2 ∧
      (b.flush.1 = .ok () ∧ b.flush.2.inner.file = overwrite p bs f ∧ b.flush.2.drop.inner.file = overwrite p bs f ∨
        b.flush.1 = .err) ∧
      (Accepting b.inner.events → b.flush.1 = .ok () ∧ Accepting b.flush.2.inner.events)
    obtain ⟨g1, g2, g3, g4⟩ := Buffered.flushBuf_spec hp h
    unfold Buffered.flush
    generalize b.flushBuf = r at *
    obtain ⟨r, b1⟩ := r
    simp only at g1 g2 g3 g4
    rcases g3 with ⟨g3, g5, g6⟩ | g3
    · subst g3
      simp only [andThen]
      obtain ⟨h1, h2, h3, h4⟩ := call_spec b1.inner
      have hat : (Buffered.onInner Output.flush b1).2.inner.At f p bs := ⟨h1.trans g6.file, h2.trans g6.pos⟩
      refine ⟨⟨bs.length, Nat.le_refl _, by rw [List.take_length]; exact hat, by rw [List.drop_length]; exact g5, ?_⟩,
        ?_, fun ha => h4 (g4 ha).2⟩
      · show b1.buf.length ≤ b1.capacity
        rw [g5]; simp
      · refine h3.imp (fun h3 => ⟨h3, hat.file, ?_⟩) id
        unfold Buffered.drop Buffered.flushBuf
        have hbuf : (Buffered.onInner Output.flush b1).2.buf = [] := g5
        simp only [hbuf]
        have hw : ∀ ev (F : List Byte) P, (writeLoop ev [] F P).2.2.file = F := by
          intro ev F P; cases ev <;> rfl
        rw [hw]
        exact hat.file
    · subst g3
      simp only [andThen]
      exact ⟨g1, Or.inr trivial, fun ha => absurd (g4 ha).1 (by simp)⟩
  seek {f p bs b} hp h q hq := by
    show (((b.seek q).1 = .ok () ∧ Buffered.At (overwrite p bs f) q [] (b.seek q).2) ∨
      (b.seek q).1 = .err ∧ Buffered.At f p bs (b.seek q).2) ∧
      (Accepting b.inner.events → (b.seek q).1 = .ok () ∧ Accepting (b.seek q).2.inner.events)
    obtain ⟨g1, g2, g3, g4⟩ := Buffered.flushBuf_spec hp h
    unfold Buffered.seek
    generalize b.flushBuf = r at *
    obtain ⟨r, b1⟩ := r
    simp only at g1 g2 g3 g4
    rcases g3 with ⟨g3, g5, g6⟩ | g3
    · subst g3
      simp only [andThen]
      obtain ⟨h1, h2, h4⟩ := seek_spec q b1.inner
      refine ⟨?_, fun ha => h4 (g4 ha).2⟩
      rcases h2 with ⟨h2, h3⟩ | ⟨h2, h3⟩
      · refine Or.inl ⟨h2, 0, Nat.zero_le _, ⟨?_, h3⟩, g5, ?_⟩
        · show (b1.inner.seek q).2.file = overwrite q [] _
          rw [h1, g6.file, overwrite_nil hq]
        · show b1.buf.length ≤ b1.capacity
          rw [g5]; simp
      · refine Or.inr ⟨h2, bs.length, Nat.le_refl _, ?_, by rw [List.drop_length]; exact g5, ?_⟩
        · rw [List.take_length]
          exact ⟨h1.trans g6.file, h3.trans g6.pos⟩
        · show b1.buf.length ≤ b1.capacity
          rw [g5]; simp
    · subst g3
      simp only [andThen]
      exact ⟨Or.inr ⟨trivial, g1⟩, fun ha => absurd (g4 ha).1 (by simp)⟩
  drop hp h := (Buffered.flushBuf_spec hp h).1
  disk {f p bs b} h := by
    obtain ⟨j, hj, h1, -⟩ := h
    exact ⟨j, hj, h1.file⟩

theorem Device.Law.writeParts {K : Type} {D : Device K} {At : List Byte → Nat → List Byte → K → Prop} {Good : K → Prop}
    (L : D.Law At Good) {f bs : List Byte} {p : Nat} {k : K} (hp : p ≤ f.length) (h : At f p bs k) (ps : List (List Byte)) :
    ∃ j, j ≤ ps.flatten.length ∧ At f p (bs ++ ps.flatten.take j) (D.writeParts ps k).2 ∧
      ((D.writeParts ps k).1 = .ok () ∧ j = ps.flatten.length ∨ (D.writeParts ps k).1 = .err) ∧
      (Good k → (D.writeParts ps k).1 = .ok () ∧ Good (D.writeParts ps k).2) := by
  induction ps generalizing bs k with
  | nil => exact ⟨0, by simp, by simpa [Device.writeParts] using h, Or.inl ⟨rfl, rfl⟩, fun h => ⟨rfl, h⟩⟩
  | cons b ps ih =>
    obtain ⟨j, h1, h2, h3, h4⟩ := L.write hp h b
    unfold Device.writeParts
    generalize D.writeAll b k = r at *
    obtain ⟨r, k1⟩ := r
    rcases h3 with ⟨h3, rfl⟩ | h3
    · simp only at h3
      subst h3
      rw [List.take_length] at h2
      obtain ⟨i, i1, i2, i3, i4⟩ := ih h2
      have e : b.length + i ≤ (b :: ps).flatten.length := by simp at i1 ⊢; omega
      refine ⟨b.length + i, e, ?_, ?_, fun ha => i4 (h4 ha).2⟩
      · have : (b :: ps).flatten.take (b.length + i) = b ++ ps.flatten.take i := by
          rw [List.flatten_cons, List.take_append, List.take_of_length_le (by omega)]
          simp
        rw [this, ← List.append_assoc]
        exact i2
      · rcases i3 with ⟨i3, rfl⟩ | i3
        · exact Or.inl ⟨i3, by simp⟩
        · exact Or.inr i3
    · simp only at h3
      subst h3
      refine ⟨j, by simp; omega, ?_, Or.inr rfl, fun ha => absurd (h4 ha).1 (by simp)⟩
      rw [List.flatten_cons, List.take_append_of_le_length h1]
      exact h2

/-! ## The file writer -/

theorem writeChunk_out {S : Scheme} {opt : ChunkOption} {c c' : S.Comp} {w w' : FileWriter}
    (h : w.writeChunk S opt c = .ok (c', w')) (he : w.reachesEof = false) :
    (w'.reachesEof = true ∧ w'.out = w.out ∧ w'.totalBytesOut = w.totalBytesOut) ∨
    (w'.reachesEof = false ∧ w'.out = w.out ++ S.buffers c' ∧
      w'.totalBytesOut = w.totalBytesOut + (S.buffers c').length) := by
  unfold FileWriter.writeChunk at h
  obtain ⟨⟨buf, src⟩, -, h⟩ := Res.bind_eq_ok h
  simp only at h
  split at h
  · cases h; exact Or.inl ⟨rfl, rfl, rfl⟩
  · obtain ⟨c1, -, h⟩ := Res.bind_eq_ok h
    split at h
    · cases h; exact Or.inl ⟨rfl, rfl, rfl⟩
    · obtain ⟨c2, -, h⟩ := Res.bind_eq_ok h
      simp only [Res.ok.injEq, Prod.mk.injEq] at h
      obtain ⟨rfl, rfl⟩ := h
      exact Or.inr ⟨he, rfl, rfl⟩

end Ebi
