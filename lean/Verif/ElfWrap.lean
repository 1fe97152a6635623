import Verif.ElfNum
import Verif.ElfXor
import Verif.Chimp

/-!
# Elf: the wrapper around an XOR codec

`ElfEncoderWrapper<T>` (compressor/elf.rs:44-153) and `ElfDecoderWrapper<T>`
(decoder/chunk_reader/elf.rs:30-103). `Elf` is the wrapper over `ElfXorEncoder`, `ElfOnChimp` the
wrapper over `ChimpEncoder`.
-/

namespace Ebi
namespace Elf

open Soft

variable (lg : B64 → B64) (C : XorCodec)

/-- `struct ElfEncoderWrapper` (compressor/elf.rs:70-75). -/
structure Enc where
  size : Nat
  last : Int
  xor : C.S

/-- `struct ElfDecoderWrapper` (decoder/chunk_reader/elf.rs:30-34). -/
structure Dec where
  last : Int
  xor : C.D

/-- The flag bits of `add_value` (compressor/elf.rs:96-145): number of bits counted in `size`, new
`last_beta_star`, writer, and the value handed to the XOR encoder. -/
def flags (last : Int) (w : BitWriter) : Plan → Nat × Int × BitWriter × B64
  | .raw v => (2, last, w.writeBits 2 2, v)
  | .erase beta v =>
    if beta = last then (1, last, w.writeBit false, v)
    else (6, beta, w.writeBits (asU32 beta ||| 0x30) 6, v)

/-- `add_value` through `compress_float` (compressor/elf.rs:45-50, 92-148): the reported count is the
wrapper's own flag bits only, the XOR encoder's are not included. -/
def compressFloat (s : Enc C) (w : BitWriter) (v : B64) : Enc C × BitWriter × Nat :=
  let (n, last, w, v') := flags s.last w (plan lg s.last v)
  let (x, w, _) := C.compressFloat s.xor w v'
  (⟨s.size + n, last, x⟩, w, s.size + n - s.size)

/-- `close` (compressor/elf.rs:58-63). -/
def close (s : Enc C) (w : BitWriter) : Enc C × BitWriter :=
  let (x, w) := C.close s.xor (w.writeBits 2 2)
  (⟨s.size + 2, s.last, x⟩, w)

/-- `recover_v_by_beta_star` (decoder/chunk_reader/elf.rs:65-81) after `last_beta_star` is known. -/
def readErased (last : Int) (x : C.D) (r : BitReader) : DRes (Dec C) :=
  match C.next x r with
  | .value v x r => .value (recover lg last v) ⟨last, x⟩ r
  | .done x r => .done ⟨last, x⟩ r
  | .err => .err
  | .panic => .panic

/-- `xor_decompress` (decoder/chunk_reader/elf.rs:83-85). -/
def readRaw (last : Int) (x : C.D) (r : BitReader) : DRes (Dec C) :=
  match C.next x r with
  | .value v x r => .value v ⟨last, x⟩ r
  | .done x r => .done ⟨last, x⟩ r
  | .err => .err
  | .panic => .panic

/-- `next_value` (decoder/chunk_reader/elf.rs:43-63). -/
def next (d : Dec C) (r : BitReader) : DRes (Dec C) :=
  match r.readBit with
  | none => .err
  | some (false, r) => readErased lg C d.last d.xor r
  | some (true, r) =>
    match r.readBit with
    | none => .err
    | some (false, r) => readRaw C d.last d.xor r
    | some (true, r) =>
      match r.readBits 4 with
      | none => .err
      | some (b, r) => readErased lg C (b : Int) d.xor r

/-- The wrapped codec; `new` / `reset` (compressor/elf.rs:52-56, 84-90; chunk_reader/elf.rs:36-41,
99-102), `simulate_close` (compressor/elf.rs:65-67). -/
def codec : XorCodec where
  S := Enc C
  D := Dec C
  init := ⟨0, i32Max, C.init⟩
  compressFloat := compressFloat lg C
  close := close C
  simulateClose s := 2 + C.simulateClose s.xor
  dinit := ⟨i32Max, C.dinit⟩
  next := next lg C

/-- `Elf` (compressor/elf.rs:22). -/
def elf : XorCodec := codec lg ElfXor.codec

/-- `ElfOnChimp` (compressor/elf.rs:37). -/
def elfOnChimp : XorCodec := codec lg Chimp.codec

/-! ## What the wrapper emits -/

/-- Flag bits, new `last_beta_star`, and value passed on. -/
def flagBits (last : Int) : Plan → List Bool × Int × B64
  | .raw v => ([true, false], last, v)
  | .erase beta v =>
    if beta = last then ([false], last, v) else (natBits (asU32 beta ||| 0x30) 6, beta, v)

variable {lg C}

theorem flags_state (last : Int) (w : BitWriter) (p : Plan) :
    (flags last w p).2.1 = (flagBits last p).2.1 ∧ (flags last w p).2.2.2 = (flagBits last p).2.2 := by
  cases p with
  | raw v => exact ⟨rfl, rfl⟩
  | erase b v => simp only [flags, flagBits]; split <;> exact ⟨rfl, rfl⟩

theorem flags_rep (last : Int) {w : BitWriter} {bs : List Bool} (h : w.Rep bs) (p : Plan) :
    (flags last w p).2.2.1.Rep (bs ++ (flagBits last p).1) := by
  cases p with
  | raw v => exact BitWriter.rep_writeBits h 2 2
  | erase b v =>
    simp only [flags, flagBits]
    split
    · exact BitWriter.rep_writeBit h false
    · exact BitWriter.rep_writeBits h _ _

/-- Lifted encoder laws. -/
def encLaws (lg : B64 → B64) {C : XorCodec} (L : C.EncLaws) : (codec lg C).EncLaws where
  emit s v := (flagBits s.last (plan lg s.last v)).1 ++ L.emit s.xor (flagBits s.last (plan lg s.last v)).2.2
  closeBits s := [true, false] ++ L.closeBits s.xor
  nextS s v := ⟨s.size + (flags s.last BitWriter.new (plan lg s.last v)).1,
    (flagBits s.last (plan lg s.last v)).2.1, L.nextS s.xor (flagBits s.last (plan lg s.last v)).2.2⟩
  Inv s := L.Inv s.xor
  inv_init := L.inv_init
  inv_next _ h := L.inv_next _ h
  compress_state s w v := by
    have h := flags_state s.last w (plan lg s.last v)
    have hn : (flags s.last w (plan lg s.last v)).1 =
        (flags s.last BitWriter.new (plan lg s.last v)).1 := by
      cases plan lg s.last v with
      | raw v => rfl
      | erase b v => simp only [flags]; split <;> rfl
    simp only [codec, compressFloat]
    rw [← h.1, ← h.2, ← hn, L.compress_state]
  compress_rep {s w bs} v hi h := by
    have h' := flags_state s.last w (plan lg s.last v)
    rw [← List.append_assoc, ← h'.2]
    exact L.compress_rep _ hi (flags_rep s.last h _)
  close_rep {s w bs} hi h := by
    have := L.close_rep (s := s.xor) hi (BitWriter.rep_writeBits h 2 2)
    rw [List.append_assoc] at this
    exact this
  simulateClose_eq {s} h := by
    simp only [codec, L.simulateClose_eq h, List.length_append, List.length_cons, List.length_nil]
  emit_pos s v := by
    have := L.emit_pos s.xor (flagBits s.last (plan lg s.last v)).2.2
    simp only [List.length_append]; omega

/-- Reachable `last_beta_star`: still unset, or a four-bit count. -/
def LastOk (last : Int) : Prop := last = i32Max ∨ (0 ≤ last ∧ last < 16)

/-- One plan for `v` is recoverable: the value goes through as it is, or is erased to something from
which the decoder recovers it. -/
def Good (lg : B64 → B64) (Ok : B64 → Prop) (v : B64) : Plan → Prop
  | .raw v' => v' = v ∧ Ok v
  | .erase beta v' => 0 ≤ beta ∧ beta < 16 ∧ Ok v' ∧ recover lg beta v' = v

/-- The values the wrapper carries: every reachable `last_beta_star` gives a recoverable plan. -/
def Carries (lg : B64 → B64) (Ok : B64 → Prop) (v : B64) : Prop :=
  ∀ last, LastOk last → Good lg Ok v (plan lg last v)

theorem natBits_beta {b : Int} (h0 : 0 ≤ b) (h : b < 16) :
    natBits (asU32 b ||| 0x30) 6 = true :: true :: natBits b.toNat 4 := by
  obtain ⟨n, rfl⟩ := Int.eq_ofNat_of_zero_le h0
  have hn : n < 16 := by omega
  have : ∀ n : Fin 16, natBits (asU32 (n.1 : Int) ||| 0x30) 6 = true :: true :: natBits n.1 4 := by decide
  exact this ⟨n, hn⟩

theorem plan_nan (lg : B64 → B64) (last : Int) : plan lg last nanBits = .raw nanBits := by
  have h1 : (feq nanBits 0#64 || isInf nanBits) = false := by decide
  have h2 : isNaN nanBits = true := by decide
  simp only [plan, h1, h2]
  rfl

/-- Lifted laws. -/
def laws (lg : B64 → B64) {C : XorCodec} (L : C.Laws) : (codec lg C).Laws where
  toEncLaws := encLaws lg L.toEncLaws
  Sim s d := L.Sim s.xor d.xor ∧ d.last = s.last ∧ LastOk s.last
  Ok := Carries lg L.Ok
  sim_inv h := L.sim_inv h.1
  sim_init := ⟨L.sim_init, rfl, Or.inl rfl⟩
  next_value {s d r t} v hv h hr := by
    obtain ⟨hs, hd, hl⟩ := h
    have hc := hv _ hl
    change r.At ((flagBits s.last (plan lg s.last v)).1 ++
      L.emit s.xor (flagBits s.last (plan lg s.last v)).2.2 ++ t) at hr
    change ∃ d' r', next lg C d r = .value v d' r' ∧ r'.At t ∧
      (L.Sim (L.nextS s.xor (flagBits s.last (plan lg s.last v)).2.2) d'.xor ∧
        d'.last = (flagBits s.last (plan lg s.last v)).2.1 ∧
        LastOk (flagBits s.last (plan lg s.last v)).2.1)
    rw [List.append_assoc] at hr
    cases hp : plan lg s.last v with
    | raw v' =>
      rw [hp] at hc hr
      obtain ⟨rfl, ho⟩ := hc
      simp only [flagBits, List.cons_append, List.nil_append] at hr ⊢
      obtain ⟨e1, a1⟩ := hr.readBit
      obtain ⟨e2, a2⟩ := a1.readBit
      obtain ⟨x, r', hx, ha, hsim⟩ := L.next_value _ ho hs a2
      refine ⟨⟨d.last, x⟩, r', ?_, ha, hsim, hd, hl⟩
      simp only [next, e1, e2, readRaw, hx]
    | erase b v' =>
      rw [hp] at hc hr
      obtain ⟨hb0, hb16, ho, hrec⟩ := hc
      by_cases hbl : b = s.last
      · simp only [flagBits, if_pos hbl, List.cons_append, List.nil_append] at hr ⊢
        obtain ⟨e1, a1⟩ := hr.readBit
        obtain ⟨x, r', hx, ha, hsim⟩ := L.next_value _ ho hs a1
        refine ⟨⟨d.last, x⟩, r', ?_, ha, hsim, hd, hl⟩
        simp only [next, e1, readErased, hx]
        rw [hd, ← hbl, hrec]
      · simp only [flagBits, if_neg hbl, natBits_beta hb0 hb16, List.cons_append] at hr ⊢
        obtain ⟨e1, a1⟩ := hr.readBit
        obtain ⟨e2, a2⟩ := a1.readBit
        obtain ⟨e3, a3⟩ := a2.readBits_lt (by omega) (by omega)
        obtain ⟨x, r', hx, ha, hsim⟩ := L.next_value _ ho hs a3
        refine ⟨⟨b, x⟩, r', ?_, ha, hsim, rfl, Or.inr ⟨hb0, hb16⟩⟩
        simp only [next, e1, e2, e3, readErased, Int.toNat_of_nonneg hb0, hx, hrec]
  next_nan {s d r t} h hr := by
    change r.At ((flagBits s.last (plan lg s.last nanBits)).1 ++
      L.emit s.xor (flagBits s.last (plan lg s.last nanBits)).2.2 ++ t) at hr
    rw [List.append_assoc, plan_nan] at hr
    simp only [flagBits, List.cons_append, List.nil_append] at hr
    obtain ⟨e1, a1⟩ := hr.readBit
    obtain ⟨e2, a2⟩ := a1.readBit
    obtain ⟨x, r', hx⟩ := L.next_nan h.1 a2
    exact ⟨⟨d.last, x⟩, r', by simp only [codec, next, e1, e2, readRaw, hx]⟩
  endBits s := [true, false] ++ L.endBits s.xor
  closeBits_eq s := by
    change [true, false] ++ L.closeBits s.xor = _
    rw [L.closeBits_eq, List.append_assoc]
  next_close {s d r t} h hr := by
    change r.At ([true, false] ++ L.endBits s.xor ++ t) at hr
    simp only [List.append_assoc, List.cons_append, List.nil_append] at hr
    obtain ⟨e1, a1⟩ := hr.readBit
    obtain ⟨e2, a2⟩ := a1.readBit
    obtain ⟨x, r', hx, hw⟩ := L.next_close h.1 a2
    exact ⟨⟨d.last, x⟩, r', by simp only [codec, next, e1, e2, readRaw, hx], hw⟩

theorem readErased_progress (hp : C.Progress) {last : Int} {x : C.D} {r : BitReader} {v d' r'} (hr : r.WF)
    (h : readErased lg C last x r = .value v d' r') : r'.WF ∧ r'.rest.length < r.rest.length := by
  unfold readErased at h
  split at h
  · rename_i hx
    cases h
    exact hp hr hx
  · cases h
  · cases h
  · cases h

theorem readRaw_progress (hp : C.Progress) {last : Int} {x : C.D} {r : BitReader} {v d' r'} (hr : r.WF)
    (h : readRaw C last x r = .value v d' r') : r'.WF ∧ r'.rest.length < r.rest.length := by
  unfold readRaw at h
  split at h
  · rename_i hx
    cases h
    exact hp hr hx
  · cases h
  · cases h
  · cases h

theorem progress (lg : B64 → B64) {C : XorCodec} (hp : C.Progress) : (codec lg C).Progress := by
  intro d r v d' r' hr h
  change next lg C d r = _ at h
  unfold next at h
  split at h
  · cases h
  · rename_i hb
    have p1 := BitReader.readBit_progress hr hb
    simp only at p1
    have := readErased_progress hp p1.1 h
    exact ⟨this.1, by omega⟩
  · rename_i hb
    have p1 := BitReader.readBit_progress hr hb
    simp only at p1
    split at h
    · cases h
    · rename_i hb2
      have p2 := BitReader.readBit_progress p1.1 hb2
      simp only at p2
      have := readRaw_progress hp p2.1 h
      exact ⟨this.1, by omega⟩
    · rename_i hb2
      have p2 := BitReader.readBit_progress p1.1 hb2
      simp only at p2
      split at h
      · cases h
      · rename_i hb3
        have p3 := BitReader.readBits_progress p2.1 hb3
        simp only at p3
        have := readErased_progress hp p3.1 h
        exact ⟨this.1, by omega⟩

end Elf
end Ebi
