import Verif.SizeLemmas
import Verif.Props.Xor
import Verif.Props.Rle
import Verif.Props.Sprintz
import Verif.Props.Buff

/-!
# C55 compressed sizes: worst case, repeated values, the window of Chimp128
-/

namespace Ebi.Props

open Ebi

/-! ## Worst case -/

/-- Gorilla: at most 77 bits per value (2 flag bits, 5 + 6 bits of window, 64 bits), and as much plus
one bit for the end marker. -/
theorem c55_gorilla_worst (c : Gorilla.codec.Compressor) (vs : List B64) :
    8 * (chunkBytes Gorilla.codec c vs).length ≤ 77 * vs.length + 78 + 7 :=
  Gorilla.encLaws.buffers_le (fun s v _ => Gorilla.emit_le s v)
    (fun s _ => by
      have := Gorilla.emit_le s nanBits
      simp only [Gorilla.encLaws, List.length_append, List.length_singleton]; omega) c vs

/-- Chimp: at most 69 bits per value. -/
theorem c55_chimp_worst (c : Chimp.codec.Compressor) (vs : List B64) :
    8 * (chunkBytes Chimp.codec c vs).length ≤ 69 * vs.length + 70 + 7 :=
  Chimp.encLaws.buffers_le (fun s v _ => Chimp.emit_le s v)
    (fun s _ => by
      have := Chimp.emit_le s nanBits
      simp only [Chimp.encLaws, List.length_append, List.length_singleton]; omega) c vs

/-- Chimp128: at most 69 bits per value. -/
theorem c55_chimp128_worst (c : Chimp128.codec.Compressor) (vs : List B64) :
    8 * (chunkBytes Chimp128.codec c vs).length ≤ 69 * vs.length + 70 + 7 :=
  Chimp128.encLaws.buffers_le (fun s v _ => Chimp128.emit_le s v)
    (fun s _ => by
      have := Chimp128.emit_le s nanBits
      simp only [Chimp128.encLaws, List.length_append, List.length_singleton]; omega) c vs

/-- Elf: at most 6 flag bits and 74 bits of the XOR layer per value, whatever `log10` returns. -/
theorem c55_elf_worst (lg : B64 → B64) (c : (Elf.elf lg).Compressor) (vs : List B64) :
    8 * (chunkBytes (Elf.elf lg) c vs).length ≤ 80 * vs.length + 77 + 7 :=
  (Elf.encLaws lg ElfXor.encLaws).buffers_le
    (fun s v _ => by
      have h1 := Elf.flagBits_le s.last (Elf.plan lg s.last v)
      have h2 := ElfXor.emit_le s.xor (Elf.flagBits s.last (Elf.plan lg s.last v)).2.2
      simp only [Elf.encLaws, ElfXor.encLaws, List.length_append]; omega)
    (fun s _ => by
      have := ElfXor.emit_le s.xor nanBits
      simp only [Elf.encLaws, ElfXor.encLaws, List.length_append, List.length_cons, List.length_nil]
      omega) c vs

/-- Elf over Chimp: at most 6 flag bits and 69 bits. -/
theorem c55_elf_on_chimp_worst (lg : B64 → B64) (c : (Elf.elfOnChimp lg).Compressor) (vs : List B64) :
    8 * (chunkBytes (Elf.elfOnChimp lg) c vs).length ≤ 75 * vs.length + 72 + 7 :=
  (Elf.encLaws lg Chimp.encLaws).buffers_le
    (fun s v _ => by
      have h1 := Elf.flagBits_le s.last (Elf.plan lg s.last v)
      have h2 := Chimp.emit_le s.xor (Elf.flagBits s.last (Elf.plan lg s.last v)).2.2
      simp only [Elf.encLaws, Chimp.encLaws, List.length_append]; omega)
    (fun s _ => by
      have := Chimp.emit_le s.xor nanBits
      simp only [Elf.encLaws, Chimp.encLaws, List.length_append, List.length_cons, List.length_nil]
      omega) c vs

/-- The bounds per value are reached: after `0.0`, the bit pattern `8000000000000001` costs 77, 69, 69
and (in the Elf XOR layer) 74 bits. -/
theorem c55_worst_reached :
    growth Gorilla.codec [0#64] 0x8000000000000001#64 = 77 ∧
    growth Chimp.codec [0#64] 0x8000000000000001#64 = 69 ∧
    growth Chimp128.codec [0#64] 0x8000000000000001#64 = 69 ∧
    growth ElfXor.codec [0#64] 0x8000000000000001#64 = 74 := by decide +kernel

/-- Uncompressed: exactly 8 bytes per value. -/
theorem c55_uncompressed_size (c : Uncompressed.Comp) (vs : List B64) :
    (c.compress vs).prepare.buffers.length = 8 * vs.length := by
  have e : (c.compress vs).prepare.buffers = ofF64s vs := by
    simp [Uncompressed.Comp.compress, Uncompressed.Comp.prepare, Uncompressed.Comp.buffers,
      Uncompressed.Comp.reset]
  rw [e, ofF64s_length]

/-- DeltaSprintz: 13 header bytes and at most 8 bytes per value. The exact size is in `c12_width`. -/
theorem c55_sprintz_worst (o : FloatOps) (c : Sprintz.Comp) (vs : List B64) (h : vs ≠ []) :
    ∃ c', c.compress o vs = .ok c' ∧ c'.prepare.buffers.length ≤ 13 + 8 * vs.length := by
  obtain ⟨c', h1, h2, -, -⟩ := Sprintz.compress_ok o c vs h
  refine ⟨c', h1, ?_⟩
  have h3 := BitWriter.rep_bytes_length h2
  rw [Sprintz.chunkBits_length, List.length_map] at h3
  have h4 := Sprintz.width_le (vs.map (Sprintz.quantize o c.scale))
  have h5 := Nat.mul_le_mul_left vs.length h4
  unfold Sprintz.Comp.prepare Sprintz.Comp.buffers BitWriter.asSlice
  omega

/-- BUFF: 20 header bytes, then `w` bits per value, the low `w % 8` of them packed; `w` is the least
width that holds the difference of the largest and the smallest fixed-point integer. -/
theorem c55_buff_size (qs : List (BitVec 64)) (F : Nat) (hne : qs ≠ []) (hn : qs.length < 2 ^ 32)
    (hF : F < 2 ^ 32) :
    ∃ bytes w, Buff.encode qs F = .ok bytes ∧ w ≤ 64 ∧
      bytes.length = 20 + w / 8 * qs.length + (w % 8 * qs.length + 7) / 8 ∧
      (∀ x ∈ qs, ∀ y ∈ qs, y.toInt - x.toInt < 2 ^ w) ∧
      (w ≠ 0 → ∃ x ∈ qs, ∃ y ∈ qs, 2 ^ (w - 1) ≤ y.toInt - x.toInt) := by
  obtain ⟨base, bits, h1, hmin, h3, h4, h5⟩ := Buff.encode_tight qs F hne hn hF
  refine ⟨_, bits, h1, h3, ?_, ?_, ?_⟩
  · simp [Buff.layout, Buff.header_length, Buff.columns_length, Buff.tailBytes]
    omega
  · intro x hx y hy
    have e1 := Buff.sub_toNat (hmin.2 y hy)
    have e2 := h4 y hy
    have e3 := hmin.2 x hx
    have e4 : (((y - base).toNat : Nat) : Int) < ((2 ^ bits : Nat) : Int) := by exact_mod_cast e2
    have e5 : ((2 ^ bits : Nat) : Int) = (2 : Int) ^ bits := by norm_cast
    omega
  · intro h0
    obtain ⟨y, hy, hle⟩ := h5 h0
    refine ⟨base, hmin.1, y, hy, ?_⟩
    rw [← Buff.sub_toNat (hmin.2 y hy)]
    exact_mod_cast hle

/-- At most 20 bytes more than the plain values. -/
theorem c55_buff_worst (qs : List (BitVec 64)) (F : Nat) (hne : qs ≠ []) (hn : qs.length < 2 ^ 32)
    (hF : F < 2 ^ 32) :
    ∃ bytes, Buff.encode qs F = .ok bytes ∧ bytes.length ≤ 20 + 8 * qs.length := by
  obtain ⟨bytes, w, h1, hw, h2, -, -⟩ := c55_buff_size qs F hne hn hF
  refine ⟨bytes, h1, ?_⟩
  rw [h2]
  generalize qs.length = n
  rcases Nat.lt_or_ge w 64 with hlt | hge
  · have a : w / 8 * n ≤ 7 * n := Nat.mul_le_mul_right n (by omega)
    have b : w % 8 * n ≤ 7 * n := Nat.mul_le_mul_right n (by omega)
    omega
  · have : w = 64 := by omega
    subst this
    omega

/-- Non-trivial instance: three integers spread over 9 bits take 20 + 3 + 1 bytes. -/
example : (Buff.encode [5#64, 300#64, 4#64] 0).map List.length = .ok 24 := by decide +kernel

/-! ## Repeated values -/

private theorem after_snoc {C : XorCodec} (L : C.EncLaws) (vs : List B64) (v : B64) :
    (after C (vs ++ [v])).1 = L.nextS (L.nextAll C.init vs) v := by
  unfold after
  rw [L.compressLoop_state]
  simp [XorCodec.EncLaws.nextAll]

/-- Gorilla spends one bit on a value equal to its predecessor. -/
theorem c55_gorilla_repeat (hist : List B64) (v : B64) : growth Gorilla.codec (hist ++ [v]) v = 1 := by
  rw [(growth_eq Gorilla.encLaws _ v).1, after_snoc Gorilla.encLaws]
  generalize Gorilla.encLaws.nextAll Gorilla.codec.init hist = s
  have h : (Gorilla.nextS s v).first = false ∧ (Gorilla.nextS s v).valueBits = v := by
    unfold Gorilla.nextS
    by_cases hf : s.first = true
    · simp [hf]
    · rw [if_neg hf]
      have hf' : s.first = false := by simpa using hf
      simp only
      split
      · exact ⟨hf', rfl⟩
      · split <;> exact ⟨hf', rfl⟩
  change (Gorilla.emit (Gorilla.nextS s v) v).length = 1
  unfold Gorilla.emit Gorilla.emitNext
  simp [h.1, h.2]

/-- Chimp spends two bits on a value equal to its predecessor. -/
theorem c55_chimp_repeat (hist : List B64) (v : B64) : growth Chimp.codec (hist ++ [v]) v = 2 := by
  rw [(growth_eq Chimp.encLaws _ v).1, after_snoc Chimp.encLaws]
  generalize Chimp.encLaws.nextAll Chimp.codec.init hist = s
  have h : (Chimp.nextS s v).first = false ∧ (Chimp.nextS s v).storedVal = v := by
    unfold Chimp.nextS Chimp.addValue Chimp.writeFirst Chimp.compressValue
    by_cases hf : s.first = true
    · simp [hf]
    · rw [if_neg hf]
      have hf' : s.first = false := by simpa using hf
      simp only
      split
      · exact ⟨hf', rfl⟩
      · split
        · exact ⟨hf', rfl⟩
        · split <;> exact ⟨hf', rfl⟩
  change (Chimp.emit (Chimp.nextS s v) v).length = 2
  unfold Chimp.emit Chimp.emitNext
  simp [h.1, h.2]

/-- The XOR layer of Elf spends two bits on a value equal to its predecessor. -/
theorem c55_elf_xor_repeat (hist : List B64) (v : B64) : growth ElfXor.codec (hist ++ [v]) v = 2 := by
  rw [(growth_eq ElfXor.encLaws _ v).1, after_snoc ElfXor.encLaws]
  generalize ElfXor.encLaws.nextAll ElfXor.codec.init hist = s
  have h : (ElfXor.nextS s v).first = false ∧ (ElfXor.nextS s v).storedVal = v := by
    unfold ElfXor.nextS ElfXor.compressFloat ElfXor.writeFirst ElfXor.compressInner
    by_cases hf : s.first = true
    · simp only [hf, if_true]
      split <;> exact ⟨rfl, rfl⟩
    · rw [if_neg hf]
      have hf' : s.first = false := by simpa using hf
      simp only
      split
      · rename_i h0
        exact ⟨hf', xor_eq_zero.1 h0⟩
      · split
        · exact ⟨hf', rfl⟩
        · split <;> exact ⟨hf', rfl⟩
  change (ElfXor.emit (ElfXor.nextS s v) v).length = 2
  unfold ElfXor.emit ElfXor.emitNext
  simp [h.1, h.2]

/-! ## Chimp128's window -/

/-- Specification: two values agree in their low 14 bits. -/
def low14 (u v : B64) : Bool := u.toNat % 2 ^ 14 == v.toNat % 2 ^ 14

/-- Specification: the reference of `v` after `hist` is the newest of the last 128 values that agrees
with `v` in the low 14 bits. -/
def reference (hist : List B64) (v : B64) : Option B64 := (hist.reverse.take 128).find? (low14 · v)

/-- Specification: leading zero counts are rounded down to one of eight steps. -/
def leadStep (n : Nat) : Nat := (([0, 8, 12, 16, 18, 20, 22, 24] : List Nat).filter (· ≤ n)).getLastD 0

private theorem leadStep_eq : ∀ i < 64, leadingRound i = leadStep i := by decide

private theorem roundLz_step {x : Nat} (h : x ≠ 0) : roundLz x = leadStep (lz64 x) :=
  leadStep_eq _ (lz64_lt h)

/-- Specification: number of leading and trailing zero bits of the difference of two values. -/
def lead (u v : B64) : Nat := leadStep (lz64 (u ^^^ v).toNat)
def trail (u v : B64) : Nat := tz64 (u ^^^ v).toNat

private theorem reference_key (hist : List B64) (v : B64) :
    (hist.reverse.take 128).find? (fun u => Chimp128.key u == Chimp128.key v) = reference hist v := by
  unfold reference low14
  simp only [Chimp128.key_eq]

/-- What Chimp128 spends on a value: 9 bits if it equals its reference, otherwise 18 bits and the bits
that differ from the reference; without a reference 2 or 5 bits and the bits from the first difference
with the previous value on. -/
theorem c55_chimp128_cost (hist : List B64) (v : B64) (hne : hist ≠ []) :
    match reference hist v with
    | some u => growth Chimp128.codec hist v
        = if v = u then 9 else 18 + (64 - lead v u - trail v u)
    | none => ∃ p, hist.getLast? = some p ∧ p ≠ v ∧
        (growth Chimp128.codec hist v = 2 + (64 - lead p v) ∨
         growth Chimp128.codec hist v = 5 + (64 - lead p v)) := by
  have hst : (after Chimp128.codec hist).1 = Chimp128.encLaws.nextAll Chimp128.Enc.new hist := by
    unfold after
    exact Chimp128.encLaws.compressLoop_state _ _ hist
  have hh := Chimp128.hist_all hne
  rw [← hst] at hh
  rw [(growth_eq Chimp128.encLaws hist v).1]
  change match reference hist v with
    | some u => (Chimp128.emit _ v).length = _
    | none => _
  cases hr : reference hist v with
  | some u =>
    rw [← reference_key] at hr
    have := Chimp128.emit_found hh v u hr
    simp only
    rw [this]
    by_cases hv : v = u
    · simp [hv]
    · rw [if_neg hv, if_neg hv, roundLz_step (fun h0 => hv (xor_eq_zero.1 h0))]
      rfl
  | none =>
    have hr' := hr
    rw [← reference_key] at hr
    have := Chimp128.emit_none hh v hr
    obtain ⟨init, p, rfl⟩ : ∃ init p, hist = init ++ [p] :=
      ⟨hist.dropLast, hist.getLast hne, (List.dropLast_concat_getLast hne).symm⟩
    have hp : p ≠ v := by
      rintro rfl
      simp [reference, low14] at hr'
    simp only [List.reverse_append, List.reverse_cons, List.reverse_nil, List.nil_append,
      List.singleton_append, List.headD_cons] at this
    rw [roundLz_step (fun h0 => hp (xor_eq_zero.1 h0))] at this
    exact ⟨p, by simp, hp, this⟩

/-- A value seen among the last 128 costs 9 bits, unless a later value shares its low 14 bits. -/
theorem c55_chimp128_recall (old later : List B64) (v : B64) (hl : later.length < 128)
    (hno : ∀ w ∈ later, w.toNat % 2 ^ 14 ≠ v.toNat % 2 ^ 14) :
    growth Chimp128.codec (old ++ v :: later) v = 9 := by
  have hr : reference (old ++ v :: later) v = some v := by
    unfold reference
    rw [List.reverse_append, List.reverse_cons, List.append_assoc, List.take_append, List.find?_append]
    have h1 : (later.reverse.take 128).find? (low14 · v) = none := by
      rw [List.find?_eq_none]
      intro w hw
      have := hno w (List.mem_reverse.1 (List.mem_of_mem_take hw))
      simpa [low14] using this
    rw [h1, List.length_reverse]
    obtain ⟨n, hn⟩ : ∃ n, 128 - later.length = n + 1 := ⟨127 - later.length, by omega⟩
    rw [hn]
    simp [low14]
  have := c55_chimp128_cost (old ++ v :: later) v (by simp)
  rw [hr] at this
  simpa using this

/-- In particular a value equal to its predecessor costs 9 bits. -/
theorem c55_chimp128_repeat (hist : List B64) (v : B64) : growth Chimp128.codec (hist ++ [v]) v = 9 :=
  c55_chimp128_recall hist [] v (by simp) (by simp)

/-- The window ends there: a value whose low 14 bits do not occur among the last 128 values costs at
least 42 bits, even if it occurred before. -/
theorem c55_chimp128_forgets (hist : List B64) (v : B64) (hne : hist ≠ [])
    (hno : ∀ w ∈ hist.drop (hist.length - 128), w.toNat % 2 ^ 14 ≠ v.toNat % 2 ^ 14) :
    42 ≤ growth Chimp128.codec hist v := by
  have hr : reference hist v = none := by
    unfold reference
    rw [List.find?_eq_none]
    intro w hw
    rw [List.take_reverse, List.mem_reverse] at hw
    simpa [low14] using hno w hw
  have := c55_chimp128_cost hist v hne
  rw [hr] at this
  obtain ⟨p, -, hpv, hg⟩ := this
  have hl : lead p v ≤ 24 := by
    unfold lead
    rw [← roundLz_step (fun h0 => hpv (xor_eq_zero.1 h0))]
    exact roundLz_le (fun h0 => hpv (xor_eq_zero.1 h0))
  omega

/-- The hypotheses are met: 1.5, then `later`, then 1.5 again. -/
example : ∀ w ∈ [1#64, 2#64], w.toNat % 2 ^ 14 ≠ (0x3ff8000000000000#64).toNat % 2 ^ 14 := by simp

/-! ## Run-length encoding -/

/-- Specification: a list of runs (count, value) with positive counts in which neighbours differ. -/
def MaximalRuns : List (Nat × B64) → Prop
  | [] => True
  | [(n, _)] => 0 < n
  | (n, v) :: (m, w) :: r => 0 < n ∧ v ≠ w ∧ MaximalRuns ((m, w) :: r)

def expandRuns (R : List (Nat × B64)) : List B64 := R.flatMap (fun p => List.replicate p.1 p.2)

/-- Specification: a run of `n` takes `⌈n / 255⌉` fields of 9 bytes. -/
def rleSize (R : List (Nat × B64)) : Nat := 8 + 9 * (R.map (fun p => (p.1 + 254) / 255)).sum

/-- Every list has such runs. -/
theorem c55_runs_exist (vs : List B64) : ∃ R, MaximalRuns R ∧ expandRuns R = vs := by
  induction vs with
  | nil => exact ⟨[], trivial, rfl⟩
  | cons v vs ih =>
    obtain ⟨R, hR, rfl⟩ := ih
    match R, hR with
    | [], _ => exact ⟨[(1, v)], by simp [MaximalRuns], rfl⟩
    | [(n, w)], hR =>
      by_cases hv : v = w
      · subst hv
        refine ⟨[(n + 1, v)], by simp [MaximalRuns], by simp [expandRuns, List.replicate_succ]⟩
      · exact ⟨[(1, v), (n, w)], ⟨by simp, hv, hR⟩, by simp [expandRuns]⟩
    | (n, w) :: (m, u) :: R, hR =>
      by_cases hv : v = w
      · subst hv
        refine ⟨(n + 1, v) :: (m, u) :: R, ⟨by simp, hR.2.1, hR.2.2⟩, ?_⟩
        simp [expandRuns, List.replicate_succ]
      · exact ⟨(1, v) :: (n, w) :: (m, u) :: R, ⟨by simp, hv, hR⟩, by simp [expandRuns]⟩

private theorem rle_tail (R : List (Nat × B64)) (v : B64) (n : Nat) (h : MaximalRuns ((n, v) :: R))
    (c : RunLength.Comp) (hc : c.prevVal = v) (hp : 1 ≤ c.prevRun) :
    1 ≤ (c.loop (expandRuns R)).prevRun ∧
    (c.loop (expandRuns R)).bytes.length + 9
      = c.bytes.length + 9 + 9 * (R.map (fun p => (p.1 + 254) / 255)).sum := by
  induction R generalizing v n c with
  | nil => simp [expandRuns, RunLength.Comp.loop, hp]
  | cons p R ih =>
    obtain ⟨m, w⟩ := p
    obtain ⟨-, hvw, hR⟩ := h
    have hm : 0 < m := by
      cases R with
      | nil => exact hR
      | cons q R => exact hR.1
    have h1 := RunLength.loop_new m c w (by rw [hc]; exact hvw) hm
    have h2 := ih w m hR _ h1.1 h1.2.1
    have e : expandRuns ((m, w) :: R) = List.replicate m w ++ expandRuns R := rfl
    rw [e, RunLength.loop_append]
    simp only [List.map_cons, List.sum_cons]
    refine ⟨h2.1, ?_⟩
    rw [h2.2, h1.2.2]
    omega

/-- The size of an RLE chunk is determined by its runs. -/
theorem c55_rle_size (c : RunLength.Comp) (R : List (Nat × B64)) (h : MaximalRuns R) (hne : R ≠ []) :
    ∃ c', c.compress (expandRuns R) = .ok c' ∧ c'.prepare.buffers.length = rleSize R := by
  cases R with
  | nil => exact absurd rfl hne
  | cons p R =>
    obtain ⟨n, v⟩ := p
    have hn : 0 < n := by
      cases R with
      | nil => exact h
      | cons q R => exact h.1
    obtain ⟨k, rfl⟩ : ∃ k, n = k + 1 := ⟨n - 1, by omega⟩
    have e : expandRuns ((k + 1, v) :: R) = v :: (List.replicate k v ++ expandRuns R) := by
      simp [expandRuns, List.replicate_succ]
    rw [e]
    unfold RunLength.Comp.compress RunLength.Comp.append
    rw [if_pos (by rfl)]
    simp only
    refine ⟨_, rfl, ?_⟩
    rw [RunLength.loop_append]
    have h1 := RunLength.loop_same k { c.reset with prevVal := v, prevRun := 1 } (by simp) (by simp)
    simp only at h1
    have h2 := rle_tail R v (k + 1) h _ h1.1 (by rw [h1.2.1]; omega)
    unfold RunLength.Comp.prepare
    simp only
    rw [if_pos (by omega)]
    unfold RunLength.Comp.buffers rleSize
    simp only [RunLength.Comp.addField, List.length_append, leBytes_length, RunLength.fieldBytes,
      List.length_cons, f64Bytes_length, List.map_cons, List.sum_cons]
    have h3 := h2.2
    rw [h1.2.2] at h3
    simp only [RunLength.Comp.reset, List.length_nil] at h3 ⊢
    omega

/-- In the worst case, no two neighbours equal, RLE takes 9 bytes per value. -/
theorem c55_rle_worst (c : RunLength.Comp) (vs : List B64) (hne : vs ≠ []) :
    ∃ c', c.compress vs = .ok c' ∧ c'.prepare.buffers.length ≤ 8 + 9 * vs.length := by
  obtain ⟨R, hR, rfl⟩ := c55_runs_exist vs
  have hRne : R ≠ [] := by rintro rfl; exact hne rfl
  obtain ⟨c', h1, h2⟩ := c55_rle_size c R hR hRne
  refine ⟨c', h1, ?_⟩
  rw [h2]
  unfold rleSize expandRuns
  have : (R.map (fun p => (p.1 + 254) / 255)).sum
      ≤ (R.flatMap (fun p => List.replicate p.1 p.2)).length := by
    clear hR hRne h1 h2 hne c'
    induction R with
    | nil => simp
    | cons p R ih =>
      simp only [List.map_cons, List.sum_cons, List.flatMap_cons, List.length_append,
        List.length_replicate]
      omega
  omega

/-- 300 times 1.0 and one -0.0 are runs as required; the chunk takes 8 + 3 * 9 bytes. -/
example : MaximalRuns [(300, 0x3ff0000000000000#64), (1, 0x8000000000000000#64)] ∧
    rleSize [(300, 0x3ff0000000000000#64), (1, 0x8000000000000000#64)] = 35 := by
  exact ⟨⟨by decide, by decide, by simp [MaximalRuns]⟩, by decide⟩

end Ebi.Props
