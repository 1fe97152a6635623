import Verif.Gorilla
import Verif.Chimp
import Verif.Chimp128
import Verif.ElfXor
import Verif.ElfWrap
import Verif.RunLength

/-!
# Lemmas on compressed sizes

How many bits each XOR encoder emits, and which earlier value Chimp128 refers to.
-/

namespace Ebi

namespace XorCodec.EncLaws

variable {C : XorCodec} (L : C.EncLaws)

/-- A bound per value carries over to the chunk. -/
theorem emitAll_le {B : Nat} (hB : ∀ s v, L.Inv s → (L.emit s v).length ≤ B) (vs : List B64) (s : C.S)
    (hs : L.Inv s) : (L.emitAll s vs).length ≤ B * vs.length := by
  induction vs generalizing s with
  | nil => simp [emitAll]
  | cons v vs ih =>
    have h1 := hB s v hs
    have h2 := ih (L.nextS s v) (L.inv_next v hs)
    simp only [emitAll, List.length_append, List.length_cons, Nat.mul_add, Nat.mul_one]
    omega

theorem buffers_le {B D : Nat} (hB : ∀ s v, L.Inv s → (L.emit s v).length ≤ B)
    (hD : ∀ s, L.Inv s → (L.closeBits s).length ≤ D) (c : C.Compressor) (vs : List B64) :
    8 * (C.buffers (C.prepare (C.compress c vs))).length ≤ B * vs.length + D + 7 := by
  have h1 := BitWriter.rep_bytes_length (L.prepare_rep_all c vs)
  have h2 := L.emitAll_le hB vs C.init L.inv_init
  have h3 := hD _ (L.inv_nextAll vs L.inv_init)
  unfold buffers BitWriter.asSlice
  rw [List.length_append] at h1
  omega

end XorCodec.EncLaws

theorem Gorilla.emit_le (s : Gorilla.Enc) (v : B64) : (Gorilla.emit s v).length ≤ 77 := by
  unfold Gorilla.emit Gorilla.emitNext
  split
  · simp
  · simp only
    split
    · simp
    · split <;> (simp; omega)

theorem Chimp.emit_le (s : Chimp.Enc) (v : B64) : (Chimp.emit s v).length ≤ 69 := by
  unfold Chimp.emit Chimp.emitNext
  split
  · simp
  · simp only
    split
    · simp
    · split
      · simp only [List.length_append, List.length_cons, natBits_length]; omega
      · split <;> (simp only [List.length_append, List.length_cons, natBits_length]; omega)

theorem ElfXor.emit_le (s : ElfXor.Enc) (v : B64) : (ElfXor.emit s v).length ≤ 74 := by
  unfold ElfXor.emit ElfXor.emitNext ElfXor.emitFirst
  split
  · simp only
    split <;> (simp; try omega)
  · simp only
    split
    · simp
    · split
      · simp; omega
      · split <;> (simp; omega)

theorem Elf.flagBits_le (last : Int) (p : Elf.Plan) : (Elf.flagBits last p).1.length ≤ 6 := by
  cases p with
  | raw v => simp [Elf.flagBits]
  | erase b v => simp only [Elf.flagBits]; split <;> simp

/-! ## Chimp128: the reference value -/

namespace Chimp128

/-- The encoder state after the values `r` (newest first): the ring holds the last 128 of them, and
the hash table the position of the newest one with each low 14 bits. -/
structure Hist (r : List B64) (s : Enc) : Prop where
  first : s.first = false
  index : s.index + 1 = r.length
  cur : s.current = s.index % 128
  ring : ∀ p, p < r.length → p < 128 → s.stored ((s.index - p) % 128) = r[p]?.getD 0#64
  idx : ∀ k, s.indices k = match r.findIdx? (fun u => key u == k) with
    | some p => s.index - p
    | none => 0

theorem hist_first (v : B64) : Hist [v] (nextS Enc.new v) := by
  refine ⟨rfl, rfl, rfl, ?_, ?_⟩
  · intro p hp _
    have : p = 0 := by simpa using hp
    subst this
    simp [nextS, addValue, writeFirst, Enc.new, upd]
  · intro k
    simp only [nextS, addValue, writeFirst, Enc.new, upd, if_true, List.findIdx?_cons]
    by_cases hk : key v = k
    · simp [hk]
    · simp [hk]

theorem hist_push {r : List B64} {s : Enc} (h : Hist r s) (v : B64) : Hist (v :: r) (push s v) := by
  refine ⟨h.first, ?_, ?_, ?_, ?_⟩
  · simp [push, h.index]
  · simp only [push, h.cur]; omega
  · intro p hp hp'
    simp only [push, upd, h.cur]
    cases p with
    | zero => simp
    | succ p =>
      have hp2 : p < r.length := by simpa using hp
      have hi := h.index
      rw [if_neg (by omega)]
      have := h.ring p hp2 (by omega)
      rw [show s.index + 1 - (p + 1) = s.index - p by omega]
      simpa using this
  · intro k
    simp only [push, upd, List.findIdx?_cons]
    by_cases hk : key v = k
    · simp [hk]
    · rw [if_neg (fun hc => hk hc.symm), h.idx k]
      have hne : (key v == k) = false := by simpa using hk
      simp only [hne, Bool.false_eq_true, if_false]
      cases hf : r.findIdx? (fun u => key u == k) with
      | none => simp
      | some p => exact (Nat.add_sub_add_right _ _ _).symm

theorem hist_fields {r : List B64} {s : Enc} (h : Hist r s) (a b : Nat) :
    Hist r { s with size := a, storedLz := b } := ⟨h.first, h.index, h.cur, h.ring, h.idx⟩

theorem hist_next {r : List B64} {s : Enc} (h : Hist r s) (v : B64) : Hist (v :: r) (nextS s v) := by
  unfold nextS addValue compressValue
  rw [if_neg (by simp [h.first])]
  simp only
  split
  · exact hist_push (hist_fields h _ _) v
  · split
    · exact hist_push (hist_fields h _ _) v
    · split
      · exact hist_push (hist_fields h _ s.storedLz) v
      · exact hist_push (hist_fields h _ _) v

theorem hist_foldl {r : List B64} {s : Enc} (h : Hist r s) (vs : List B64) :
    Hist (vs.reverse ++ r) (vs.foldl nextS s) := by
  induction vs generalizing r s with
  | nil => exact h
  | cons v vs ih => simpa using ih (hist_next h v)

theorem hist_all {vs : List B64} (hne : vs ≠ []) : Hist vs.reverse (encLaws.nextAll Enc.new vs) := by
  cases vs with
  | nil => exact absurd rfl hne
  | cons v vs =>
    have := hist_foldl (hist_first v) vs
    rw [List.reverse_cons]
    exact this

theorem key_eq (v : B64) : key v = v.toNat % 2 ^ 14 := by
  unfold key
  exact Nat.and_two_pow_sub_one_eq_mod v.toNat 14

/-- Agreement in the low 14 bits is more than 13 trailing zeros in the difference. -/
theorem key_eq_iff (v u : B64) : key v = key u ↔ v = u ∨ 13 < tz64 (v ^^^ u).toNat := by
  have hmod : (v ^^^ u).toNat % 2 ^ 14 = 0 ↔ key v = key u := by
    rw [key_eq, key_eq, BitVec.toNat_xor, Nat.xor_mod_two_pow]
    constructor
    · intro h
      apply Nat.eq_of_testBit_eq
      intro i
      have := congrArg (fun x => x.testBit i) h
      simpa [Nat.testBit_xor] using this
    · intro h; rw [h]; simp
  rw [← hmod]
  by_cases h0 : (v ^^^ u).toNat = 0
  · rw [h0]
    simp [xor_eq_zero.1 h0]
  · have hd := tz64_dvd (v ^^^ u).toNat
    have ho := tz64_odd h0 (v ^^^ u).isLt
    have hvu : v ≠ u := fun h => h0 (xor_eq_zero.2 h)
    simp only [hvu, false_or]
    generalize (v ^^^ u).toNat = x at *
    constructor
    · intro h
      rcases Nat.lt_or_ge 13 (tz64 x) with hlt | hge
      · exact hlt
      · exfalso
        generalize tz64 x = t at *
        have h14 : 2 ^ (t + 1) ∣ x := Nat.dvd_trans (Nat.pow_dvd_pow 2 (by omega)) (Nat.dvd_of_mod_eq_zero h)
        obtain ⟨q, hq⟩ := h14
        rw [hq, Nat.pow_succ, Nat.mul_assoc, Nat.mul_div_cancel_left _ (Nat.two_pow_pos t)] at ho
        omega
    · intro h
      exact Nat.mod_eq_zero_of_dvd (Nat.dvd_trans (Nat.pow_dvd_pow 2 (by omega)) hd)

theorem tz64_zero : tz64 0 = 64 := by decide

theorem key_tz (v u : B64) : key v = key u ↔ 13 < tz64 (v ^^^ u).toNat := by
  rw [key_eq_iff]
  constructor
  · rintro (h | h)
    · subst h; simp [tz64_zero]
    · exact h
  · exact Or.inr

/-- If one of the last 128 values agrees in the low 14 bits, the newest such value is the reference. -/
theorem choose_found {r : List B64} {s : Enc} (h : Hist r s) (v u : B64)
    (hu : (r.take 128).find? (fun u => key u == key v) = some u) :
    (choose s v).2 = ((v ^^^ u).toNat, tz64 (v ^^^ u).toNat) ∧ 13 < tz64 (v ^^^ u).toNat := by
  have hkey : key u = key v := by simpa using List.find?_some hu
  have htz := (key_tz v u).1 hkey.symm
  rw [List.find?_eq_some_iff_getElem] at hu
  obtain ⟨-, p, hp, hpu, hmin⟩ := hu
  have hp1 : p < 128 := by simp at hp; omega
  have hp2 : p < r.length := by simp at hp; omega
  have hfi : r.findIdx? (fun u => key u == key v) = some p := by
    rw [List.findIdx?_eq_some_iff_getElem]
    refine ⟨hp2, ?_, ?_⟩
    · have : r[p] = u := by simpa using hpu
      simp [this, hkey]
    · intro j hj
      have := hmin j hj
      simpa using this
  have hidx := h.idx (key v)
  rw [hfi] at hidx
  have hring := h.ring p hp2 hp1
  have hru : r[p]?.getD 0#64 = u := by
    rw [List.getElem?_eq_getElem hp2]
    simpa using hpu
  rw [hru] at hring
  have hi := h.index
  unfold choose
  simp only [hidx]
  rw [if_pos (by omega), hring, if_pos htz]
  exact ⟨rfl, htz⟩

/-- Otherwise the previous value is the reference. -/
theorem choose_none {r : List B64} {s : Enc} (h : Hist r s) (v : B64)
    (hu : (r.take 128).find? (fun u => key u == key v) = none) :
    (choose s v).2.1 = (r.headD 0#64 ^^^ v).toNat ∧ ¬ 13 < (choose s v).2.2 := by
  have hi := h.index
  have hlast : s.stored (s.index % 128) = r.headD 0#64 := by
    have := h.ring 0 (by omega) (by omega)
    rw [Nat.sub_zero] at this
    rw [this]
    cases r with
    | nil => rfl
    | cons a r => rfl
  have hidx := h.idx (key v)
  unfold choose
  simp only
  split
  · rename_i hlt
    have hno : ¬ 13 < tz64 (v ^^^ s.stored (s.indices (key v) % 128)).toNat := by
      intro hc
      cases hf : r.findIdx? (fun u => key u == key v) with
      | some p =>
        rw [hf] at hidx
        simp only at hidx
        rw [List.findIdx?_eq_some_iff_getElem] at hf
        obtain ⟨hp, hpk, -⟩ := hf
        rw [hidx] at hlt
        have hp128 : p < 128 := by omega
        have := List.find?_eq_none.1 hu r[p] (List.mem_take_iff_getElem.2 ⟨p, by omega, rfl⟩)
        exact this hpk
      | none =>
        rw [hf] at hidx
        simp only at hidx
        rw [hidx] at hlt hc
        have hr := h.ring s.index (by omega) (by omega)
        rw [Nat.sub_self] at hr
        rw [hr, ← key_tz] at hc
        have hlt' : s.index < r.length := by omega
        rw [List.getElem?_eq_getElem hlt'] at hc
        rw [List.findIdx?_eq_none_iff] at hf
        have := hf r[s.index] (List.getElem_mem hlt')
        simp at this hc
        exact this hc.symm
    rw [if_neg hno]
    exact ⟨by simp only [hlast], hno⟩
  · exact ⟨by simp only [hlast], by simp⟩

/-- Bits for a value whose low 14 bits occur among the last 128 values. -/
theorem emit_found {r : List B64} {s : Enc} (h : Hist r s) (v u : B64)
    (hu : (r.take 128).find? (fun u => key u == key v) = some u) :
    (emit s v).length = if v = u then 9
      else 18 + (64 - roundLz (v ^^^ u).toNat - tz64 (v ^^^ u).toNat) := by
  obtain ⟨hc, ht⟩ := choose_found h v u hu
  unfold emit emitNext
  rw [if_neg (by simp [h.first])]
  simp only [hc]
  by_cases hv : v = u
  · subst hv; simp
  · rw [if_neg (fun h0 => hv (xor_eq_zero.1 h0)), if_pos ht, if_neg hv]
    simp

/-- Bits for any other value. -/
theorem emit_none {r : List B64} {s : Enc} (h : Hist r s) (v : B64)
    (hu : (r.take 128).find? (fun u => key u == key v) = none) :
    (emit s v).length = 2 + (64 - roundLz (r.headD 0#64 ^^^ v).toNat) ∨
    (emit s v).length = 5 + (64 - roundLz (r.headD 0#64 ^^^ v).toNat) := by
  obtain ⟨hc, ht⟩ := choose_none h v hu
  have hi := h.index
  have hne : r.headD 0#64 ≠ v := by
    cases r with
    | nil => simp at hi
    | cons a r =>
      intro hav
      simp only [List.headD_cons] at hav
      subst hav
      simp at hu
  unfold emit emitNext
  rw [if_neg (by simp [h.first])]
  simp only [hc]
  rw [if_neg (fun h0 => hne (xor_eq_zero.1 h0)), if_neg ht]
  split
  · exact Or.inl (by simp)
  · exact Or.inr (by simp)

end Chimp128

/-! ## Run-length encoding -/

namespace RunLength

theorem loop_append (c : Comp) (a b : List B64) : c.loop (a ++ b) = (c.loop a).loop b := by
  induction a generalizing c with
  | nil => rfl
  | cons v a ih => exact ih (c.step v)

/-- More values equal to the pending one. -/
theorem loop_same (n : Nat) (c : Comp) (h1 : 1 ≤ c.prevRun) (h2 : c.prevRun ≤ 255) :
    (c.loop (List.replicate n c.prevVal)).prevVal = c.prevVal ∧
    (c.loop (List.replicate n c.prevVal)).prevRun = (c.prevRun - 1 + n) % 255 + 1 ∧
    (c.loop (List.replicate n c.prevVal)).bytes.length
      = c.bytes.length + 9 * ((c.prevRun - 1 + n) / 255) := by
  induction n generalizing c with
  | zero => simp only [List.replicate_zero, Comp.loop]; exact ⟨trivial, by omega, by omega⟩
  | succ n ih =>
    rw [List.replicate_succ, Comp.loop]
    by_cases hr : c.prevRun < 255
    · have hs : c.step c.prevVal = { c with prevRun := c.prevRun + 1 } := by
        unfold Comp.step; rw [if_pos ⟨rfl, hr⟩]
      have := ih { c with prevRun := c.prevRun + 1 } (by simp) (by simp only; omega)
      rw [hs]
      simp only at this
      rw [show c.prevRun - 1 + (n + 1) = c.prevRun + 1 - 1 + n by omega]
      exact this
    · have hs : c.step c.prevVal = { c.addField c.prevVal c.prevRun with prevRun := 1 } := by
        unfold Comp.step; rw [if_neg (fun h => hr h.2)]; rfl
      have := ih { c.addField c.prevVal c.prevRun with prevRun := 1 } (by simp) (by simp)
      rw [hs]
      simp only [Comp.addField, List.length_append, fieldBytes, List.length_cons, f64Bytes_length] at this ⊢
      exact ⟨this.1, by omega, by omega⟩

/-- A new run. -/
theorem loop_new (n : Nat) (c : Comp) (v : B64) (hv : c.prevVal ≠ v) (hn : 0 < n) :
    (c.loop (List.replicate n v)).prevVal = v ∧
    1 ≤ (c.loop (List.replicate n v)).prevRun ∧
    (c.loop (List.replicate n v)).bytes.length = c.bytes.length + 9 + 9 * ((n - 1) / 255) := by
  obtain ⟨m, rfl⟩ : ∃ m, n = m + 1 := ⟨n - 1, by omega⟩
  rw [List.replicate_succ, Comp.loop]
  have hs : c.step v = { c.addField c.prevVal c.prevRun with prevVal := v, prevRun := 1 } := by
    unfold Comp.step; rw [if_neg (fun h => hv h.1)]
  have := loop_same m { c.addField c.prevVal c.prevRun with prevVal := v, prevRun := 1 } (by simp) (by simp)
  rw [hs]
  simp only [Comp.addField, List.length_append, fieldBytes, List.length_cons, f64Bytes_length] at this ⊢
  exact ⟨this.1, by omega, by omega⟩

end RunLength

end Ebi
