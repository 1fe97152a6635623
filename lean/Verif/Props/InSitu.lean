import Verif.InSituLemmas
import Verif.Props.Matmul

/-!
# C15, C36, C38, C39 through the decoder: files written with BUFF and DeltaSprintz

The chunk properties of these two schemes, lifted to whole files opened with `Decoder`.
-/

namespace Ebi.Props

open Ebi

/-! ## What the chunks of such files are -/

theorem reach_buff {o : FloatOps} {lg : Nat → Nat} {scale : Nat} {c : Buff.Comp}
    (h : (Buff.scheme o lg scale).Reach c) : c.scale = scale := by
  refine Scheme.Reach.inv (S := Buff.scheme o lg scale) (P := fun c : Buff.Comp => c.scale = scale) rfl ?_ h
  intro c c' c'' vs ih h1 h2
  cases h2
  simp only [Buff.scheme, Buff.Comp.compress] at h1
  split at h1
  · cases h1
  · split at h1
    · cases h1
      exact ih
    · cases h1
    · cases h1

theorem produces_buff {o : FloatOps} {lg : Nat → Nat} {scale F : Nat} (hF : Buff.fractionBits lg scale = some F)
    {vs : List B64} {bs : List Byte} (h : (Buff.scheme o lg scale).Produces vs bs) :
    Buff.encode (vs.map fun v => Buff.intoFixed v F) F = .ok bs := by
  obtain ⟨c, c', c'', hr, h1, h2, rfl⟩ := h
  have hs : (Buff.Comp.reset c).scale = scale := (reach_buff hr : (Buff.Comp.scale c) = scale)
  cases h2
  simp only [Buff.scheme, Buff.Comp.compress, hs, hF] at h1
  split at h1
  · rename_i bytes hb
    cases h1
    exact hb
  · cases h1
  · cases h1

theorem fractionBits_le {lg : Nat → Nat} {scale F : Nat} (h : Buff.fractionBits lg scale = some F) : F ≤ 50 := by
  have hm : F ∈ Buff.precisionMap := List.mem_of_getElem? h
  have : ∀ x ∈ Buff.precisionMap, x ≤ 50 := by decide
  exact this F hm

theorem buffBits_le (E : Env) (s : BitVec 64) : buffBits E s ≤ 50 := by
  unfold buffBits
  cases h : Buff.fractionBits E.log10Scale s.toNat with
  | none => simp
  | some F => exact fractionBits_le h

theorem Written.buff {E : Env} {a : Args} {file : List Byte} {m : Metadata} (h : Written E a file m)
    {s : BitVec 64} (hc : a.cfg = .buff s) :
    ∃ cs : List Ebi.Chunk, file = a.layout cs ∧ m = a.metadata cs ∧
      Fits a.cfg a.opt a.version a.times a.elapsed cs ∧
      Split a.opt.recordsPerChunk a.records (cs.map Prod.fst) ∧
      (∀ p ∈ cs, p.1 ≠ [] ∧ Buff.encode (p.1.map fun v => Buff.intoFixed v (buffBits E s)) (buffBits E s) = .ok p.2) ∧
      cs.flatMap Prod.fst = a.records ∧ recordCount cs = a.records.length := by
  obtain ⟨cs, e1, e2, hfit, h2, h3, h4, h5⟩ := h.encoded.chunks h.law h.valid h.accepts h.len
  have hs := h.supported
  rw [hc] at hs
  obtain ⟨F, hF⟩ := Option.isSome_iff_exists.1 hs
  refine ⟨cs, e1, e2, hfit, h2, fun p hp => ⟨h2.ne_nil h.valid.positive p.1 (List.mem_map_of_mem hp), ?_⟩, h4, h5⟩
  have hpr := (h3 p hp).2
  rw [hc] at hpr
  have hb : buffBits E s = F := by simp [buffBits, hF]
  rw [hb]
  exact produces_buff hF hpr

theorem reach_sprintz {o : FloatOps} {scale : Nat} {c : Sprintz.Comp}
    (h : (Sprintz.scheme o scale).Reach c) : c.scale = scale := by
  refine Scheme.Reach.inv (S := Sprintz.scheme o scale) (P := fun c : Sprintz.Comp => c.scale = scale) rfl ?_ h
  intro c c' c'' vs ih h1 h2
  cases h2
  simp only [Sprintz.scheme, Sprintz.Comp.compress] at h1
  split at h1
  · cases h1
    exact ih
  · cases h1
  · cases h1

theorem Written.sprintz {E : Env} {a : Args} {file : List Byte} {m : Metadata} (h : Written E a file m)
    {n : BitVec 64} {s : BitVec 64} (hc : a.cfg = .deltaSprintz n s) :
    ∃ cs : List Ebi.Chunk, file = a.layout cs ∧ m = a.metadata cs ∧
      Fits a.cfg a.opt a.version a.times a.elapsed cs ∧
      Split a.opt.recordsPerChunk a.records (cs.map Prod.fst) ∧
      (∀ p ∈ cs, p.1 ≠ [] ∧ SprintzReaderOf E.o s.toNat p.1 (Sprintz.Reader.new p.1.length p.2)) ∧
      cs.flatMap Prod.fst = a.records ∧ recordCount cs = a.records.length := by
  obtain ⟨cs, e1, e2, hfit, h2, h3, h4, h5⟩ := h.encoded.chunks h.law h.valid h.accepts h.len
  refine ⟨cs, e1, e2, hfit, h2, fun p hp => ⟨h2.ne_nil h.valid.positive p.1 (List.mem_map_of_mem hp), ?_⟩, h4, h5⟩
  have hpr := (h3 p hp).2
  rw [hc] at hpr
  obtain ⟨c, c', c'', hr, f1, f2, f3⟩ := hpr
  refine ⟨_, c', ?_, f1, ?_, rfl⟩
  · exact (reach_sprintz hr : Sprintz.Comp.scale c = s.toNat)
  · cases f2
    exact f3

/-! ## The chunk queries of the two readers -/

/-- BUFF's own queries do not look at the precision. -/
theorem buff_ops (E : Env) (prec : Option Nat) (n : Nat) (bs : List Byte) (bm : Option Bitmap) (off : Nat) :
    (∀ p, (AnyReader.ops E .buff prec).filter n bs p bm off = (Buff.Reader.new n bs).filter E.useSimd p bm off) ∧
    (AnyReader.ops E .buff prec).sum n bs bm off = (Buff.Reader.new n bs).sum E.o bm off ∧
    (AnyReader.ops E .buff prec).min n bs bm off = (Buff.Reader.new n bs).min E.o bm off ∧
    (AnyReader.ops E .buff prec).max n bs bm off = (Buff.Reader.new n bs).max E.o bm off := by
  have key : ∀ (r : Buff.Reader), r.bytes = bs → r.numberOfRecords = n →
      (∀ p, r.filter E.useSimd p bm off = (Buff.Reader.new n bs).filter E.useSimd p bm off) ∧
      r.sum E.o bm off = (Buff.Reader.new n bs).sum E.o bm off ∧
      r.min E.o bm off = (Buff.Reader.new n bs).min E.o bm off ∧
      r.max E.o bm off = (Buff.Reader.new n bs).max E.o bm off := by
    rintro ⟨n', bs', pr, dc⟩ rfl rfl
    exact ⟨fun p => rfl, rfl, rfl, rfl⟩
  have fin : ∀ (r : Buff.Reader), r.bytes = bs → r.numberOfRecords = n →
      freshHandle .buff prec n bs off = .ok ⟨.buff r, n, off⟩ →
      (∀ p, (AnyReader.ops E .buff prec).filter n bs p bm off = (Buff.Reader.new n bs).filter E.useSimd p bm off) ∧
      (AnyReader.ops E .buff prec).sum n bs bm off = (Buff.Reader.new n bs).sum E.o bm off ∧
      (AnyReader.ops E .buff prec).min n bs bm off = (Buff.Reader.new n bs).min E.o bm off ∧
      (AnyReader.ops E .buff prec).max n bs bm off = (Buff.Reader.new n bs).max E.o bm off := by
    intro r e1 e2 e3
    obtain ⟨k1, k2, k3, k4⟩ := key r e1 e2
    refine ⟨fun p => ?_, ?_, ?_, ?_⟩
    · rw [← k1 p]
      simp only [AnyReader.ops, e3, Res.bind_ok, Handle.bitmap, Handle.exec, AnyReader.exec, Buff.Reader.exec]
      cases r.filter E.useSimd p bm off <;> rfl
    · rw [← k2]
      simp only [AnyReader.ops, e3, Res.bind_ok, Handle.number, Handle.exec, AnyReader.exec, Buff.Reader.exec]
      cases r.sum E.o bm off <;> rfl
    · rw [← k3]
      simp only [AnyReader.ops, e3, Res.bind_ok, Handle.number, Handle.exec, AnyReader.exec, Buff.Reader.exec]
      cases r.min E.o bm off <;> rfl
    · rw [← k4]
      simp only [AnyReader.ops, e3, Res.bind_ok, Handle.number, Handle.exec, AnyReader.exec, Buff.Reader.exec]
      cases r.max E.o bm off <;> rfl
  cases prec with
  | none => exact fin _ rfl rfl rfl
  | some p => exact fin _ rfl rfl rfl

theorem sprintz_ops (E : Env) (prec : Option Nat) (n : Nat) (bs : List Byte) (bm : Option Bitmap) (off : Nat) :
    (∀ p, (AnyReader.ops E .deltaSprintz prec).filter n bs p bm off
      = ((Sprintz.Reader.new n bs).filter E.o p bm off).map Prod.fst) ∧
    (AnyReader.ops E .deltaSprintz prec).sum n bs bm off = ((Sprintz.Reader.new n bs).sum E.o bm off).map Prod.fst ∧
    (AnyReader.ops E .deltaSprintz prec).min n bs bm off = ((Sprintz.Reader.new n bs).min E.o bm off).map Prod.fst ∧
    (AnyReader.ops E .deltaSprintz prec).max n bs bm off = ((Sprintz.Reader.new n bs).max E.o bm off).map Prod.fst := by
  have hf : freshHandle .deltaSprintz prec n bs off = .ok ⟨.deltaSprintz (Sprintz.Reader.new n bs), n, off⟩ := by
    cases prec <;> rfl
  generalize Sprintz.Reader.new n bs = r at hf ⊢
  refine ⟨fun p => ?_, ?_, ?_, ?_⟩
  · simp only [AnyReader.ops, hf, Res.bind_ok, Handle.bitmap, Handle.exec, AnyReader.exec, Sprintz.Reader.exec]
    cases r.filter E.o p bm off <;> rfl
  · simp only [AnyReader.ops, hf, Res.bind_ok, Handle.number, Handle.exec, AnyReader.exec, Sprintz.Reader.exec]
    cases r.sum E.o bm off <;> rfl
  · simp only [AnyReader.ops, hf, Res.bind_ok, Handle.number, Handle.exec, AnyReader.exec, Sprintz.Reader.exec]
    cases r.min E.o bm off <;> rfl
  · simp only [AnyReader.ops, hf, Res.bind_ok, Handle.number, Handle.exec, AnyReader.exec, Sprintz.Reader.exec]
    cases r.max E.o bm off <;> rfl

/-! ## Monotone conversion -/

/-- What is assumed of the arithmetic for minimum and maximum: converting an `i64` and dividing by `d` is
monotone and never a NaN. -/
def ScaleLaw (o : FloatOps) (d : B64) : Prop :=
  ∀ p q : BitVec 64, p.toInt ≤ q.toInt → fle (o.div (o.ofI64 p) d) (o.div (o.ofI64 q) d) = true

theorem soft_quot (p : BitVec 64) (d : Nat) : Soft.ops.div (Soft.ops.ofI64 p) (Soft.ops.ofNat d)
    = Soft.div (Soft.ofInt p.toInt) (Soft.ofInt d) := by
  unfold Soft.ops
  rfl

/-- IEEE arithmetic satisfies it for every positive integer up to `2^63`, in particular for `2^F` and for
every scale DeltaSprintz can store. -/
theorem soft_scale {d : Nat} (h0 : 0 < d) (hd : d ≤ 2 ^ 63) : ScaleLaw Soft.ops (Soft.ops.ofNat d) := by
  intro p q h
  have hb : ∀ x : BitVec 64, x.toInt.natAbs ≤ 2 ^ 63 := by
    intro x
    have b1 := BitVec.le_toInt x
    have b2 := BitVec.toInt_lt (x := x)
    simp only [Nat.add_one_sub_one] at b1 b2
    omega
  rw [soft_quot, soft_quot]
  exact Soft.quot_mono (hb p) (hb q) h0 hd h

theorem ScaleLaw.num {o : FloatOps} {d : B64} (h : ScaleLaw o d) (q : BitVec 64) :
    isNaN (o.div (o.ofI64 q) d) = false := by
  have := h q q (Int.le_refl _)
  simp only [fle, Bool.and_eq_true, Bool.not_eq_true', decide_eq_true_eq] at this
  exact this.1.1

theorem negInf_fle {v : B64} (h : isNaN v = false) : fle negInf v = true := by
  have h' : ¬ 0x7ff0000000000000 < mag v := by simpa [isNaN] using h
  have e : key negInf = -0x7ff0000000000000 := by decide +kernel
  simp only [fle, h, e, Bool.not_false, Bool.and_true, Bool.and_eq_true, Bool.not_eq_true', decide_eq_true_eq]
  refine ⟨by decide +kernel, ?_⟩
  unfold key
  split <;> omega

theorem eq_of_key {u v : B64} (h : key u = key v) (h0 : key v ≠ 0) : u = v := by
  have hu := Soft.mk_sgn_mag u
  have hv := Soft.mk_sgn_mag v
  unfold key at h h0
  have h1 : sgn u = sgn v ∧ mag u = mag v := by
    cases hsu : sgn u <;> cases hsv : sgn v <;> simp only [hsu, hsv, if_true, if_false, Bool.false_eq_true] at h h0 <;>
      first
      | exact ⟨rfl, by omega⟩
      | omega
  rw [← hu, ← hv, h1.1, h1.2]

/-- Among numbers (no NaNs) the extremum of a non-empty selection is selected. -/
theorem Extremum.maxMem {vs : List B64} {r : B64} (h : Extremum (fun a b => fle b a) negInf vs r)
    (hn : ∀ v ∈ vs, isNaN v = false) : (vs = [] ∧ r = negInf) ∨ r ∈ vs := by
  rcases h.mem with e | e
  · cases vs with
    | nil => exact Or.inl ⟨rfl, e⟩
    | cons v vs =>
      refine Or.inr ?_
      have h1 := h.bound v (by simp) (hn v (by simp))
      have h2 := negInf_fle (hn v (by simp))
      subst e
      simp only [fle, Bool.and_eq_true, decide_eq_true_eq] at h1 h2
      have : v = negInf := eq_of_key (by omega) (by decide +kernel)
      simp [this]
  · exact Or.inr e

@[inherit_doc Extremum.maxMem]
theorem Extremum.minMem {vs : List B64} {r : B64} (h : Extremum fle posInf vs r)
    (hn : ∀ v ∈ vs, isNaN v = false) : (vs = [] ∧ r = posInf) ∨ r ∈ vs := by
  rcases h.mem with e | e
  · cases vs with
    | nil => exact Or.inl ⟨rfl, e⟩
    | cons v vs =>
      refine Or.inr ?_
      have h1 := h.bound v (by simp) (hn v (by simp))
      have h2 := fle_posInf (hn v (by simp))
      subst e
      simp only [fle, Bool.and_eq_true, decide_eq_true_eq] at h1 h2
      have : v = posInf := eq_of_key (by omega) (by decide +kernel)
      simp [this]
  · exact Or.inr e

/-! ## BUFF -/

section

variable {E : Env} {a : Args} {file : List Byte} {m : Metadata} {s : BitVec 64}

theorem mem_selected {bm : Option Bitmap} {off : Nat} {vs : List B64} {view : B64 → B64} {v : B64} :
    v ∈ pickFrom bm off (vs.map view) ↔
      ∃ x, Selected bm off vs.length x ∧ v = view (vs.getD (x - off) 0#64) := by
  rw [mem_pickFrom]
  constructor
  · rintro ⟨i, h1, h2⟩
    rw [List.getElem?_map] at h1
    obtain ⟨w, h3, rfl⟩ := Option.map_eq_some_iff.1 h1
    have := (List.getElem?_eq_some_iff.1 h3).1
    refine ⟨off + i, ⟨by omega, by omega, h2⟩, ?_⟩
    rw [show off + i - off = i by omega, List.getD_eq_getElem?_getD, h3]
    rfl
  · rintro ⟨x, ⟨h1, h2, h3⟩, rfl⟩
    have hlt : x - off < vs.length := by omega
    refine ⟨x - off, ?_, fun b hb => by rw [show off + (x - off) = x by omega]; exact h3 b hb⟩
    rw [List.getElem?_map, List.getElem?_eq_getElem hlt, List.getD_eq_getElem?_getD, List.getElem?_eq_getElem hlt]
    rfl

theorem getD_map_fixed (vs : List B64) (F : Nat) {i : Nat} (h : i < vs.length) :
    (vs.map fun v => Buff.intoFixed v F).getD i 0 = Buff.intoFixed (vs.getD i 0#64) F := by
  rw [List.getD_eq_getElem?_getD, List.getD_eq_getElem?_getD, List.getElem?_map, List.getElem?_eq_getElem h]
  rfl

theorem pick_num {o : FloatOps} {d : B64} (hm : ScaleLaw o d) {view : B64 → B64} (q : B64 → BitVec 64)
    (hview : ∀ v, view v = o.div (o.ofI64 (q v)) d) (bm : Option Bitmap) (vs : List B64) :
    ∀ v ∈ pickFrom bm 0 (vs.map view), isNaN v = false := by
  intro v hv
  rw [mem_selected] at hv
  obtain ⟨y, hy, rfl⟩ := hv
  rw [hview]
  exact hm.num _

/-- Maximum over a BUFF file: the largest of the values the selected records come back as, whatever
precision is set; `negInf` if nothing is selected. -/
theorem c38_decoder_max (h : Written E a file m) (hc : a.cfg = .buff s) (prec : Option Nat) (ho : MinMaxLaw E.o)
    (hm : ScaleLaw E.o (E.o.ofNat (2 ^ buffBits E s))) (bm : Option Bitmap) (hbm : ∀ b, bm = some b → Bitmap.WF b)
    (hr : a.records.length * 8 < 2 ^ 32) :
    ∃ r, Decoder.max E ⟨file, m, prec⟩ bm none = .ok r ∧
      (pick bm (a.records.map (readBack E a.cfg)) = [] ∧ r = negInf ∨ r ∈ pick bm (a.records.map (readBack E a.cfg))) ∧
      ∀ v ∈ pick bm (a.records.map (readBack E a.cfg)), fle v r = true := by
  obtain ⟨cs, rfl, rfl, hfit, h2, h3, h4, h5⟩ := h.buff hc
  have hF := buffBits_le E s
  have hsch : (a.metadata cs).header.scheme = .buff := by
    show a.cfg.scheme = _
    rw [hc]; rfl
  have hview : readBack E a.cfg = fun v => fixedValue E.o (buffBits E s) (Buff.intoFixed v (buffBits E s)) := by
    rw [hc]; rfl
  generalize hFe : buffBits E s = F at *
  obtain ⟨r, e1, e2⟩ := extremum_layout (a := a) hfit (E.scheme a.cfg) bm (Or.inr (by omega))
    (AnyReader.ops E .buff prec).max (readBack E a.cfg) (le := (fun a b => fle b a)) (init := negInf) (f := E.o.fmax)
    (fun a b c h1 h2 => fle_trans h2 h1) ho.max ⟨by decide, Or.inl rfl, by decide, by simp⟩ (by
      intro p hp off hd hle
      obtain ⟨p1, p2⟩ := h3 p hp
      have hpl : 0 < p.1.length := List.length_pos_iff.2 p1
      obtain ⟨x, k1, k2, k3⟩ := c38_max E.o (p.1.map fun v => Buff.intoFixed v F) F p.2 p2
        (by omega) (by rw [List.length_map]; omega) off (by rw [List.length_map]; omega) bm hbm
        (by rw [List.length_map]; exact rangeDisjoint_false hpl hd)
      rw [List.length_map] at k1 k2 k3
      have hx : x - off < p.1.length := by have := k1.2.1; have := k1.1; omega
      rw [getD_map_fixed p.1 F hx] at k3
      refine ⟨_, (buff_ops E prec p.1.length p.2 bm off).2.2.2.trans k3, hm.num _, Or.inr ?_, ?_, ?_⟩
      · rw [mem_selected]
        exact ⟨x, k1, by rw [hview]⟩
      · exact negInf_fle (hm.num _)
      · intro v hv _
        rw [mem_selected] at hv
        obtain ⟨y, hy, rfl⟩ := hv
        have hy' : y - off < p.1.length := by have := hy.2.1; have := hy.1; omega
        have := k2 y hy
        unfold qAt at this
        rw [getD_map_fixed p.1 F hx, getD_map_fixed p.1 F hy'] at this
        rw [hview]
        exact hm _ _ this)
  rw [h4] at e2
  have hnum := pick_num hm (view := readBack E a.cfg) (fun v => Buff.intoFixed v F) (fun v => by rw [hview]; rfl)
    bm a.records
  refine ⟨r, ?_, e2.maxMem hnum, fun v hv => e2.bound v hv (hnum v hv)⟩
  unfold Decoder.max Decoder.ops
  simp only [hsch]
  exact e1

/-- Minimum over a BUFF file: the smallest of the values the selected records come back as, whatever
precision is set; `posInf` if nothing is selected. -/
theorem c38_decoder_min (h : Written E a file m) (hc : a.cfg = .buff s) (prec : Option Nat) (ho : MinMaxLaw E.o)
    (hm : ScaleLaw E.o (E.o.ofNat (2 ^ buffBits E s))) (bm : Option Bitmap) (hbm : ∀ b, bm = some b → Bitmap.WF b)
    (hr : a.records.length * 8 < 2 ^ 32) :
    ∃ r, Decoder.min E ⟨file, m, prec⟩ bm none = .ok r ∧
      (pick bm (a.records.map (readBack E a.cfg)) = [] ∧ r = posInf ∨ r ∈ pick bm (a.records.map (readBack E a.cfg))) ∧
      ∀ v ∈ pick bm (a.records.map (readBack E a.cfg)), fle r v = true := by
  obtain ⟨cs, rfl, rfl, hfit, h2, h3, h4, h5⟩ := h.buff hc
  have hF := buffBits_le E s
  have hsch : (a.metadata cs).header.scheme = .buff := by
    show a.cfg.scheme = _
    rw [hc]; rfl
  have hview : readBack E a.cfg = fun v => fixedValue E.o (buffBits E s) (Buff.intoFixed v (buffBits E s)) := by
    rw [hc]; rfl
  generalize hFe : buffBits E s = F at *
  obtain ⟨r, e1, e2⟩ := extremum_layout (a := a) hfit (E.scheme a.cfg) bm (Or.inr (by omega))
    (AnyReader.ops E .buff prec).min (readBack E a.cfg) (le := fle) (init := posInf) (f := E.o.fmin)
    (fun a b c h1 h2 => fle_trans h1 h2) ho.min ⟨by decide, Or.inl rfl, by decide, by simp⟩ (by
      intro p hp off hd hle
      obtain ⟨p1, p2⟩ := h3 p hp
      have hpl : 0 < p.1.length := List.length_pos_iff.2 p1
      obtain ⟨x, k1, k2, k3⟩ := c38_min E.o (p.1.map fun v => Buff.intoFixed v F) F p.2 p2
        (by omega) (by rw [List.length_map]; omega) off (by rw [List.length_map]; omega) bm hbm
        (by rw [List.length_map]; exact rangeDisjoint_false hpl hd)
      rw [List.length_map] at k1 k2 k3
      have hx : x - off < p.1.length := by have := k1.2.1; have := k1.1; omega
      rw [getD_map_fixed p.1 F hx] at k3
      refine ⟨_, (buff_ops E prec p.1.length p.2 bm off).2.2.1.trans k3, hm.num _, Or.inr ?_, ?_, ?_⟩
      · rw [mem_selected]
        exact ⟨x, k1, by rw [hview]⟩
      · exact fle_posInf (hm.num _)
      · intro v hv _
        rw [mem_selected] at hv
        obtain ⟨y, hy, rfl⟩ := hv
        have hy' : y - off < p.1.length := by have := hy.2.1; have := hy.1; omega
        have := k2 y hy
        unfold qAt at this
        rw [getD_map_fixed p.1 F hx, getD_map_fixed p.1 F hy'] at this
        rw [hview]
        exact hm _ _ this)
  rw [h4] at e2
  have hnum := pick_num hm (view := readBack E a.cfg) (fun v => Buff.intoFixed v F) (fun v => by rw [hview]; rfl)
    bm a.records
  refine ⟨r, ?_, e2.minMem hnum, fun v hv => e2.bound v hv (hnum v hv)⟩
  unfold Decoder.min Decoder.ops
  simp only [hsch]
  exact e1

/-- The sum BUFF computes for a chunk: if all records have the same stored integer, that value times the
number of records in floating point, otherwise the wrapped `i64` sum of the selected integers, converted
and divided once. -/
def buffSum (o : FloatOps) (F : Nat) (bm : Option Bitmap) (off : Nat) (vs : List B64) : B64 :=
  let qs := vs.map fun v => Buff.intoFixed v F
  if qs.all (fun q => q == qs.headD 0) then o.mul (fixedValue o F (qs.headD 0)) (o.ofNat vs.length)
  else fixedValue o F (BitVec.ofInt 64 (intSum (selectedInts qs off bm)))

/-- Sum over a BUFF file: the chunk sums of the chunks with a selected record, added up from 0. -/
theorem c38_decoder_sum (h : Written E a file m) (hc : a.cfg = .buff s) (prec : Option Nat) (bm : Option Bitmap)
    (hbm : ∀ b, bm = some b → Bitmap.WF b) (hr : a.records.length < 2 ^ 32) :
    ∃ chunks : List (List B64), Split a.opt.recordsPerChunk a.records chunks ∧
      Decoder.sum E ⟨file, m, prec⟩ bm none
        = .ok ((sumsPerChunk (buffSum E.o (buffBits E s) bm) bm 0 chunks).foldl E.o.add 0#64) := by
  obtain ⟨cs, rfl, rfl, hfit, h2, h3, h4, h5⟩ := h.buff hc
  have hF := buffBits_le E s
  have hsch : (a.metadata cs).header.scheme = .buff := by
    show a.cfg.scheme = _
    rw [hc]; rfl
  generalize hFe : buffBits E s = F at *
  refine ⟨cs.map Prod.fst, h2, ?_⟩
  have e := fold_layout (a := a) hfit (E.scheme a.cfg) bm (Or.inr (by omega)) none
    (AnyReader.ops E .buff prec).sum E.o.add (buffSum E.o F bm) (by
      intro p hp off hd hle
      obtain ⟨p1, p2⟩ := h3 p hp
      have hpl : 0 < p.1.length := List.length_pos_iff.2 p1
      have hsub : p.1.length ≤ recordCount cs := by
        obtain ⟨pre, suf, e⟩ := List.append_of_mem hp
        obtain ⟨c, b⟩ := p
        rw [e, recordCount_append, recordCount_cons]
        simp only
        omega
      rw [(buff_ops E prec p.1.length p.2 bm off).2.1]
      unfold buffSum
      simp only
      split
      · rename_i hall
        obtain ⟨n, hn⟩ : ∃ n, p.1.length = n + 1 := ⟨p.1.length - 1, by omega⟩
        have hrep : (p.1.map fun v => Buff.intoFixed v F)
            = List.replicate (n + 1) ((p.1.map fun v => Buff.intoFixed v F).headD 0) := by
          rw [List.eq_replicate_iff]
          refine ⟨by rw [List.length_map, hn], fun q hq => ?_⟩
          rw [List.all_eq_true] at hall
          exact eq_of_beq (hall q hq)
        rw [hn]
        generalize (p.1.map fun v => Buff.intoFixed v F).headD 0 = q at *
        rw [hrep] at p2
        exact c38_sum_constant E.o q n F p.2 p2 (by omega) (by omega) off bm
      · rename_i hall
        have hne : ∃ q ∈ (p.1.map fun v => Buff.intoFixed v F), ∃ q' ∈ (p.1.map fun v => Buff.intoFixed v F), q ≠ q' := by
          simp only [List.all_eq_true, beq_iff_eq, Classical.not_forall] at hall
          obtain ⟨q, hq, hne⟩ := hall
          refine ⟨q, hq, _, ?_, hne⟩
          cases hl : p.1 with
          | nil => exact absurd hl p1
          | cons v vs => simp
        have := c38_sum_partial E.o (p.1.map fun v => Buff.intoFixed v F) F p.2 p2 (by omega)
          (by rw [List.length_map]; omega) off (by
            rw [List.length_map]; omega) bm hbm hne
        rw [List.length_map] at this
        exact this) 0#64
  rw [visited_sums _ _ 0 cs (fun p hp => (h3 p hp).1) (Or.inr (by omega))] at e
  unfold Decoder.sum Decoder.ops
  simp only [hsch]
  exact e

/-- Every chunk of the file has a stored integer at least as large as the constants `p` compares for
equality. Trivial for range predicates. -/
def BelowMaxima (F : Nat) (a : Args) (p : Predicate B64) : Prop :=
  ∀ cs, Split a.opt.recordsPerChunk a.records cs → ∀ c ∈ cs, EqBelowMax (c.map fun v => Buff.intoFixed v F) F p

/-- The constants lie inside the range of every chunk. -/
def InsideRanges (F : Nat) (a : Args) (p : Predicate B64) : Prop :=
  ∀ cs, Split a.opt.recordsPerChunk a.records cs → ∀ c ∈ cs, AllInner (c.map fun v => Buff.intoFixed v F) F p

/-- The filter over a BUFF file answers, on the selected records, exactly those whose stored integer
satisfies the fixed-point predicate, whatever precision is set, and numbers only records of the file. With
constants inside the range of every chunk it stays inside the bitmask.

Missing for the full claim, and false in the code: `c36_decoder_ignores_bitmask`, `c36_equal_aliases`. -/
theorem c36_decoder_filter_partial (h : Written E a file m) (hc : a.cfg = .buff s) (prec : Option Nat)
    (p : Predicate B64) (bm : Option Bitmap) (hbm : ∀ b, bm = some b → Bitmap.WF b)
    (hr : a.records.length * 8 < 2 ^ 32) (hp : BelowMaxima (buffBits E s) a p) :
    ∃ R, Decoder.filter E ⟨file, m, prec⟩ p bm none = .ok R ∧ Bitmap.WF R ∧
      (∀ x ∈ R, x < a.records.length) ∧
      (∀ x v, a.records[x]? = some v → (∀ b, bm = some b → x ∈ b) →
        (x ∈ R ↔ Answers (buffBits E s) p (Buff.intoFixed v (buffBits E s)).toInt = true)) ∧
      (InsideRanges (buffBits E s) a p → ∀ x ∈ R, ∀ b, bm = some b → x ∈ b) := by
  obtain ⟨cs, rfl, rfl, hfit, h2, h3, h4, h5⟩ := h.buff hc
  have hF := buffBits_le E s
  have hsch : (a.metadata cs).header.scheme = .buff := by
    show a.cfg.scheme = _
    rw [hc]; rfl
  generalize hFe : buffBits E s = F at *
  have hchunk : ∀ q ∈ cs, ∀ off, off + q.1.length ≤ recordCount cs → ∃ R,
      (AnyReader.ops E .buff prec).filter q.1.length q.2 p bm off = .ok R ∧ R.Pairwise (· < ·) ∧
      (∀ x ∈ R, off ≤ x ∧ x < off + q.1.length) ∧
      (∀ x, Selected bm off q.1.length x →
        (x ∈ R ↔ Answers F p (Buff.intoFixed (q.1.getD (x - off) 0#64) F).toInt = true)) ∧
      (AllInner (q.1.map fun v => Buff.intoFixed v F) F p → ∀ x ∈ R, Selected bm off q.1.length x) := by
    intro q hq off hoff
    obtain ⟨p1, p2⟩ := h3 q hq
    obtain ⟨R, k1, k2, k3, k4, k5⟩ := c36_filter_partial E.useSimd (q.1.map fun v => Buff.intoFixed v F) F q.2 p2
      (by omega) (by rw [List.length_map]; omega) off (by rw [List.length_map]; omega) p bm hbm
      (hp _ h2 q.1 (List.mem_map_of_mem hq))
    rw [List.length_map] at k1 k3 k4 k5
    refine ⟨R, ((buff_ops E prec q.1.length q.2 bm off).1 p).trans k1, k2, k3, fun x hx => ?_, k5⟩
    rw [k4 x hx, qAt, getD_map_fixed q.1 F (by have := hx.1; have := hx.2.1; omega)]
  obtain ⟨R, e1, e2, e3⟩ := filter_layout_union (a := a) hfit (E.scheme a.cfg) (ops := AnyReader.ops E .buff prec)
    p bm (Or.inr (by omega)) (fun q hq off hoff => by
      obtain ⟨R, k1, k2, k3, -⟩ := hchunk q hq off hoff
      exact ⟨R, k1, k2, fun x hx => by have := k3 x hx; omega⟩)
  have hvis : ∀ q ∈ visited bm none 0 0 cs, ∃ R,
      (AnyReader.ops E .buff prec).filter q.2.1.length q.2.2 p bm q.1 = .ok R ∧ q.2 ∈ cs ∧
      q.1 + q.2.1.length ≤ recordCount cs ∧
      (∀ x ∈ R, q.1 ≤ x ∧ x < q.1 + q.2.1.length) ∧
      (∀ x, Selected bm q.1 q.2.1.length x →
        (x ∈ R ↔ Answers F p (Buff.intoFixed (q.2.1.getD (x - q.1) 0#64) F).toInt = true)) ∧
      (AllInner (q.2.1.map fun v => Buff.intoFixed v F) F p → ∀ x ∈ R, Selected bm q.1 q.2.1.length x) := by
    intro q hq
    have hs := visited_subset hq
    have h1 := placed_sum hs
    obtain ⟨pre, suf, e, -⟩ := placed_split hs
    have hmem : q.2 ∈ cs := by rw [e]; simp
    obtain ⟨R, k1, -, k3, k4, k5⟩ := hchunk q.2 hmem q.1 (by omega)
    exact ⟨R, k1, hmem, by omega, k3, k4, k5⟩
  refine ⟨R, ?_, e2, ?_, ?_, ?_⟩
  · unfold Decoder.filter Decoder.ops
    simp only [hsch]
    exact e1
  · intro x hx
    obtain ⟨q, hq, r, f1, f2⟩ := (e3 x).1 hx
    obtain ⟨R', k1, -, k2, k3, -⟩ := hvis q hq
    rw [k1] at f1
    cases f1
    have := k3 x f2
    omega
  · intro x v hv hb
    rw [← h4, placed_getElem_iff cs 0] at hv
    obtain ⟨q, hq, i, f1, f2⟩ := hv
    have hi := (List.getElem?_eq_some_iff.1 f1).1
    have hqv : q ∈ visited bm none 0 0 cs := by
      rw [visited_none, List.mem_filter]
      refine ⟨hq, ?_⟩
      cases bm with
      | none => rfl
      | some b =>
        simp only [rangeDisjoint, Bool.not_not, List.any_eq_true, decide_eq_true_eq]
        exact ⟨x, hb b rfl, by omega, by omega⟩
    obtain ⟨R', k1, -, -, k3, k4, -⟩ := hvis q hqv
    have hsel : Selected bm q.1 q.2.1.length x := ⟨by omega, by omega, hb⟩
    have hval : q.2.1.getD (x - q.1) 0#64 = v := by
      rw [show x - q.1 = i by omega, List.getD_eq_getElem?_getD, f1]
      rfl
    have := k4 x hsel
    rw [hval] at this
    rw [e3 x, ← this]
    constructor
    · rintro ⟨q', hq', r, g1, g2⟩
      obtain ⟨R2, l1, -, -, l3, -⟩ := hvis q' hq'
      rw [l1] at g1
      cases g1
      have hx' := l3 x g2
      have : q' = q := placed_unique (visited_subset hq') hq hx'.1 hx'.2 hsel.1 hsel.2.1
      subst this
      rw [l1] at k1
      cases k1
      exact g2
    · intro hx
      exact ⟨q, hqv, R', k1, hx⟩
  · intro hin x hx
    obtain ⟨q, hq, r, f1, f2⟩ := (e3 x).1 hx
    obtain ⟨R', k1, kmem, -, -, -, k5⟩ := hvis q hq
    rw [k1] at f1
    cases f1
    exact (k5 (hin _ h2 q.2.1 (List.mem_map_of_mem kmem)) x f2).2.2

/-- Without a bitmask a range filter over a BUFF file is exact. -/
theorem c36_decoder_range (h : Written E a file m) (hc : a.cfg = .buff s) (prec : Option Nat) (g : Range B64)
    (hr : a.records.length * 8 < 2 ^ 32) :
    ∃ R, Decoder.filter E ⟨file, m, prec⟩ (.range g) none none = .ok R ∧ Bitmap.WF R ∧
      ∀ x, x ∈ R ↔ ∃ v, a.records[x]? = some v ∧
        Answers (buffBits E s) (.range g) (Buff.intoFixed v (buffBits E s)).toInt = true := by
  obtain ⟨R, e1, e2, e3, e4, -⟩ := c36_decoder_filter_partial h hc prec (.range g) none (by simp) hr
    (fun cs _ c _ => trivial)
  refine ⟨R, e1, e2, fun x => ?_⟩
  constructor
  · intro hx
    have hv := List.getElem?_eq_getElem (e3 x hx)
    exact ⟨_, hv, (e4 x _ hv (by simp)).1 hx⟩
  · rintro ⟨v, hv, ha⟩
    exact (e4 x v hv (by simp)).2 ha

/-! ### Filter, then materialize -/

theorem pickFrom_append (bm : Option Bitmap) (off : Nat) (xs ys : List B64) :
    pickFrom bm off (xs ++ ys) = pickFrom bm off xs ++ pickFrom bm (off + xs.length) ys := by
  simp [pickFrom, List.zipIdx_append, List.filter_append, List.map_append, Nat.add_comm]

theorem pickFrom_placed (bm : Option Bitmap) (view : B64 → B64) (off : Nat) (cs : List Ebi.Chunk) :
    pickFrom bm off ((cs.flatMap Prod.fst).map view)
      = (placed off cs).flatMap fun q => pickFrom bm q.1 (q.2.1.map view) := by
  induction cs generalizing off with
  | nil => simp [placed, pickFrom]
  | cons c cs ih =>
    rw [List.flatMap_cons, List.map_append, pickFrom_append, List.length_map, ih, placed, List.flatMap_cons]

theorem pickFrom_congr {R R' : Bitmap} {off : Nat} {vs : List B64}
    (h : ∀ x, off ≤ x → x < off + vs.length → (x ∈ R ↔ x ∈ R')) :
    pickFrom (some R) off vs = pickFrom (some R') off vs := by
  unfold pickFrom
  congr 1
  apply List.filter_congr
  rintro ⟨v, x⟩ hx
  have h1 := List.mk_mem_zipIdx_iff_le_and_getElem?_sub.1 hx
  have h2 := (List.getElem?_eq_some_iff.1 h1.2).1
  have := h x h1.1 (by omega)
  simp only [Option.all_some]
  rw [Bool.eq_iff_iff, List.contains_iff_mem, List.contains_iff_mem]
  exact this

theorem flatMap_filter_of_nil {A B : Type} (xs : List A) (c : A → Bool) (g : A → List B)
    (h : ∀ x ∈ xs, c x = false → g x = []) : (xs.filter c).flatMap g = xs.flatMap g := by
  induction xs with
  | nil => rfl
  | cons x xs ih =>
    rw [List.filter_cons, List.flatMap_cons, ← ih (fun y hy => h y (by simp [hy]))]
    cases hc : c x
    · rw [h x (by simp) hc]; rfl
    · rfl

theorem buff_filterMaterialize (E : Env) {n F : Nat} {qs : List (BitVec 64)} {bs : List Byte}
    (henc : Buff.encode qs F = .ok bs) (hn : qs.length = n) (h32 : n < 2 ^ 32) (hF : F < 2 ^ 32) (hne : qs ≠ [])
    (p : Predicate B64) (bm : Option Bitmap) (off : Nat) {R : Bitmap}
    (hR : (AnyReader.ops E .buff none).filter n bs p bm off = .ok R) :
    (AnyReader.ops E .buff none).filterMaterialize n bs p bm off
      = .ok (defaultMaterialize (some R) off (qs.map (fixedValue E.o F))) := by
  obtain ⟨bs', h1, h2⟩ := c13_fixed_round_trip E.o qs F hne (by omega) hF
  rw [henc] at h1
  cases h1
  have hf : freshHandle .buff none n bs off = .ok ⟨.buff (Buff.Reader.new n bs), n, off⟩ := rfl
  rw [(buff_ops E none n bs bm off).1 p] at hR
  have hd : (Buff.Reader.new n bs).decompress E.o
      = .ok (qs.map (fixedValue E.o F), { Buff.Reader.new n bs with decompressed := some (qs.map (fixedValue E.o F)) }) := by
    simp only [Buff.Reader.decompress, Buff.Reader.new, h2]
  simp only [AnyReader.ops, hf, Res.bind_ok, Handle.values, Handle.exec, AnyReader.exec, Buff.Reader.exec,
    Buff.Reader.filterMaterialize, hR, hd, Res.map_ok]

/-- `filter_materialize` over a BUFF file writes the values of the records `filter` answers. -/
theorem c36_decoder_filter_materialize (h : Written E a file m) (hc : a.cfg = .buff s)
    (p : Predicate B64) (bm : Option Bitmap) (hbm : ∀ b, bm = some b → Bitmap.WF b)
    (hr : a.records.length * 8 < 2 ^ 32) (hp : BelowMaxima (buffBits E s) a p) :
    ∃ R out, Decoder.filter E ⟨file, m, none⟩ p bm none = .ok R ∧
      Decoder.filterMaterialize E ⟨file, m, none⟩ p bm none = .ok out ∧
      Decoder.materialize E ⟨file, m, none⟩ (some R) none = .ok out ∧
      out = pick (some R) (a.records.map (readBack E a.cfg)) := by
  obtain ⟨R, hR, -⟩ := c36_decoder_filter_partial h hc none p bm hbm hr hp
  refine ⟨R, _, hR, ?_, c30_every_scheme h none (Or.inl rfl) (some R) (Or.inr (by omega)), rfl⟩
  obtain ⟨cs, rfl, rfl, hfit, h2, h3, h4, h5⟩ := h.buff hc
  have hF := buffBits_le E s
  have hsch : (a.metadata cs).header.scheme = .buff := by
    show a.cfg.scheme = _
    rw [hc]; rfl
  have hview : readBack E a.cfg = fun v => fixedValue E.o (buffBits E s) (Buff.intoFixed v (buffBits E s)) := by
    rw [hc]; rfl
  generalize hFe : buffBits E s = F at *
  have hchunk : ∀ q ∈ cs, ∀ off, off + q.1.length ≤ recordCount cs → ∃ R',
      (AnyReader.ops E .buff none).filter q.1.length q.2 p bm off = .ok R' ∧ Bitmap.WF R' ∧
      (∀ x ∈ R', off ≤ x ∧ x < off + q.1.length) := by
    intro q hq off hoff
    obtain ⟨p1, p2⟩ := h3 q hq
    obtain ⟨R', k1, k2, k3, -⟩ := c36_filter_partial E.useSimd (q.1.map fun v => Buff.intoFixed v F) F q.2 p2
      (by omega) (by rw [List.length_map]; omega) off (by rw [List.length_map]; omega) p bm hbm
      (hp _ h2 q.1 (List.mem_map_of_mem hq))
    rw [List.length_map] at k1 k3
    exact ⟨R', ((buff_ops E none q.1.length q.2 bm off).1 p).trans k1, ⟨k2, fun x hx => by have := k3 x hx; omega⟩, k3⟩
  obtain ⟨R0, e1, e2, e3⟩ := filter_layout_union (a := a) hfit (E.scheme a.cfg) (ops := AnyReader.ops E .buff none)
    p bm (Or.inr (by omega)) (fun q hq off hoff => by
      obtain ⟨R', k1, k2, -⟩ := hchunk q hq off hoff
      exact ⟨R', k1, k2⟩)
  have hRR : R0 = R := by
    unfold Decoder.filter Decoder.ops at hR
    simp only [hsch] at hR
    have : Res.ok R0 = Res.ok R := e1.symm.trans hR
    cases this
    rfl
  subst hRR
  have hin : ∀ q ∈ placed 0 cs, q.2 ∈ cs ∧ q.1 + q.2.1.length ≤ recordCount cs := by
    intro q hq
    have h1 := placed_sum hq
    obtain ⟨pre, suf, e, -⟩ := placed_split hq
    exact ⟨by rw [e]; simp, by omega⟩
  have hq := query_eq (E.scheme a.cfg) hfit bm (Or.inr (by omega)) none (A := List B64)
    (fun n bs off out => do
      let vs ← (AnyReader.ops E .buff none).filterMaterialize n bs p bm off
      .ok (out ++ vs))
    (fun out q => out ++ pickFrom (some R0) q.1 (q.2.1.map (readBack E a.cfg)))
    (by
      intro q hq out
      obtain ⟨k1, k2⟩ := hin q (visited_subset hq)
      obtain ⟨R', g1, -, g3⟩ := hchunk q.2 k1 q.1 k2
      obtain ⟨p1, p2⟩ := h3 q.2 k1
      have hfm := buff_filterMaterialize E p2 (List.length_map _) (by omega) (by omega) (by simpa using p1) p bm q.1 g1
      rw [List.map_map] at hfm
      simp only [hfm, Res.bind_ok, Res.ok.injEq, List.append_cancel_left_eq]
      rw [pickFrom_eq (Or.inr (by rw [List.length_map]; omega))]
      have : (fixedValue E.o F ∘ fun v => Buff.intoFixed v F) = readBack E a.cfg := by rw [hview]; rfl
      rw [this]
      apply pickFrom_congr
      rw [List.length_map]
      intro x x1 x2
      rw [e3 x]
      constructor
      · intro hx; exact ⟨q, hq, R', g1, hx⟩
      · rintro ⟨q', hq', r, f1, f2⟩
        obtain ⟨l1, l2⟩ := hin q' (visited_subset hq')
        obtain ⟨R2, m1, -, m3⟩ := hchunk q'.2 l1 q'.1 l2
        rw [m1] at f1
        cases f1
        have hx' := m3 x f2
        have : q' = q := placed_unique (visited_subset hq') (visited_subset hq) hx'.1 hx'.2 x1 x2
        subst this
        rw [m1] at g1
        cases g1
        exact f2) []
  rw [← List.flatMap_eq_foldl] at hq
  have hall : (visited bm none 0 0 cs).flatMap (fun q => pickFrom (some R0) q.1 (q.2.1.map (readBack E a.cfg)))
      = pick (some R0) (a.records.map (readBack E a.cfg)) := by
    show _ = pickFrom (some R0) 0 _
    rw [← h4, pickFrom_placed, visited_none]
    apply flatMap_filter_of_nil
    intro q hq hd
    rw [Bool.not_eq_false'] at hd
    have hno : ∀ x ∈ R0, ¬ (q.1 ≤ x ∧ x < q.1 + q.2.1.length) := by
      rintro x hx ⟨x1, x2⟩
      obtain ⟨q', hq', r, f1, f2⟩ := (e3 x).1 hx
      obtain ⟨l1, l2⟩ := hin q' (visited_subset hq')
      obtain ⟨R2, m1, -, m3⟩ := hchunk q'.2 l1 q'.1 l2
      rw [m1] at f1
      cases f1
      have hx' := m3 x f2
      have : q' = q := placed_unique (visited_subset hq') hq hx'.1 hx'.2 x1 x2
      subst this
      rw [visited_disjoint hq'] at hd
      cases hd
    rw [List.eq_nil_iff_forall_not_mem]
    intro v hv
    rw [mem_selected] at hv
    obtain ⟨x, ⟨x1, x2, x3⟩, -⟩ := hv
    exact hno x (x3 R0 rfl) ⟨x1, x2⟩
  rw [← hall]
  unfold Decoder.filterMaterialize Decoder.ops
  simp only [hsch]
  exact hq

/-! ### Controlled precision -/

theorem flatMap_pointwise {A B C : Type} (P : B → C → Prop) (f : A → List B) (g : A → List C) (cs : List A)
    (hl : ∀ c ∈ cs, (g c).length = (f c).length)
    (h : ∀ c ∈ cs, ∀ (i : Nat) v w, (f c)[i]? = some v → (g c)[i]? = some w → P v w) :
    (cs.flatMap g).length = (cs.flatMap f).length ∧
    ∀ (i : Nat) v w, (cs.flatMap f)[i]? = some v → (cs.flatMap g)[i]? = some w → P v w := by
  induction cs with
  | nil => simp
  | cons c cs ih =>
    obtain ⟨k1, k2⟩ := ih (fun c hc => hl c (by simp [hc])) (fun c hc => h c (by simp [hc]))
    have hc := hl c (by simp)
    simp only [List.flatMap_cons, List.length_append]
    refine ⟨by omega, fun i v w hv hw => ?_⟩
    by_cases hi : i < (f c).length
    · rw [List.getElem?_append_left hi] at hv
      rw [List.getElem?_append_left (by omega)] at hw
      exact h c (by simp) i v w hv hw
    · rw [List.getElem?_append_right (by omega)] at hv
      rw [List.getElem?_append_right (by omega), hc] at hw
      exact k2 _ v w hv hw

/-- Materializing a BUFF file with precision `p`: every record comes back as a stored integer cut down
to `b = precisionMap[p]` fraction bits (relative to the minimum of its chunk), so from below within `2^-b`. -/
theorem c15_decoder_materialize (h : Written E a file m) (hc : a.cfg = .buff s) {p b : Nat}
    (hp : Buff.precisionMap[p]? = some b) (bm : Option Bitmap)
    (hr : bm = none ∨ a.records.length < 2 ^ 32) :
    ∃ ws, Decoder.materialize E ⟨file, m, some p⟩ bm none = .ok (pick bm ws) ∧ ws.length = a.records.length ∧
      ∀ (x : Nat) v w, a.records[x]? = some v → ws[x]? = some w → ∃ t : BitVec 64, w = fixedValue E.o (buffBits E s) t ∧
        t.toInt ≤ (Buff.intoFixed v (buffBits E s)).toInt ∧
        (Buff.intoFixed v (buffBits E s)).toInt - t.toInt < (2 ^ (buffBits E s - b) : Nat) ∧
        (buffBits E s ≤ b → t = Buff.intoFixed v (buffBits E s)) := by
  have hlim := h.limit (by rw [hc]; rfl)
  obtain ⟨cs, rfl, rfl, hfit, h2, h3, h4, h5⟩ := h.buff hc
  have hF := buffBits_le E s
  have hsch : (a.metadata cs).header.scheme = .buff := by
    show a.cfg.scheme = _
    rw [hc]; rfl
  generalize hFe : buffBits E s = F at *
  have hsub : ∀ q ∈ cs, q.1.length ≤ recordCount cs := by
    intro q hq
    obtain ⟨pre, suf, e⟩ := List.append_of_mem hq
    obtain ⟨c, b⟩ := q
    rw [e, recordCount_append, recordCount_cons]
    simp only
    omega
  have hex : ∀ q ∈ cs, ∃ t : BitVec 64 → BitVec 64,
      Buff.decodeWithPrecision E.o q.2 p
        = .ok (q.1.map fun v => fixedValue E.o F (t (Buff.intoFixed v F))) ∧
      ∀ v ∈ q.1, (t (Buff.intoFixed v F)).toInt ≤ (Buff.intoFixed v F).toInt ∧
        (Buff.intoFixed v F).toInt - (t (Buff.intoFixed v F)).toInt < (2 ^ (F - b) : Nat) ∧
        (F ≤ b → t (Buff.intoFixed v F) = Buff.intoFixed v F) := by
    intro q hq
    obtain ⟨p1, p2⟩ := h3 q hq
    have := hsub q hq
    obtain ⟨bytes, t, k1, k2, k3⟩ := c15_controlled_precision E.o (q.1.map fun v => Buff.intoFixed v F) F p b
      (by simpa using p1) (by rw [List.length_map]; omega) (by omega) hp
    rw [p2] at k1
    cases k1
    rw [List.map_map] at k2
    refine ⟨t, k2, fun v hv => ?_⟩
    obtain ⟨l1, l2, l3, -⟩ := k3 _ (List.mem_map_of_mem hv)
    exact ⟨l1, l2, l3⟩
  let W : Ebi.Chunk → List B64 := fun q =>
    match Buff.decodeWithPrecision E.o q.2 p with
    | .ok ws => ws
    | _ => []
  have hW : ∀ q ∈ cs, Buff.decodeWithPrecision E.o q.2 p = .ok (W q) ∧ (W q).length = q.1.length ∧
      ∀ (i : Nat) v w, q.1[i]? = some v → (W q)[i]? = some w → ∃ t : BitVec 64, w = fixedValue E.o F t ∧
        t.toInt ≤ (Buff.intoFixed v F).toInt ∧
        (Buff.intoFixed v F).toInt - t.toInt < (2 ^ (F - b) : Nat) ∧ (F ≤ b → t = Buff.intoFixed v F) := by
    intro q hq
    obtain ⟨t, k1, k2⟩ := hex q hq
    have hw : W q = q.1.map fun v => fixedValue E.o F (t (Buff.intoFixed v F)) := by simp only [W, k1]
    refine ⟨by rw [hw]; exact k1, by rw [hw, List.length_map], fun i v w hv hw' => ?_⟩
    rw [hw, List.getElem?_map, hv] at hw'
    simp only [Option.map_some, Option.some.injEq] at hw'
    exact ⟨_, hw'.symm, k2 v (List.mem_of_getElem? hv)⟩
  obtain ⟨k1, k2⟩ := flatMap_pointwise (fun v w => ∃ t : BitVec 64, w = fixedValue E.o F t ∧
        t.toInt ≤ (Buff.intoFixed v F).toInt ∧
        (Buff.intoFixed v F).toInt - t.toInt < (2 ^ (F - b) : Nat) ∧ (F ≤ b → t = Buff.intoFixed v F))
    Prod.fst W cs (fun q hq => (hW q hq).2.1) (fun q hq => (hW q hq).2.2)
  rw [h4] at k1 k2
  refine ⟨cs.flatMap W, ?_, k1, k2⟩
  rw [← h5] at hr
  have hm := materialize_layout_chunks (a := a) hfit (E.scheme a.cfg) (ops := AnyReader.ops E .buff (some p)) bm hr W
    (fun q hq => (hW q hq).2.1) (fun q hq off => by
      have hf : freshHandle .buff (some p) q.1.length q.2 off
        = .ok ⟨.buff ((Buff.Reader.new q.1.length q.2).withControlledPrecision p), q.1.length, off⟩ := rfl
      have hd : ((Buff.Reader.new q.1.length q.2).withControlledPrecision p).decompress E.o
          = .ok (W q, { (Buff.Reader.new q.1.length q.2).withControlledPrecision p with decompressed := some (W q) }) := by
        simp only [Buff.Reader.decompress, Buff.Reader.new, Buff.Reader.withControlledPrecision, (hW q hq).1]
      simp only [AnyReader.ops, hf, Res.bind_ok, Handle.values, Handle.exec, AnyReader.exec, Buff.Reader.exec,
        defaultExec, hd, Res.map_ok]
      rfl)
  rw [pickFrom_eq (hr.imp id (fun h => by rw [k1]; omega))] at hm
  unfold Decoder.materialize Decoder.ops
  simp only [hsch]
  exact hm

/-! ## DeltaSprintz -/

variable {n : BitVec 64}

theorem chosenInts_eq (o : FloatOps) (scale : Nat) (bm : Option Bitmap) (off : Nat) (vs : List B64) :
    chosenInts o scale bm off vs = pickFrom bm off (vs.map (rounded o scale)) := by
  cases bm with
  | none =>
    have hf : ((vs.map (rounded o scale)).zipIdx off).filter (fun _ => true) = (vs.map (rounded o scale)).zipIdx off :=
      List.filter_eq_self.2 fun _ _ => rfl
    show _ = (((vs.map (rounded o scale)).zipIdx off).filter fun _ => true).map Prod.fst
    rw [hf, List.zipIdx_map_fst]
    rfl
  | some b => rfl

theorem chosenInts_ne_nil (o : FloatOps) (scale : Nat) {bm : Option Bitmap} {off : Nat} {vs : List B64}
    (hne : vs ≠ []) (hd : rangeDisjoint bm (off, off + vs.length) = false) : chosenInts o scale bm off vs ≠ [] := by
  obtain ⟨x, hx⟩ := rangeDisjoint_false (List.length_pos_iff.2 hne) hd
  rw [chosenInts_eq]
  intro e
  have : rounded o scale (vs.getD (x - off) 0#64) ∈ pickFrom bm off (vs.map (rounded o scale)) :=
    mem_selected.2 ⟨x, hx, rfl⟩
  rw [e] at this
  cases this

theorem readBack_sprintz (hc : a.cfg = .deltaSprintz n s) (hs : s.toNat < 2 ^ 32) (v : B64) :
    readBack E a.cfg v = E.o.div (E.o.ofI64 (rounded E.o s.toNat v)) (E.o.ofNat s.toNat) := by
  rw [hc]
  show E.o.div _ (E.o.ofNat (s.toNat % 2 ^ 32)) = _
  rw [Nat.mod_eq_of_lt hs]
  rfl

/-- The filter over a DeltaSprintz file answers exactly the selected records whose stored integer satisfies
the predicate with its constants rounded the same way, whatever precision is set. -/
theorem c39_decoder_filter (h : Written E a file m) (hc : a.cfg = .deltaSprintz n s) (hs : s.toNat < 2 ^ 32)
    (prec : Option Nat) (p : Predicate B64) (bm : Option Bitmap) (hr : a.records.length < 2 ^ 32) :
    ∃ R, Decoder.filter E ⟨file, m, prec⟩ p bm none = .ok R ∧ Bitmap.WF R ∧
      ∀ x, x ∈ R ↔ ∃ v, a.records[x]? = some v ∧ Chosen bm x ∧
        (p.map (rounded E.o s.toNat)).eval i64Cmp (rounded E.o s.toNat v) = true := by
  obtain ⟨cs, rfl, rfl, hfit, h2, h3, h4, h5⟩ := h.sprintz hc
  have hsch : (a.metadata cs).header.scheme = .deltaSprintz := by
    show a.cfg.scheme = _
    rw [hc]; rfl
  have e := filter_layout (a := a) hfit (E.scheme a.cfg) (ops := AnyReader.ops E .deltaSprintz prec)
    (sat := fun v => (p.map (rounded E.o s.toNat)).eval i64Cmp (rounded E.o s.toNat v)) p bm (by omega) (by
      intro q hq off hoff
      obtain ⟨p1, p2⟩ := h3 q hq
      obtain ⟨res, r', k1, k2, k3⟩ := c39_filter E.o s.toNat hs q.1 p1 _ p2 rfl p bm off (by omega)
      refine ⟨res, ?_, k2, k3⟩
      rw [(sprintz_ops E prec q.1.length q.2 bm off).1 p, k1]
      rfl)
  rw [h4] at e
  unfold Decoder.filter Decoder.ops
  simp only [hsch]
  exact e

/-- Maximum over a DeltaSprintz file: the largest of the values the selected records come back as; `negInf`
if nothing is selected. -/
theorem c39_decoder_max (h : Written E a file m) (hc : a.cfg = .deltaSprintz n s) (hs : s.toNat < 2 ^ 32)
    (prec : Option Nat) (ho : MinMaxLaw E.o) (hm : ScaleLaw E.o (E.o.ofNat s.toNat)) (bm : Option Bitmap)
    (hbm : ∀ b, bm = some b → Bitmap.WF b) (hr : a.records.length < 2 ^ 32) :
    ∃ r, Decoder.max E ⟨file, m, prec⟩ bm none = .ok r ∧
      (pick bm (a.records.map (readBack E a.cfg)) = [] ∧ r = negInf ∨ r ∈ pick bm (a.records.map (readBack E a.cfg))) ∧
      ∀ v ∈ pick bm (a.records.map (readBack E a.cfg)), fle v r = true := by
  have hview := readBack_sprintz (E := E) hc hs
  obtain ⟨cs, rfl, rfl, hfit, h2, h3, h4, h5⟩ := h.sprintz hc
  have hsch : (a.metadata cs).header.scheme = .deltaSprintz := by
    show a.cfg.scheme = _
    rw [hc]; rfl
  obtain ⟨r, e1, e2⟩ := extremum_layout (a := a) hfit (E.scheme a.cfg) bm (Or.inr (by omega))
    (AnyReader.ops E .deltaSprintz prec).max (readBack E a.cfg) (le := (fun a b => fle b a)) (init := negInf)
    (f := E.o.fmax) (fun a b c h1 h2 => fle_trans h2 h1) ho.max ⟨by decide, Or.inl rfl, by decide, by simp⟩ (by
      intro p hp off hd hle
      obtain ⟨p1, p2⟩ := h3 p hp
      obtain ⟨x, r', k1, -, k2⟩ := c39_max E.o s.toNat hs p.1 p1 _ p2 rfl bm hbm off (by omega)
      obtain ⟨q, q1, q2, rfl⟩ := k2 (chosenInts_ne_nil _ _ p1 hd)
      rw [chosenInts_eq] at q1 q2
      refine ⟨_, (sprintz_ops E prec p.1.length p.2 bm off).2.2.2.trans (by rw [k1]; rfl), hm.num _, Or.inr ?_,
        negInf_fle (hm.num _), ?_⟩
      · obtain ⟨x, x1, rfl⟩ := mem_selected.1 q1
        exact mem_selected.2 ⟨x, x1, (hview _).symm⟩
      · intro v hv _
        obtain ⟨y, hy, rfl⟩ := mem_selected.1 hv
        rw [hview]
        exact hm _ _ (q2 _ (mem_selected.2 ⟨y, hy, rfl⟩)))
  rw [h4] at e2
  have hnum := pick_num hm (view := readBack E a.cfg) (rounded E.o s.toNat) hview bm a.records
  refine ⟨r, ?_, e2.maxMem hnum, fun v hv => e2.bound v hv (hnum v hv)⟩
  unfold Decoder.max Decoder.ops
  simp only [hsch]
  exact e1

/-- Minimum over a DeltaSprintz file: the smallest of the values the selected records come back as;
`posInf` if nothing is selected. -/
theorem c39_decoder_min (h : Written E a file m) (hc : a.cfg = .deltaSprintz n s) (hs : s.toNat < 2 ^ 32)
    (prec : Option Nat) (ho : MinMaxLaw E.o) (hm : ScaleLaw E.o (E.o.ofNat s.toNat)) (bm : Option Bitmap)
    (hbm : ∀ b, bm = some b → Bitmap.WF b) (hr : a.records.length < 2 ^ 32) :
    ∃ r, Decoder.min E ⟨file, m, prec⟩ bm none = .ok r ∧
      (pick bm (a.records.map (readBack E a.cfg)) = [] ∧ r = posInf ∨ r ∈ pick bm (a.records.map (readBack E a.cfg))) ∧
      ∀ v ∈ pick bm (a.records.map (readBack E a.cfg)), fle r v = true := by
  have hview := readBack_sprintz (E := E) hc hs
  obtain ⟨cs, rfl, rfl, hfit, h2, h3, h4, h5⟩ := h.sprintz hc
  have hsch : (a.metadata cs).header.scheme = .deltaSprintz := by
    show a.cfg.scheme = _
    rw [hc]; rfl
  obtain ⟨r, e1, e2⟩ := extremum_layout (a := a) hfit (E.scheme a.cfg) bm (Or.inr (by omega))
    (AnyReader.ops E .deltaSprintz prec).min (readBack E a.cfg) (le := fle) (init := posInf)
    (f := E.o.fmin) (fun a b c h1 h2 => fle_trans h1 h2) ho.min ⟨by decide, Or.inl rfl, by decide, by simp⟩ (by
      intro p hp off hd hle
      obtain ⟨p1, p2⟩ := h3 p hp
      obtain ⟨x, r', k1, -, k2⟩ := c39_min E.o s.toNat hs p.1 p1 _ p2 rfl bm hbm off (by omega)
      obtain ⟨q, q1, q2, rfl⟩ := k2 (chosenInts_ne_nil _ _ p1 hd)
      rw [chosenInts_eq] at q1 q2
      refine ⟨_, (sprintz_ops E prec p.1.length p.2 bm off).2.2.1.trans (by rw [k1]; rfl), hm.num _, Or.inr ?_,
        fle_posInf (hm.num _), ?_⟩
      · obtain ⟨x, x1, rfl⟩ := mem_selected.1 q1
        exact mem_selected.2 ⟨x, x1, (hview _).symm⟩
      · intro v hv _
        obtain ⟨y, hy, rfl⟩ := mem_selected.1 hv
        rw [hview]
        exact hm _ _ (q2 _ (mem_selected.2 ⟨y, hy, rfl⟩)))
  rw [h4] at e2
  have hnum := pick_num hm (view := readBack E a.cfg) (rounded E.o s.toNat) hview bm a.records
  refine ⟨r, ?_, e2.minMem hnum, fun v hv => e2.bound v hv (hnum v hv)⟩
  unfold Decoder.min Decoder.ops
  simp only [hsch]
  exact e1

/-- The sum DeltaSprintz computes for a chunk: the wrapped `i64` sum of the selected integers, converted
and divided once. -/
def sprintzSum (o : FloatOps) (scale : Nat) (bm : Option Bitmap) (off : Nat) (vs : List B64) : B64 :=
  o.div (o.ofI64 (BitVec.ofInt 64 (((pickFrom bm off (vs.map (rounded o scale))).map BitVec.toInt).sum))) (o.ofNat scale)

/-- Sum over a DeltaSprintz file: the chunk sums of the chunks with a selected record, added up from 0. -/
theorem c39_decoder_sum (h : Written E a file m) (hc : a.cfg = .deltaSprintz n s) (hs : s.toNat < 2 ^ 32)
    (prec : Option Nat) (bm : Option Bitmap) (hbm : ∀ b, bm = some b → Bitmap.WF b)
    (hr : a.records.length < 2 ^ 32) :
    ∃ chunks : List (List B64), Split a.opt.recordsPerChunk a.records chunks ∧
      Decoder.sum E ⟨file, m, prec⟩ bm none
        = .ok ((sumsPerChunk (sprintzSum E.o s.toNat bm) bm 0 chunks).foldl E.o.add 0#64) := by
  obtain ⟨cs, rfl, rfl, hfit, h2, h3, h4, h5⟩ := h.sprintz hc
  have hsch : (a.metadata cs).header.scheme = .deltaSprintz := by
    show a.cfg.scheme = _
    rw [hc]; rfl
  refine ⟨cs.map Prod.fst, h2, ?_⟩
  have e := fold_layout (a := a) hfit (E.scheme a.cfg) bm (Or.inr (by omega)) none
    (AnyReader.ops E .deltaSprintz prec).sum E.o.add (sprintzSum E.o s.toNat bm) (by
      intro p hp off hd hle
      obtain ⟨p1, p2⟩ := h3 p hp
      obtain ⟨r', k1⟩ := c39_sum E.o s.toNat hs p.1 p1 _ p2 rfl bm hbm off (by omega)
      have hb : bm ≠ some [] := by
        rintro rfl
        simp [rangeDisjoint] at hd
      rw [if_neg hb, if_neg (chosenInts_ne_nil _ _ p1 hd), chosenInts_eq] at k1
      rw [(sprintz_ops E prec p.1.length p.2 bm off).2.1, k1]
      rfl) 0#64
  rw [visited_sums _ _ 0 cs (fun p hp => (h3 p hp).1) (Or.inr (by omega))] at e
  unfold Decoder.sum Decoder.ops
  simp only [hsch]
  exact e

end

/-! ## Examples and failures -/

/-- Soft floats; `log10` of the two BUFF scales used here. -/
def queryEnv : Env := { sampleEnv with log10Scale := fun s => if s = 1000 then 3 else 1 }

theorem queryEnv_lossless : LosslessLibraries queryEnv where
  zstd := fun bs => ⟨bs, rfl, rfl⟩
  gzip := fun bs => ⟨bs, rfl, rfl⟩
  snappy := fun bs => ⟨bs, rfl, rfl⟩
  alp := fun vs => by simp [queryEnv, sampleEnv]

/-- A file of `vs`, `k` records per chunk, written with `cfg`. -/
def fileArgs (cfg : Config) (vs : List B64) (k : Nat) : Args := { plainArgs vs k with cfg := cfg }

/-- The decoder on that file. -/
def fileDecoder (cfg : Config) (vs : List B64) (k : Nat) : Option Decoder :=
  match (fileArgs cfg vs k).encode (queryEnv.scheme cfg) with
  | some (.ok file) =>
    match openFile file with
    | .ok m => some ⟨file, m, none⟩
    | _ => none
  | _ => none

theorem fileDecoder_written {cfg : Config} {vs : List B64} {k : Nat} {d : Decoder} (h : fileDecoder cfg vs k = some d)
    (hs : Supported queryEnv cfg) (ha : ∀ v ∈ vs, Accepts queryEnv cfg v)
    (h0 : vs ≠ []) (h1 : 0 < k) (h2 : k < 2 ^ 60) (h3 : vs.length < 2 ^ 32) (h4 : d.file.length < 2 ^ 63) :
    Written queryEnv (fileArgs cfg vs k) d.file d.info := by
  have hrec : (fileArgs cfg vs k).records = vs := plainArgs_records vs k
  unfold fileDecoder at h
  split at h
  · rename_i file he
    split at h
    · rename_i m hm
      cases h
      have hv := plainArgs_valid vs k h0 h1 h2 (by omega)
      exact ⟨queryEnv_lossless, hs, ⟨hv.1, hv.2, hv.3, hv.4, hv.5, hv.6, hv.7, hv.8, hv.9⟩,
        by rw [hrec]; exact ha, fun _ => by rw [hrec]; exact h3, he, h4, hm⟩
    · cases h
  · cases h

/-- 1.5, 2.25, 1.5, -4.75, 9.97. -/
def queryData : List B64 := [0x3ff8000000000000#64, 0x4002000000000000#64, 0x3ff8000000000000#64,
  0xc013000000000000#64, 0x4023f0a3d70a3d71#64]

theorem supported_buff : Supported queryEnv (.buff 10#64) := by
  show (Buff.fractionBits queryEnv.log10Scale (10#64 : BitVec 64).toNat).isSome = true
  decide +kernel

theorem sample_written {cfg : Config} {vs : List B64} {k : Nat} (hs : Supported queryEnv cfg)
    (ha : ∀ v ∈ vs, Accepts queryEnv cfg v) (h0 : vs ≠ []) (h1 : 0 < k) (h2 : k < 2 ^ 60) (h3 : vs.length < 2 ^ 32)
    {A : Type} {f : Decoder → A} {x : A}
    (h : (fileDecoder cfg vs k).map (fun d => (decide (d.file.length < 1000), f d)) = some (true, x)) :
    ∃ d, fileDecoder cfg vs k = some d ∧ d.precision = none ∧
      Written queryEnv (fileArgs cfg vs k) d.file d.info ∧ f d = x := by
  obtain ⟨d, hd, e⟩ := Option.map_eq_some_iff.1 h
  have h5 : d.file.length < 1000 := of_decide_eq_true (congrArg Prod.fst e)
  refine ⟨d, hd, ?_, fileDecoder_written hd hs ha h0 h1 h2 h3 (by omega), congrArg Prod.snd e⟩
  unfold fileDecoder at hd
  split at hd
  · split at hd
    · cases hd; rfl
    · cases hd
  · cases hd

/-- The hypotheses on a BUFF file of three chunks; maximum, minimum and sum of what the bitmask {1, 3, 4}
selects: 9.96875 (9.97 in steps of 1/32), -4.75 and 7.46875. -/
example : ∃ d, fileDecoder (.buff 10#64) queryData 2 = some d ∧ d.precision = none ∧
    Written queryEnv (fileArgs (.buff 10#64) queryData 2) d.file d.info ∧
    (d.info.footer.chunks, d.max queryEnv (some [1, 3, 4]) none, d.min queryEnv (some [1, 3, 4]) none,
      d.sum queryEnv (some [1, 3, 4]) none)
      = (3, .ok 0x4023f00000000000#64, .ok 0xc013000000000000#64, .ok 0x401de00000000000#64) :=
  sample_written (f := fun d => (d.info.footer.chunks, d.max queryEnv (some [1, 3, 4]) none,
    d.min queryEnv (some [1, 3, 4]) none, d.sum queryEnv (some [1, 3, 4]) none))
    (cfg := .buff 10#64) supported_buff (fun _ _ => trivial) (by simp [queryData]) (by omega) (by omega) (by simp [queryData])
    (by decide +kernel)

/-- The same on a DeltaSprintz file with scale 10: 10, -4.7 or -4.8, and their sum. -/
example : ∃ d, fileDecoder (.deltaSprintz 100#64 10#64) queryData 2 = some d ∧ d.precision = none ∧
    Written queryEnv (fileArgs (.deltaSprintz 100#64 10#64) queryData 2) d.file d.info ∧
    (d.info.footer.chunks, d.max queryEnv (some [1, 3, 4]) none)
      = (3, .ok 0x4024000000000000#64) :=
  sample_written (f := fun d => (d.info.footer.chunks, d.max queryEnv (some [1, 3, 4]) none))
    (cfg := .deltaSprintz 100#64 10#64) trivial (fun _ _ => trivial) (by simp [queryData]) (by omega) (by omega) (by simp [queryData])
    (by decide +kernel)

/-- The arithmetic of the examples meets what is assumed of it. -/
example : MinMaxLaw queryEnv.o ∧ ScaleLaw queryEnv.o (queryEnv.o.ofNat (2 ^ buffBits queryEnv 10#64)) ∧
    ScaleLaw queryEnv.o (queryEnv.o.ofNat (10#64 : BitVec 64).toNat) :=
  ⟨soft_minMax, soft_scale (by decide +kernel) (by decide +kernel), soft_scale (by decide) (by decide)⟩

/-- BUFF with a bitmask: a bound below every record makes `v > -100` true of the whole chunk, and the
whole chunk is answered, record 1 outside the bitmask included. -/
theorem c36_decoder_ignores_bitmask :
    ∃ d, fileDecoder (.buff 10#64) queryData 2 = some d ∧ d.precision = none ∧
      Written queryEnv (fileArgs (.buff 10#64) queryData 2) d.file d.info ∧
      d.filter queryEnv (.range ⟨.exclusive 0xc059000000000000#64, .none⟩) (some [0]) none = .ok [0, 1] :=
  sample_written (f := fun d => d.filter queryEnv (.range ⟨.exclusive 0xc059000000000000#64, .none⟩) (some [0]) none)
    (cfg := .buff 10#64) supported_buff (fun _ _ => trivial) (by simp [queryData]) (by omega) (by omega) (by simp [queryData])
    (by decide +kernel)

/-- BUFF on a chunk of equal records: the sum of the one selected record 1.5 is 3. -/
theorem c38_decoder_sum_ignores_bitmask :
    ∃ d, fileDecoder (.buff 10#64) [0x3ff8000000000000#64, 0x3ff8000000000000#64] 2 = some d ∧ d.precision = none ∧
      Written queryEnv (fileArgs (.buff 10#64) [0x3ff8000000000000#64, 0x3ff8000000000000#64] 2) d.file d.info ∧
      d.sum queryEnv (some [0]) none = .ok 0x4008000000000000#64 :=
  sample_written (f := fun d => d.sum queryEnv (some [0]) none)
    (cfg := .buff 10#64) supported_buff (fun _ _ => trivial) (by simp) (by omega) (by omega) (by simp)
    (by decide +kernel)

/-- DeltaSprintz: `filter` compares rounded integers, `filter_materialize` compares the doubles. Records
equal to 2.26 (rounded to 23 like 2.25): the filter selects record 1, which materializes to 2.3, and
`filter_materialize` writes nothing. -/
theorem c32_sprintz_differs :
    ∃ d, fileDecoder (.deltaSprintz 100#64 10#64) queryData 2 = some d ∧ d.precision = none ∧
      Written queryEnv (fileArgs (.deltaSprintz 100#64 10#64) queryData 2) d.file d.info ∧
      (d.filter queryEnv (.eq 0x4002147ae147ae14#64) none none,
        d.materialize queryEnv (some [1]) none,
        d.filterMaterialize queryEnv (.eq 0x4002147ae147ae14#64) none none)
      = (.ok [1], .ok [0x4002666666666666#64], .ok []) :=
  sample_written (f := fun d => (d.filter queryEnv (.eq 0x4002147ae147ae14#64) none none,
        d.materialize queryEnv (some [1]) none,
        d.filterMaterialize queryEnv (.eq 0x4002147ae147ae14#64) none none))
    (cfg := .deltaSprintz 100#64 10#64) trivial (fun _ _ => trivial) (by simp [queryData]) (by omega) (by omega) (by simp [queryData])
    (by decide +kernel)

/-- Controlled precision 0 on a BUFF file with scale 1000 in chunks of three: 9.97 comes back as 9.9375, its
distance 14.72 from the minimum -4.75 of its chunk cut after the first byte. -/
example : (fileDecoder (.buff 1000#64) queryData 3).map
    (fun d => ({ d with precision := some 0 } : Decoder).materialize queryEnv none none)
    = some (.ok [0x3ff8000000000000#64, 0x4002000000000000#64, 0x3ff8000000000000#64, 0xc013000000000000#64,
        0x4023e00000000000#64]) := by
  decide +kernel

end Ebi.Props
