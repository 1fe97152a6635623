import Verif.Props.Memory
import Verif.Alp

/-!
# C58: ALP framing

Row groups, vectors and their metadata as `ebi` stores and loads them, for every set of numeric kernels that are
lossless on a single vector of 1024 values.
-/

namespace Ebi.Props

open Ebi Memory Alp

/-! ## Specification: what is asked of the kernels -/

/-- One encoded vector fits the fields it is stored in. -/
structure AlpVecFits (v : AlpVec) : Prop where
  exp : v.exp < 256
  fac : v.fac < 256
  width : v.width ≤ 64
  packed : v.packed.length = 128 * v.width
  count : v.exceptions.length ≤ 1024
  paired : v.positions.length = v.exceptions.length
  positions : ∀ p ∈ v.positions, p < 2 ^ 16

structure RdMetaFits (m : RdMeta) : Prop where
  rightWidth : m.rightWidth ≤ 64
  leftWidth : m.leftWidth ≤ 16
  size : m.dict.length ≤ 8
  dict : ∀ x ∈ m.dict, x < 2 ^ 16

structure RdVecFits (m : RdMeta) (v : RdVec) : Prop where
  left : v.left.length = 128 * m.leftWidth
  right : v.right.length = 128 * m.rightWidth
  count : v.exceptions.length ≤ 1024
  paired : v.positions.length = v.exceptions.length
  exceptions : ∀ x ∈ v.exceptions, x < 2 ^ 16
  positions : ∀ p ∈ v.positions, p < 2 ^ 16

/-- The kernels are lossless on one vector. `Ready s g`: the state `s` is prepared for vectors of a row group `g`;
`init` prepares it and encoding a vector keeps it so. `fill` completes a vector. -/
structure Kernels (L : Lib) (Ready : L.σ → Group → Prop) : Prop where
  groups : 0 < L.groupVectors
  codes : L.alpCode < 256 ∧ L.rdCode < 256 ∧ L.alpCode ≠ L.rdCode
  init : ∀ s values idx, idx < values.length → Ready (L.init s values idx).2 (L.init s values idx).1
  rdMeta : ∀ s m, Ready s (.rd m) → RdMetaFits m
  fill : ∀ s g vs, Ready s g → 0 < vs.length → vs.length < 1024 →
    ∃ pad, L.fill s g vs = vs ++ pad ∧ vs.length + pad.length = 1024
  alp : ∀ s vs, Ready s .alp → vs.length = 1024 →
    AlpVecFits (L.encAlp s vs).1 ∧ L.decAlp (L.encAlp s vs).1 = vs ∧ Ready (L.encAlp s vs).2 .alp
  rd : ∀ s m vs, Ready s (.rd m) → vs.length = 1024 →
    RdVecFits m (L.encRd s m vs).1 ∧ L.decRd m (L.encRd s m vs).1 = vs ∧ Ready (L.encRd s m vs).2 (.rd m)

/-! ## Lemmas -/

theorem alpRead_append {k : Nat} {a t : List Byte} (h : a.length = k) : Alp.read k (a ++ t) = .ok (a, t) := by
  subst h
  simp [Alp.read]

theorem split16_flatMap (ps : List Nat) (h : ∀ p ∈ ps, p < 2 ^ 16) : split16 ps.length (ps.flatMap (leBytes 2)) = ps := by
  induction ps with
  | nil => rfl
  | cons p ps ih =>
    have hp := h p (List.mem_cons_self ..)
    have e : (leBytes 2 p ++ ps.flatMap (leBytes 2)).take 2 = leBytes 2 p := by
      rw [List.take_append_of_le_length (by simp), List.take_of_length_le (by simp)]
    have e' : (leBytes 2 p ++ ps.flatMap (leBytes 2)).drop 2 = ps.flatMap (leBytes 2) := by
      rw [List.drop_append, List.drop_of_length_le (by simp)]; simp
    rw [List.length_cons, List.flatMap_cons, split16, e, e', leNat_leBytes_of_lt (by omega),
      ih fun x hx => h x (List.mem_cons_of_mem _ hx)]

theorem flatMap16_length (ps : List Nat) : (ps.flatMap (leBytes 2)).length = 2 * ps.length := by
  induction ps with
  | nil => rfl
  | cons p ps ih => rw [List.flatMap_cons, List.length_append, ih, leBytes_length, List.length_cons]; omega

theorem read16s_append (ps : List Nat) (h : ∀ p ∈ ps, p < 2 ^ 16) {k : Nat} (hk : ps.length = k) (t : List Byte) :
    read16s k (ps.flatMap (leBytes 2) ++ t) = .ok (ps, t) := by
  subst hk
  unfold read16s
  rw [alpRead_append (flatMap16_length ps), Mem.ok_bind]
  simp only [split16_flatMap ps h]

theorem loadAlp_exceptions {ex : List B64} {pos : List Nat} (h5 : ex.length ≤ 1024) (h6 : pos.length = ex.length)
    (h7 : ∀ p ∈ pos, p < 2 ^ 16) (t : List Byte) (mk : List B64 → List Nat → AlpVec) :
    (if vectorSize < ex.length then Mem.ub else
      if 0 < ex.length then do
        let (e, bs) ← Alp.read (8 * ex.length)
          ((if 0 < ex.length then ex.flatMap f64Bytes ++ pos.flatMap (leBytes 2) else []) ++ t)
        let (ps, bs) ← read16s ex.length bs
        Mem.ok (mk (toF64s e) ps, bs)
      else Mem.ok (mk [] [], (if 0 < ex.length then ex.flatMap f64Bytes ++ pos.flatMap (leBytes 2) else []) ++ t)) =
      Mem.ok (mk ex pos, t) := by
  rw [if_neg (by unfold vectorSize; omega)]
  by_cases hc : 0 < ex.length
  · rw [if_pos hc, if_pos hc, List.append_assoc]
    have he : (ex.flatMap f64Bytes).length = 8 * ex.length := ofF64s_length ex
    rw [alpRead_append he, Mem.ok_bind]
    simp only
    rw [read16s_append pos h7 h6, Mem.ok_bind]
    have : toF64s (ex.flatMap f64Bytes) = ex := toF64s_ofF64s ex
    rw [this]
  · rw [if_neg hc, if_neg hc]
    have e1 : ex = [] := List.eq_nil_of_length_eq_zero (by omega)
    have e2 : pos = [] := List.eq_nil_of_length_eq_zero (by omega)
    rw [e1, e2]; rfl

theorem loadAlp_store {v : AlpVec} (h : AlpVecFits v) (t : List Byte) : loadAlp (storeAlp v ++ t) = .ok (v, t) := by
  obtain ⟨exp, fac, base, width, packed, ex, pos⟩ := v
  obtain ⟨h1, h2, h3, h4, h5, h6, h7⟩ := h
  simp only at h1 h2 h3 h4 h5 h6 h7
  unfold storeAlp loadAlp
  simp only [List.append_assoc]
  rw [alpRead_append (leBytes_length ..), Mem.ok_bind]
  simp only
  rw [alpRead_append (leBytes_length ..), Mem.ok_bind]
  simp only
  rw [alpRead_append (leBytes_length ..), Mem.ok_bind]
  simp only
  rw [alpRead_append (leBytes_length ..), Mem.ok_bind]
  simp only
  rw [alpRead_append (leBytes_length ..), Mem.ok_bind]
  simp only
  rw [leNat_leBytes_of_lt (n := 1) (x := exp) (by omega), leNat_leBytes_of_lt (n := 1) (x := fac) (by omega),
    leNat_leBytes_of_lt (n := 1) (x := width) (by omega), leNat_leBytes_of_lt (n := 2) (x := ex.length) (by omega),
    if_neg (by omega)]
  have hf : f64Of (leBytes 8 base.toNat) = base := f64Of_bytes base
  rw [hf]
  by_cases hw : 0 < width
  · rw [if_pos hw, alpRead_append h4, Mem.ok_bind]
    exact loadAlp_exceptions h5 h6 h7 _ _
  · have hpk : packed = [] := List.eq_nil_of_length_eq_zero (by omega)
    rw [if_neg hw, hpk, Mem.ok_bind]
    exact loadAlp_exceptions h5 h6 h7 _ _

theorem loadRd_store {m : RdMeta} (hm : RdMetaFits m) {v : RdVec} (h : RdVecFits m v) (t : List Byte) :
    loadRd m (storeRd v ++ t) = .ok (v, t) := by
  obtain ⟨left, right, ex, pos⟩ := v
  obtain ⟨h1, h2, h3, h4, h5, h6⟩ := h
  have h7 := hm.leftWidth
  have h8 := hm.rightWidth
  simp only at h1 h2 h3 h4 h5 h6
  unfold storeRd loadRd
  simp only [List.append_assoc]
  rw [alpRead_append (leBytes_length ..), Mem.ok_bind]
  simp only
  rw [leNat_leBytes_of_lt (n := 2) (x := ex.length) (by omega), if_neg (by unfold vectorSize; omega),
    alpRead_append h1, Mem.ok_bind]
  simp only
  rw [alpRead_append h2, Mem.ok_bind]
  simp only
  by_cases hc : 0 < ex.length
  · rw [if_pos hc, if_pos hc, List.append_assoc, read16s_append ex h5 rfl, Mem.ok_bind]
    simp only
    rw [read16s_append pos h6 h4, Mem.ok_bind]
  · rw [if_neg hc, if_neg hc]
    have e1 : ex = [] := List.eq_nil_of_length_eq_zero (by omega)
    have e2 : pos = [] := List.eq_nil_of_length_eq_zero (by omega)
    rw [e1, e2]; rfl

theorem loadGroup_store {L : Lib} {Ready : L.σ → Group → Prop} (K : Kernels L Ready) {s : L.σ} {g : Group}
    (hg : Ready s g) (t : List Byte) : loadGroup L (storeGroup L g ++ t) = .ok (g, t) := by
  obtain ⟨hc1, hc2, hc3⟩ := K.codes
  unfold loadGroup storeGroup
  cases g with
  | alp =>
    simp only
    rw [alpRead_append (leBytes_length ..), Mem.ok_bind]
    simp only
    rw [leNat_leBytes_of_lt (by omega), if_neg hc3]
  | rd m =>
    obtain ⟨h1, h2, h3, h4⟩ := K.rdMeta s m hg
    obtain ⟨rw', lw, dict⟩ := m
    simp only at h1 h2 h3 h4
    simp only [List.append_assoc]
    rw [alpRead_append (leBytes_length ..), Mem.ok_bind]
    simp only
    rw [leNat_leBytes_of_lt (by omega), if_pos rfl, alpRead_append (leBytes_length ..), Mem.ok_bind]
    simp only
    rw [alpRead_append (leBytes_length ..), Mem.ok_bind]
    simp only
    rw [alpRead_append (leBytes_length ..), Mem.ok_bind]
    simp only
    rw [leNat_leBytes_of_lt (n := 1) (x := dict.length) (by omega), leNat_leBytes_of_lt (n := 1) (x := rw') (by omega),
      leNat_leBytes_of_lt (n := 1) (x := lw) (by omega), Nat.mod_eq_of_lt (by omega), if_neg (by omega),
      alpRead_append (flatMap16_length dict), Mem.ok_bind]
    simp only
    rw [split16_flatMap dict h4]

theorem storeGroup_length {L : Lib} {Ready : L.σ → Group → Prop} (K : Kernels L Ready) {s : L.σ} {g : Group}
    (hg : Ready s g) : (storeGroup L g).length ≤ 20 := by
  cases g with
  | alp => simp [storeGroup]
  | rd m =>
    have := (K.rdMeta s m hg).size
    simp only [storeGroup, List.length_append, leBytes_length, flatMap16_length]
    omega

theorem decodeVector_compress {L : Lib} {Ready : L.σ → Group → Prop} (K : Kernels L Ready) {g : Group} {s : L.σ}
    (hg : Ready s g) {vs : List B64} (h : vs.length = 1024) (t : List Byte) :
    decodeVector L g ((compressVector L g s vs).1 ++ t) = .ok (vs, t) ∧ Ready (compressVector L g s vs).2 g := by
  unfold decodeVector compressVector
  cases g with
  | alp =>
    obtain ⟨h1, h2, h3⟩ := K.alp s vs hg h
    simp only
    rw [loadAlp_store h1, Mem.ok_bind]
    simp only [h2, h3, and_self]
  | rd m =>
    obtain ⟨h1, h2, h3⟩ := K.rd s m vs hg h
    simp only
    rw [loadRd_store (K.rdMeta s m hg) h1, Mem.ok_bind]
    simp only [h2, h3, and_self]

theorem place_end {cap : Nat} {out vs : List B64} (h : out.length + 1024 ≤ cap) :
    place cap out out.length vs = .ok (out ++ vs) := by
  unfold place vectorSize
  rw [if_neg (by omega), List.take_of_length_le (Nat.le_refl _), List.drop_of_length_le (by omega), List.append_nil]

/-- No vector takes more than `B` bytes. -/
def VectorMax (L : Lib) (Ready : L.σ → Group → Prop) (B : Nat) : Prop :=
  ∀ s g vs, Ready s g → vs.length = 1024 → (compressVector L g s vs).1.length ≤ B

/-- The vector loops of compressor and decompressor against each other. -/
theorem vectors_roundtrip {L : Lib} {Ready : L.σ → Group → Prop} (K : Kernels L Ready) {g : Group}
    (values : List B64) (k : Nat) (s : L.σ) (hg : Ready s g) (idx : Nat) (o : List Byte)
    (h : idx + 1024 * k ≤ values.length) :
    ∃ s' enc, compressVectors L values g k s idx o = .ok (s', idx + 1024 * k, o ++ enc) ∧ Ready s' g ∧
      (∀ B, VectorMax L Ready B → enc.length ≤ B * k) ∧
      ∀ (cap left : Nat) (t : List Byte), idx + 1024 * k ≤ cap → 1024 * k ≤ left →
        decompressVectors L g cap k left idx (values.take idx) (enc ++ t) =
          .ok (left - 1024 * k, idx + 1024 * k, values.take (idx + 1024 * k), t) := by
  induction k generalizing s idx o with
  | zero =>
    refine ⟨s, [], ?_, hg, ?_, ?_⟩
    · simp [compressVectors]
    · simp
    · intro cap left t _ _
      simp [decompressVectors]
  | succ k ih =>
    have hv : ((values.drop idx).take vectorSize).length = 1024 := by
      rw [List.length_take, List.length_drop]; unfold vectorSize; omega
    obtain ⟨s', enc, h1, hr, hB, h2⟩ := ih (compressVector L g s ((values.drop idx).take vectorSize)).2
      (decodeVector_compress K hg hv []).2 (idx + 1024)
      (o ++ (compressVector L g s ((values.drop idx).take vectorSize)).1) (by omega)
    refine ⟨s', (compressVector L g s ((values.drop idx).take vectorSize)).1 ++ enc, ?_, hr, ?_, ?_⟩
    · rw [compressVectors, if_neg (by unfold vectorSize; omega)]
      simp only
      rw [show idx + vectorSize = idx + 1024 from rfl, h1, List.append_assoc,
        show idx + 1024 + 1024 * k = idx + 1024 * (k + 1) by omega]
    · intro B hm
      have := hm s g _ hg hv
      have := hB B hm
      rw [List.length_append, Nat.mul_succ]
      omega
    · intro cap left t hcap hleft
      have hl : (values.take idx).length = idx := by rw [List.length_take]; omega
      have hx : idx + 1024 ≤ cap := by
        rw [Nat.mul_succ] at hcap
        exact Nat.le_trans (Nat.add_le_add_left (Nat.le_add_left ..) _) hcap
      have hpl := place_end (cap := cap) (out := values.take idx) (vs := (values.drop idx).take vectorSize)
        (by rw [hl]; exact hx)
      rw [hl] at hpl
      rw [decompressVectors, List.append_assoc, (decodeVector_compress K hg hv _).1, Mem.ok_bind]
      simp only
      rw [hpl, Mem.ok_bind, ← List.take_add, show min vectorSize left = 1024 by unfold vectorSize; omega,
        show idx + vectorSize = idx + 1024 from rfl, h2 cap (left - 1024) t (by omega) (by omega)]
      rw [show left - 1024 - 1024 * k = left - 1024 * (k + 1) by omega,
        show idx + 1024 + 1024 * k = idx + 1024 * (k + 1) by omega]

theorem ceil_step {R m : Nat} (hR : 0 < R) (k : Nat) (h : k + 1 = (m + (R - 1)) / R) :
    0 < m ∧ k = (m - min R m + (R - 1)) / R := by
  have hm : 0 < m := by
    rcases Nat.eq_zero_or_pos m with rfl | h0
    · rw [Nat.zero_add, Nat.div_eq_of_lt (by omega)] at h; omega
    · exact h0
  refine ⟨hm, ?_⟩
  by_cases hr : R ≤ m
  · have e : m + (R - 1) = (m - R + (R - 1)) + R := by omega
    rw [e, Nat.add_div_right _ hR] at h
    rw [Nat.min_eq_left hr]; omega
  · rw [Nat.min_eq_right (by omega), Nat.sub_self, Nat.zero_add, Nat.div_eq_of_lt (by omega)]
    have e : m + (R - 1) = (m - 1) + R := by omega
    rw [e, Nat.add_div_right _ hR, Nat.div_eq_of_lt (by omega)] at h
    omega

/-- The row group loops against each other. -/
theorem groups_roundtrip {L : Lib} {Ready : L.σ → Group → Prop} (K : Kernels L Ready) (values : List B64) (k : Nat)
    (g0 : Group) (s : L.σ) (idx : Nat) (o : List Byte) (h : idx ≤ values.length)
    (hk : k = groupCount L (values.length - idx)) :
    ∃ g s' enc, (Ready s g0 ∨ 0 < k → Ready s' g) ∧
      compressGroups L values k g0 s idx o = .ok (g, s', idx + (values.length - idx) / 1024 * 1024, o ++ enc) ∧
      (∀ B, VectorMax L Ready B → enc.length ≤ 20 * k + B * ((values.length - idx) / 1024)) ∧
      ∀ (cap : Nat) (t : List Byte), values.length ≤ cap →
        decompressGroups L cap k g0 (values.length - idx) idx (values.take idx) (enc ++ t) =
          .ok (g, (values.length - idx) % 1024, idx + (values.length - idx) / 1024 * 1024,
            values.take (idx + (values.length - idx) / 1024 * 1024), t) := by
  have hR := K.groups
  induction k generalizing g0 s idx o with
  | zero =>
    have hz : values.length - idx = 0 := by
      rcases Nat.eq_zero_or_pos (values.length - idx) with h0 | h0
      · exact h0
      · exfalso
        unfold groupCount vectorSize at hk
        have : 0 < (values.length - idx + (L.groupVectors * 1024 - 1)) / (L.groupVectors * 1024) :=
          Nat.div_pos (by omega) (by omega)
        omega
    refine ⟨g0, s, [], fun hr => hr.resolve_right (Nat.lt_irrefl 0), ?_, ?_, ?_⟩
    · rw [compressGroups, hz]; simp
    · simp
    · intro cap t _
      rw [decompressGroups, hz]; simp
  | succ k ih =>
    unfold groupCount at hk
    obtain ⟨hpos, hk'⟩ := ceil_step (by unfold vectorSize; omega) k hk
    have hg := K.init s values idx (by omega)
    generalize hw : min (L.groupVectors * vectorSize) (values.length - idx) = w at *
    have hwle : w ≤ values.length - idx := by omega
    obtain ⟨s1, enc1, h1, hg1, hB1, h2⟩ := vectors_roundtrip K values (w / vectorSize) (L.init s values idx).2 hg idx
      (o ++ storeGroup L (L.init s values idx).1) (by unfold vectorSize; omega)
    -- either the group is full (a multiple of 1024 is consumed) or it is the last one
    have hrest : k = groupCount L (values.length - (idx + 1024 * (w / vectorSize))) ∧
        (values.length - idx) / 1024 =
          w / vectorSize + (values.length - (idx + 1024 * (w / vectorSize))) / 1024 ∧
        (values.length - idx) % 1024 = (values.length - (idx + 1024 * (w / vectorSize))) % 1024 ∨
        k = 0 ∧ w = values.length - idx := by
      by_cases hf : L.groupVectors * vectorSize ≤ values.length - idx
      · left
        have e : w = L.groupVectors * vectorSize := by omega
        have e2 : 1024 * (w / vectorSize) = w := by rw [e]; unfold vectorSize; omega
        have e3 : w % 1024 = 0 := by rw [e]; unfold vectorSize; omega
        refine ⟨?_, ?_, ?_⟩
        · rw [e2]; unfold groupCount; rw [hk']; congr 2; omega
        · rw [e2]; unfold vectorSize; omega
        · rw [e2]; omega
      · right
        have e : w = values.length - idx := by omega
        refine ⟨?_, e⟩
        rw [hk', e, Nat.sub_self, Nat.zero_add]
        exact Nat.div_eq_of_lt (by unfold vectorSize; omega)
    have hcs : compressGroups L values (k + 1) g0 s idx o =
        compressGroups L values k (L.init s values idx).1 s1 (idx + 1024 * (w / vectorSize))
          (o ++ storeGroup L (L.init s values idx).1 ++ enc1) := by
      rw [compressGroups]
      simp only
      rw [hw, h1, Mem.ok_bind]
    have hds : ∀ (cap : Nat) (t : List Byte), values.length ≤ cap →
        decompressGroups L cap (k + 1) g0 (values.length - idx) idx (values.take idx)
          (storeGroup L (L.init s values idx).1 ++ enc1 ++ t) =
        decompressGroups L cap k (L.init s values idx).1 (values.length - (idx + 1024 * (w / vectorSize)))
          (idx + 1024 * (w / vectorSize)) (values.take (idx + 1024 * (w / vectorSize))) t := by
      intro cap t hcap
      rw [decompressGroups, List.append_assoc, loadGroup_store K hg, Mem.ok_bind]
      simp only
      rw [hw, h2 cap (values.length - idx) t (by unfold vectorSize; omega) (by unfold vectorSize; omega), Mem.ok_bind,
        Nat.sub_sub]
    have hgl := storeGroup_length K hg
    rcases hrest with ⟨r1, r2, r3⟩ | ⟨r1, r2⟩
    · obtain ⟨g, s2, enc2, hg2, h3, hB2, h4⟩ := ih (L.init s values idx).1 s1 (idx + 1024 * (w / vectorSize))
        (o ++ storeGroup L (L.init s values idx).1 ++ enc1) (by unfold vectorSize; omega) r1
      have r2' : (values.length - idx) / 1024 * 1024 = 1024 * (w / vectorSize) +
          (values.length - (idx + 1024 * (w / vectorSize))) / 1024 * 1024 := by rw [r2]; omega
      refine ⟨g, s2, storeGroup L (L.init s values idx).1 ++ enc1 ++ enc2, fun _ => hg2 (.inl hg1), ?_, ?_, ?_⟩
      · rw [hcs, h3, r2']; simp [Nat.add_assoc]
      · intro B hm
        have a1 := hB1 B hm
        have a2 := hB2 B hm
        rw [r2, Nat.mul_add B, List.length_append, List.length_append]
        omega
      · intro cap t hcap
        have := hds cap (enc2 ++ t) hcap
        rw [← List.append_assoc] at this
        rw [this, h4 cap t hcap, r2', r3, Nat.add_assoc]
    · subst r1
      refine ⟨(L.init s values idx).1, s1, storeGroup L (L.init s values idx).1 ++ enc1, fun _ => hg1, ?_, ?_, ?_⟩
      · rw [hcs, compressGroups, r2]; simp [vectorSize, Nat.mul_comm]
      · intro B hm
        have a1 := hB1 B hm
        rw [r2, show vectorSize = 1024 from rfl] at a1
        rw [List.length_append]
        omega
      · intro cap t hcap
        rw [hds cap t hcap, decompressGroups, r2]
        have e : 1024 * ((values.length - idx) / vectorSize) = (values.length - idx) / 1024 * 1024 := by
          unfold vectorSize; omega
        rw [e]
        congr 3
        omega

theorem groupCount_pos {L : Lib} {Ready : L.σ → Group → Prop} (K : Kernels L Ready) {n : Nat} (h : 0 < n) :
    0 < groupCount L n := by
  have := K.groups
  unfold groupCount vectorSize
  exact Nat.div_pos (by omega) (by omega)

theorem alp_compress {L : Lib} {Ready : L.σ → Group → Prop} (K : Kernels L Ready) (values : List B64) :
    ∃ bytes, Alp.compress L values = .ok bytes ∧
      (∀ B, VectorMax L Ready B →
        bytes.length ≤ 20 * groupCount L values.length + B * ((values.length + 1023) / 1024)) ∧
      ∀ (extra : Nat) (t : List Byte), decompressDouble L extra values.length (bytes ++ t) = .ok (values, t) := by
  obtain ⟨g, s, enc, hg, h1, hB, h2⟩ := groups_roundtrip K values (groupCount L values.length) .alp L.start 0 []
    (Nat.zero_le _) rfl
  rw [Nat.sub_zero, Nat.zero_add, List.nil_append] at h1
  simp only [Nat.sub_zero] at hB
  simp only [Nat.sub_zero, Nat.zero_add, List.take_zero] at h2
  unfold Alp.compress
  rw [h1, Mem.ok_bind]
  simp only
  by_cases hl : values.length / 1024 * 1024 < values.length
  · have hg := hg (.inr (groupCount_pos K (by omega)))
    rw [if_pos hl]
    have hd : (values.drop (values.length / 1024 * 1024)).length = values.length % 1024 := by
      rw [List.length_drop]; omega
    obtain ⟨pad, hf, hp⟩ := K.fill s g (values.drop (values.length / 1024 * 1024)) hg (by rw [hd]; omega) (by rw [hd]; omega)
    have hfl : (L.fill s g (values.drop (values.length / 1024 * 1024))).length = 1024 := by
      rw [hf, List.length_append]; omega
    refine ⟨_, rfl, fun B hm => ?_, fun extra t => ?_⟩
    · have a1 := hB B hm
      have a2 := hm s g _ hg hfl
      rw [List.length_append, show (values.length + 1023) / 1024 = values.length / 1024 + 1 by omega, Nat.mul_succ B]
      omega
    unfold decompressDouble decompress
    simp only
    generalize hcap : (values.length + (vectorSize - 1)) / vectorSize * vectorSize + extra = cap
    have hc : values.length / 1024 * 1024 + 1024 ≤ cap := by rw [← hcap]; unfold vectorSize; omega
    rw [List.append_assoc, h2 cap _ (by omega), Mem.ok_bind]
    simp only
    rw [if_pos (by omega), (decodeVector_compress K hg hfl _).1, Mem.ok_bind]
    simp only
    have hl' : (values.take (values.length / 1024 * 1024)).length = values.length / 1024 * 1024 := by
      rw [List.length_take]; omega
    have hpl := place_end (cap := cap) (out := values.take (values.length / 1024 * 1024))
      (vs := L.fill s g (values.drop (values.length / 1024 * 1024))) (by rw [hl']; exact hc)
    rw [hl'] at hpl
    rw [hpl, hf, ← List.append_assoc, List.take_append_drop]
    simp only [Mem.ok_bind]
    rw [if_pos (by simp), List.take_append_of_le_length (Nat.le_refl _), List.take_of_length_le (Nat.le_refl _)]
  · rw [if_neg hl]
    refine ⟨_, rfl, fun B hm => ?_, fun extra t => ?_⟩
    · have a1 := hB B hm
      rw [show (values.length + 1023) / 1024 = values.length / 1024 by omega]
      exact a1
    unfold decompressDouble decompress
    simp only
    generalize hcap : (values.length + (vectorSize - 1)) / vectorSize * vectorSize + extra = cap
    rw [h2 cap t (by rw [← hcap]; unfold vectorSize; omega), Mem.ok_bind]
    simp only
    rw [if_neg (by omega), show values.length / 1024 * 1024 = values.length by omega, List.take_of_length_le (Nat.le_refl _)]
    simp only [Mem.ok_bind]
    rw [if_pos (Nat.le_refl _), List.take_of_length_le (Nat.le_refl _)]

/-! ## Properties -/

/-- ALP is lossless if its kernels are lossless on one vector: `compress` never reads past its input, and
decompressing what it stored gives the values back, reading exactly the stored bytes and writing inside the
reserved buffer. -/
theorem c58_lossless {L : Lib} {Ready : L.σ → Group → Prop} (K : Kernels L Ready) (values : List B64) :
    ∃ bytes, Alp.compress L values = .ok bytes ∧
      ∀ (extra : Nat) (t : List Byte), decompressDouble L extra values.length (bytes ++ t) = .ok (values, t) :=
  let ⟨b, h1, _, h2⟩ := alp_compress K values
  ⟨b, h1, h2⟩

/-- The assumption the other properties make about ALP follows from the kernels' being lossless. -/
theorem c58_codec {L : Lib} {Ready : L.σ → Group → Prop} (K : Kernels L Ready) (k : External.ValueCodec)
    (henc : ∀ vs, Alp.compress L vs = .ok (k.enc vs))
    (hdec : ∀ n bs out rest, decompressDouble L 0 n bs = .ok (out, rest) → k.dec n bs = out) : k.Lossless := by
  intro vs
  obtain ⟨b, h1, h2⟩ := c58_lossless K vs
  have e : k.enc vs = b := Mem.ok.inj ((henc vs).symm.trans h1)
  have := h2 0 []
  rw [List.append_nil] at this
  rw [e]
  exact hdec _ _ _ _ this

theorem storeAlp_length {v : AlpVec} (h : AlpVecFits v) :
    (storeAlp v).length = 13 + 128 * v.width + 10 * v.exceptions.length := by
  have h1 := h.packed
  have h2 := h.paired
  unfold storeAlp
  have he : (v.exceptions.flatMap f64Bytes).length = 8 * v.exceptions.length := ofF64s_length _
  split
  · simp only [List.length_append, leBytes_length, flatMap16_length, he]
    omega
  · simp only [List.length_append, leBytes_length, List.length_nil]
    omega

theorem storeRd_length {m : RdMeta} {v : RdVec} (h : RdVecFits m v) :
    (storeRd v).length = 2 + 128 * (m.leftWidth + m.rightWidth) + 4 * v.exceptions.length := by
  have h1 := h.left
  have h2 := h.right
  have h3 := h.paired
  unfold storeRd
  split
  · simp only [List.length_append, leBytes_length, flatMap16_length]
    omega
  · simp only [List.length_append, leBytes_length, List.length_nil]
    omega

theorem vectorMax_of {L : Lib} {Ready : L.σ → Group → Prop} (K : Kernels L Ready) {B : Nat} (hB : 14338 ≤ B)
    (h : ∀ s vs, Ready s .alp → vs.length = 1024 →
      13 + 128 * (L.encAlp s vs).1.width + 10 * (L.encAlp s vs).1.exceptions.length ≤ B) : VectorMax L Ready B := by
  intro s g vs hr hv
  cases g with
  | alp =>
    have := h s vs hr hv
    simp only [compressVector]
    rw [storeAlp_length (K.alp s vs hr hv).1]
    exact this
  | rd m =>
    have f := (K.rd s m vs hr hv).1
    have f1 := K.rdMeta s m hr
    have := f1.leftWidth
    have := f1.rightWidth
    have := f.count
    simp only [compressVector]
    rw [storeRd_length f]
    omega

/-- When the output buffer of `compress_double` is large enough: always for fewer than 1024 values, else if no ALP
vector is both wide and full of exceptions (16353 bytes are exceeded, for instance, at 64 bits and 817
exceptions). ALP-RD vectors always fit. -/
theorem c58_buffer {L : Lib} {Ready : L.σ → Group → Prop} (K : Kernels L Ready) (values : List B64)
    (h : values.length < 1024 ∨ ∀ s vs, Ready s .alp → vs.length = 1024 →
      128 * (L.encAlp s vs).1.width + 10 * (L.encAlp s vs).1.exceptions.length ≤ 16353) :
    ∃ bytes, compressDouble L values = .ok bytes ∧ bytes.length ≤ worstCase values.length ∧
      ∀ (extra : Nat) (t : List Byte), decompressDouble L extra values.length (bytes ++ t) = .ok (values, t) := by
  obtain ⟨b, h1, hB, h2⟩ := alp_compress K values
  have hlen : b.length ≤ worstCase values.length := by
    have hR := K.groups
    rcases h with h | h
    · have hb := hB 18445 (vectorMax_of K (by omega) fun s vs hr hv => by
        have f := (K.alp s vs hr hv).1
        have := f.width
        have := f.count
        omega)
      have hg : groupCount L values.length ≤ 1 := by
        unfold groupCount vectorSize
        apply Nat.le_of_lt_succ
        rw [Nat.div_lt_iff_lt_mul (by omega)]
        omega
      unfold worstCase vectorSize
      simp only
      rw [if_pos h]
      rcases Nat.eq_zero_or_pos values.length with h0 | h0
      · have : groupCount L 0 = 0 := by
          unfold groupCount vectorSize
          exact Nat.div_eq_of_lt (by omega)
        rw [h0, this] at hb
        omega
      · rw [show (values.length + (1024 - 1)) / 1024 = 1 by omega]
        rw [show (values.length + 1023) / 1024 = 1 by omega] at hb
        omega
    · have hb := hB 16366 (vectorMax_of K (by omega) fun s vs hr hv => by
        have := h s vs hr hv
        omega)
      have hg : groupCount L values.length ≤ (values.length + 1023) / 1024 := by
        unfold groupCount vectorSize
        apply Nat.le_of_lt_succ
        rw [Nat.div_lt_iff_lt_mul (by omega)]
        generalize hq : (values.length + 1023) / 1024 = q
        have h5 : values.length ≤ q * 1024 := by omega
        have h6 : q * 1024 ≤ q * (L.groupVectors * 1024) := Nat.mul_le_mul (Nat.le_refl _) (by omega)
        rw [Nat.succ_mul]
        omega
      unfold worstCase vectorSize
      simp only
      rw [show values.length + (1024 - 1) = values.length + 1023 from rfl]
      split <;> omega
  refine ⟨b, ?_, hlen, h2⟩
  unfold compressDouble
  rw [h1, Mem.ok_bind, if_pos hlen]

/-- Reads from the front only: what follows the part read does not matter; the only failure is reading too much. -/
def FrontReader {α : Type} (f : List Byte → Mem (α × List Byte)) : Prop :=
  ∀ bs, (∃ x r, f bs = .ok (x, r) ∧ ∀ t, f (bs ++ t) = .ok (x, r ++ t)) ∨ f bs = .ub

theorem FrontReader.ok {α : Type} (x : α) : FrontReader (fun bs => Mem.ok (x, bs)) :=
  fun bs => .inl ⟨x, bs, rfl, fun _ => rfl⟩

theorem FrontReader.ub {α : Type} : FrontReader (fun _ => (Mem.ub : Mem (α × List Byte))) := fun _ => .inr rfl

theorem FrontReader.bind {α β : Type} {f : List Byte → Mem (α × List Byte)} {g : α → List Byte → Mem (β × List Byte)}
    (hf : FrontReader f) (hg : ∀ x, FrontReader (g x)) : FrontReader (fun bs => f bs >>= fun p => g p.1 p.2) := by
  intro bs
  rcases hf bs with ⟨x, r, h, ht⟩ | h
  · rcases hg x r with ⟨y, q, h', ht'⟩ | h'
    · refine .inl ⟨y, q, ?_, fun t => ?_⟩
      · simp only [h, Mem.ok_bind, h']
      · simp only [ht, Mem.ok_bind, ht']
    · right
      simp only [h, Mem.ok_bind, h']
  · right
    simp only [h]
    rfl

theorem FrontReader.ite {α : Type} {f g : List Byte → Mem (α × List Byte)} (c : Prop) [Decidable c]
    (hf : FrontReader f) (hg : FrontReader g) : FrontReader (fun bs => if c then f bs else g bs) := by
  intro bs
  by_cases hc : c
  · simpa only [if_pos hc] using hf bs
  · simpa only [if_neg hc] using hg bs

theorem FrontReader.read (k : Nat) : FrontReader (Alp.read k) := by
  intro bs
  unfold Alp.read
  by_cases h : k ≤ bs.length
  · refine .inl ⟨_, _, if_pos h, fun t => ?_⟩
    rw [if_pos (by rw [List.length_append]; omega), List.take_append_of_le_length h, List.drop_append_of_le_length h]
  · exact .inr (if_neg h)

theorem FrontReader.read16s (k : Nat) : FrontReader (Alp.read16s k) :=
  .bind (.read _) fun _ => .ok _

/-- `FrontReader` at one input: `m'` is the result when more input follows. -/
def Front {α : Type} (m : Mem (α × List Byte)) (m' : List Byte → Mem (α × List Byte)) : Prop :=
  (∃ x r, m = .ok (x, r) ∧ ∀ t, m' t = .ok (x, r ++ t)) ∨ m = .ub

theorem Front.ok {α : Type} (x : α) (r : List Byte) : Front (Mem.ok (x, r)) (fun t => Mem.ok (x, r ++ t)) :=
  .inl ⟨x, r, rfl, fun _ => rfl⟩

theorem Front.ub {α : Type} {m' : List Byte → Mem (α × List Byte)} : Front Mem.ub m' := .inr rfl

theorem Front.bind {α β : Type} {m : Mem (α × List Byte)} {m' : List Byte → Mem (α × List Byte)}
    {G : α × List Byte → Mem (β × List Byte)} (hm : Front m m')
    (hg : ∀ x r, Front (G (x, r)) (fun t => G (x, r ++ t))) : Front (m >>= G) (fun t => m' t >>= G) := by
  rcases hm with ⟨x, r, h, ht⟩ | h
  · rcases hg x r with ⟨y, q, h', ht'⟩ | h'
    · refine .inl ⟨y, q, ?_, fun t => ?_⟩
      · simp only [h, Mem.ok_bind, h']
      · simp only [ht, Mem.ok_bind, ht']
    · right
      simp only [h, Mem.ok_bind, h']
  · right
    simp only [h]
    rfl

theorem Front.ite {α : Type} {m n : Mem (α × List Byte)} {m' n' : List Byte → Mem (α × List Byte)} (c : Prop)
    [Decidable c] (hm : Front m m') (hn : Front n n') :
    Front (if c then m else n) (fun t => if c then m' t else n' t) := by
  by_cases hc : c
  · simpa only [if_pos hc] using hm
  · simpa only [if_neg hc] using hn

theorem FrontReader.loadAlp : FrontReader Alp.loadAlp := by
  intro bs
  show Front _ _
  unfold Alp.loadAlp
  repeat' first
    | exact Front.ok _ _
    | exact Front.ub
    | refine Front.bind (FrontReader.read _ _) fun _ _ => ?_
    | refine Front.bind (FrontReader.read16s _ _) fun _ _ => ?_
    | refine Front.bind (Front.ok _ _) fun _ _ => ?_
    | refine Front.ite _ ?_ ?_

theorem FrontReader.loadRd (m : RdMeta) : FrontReader (Alp.loadRd m) := by
  intro bs
  show Front _ _
  unfold Alp.loadRd
  repeat' first
    | exact Front.ok _ _
    | exact Front.ub
    | refine Front.bind (FrontReader.read _ _) fun _ _ => ?_
    | refine Front.bind (FrontReader.read16s _ _) fun _ _ => ?_
    | refine Front.ite _ ?_ ?_

theorem FrontReader.loadGroup (L : Lib) : FrontReader (Alp.loadGroup L) := by
  intro bs
  show Front _ _
  unfold Alp.loadGroup
  repeat' first
    | exact Front.ok _ _
    | exact Front.ub
    | refine Front.bind (FrontReader.read _ _) fun _ _ => ?_
    | refine Front.ite _ ?_ ?_

theorem FrontReader.decodeVector (L : Lib) (g : Group) : FrontReader (Alp.decodeVector L g) := by
  cases g with
  | alp => exact .bind .loadAlp fun _ => .ok _
  | rd m => exact .bind (.loadRd m) fun _ => .ok _

theorem FrontReader.place {α : Type} (cap : Nat) (out : List B64) (off : Nat) (vs : List B64)
    {f : List B64 → List Byte → Mem (α × List Byte)} (h : ∀ out, FrontReader (f out)) :
    FrontReader (fun bs => Alp.place cap out off vs >>= fun out => f out bs) := by
  intro bs
  unfold Alp.place
  by_cases hc : cap < off + vectorSize
  · right; simp only [if_pos hc]; rfl
  · simpa only [if_neg hc, Mem.ok_bind] using h _ bs

/-- The result of a loop, its unread input apart. -/
def regroup {α β γ : Type} : Mem (α × β × γ × List Byte) → Mem ((α × β × γ) × List Byte)
  | .ok (a, b, c, r) => .ok ((a, b, c), r)
  | .err => .err
  | .panic => .panic
  | .ub => .ub

theorem FrontReader.decompressVectors (L : Lib) (g : Group) (cap k : Nat) (left off : Nat) (out : List B64) :
    FrontReader (fun bs => regroup (Alp.decompressVectors L g cap k left off out bs)) := by
  induction k generalizing left off out with
  | zero => exact .ok _
  | succ k ih =>
    have := FrontReader.bind (.decodeVector L g) fun vs => FrontReader.place cap out off vs fun out =>
      ih (left - min vectorSize left) (off + min vectorSize left) out
    intro bs
    have e : ∀ bs, regroup (Alp.decompressVectors L g cap (k + 1) left off out bs) =
        (Alp.decodeVector L g bs >>= fun p => Alp.place cap out off p.1 >>= fun out =>
          regroup (Alp.decompressVectors L g cap k (left - min vectorSize left) (off + min vectorSize left) out p.2)) := by
      intro bs
      rw [Alp.decompressVectors]
      cases Alp.decodeVector L g bs with
      | ok p =>
        simp only [Mem.ok_bind]
        cases Alp.place cap out off p.1 <;> rfl
      | _ => rfl
    simp only [e]
    exact this bs

/-- As `regroup`, for the row group loop. -/
def regroup' {α β γ δ : Type} : Mem (α × β × γ × δ × List Byte) → Mem ((α × β × γ × δ) × List Byte)
  | .ok (a, b, c, d, r) => .ok ((a, b, c, d), r)
  | .err => .err
  | .panic => .panic
  | .ub => .ub

theorem FrontReader.decompressGroups (L : Lib) (cap k : Nat) (g : Group) (left off : Nat) (out : List B64) :
    FrontReader (fun bs => regroup' (Alp.decompressGroups L cap k g left off out bs)) := by
  induction k generalizing g left off out with
  | zero => exact .ok _
  | succ k ih =>
    have := FrontReader.bind (.loadGroup L) fun g => FrontReader.bind
      (.decompressVectors L g cap (min (L.groupVectors * vectorSize) left / vectorSize) left off out)
      fun p => ih g p.1 p.2.1 p.2.2
    intro bs
    have e : ∀ bs, regroup' (Alp.decompressGroups L cap (k + 1) g left off out bs) =
        (Alp.loadGroup L bs >>= fun q =>
          regroup (Alp.decompressVectors L q.1 cap (min (L.groupVectors * vectorSize) left / vectorSize) left off out q.2)
            >>= fun p => regroup' (Alp.decompressGroups L cap k q.1 p.1.1 p.1.2.1 p.1.2.2 p.2)) := by
      intro bs
      rw [Alp.decompressGroups]
      cases Alp.loadGroup L bs with
      | ok q =>
        simp only [Mem.ok_bind]
        cases Alp.decompressVectors L q.1 cap _ left off out q.2 <;> rfl
      | _ => rfl
    simp only [e]
    exact this bs

theorem FrontReader.decompressDouble (L : Lib) (extra n : Nat) : FrontReader (Alp.decompressDouble L extra n) := by
  generalize hcap : (n + (vectorSize - 1)) / vectorSize * vectorSize + extra = cap
  have := FrontReader.bind (FrontReader.bind (.decompressGroups L cap (groupCount L n) .alp n 0 []) fun p =>
    FrontReader.ite (0 < p.2.1) (.bind (.decodeVector L p.1) fun vs => .place cap p.2.2.2 p.2.2.1 vs fun out => .ok out)
      (.ok p.2.2.2)) fun out => FrontReader.ite (n ≤ out.length) (.ok (out.take n)) .ub
  intro bs
  have e : ∀ bs, Alp.decompressDouble L extra n bs =
      ((regroup' (Alp.decompressGroups L cap (groupCount L n) .alp n 0 [] bs) >>= fun p =>
        if 0 < p.1.2.1 then (Alp.decodeVector L p.1.1 p.2 >>= fun q => Alp.place cap p.1.2.2.2 p.1.2.2.1 q.1 >>= fun out =>
          .ok (out, q.2)) else .ok (p.1.2.2.2, p.2)) >>= fun p => if n ≤ p.1.length then .ok (p.1.take n, p.2) else .ub) := by
    intro bs
    unfold Alp.decompressDouble Alp.decompress
    simp only [hcap]
    cases Alp.decompressGroups L cap (groupCount L n) .alp n 0 [] bs <;> rfl
  simp only [e]
  exact this bs

/-- The reader does not notice that a chunk is too short: from every proper prefix of a compressed chunk it reads past
the end of its input. -/
theorem c58_truncated {L : Lib} {Ready : L.σ → Group → Prop} (K : Kernels L Ready) (values : List B64)
    (bytes : List Byte) (h : Alp.compress L values = .ok bytes) (extra j : Nat) (hj : j < bytes.length) :
    decompressDouble L extra values.length (bytes.take j) = .ub := by
  obtain ⟨b, h1, h2⟩ := c58_lossless K values
  have e : bytes = b := Mem.ok.inj (h.symm.trans h1)
  subst e
  have hb := h2 extra []
  rw [List.append_nil] at hb
  rcases FrontReader.decompressDouble L extra values.length (bytes.take j) with ⟨x, r, _, ht⟩ | hu
  · exfalso
    have := ht (bytes.drop j)
    rw [List.take_append_drop, hb] at this
    have hr : ([] : List Byte) = r ++ bytes.drop j := (Prod.mk.inj (Mem.ok.inj this)).2
    have hlen := congrArg List.length hr
    rw [List.length_append, List.length_drop, List.length_nil] at hlen
    omega
  · exact hu

/-! ### Two libraries -/

/-- Plain kernels: 64 bits per value. A row group whose first value is zero goes to ALP-RD. -/
def plainLib : Lib where
  σ := Nat
  groupVectors := 100
  alpCode := 0
  rdCode := 1
  start := 0
  init := fun s values idx => (if values[idx]? = some 0 then .rd ⟨64, 0, [7, 8]⟩ else .alp, s + 1)
  fill := fun _ _ vs => vs ++ List.replicate (1024 - vs.length) 0
  encAlp := fun s vs => (⟨0, 0, 0, 64, ofF64s vs, [], []⟩, s + 1)
  encRd := fun s _ vs => (⟨[], ofF64s vs, [], []⟩, s + 1)
  decAlp := fun v => toF64s v.packed
  decRd := fun _ v => toF64s v.right

theorem plainLib_kernels :
    Kernels plainLib (fun s g => 0 < (show Nat from s) ∧ (g = .alp ∨ g = .rd ⟨64, 0, [7, 8]⟩)) where
  groups := by simp [plainLib]
  codes := by simp [plainLib]
  init := fun s values idx _ => by
    simp only [plainLib]
    exact ⟨Nat.succ_pos _, by split <;> simp⟩
  rdMeta := by
    rintro s m ⟨-, h | h⟩
    · cases h
    · cases h
      exact ⟨by simp, by simp, by simp, by simp⟩
  fill := fun s g vs _ _ h => ⟨_, rfl, by rw [List.length_replicate]; omega⟩
  alp := by
    rintro s vs - h
    have h8 := ofF64s_length vs
    refine ⟨⟨by simp [plainLib], by simp [plainLib], by simp [plainLib], ?_, by simp [plainLib], by simp [plainLib],
      by simp [plainLib]⟩, toF64s_ofF64s vs, Nat.succ_pos _, .inl rfl⟩
    simp only [plainLib]
    omega
  rd := by
    rintro s m vs ⟨-, hm | hm⟩ h
    · cases hm
    cases hm
    have h8 := ofF64s_length vs
    refine ⟨⟨by simp [plainLib], ?_, by simp [plainLib], by simp [plainLib],
      by simp [plainLib], by simp [plainLib]⟩, toF64s_ofF64s vs, Nat.succ_pos _, .inr rfl⟩
    simp only [plainLib]
    omega

/-- Lossless kernels that store every value twice, once packed and once as an exception. -/
def wideLib : Lib where
  σ := Unit
  groupVectors := 100
  alpCode := 0
  rdCode := 1
  start := ()
  init := fun s _ _ => (.alp, s)
  fill := fun _ _ vs => vs ++ List.replicate (1024 - vs.length) 0
  encAlp := fun s vs => (⟨0, 0, 0, 64, ofF64s vs, vs, List.range vs.length⟩, s)
  encRd := fun s _ _ => (⟨[], [], [], []⟩, s)
  decAlp := fun v => v.exceptions
  decRd := fun _ _ => []

theorem wideLib_kernels : Kernels wideLib (fun _ g => g = .alp) where
  groups := by simp [wideLib]
  codes := by simp [wideLib]
  init := fun _ _ _ _ => rfl
  rdMeta := fun _ _ h => by cases h
  fill := fun s g vs _ _ h => ⟨_, rfl, by rw [List.length_replicate]; omega⟩
  alp := by
    rintro s vs - h
    have h8 := ofF64s_length vs
    refine ⟨⟨by simp [wideLib], by simp [wideLib], by simp [wideLib], ?_, ?_, ?_, ?_⟩, rfl, rfl⟩
    · simp only [wideLib]; omega
    · simp only [wideLib]; omega
    · simp [wideLib]
    · intro p hp
      simp only [wideLib, List.mem_range] at hp
      omega
  rd := fun _ _ _ h => by cases h

theorem wideLib_compress {vs : List B64} (h : vs.length = 1024) :
    Alp.compress wideLib vs = .ok (storeGroup wideLib .alp ++ storeAlp (wideLib.encAlp () vs).1) := by
  have hg : groupCount wideLib vs.length = 1 := by rw [h]; rfl
  unfold Alp.compress
  rw [hg, compressGroups]
  simp only
  have hn : min (wideLib.groupVectors * vectorSize) (vs.length - 0) / vectorSize = 1 := by rw [h]; rfl
  rw [hn, compressVectors, if_neg (by rw [h]; decide)]
  simp only [compressVectors, Mem.ok_bind, compressGroups]
  rw [if_neg (by rw [h]; decide)]
  have ht : List.take vectorSize (List.drop 0 vs) = vs := by
    rw [List.drop_zero, List.take_of_length_le (by rw [h]; decide)]
  rw [ht]
  rfl

/-- The buffer size is not a consequence of the kernels' being lossless: with these kernels every chunk of 1024
values is written past the end of the buffer. -/
theorem c58_buffer_overrun : ∃ (L : Lib) (Ready : L.σ → Group → Prop), Kernels L Ready ∧
    ∀ vs : List B64, vs.length = 1024 → compressDouble L vs = .ub := by
  refine ⟨wideLib, _, wideLib_kernels, fun vs h => ?_⟩
  unfold compressDouble
  rw [wideLib_compress h, Mem.ok_bind, if_neg]
  have e1 : (storeGroup wideLib .alp).length = 1 := rfl
  have e2 := storeAlp_length (wideLib_kernels.alp () vs rfl h).1
  have e3 : (wideLib.encAlp () vs).1.width = 64 := rfl
  have e4 : (wideLib.encAlp () vs).1.exceptions.length = 1024 := h
  have e5 : worstCase vs.length = 16388 := by rw [h]; rfl
  rw [List.length_append, e5]
  omega

-- the hypotheses are met: lossless kernels exist, a chunk of 102400 + 1024 + 3 values has two row groups and a tail
example : ∃ bytes, compressDouble plainLib (List.replicate 103427 0) = .ok bytes ∧
    decompressDouble plainLib 0 103427 bytes = .ok (List.replicate 103427 0, []) := by
  obtain ⟨b, h1, _, h2⟩ := c58_buffer plainLib_kernels (List.replicate 103427 0) (.inr fun s vs _ h => by simp [plainLib])
  refine ⟨b, h1, ?_⟩
  have := h2 0 []
  rwa [List.append_nil, List.length_replicate] at this

-- a chunk of three values is not empty, so it has proper prefixes
example : ∃ bytes, Alp.compress plainLib [0, 1, 2] = .ok bytes ∧ 0 < bytes.length ∧
    decompressDouble plainLib 0 3 [] = .ub := by
  obtain ⟨b, h1, h2⟩ := c58_lossless plainLib_kernels [0, 1, 2]
  have hb : 0 < b.length := by
    cases b with
    | nil =>
      have h := h2 0 []
      have hg : groupCount plainLib 3 = 1 := by decide
      have h' : decompressDouble plainLib 0 3 ([] : List Byte) = .ub := by
        unfold decompressDouble decompress
        rw [hg]
        rfl
      rw [List.append_nil] at h
      exact absurd (h.symm.trans h') (by simp)
    | cons _ _ => simp
  exact ⟨b, h1, hb, c58_truncated plainLib_kernels _ b h1 0 0 hb⟩

/-! ### Which bytes are read outside their buffers -/

theorem alpRead_lt {k : Nat} {bs : List Byte} (h : bs.length < k) : Alp.read k bs = .ub := by
  unfold Alp.read; rw [if_neg (by omega)]

theorem alpRead_le {k : Nat} {bs : List Byte} (h : k ≤ bs.length) : Alp.read k bs = .ok (bs.take k, bs.drop k) := by
  unfold Alp.read; rw [if_pos h]

theorem read16s_lt {k : Nat} {bs : List Byte} (h : bs.length < 2 * k) : read16s k bs = .ub := by
  unfold read16s; rw [alpRead_lt h]; rfl

theorem read16s_le {k : Nat} {bs : List Byte} (h : 2 * k ≤ bs.length) :
    read16s k bs = .ok (split16 k (bs.take (2 * k)), bs.drop (2 * k)) := by
  unfold read16s; rw [alpRead_le h]; rfl

/-- Loading an ALP-RD vector leaves its buffers exactly if the group header has a width beyond 16 and 64 bits, or the
vector announces more than 1024 exceptions or more bytes than there are. -/
theorem c58_load_rd (m : RdMeta) (bs : List Byte) :
    loadRd m bs = .ub ↔ bs.length < 2 ∨ 16 < m.leftWidth ∨ 64 < m.rightWidth ∨ 1024 < leNat (bs.take 2) ∨
      bs.length < 2 + 128 * m.leftWidth + 128 * m.rightWidth + 4 * leNat (bs.take 2) := by
  unfold loadRd
  by_cases h1 : bs.length < 2
  · rw [alpRead_lt h1]; exact iff_of_true rfl (Or.inl h1)
  · rw [alpRead_le (by omega), Mem.ok_bind]
    simp only [vectorSize]
    generalize leNat (bs.take 2) = c
    split
    · rename_i h; exact iff_of_true rfl (by omega)
    · rename_i h
      by_cases h2 : bs.length < 2 + 128 * m.leftWidth
      · rw [alpRead_lt (by rw [List.length_drop]; omega)]; exact iff_of_true rfl (by omega)
      rw [alpRead_le (by rw [List.length_drop]; omega), Mem.ok_bind]
      by_cases h3 : bs.length < 2 + 128 * m.leftWidth + 128 * m.rightWidth
      · simp only
        rw [alpRead_lt (by simp only [List.length_drop]; omega)]; exact iff_of_true rfl (by omega)
      simp only
      rw [alpRead_le (by simp only [List.length_drop]; omega), Mem.ok_bind]
      simp only
      split
      · by_cases h4 : bs.length < 2 + 128 * m.leftWidth + 128 * m.rightWidth + 2 * c
        · rw [read16s_lt (by simp only [List.length_drop]; omega)]; exact iff_of_true rfl (by omega)
        rw [read16s_le (by simp only [List.length_drop]; omega), Mem.ok_bind]
        simp only
        by_cases h5 : bs.length < 2 + 128 * m.leftWidth + 128 * m.rightWidth + 4 * c
        · rw [read16s_lt (by simp only [List.length_drop]; omega)]; exact iff_of_true rfl (by omega)
        rw [read16s_le (by simp only [List.length_drop]; omega), Mem.ok_bind]
        exact iff_of_false (by simp) (by omega)
      · exact iff_of_false (by simp) (by omega)

/-- Loading an ALP vector: exactly if it announces a width beyond 64 bits, more than 1024 exceptions, or more bytes than
there are. -/
theorem c58_load_alp (bs : List Byte) :
    loadAlp bs = .ub ↔ bs.length < 13 ∨ 64 < leNat ((bs.drop 12).take 1) ∨ 1024 < leNat ((bs.drop 2).take 2) ∨
      bs.length < 13 + 128 * leNat ((bs.drop 12).take 1) + 10 * leNat ((bs.drop 2).take 2) := by
  unfold loadAlp
  by_cases h : bs.length < 1
  · rw [alpRead_lt h]; exact iff_of_true rfl (Or.inl (by omega))
  rw [alpRead_le (by omega), Mem.ok_bind]
  simp only
  by_cases h : bs.length < 2
  · rw [alpRead_lt (by simp only [List.length_drop]; omega)]; exact iff_of_true rfl (Or.inl (by omega))
  rw [alpRead_le (by simp only [List.length_drop]; omega), Mem.ok_bind]
  simp only [List.drop_drop]
  by_cases h : bs.length < 4
  · rw [alpRead_lt (by simp only [List.length_drop]; omega)]; exact iff_of_true rfl (Or.inl (by omega))
  rw [alpRead_le (by simp only [List.length_drop]; omega), Mem.ok_bind]
  simp only [List.drop_drop]
  by_cases h : bs.length < 12
  · rw [alpRead_lt (by simp only [List.length_drop]; omega)]; exact iff_of_true rfl (Or.inl (by omega))
  rw [alpRead_le (by simp only [List.length_drop]; omega), Mem.ok_bind]
  simp only [List.drop_drop]
  by_cases h : bs.length < 13
  · rw [alpRead_lt (by simp only [List.length_drop]; omega)]; exact iff_of_true rfl (Or.inl (by omega))
  rw [alpRead_le (by simp only [List.length_drop]; omega), Mem.ok_bind]
  simp only [List.drop_drop, Nat.reduceAdd]
  generalize leNat (List.take 2 (List.drop 2 bs)) = c
  generalize leNat (List.take 1 (List.drop 12 bs)) = w
  simp only [vectorSize]
  split
  · exact iff_of_true rfl (by omega)
  have tail : ∀ r : List Byte, r.length = bs.length - 13 - 128 * w → bs.length ≥ 13 + 128 * w →
      ∀ (f : List Byte → List Nat → AlpVec) (x : AlpVec),
      ((if 1024 < c then Mem.ub
        else if 0 < c then do
          let y ← Alp.read (8 * c) r
          let z ← read16s c y.2
          .ok (f y.1 z.1, z.2)
        else .ok (x, r)) = .ub ↔ bs.length < 13 ∨ 64 < w ∨ 1024 < c ∨ bs.length < 13 + 128 * w + 10 * c) := by
    intro r hr hb f x
    split
    · exact iff_of_true rfl (by omega)
    split
    · by_cases h4 : r.length < 8 * c
      · rw [alpRead_lt h4]; exact iff_of_true rfl (by omega)
      rw [alpRead_le (by omega), Mem.ok_bind]
      simp only
      by_cases h5 : r.length < 10 * c
      · rw [read16s_lt (by simp only [List.length_drop]; omega)]; exact iff_of_true rfl (by omega)
      rw [read16s_le (by simp only [List.length_drop]; omega), Mem.ok_bind]
      exact iff_of_false (by simp) (by omega)
    · exact iff_of_false (by simp) (by omega)
  split
  · by_cases h2 : bs.length < 13 + 128 * w
    · rw [alpRead_lt (by simp only [List.length_drop]; omega)]; exact iff_of_true rfl (by omega)
    rw [alpRead_le (by simp only [List.length_drop]; omega), Mem.ok_bind]
    refine tail (List.drop (128 * w) (List.drop 13 bs)) ?_ (by omega)
      (fun e p => ⟨_, _, _, _, _, toF64s e, p⟩) _
    simp only [List.length_drop]
  · rw [Mem.ok_bind]
    refine tail (List.drop 13 bs) ?_ (by omega) (fun e p => ⟨_, _, _, _, _, toF64s e, p⟩) _
    simp only [List.length_drop]; omega

/-- A row-group header: exactly if it is cut short or announces a dictionary of more than 8 entries (modulo 128). -/
theorem c58_load_group (L : Lib) (bs : List Byte) :
    loadGroup L bs = .ub ↔ bs.length < 1 ∨ (leNat (bs.take 1) = L.rdCode ∧ (bs.length < 4 ∨
      8 < leNat ((bs.drop 3).take 1) % 128 ∨ bs.length < 4 + 2 * (leNat ((bs.drop 3).take 1) % 128))) := by
  unfold loadGroup
  by_cases h : bs.length < 1
  · rw [alpRead_lt h]; exact iff_of_true rfl (Or.inl (by omega))
  rw [alpRead_le (by omega), Mem.ok_bind]
  simp only
  split
  · rename_i hc
    simp only [hc, true_and]
    by_cases h : bs.length < 2
    · rw [alpRead_lt (by simp only [List.length_drop]; omega)]; exact iff_of_true rfl (by omega)
    rw [alpRead_le (by simp only [List.length_drop]; omega), Mem.ok_bind]
    simp only [List.drop_drop]
    by_cases h : bs.length < 3
    · rw [alpRead_lt (by simp only [List.length_drop]; omega)]; exact iff_of_true rfl (by omega)
    rw [alpRead_le (by simp only [List.length_drop]; omega), Mem.ok_bind]
    simp only [List.drop_drop]
    by_cases h : bs.length < 4
    · rw [alpRead_lt (by simp only [List.length_drop]; omega)]; exact iff_of_true rfl (by omega)
    rw [alpRead_le (by simp only [List.length_drop]; omega), Mem.ok_bind]
    simp only [List.drop_drop, Nat.reduceAdd]
    generalize leNat (List.take 1 (List.drop 3 bs)) = d
    split
    · exact iff_of_true rfl (by omega)
    by_cases h2 : bs.length < 4 + 2 * (d % 128)
    · rw [alpRead_lt (by simp only [List.length_drop]; omega)]; exact iff_of_true rfl (by omega)
    rw [alpRead_le (by simp only [List.length_drop]; omega), Mem.ok_bind]
    exact iff_of_false (by simp) (by omega)
  · rename_i hc
    exact iff_of_false (by simp) (by simp only [hc, false_and, or_false]; omega)

example : loadRd ⟨65, 3, []⟩ (List.replicate 20000 0#8) = .ub :=
  (c58_load_rd _ _).2 (Or.inr (Or.inr (Or.inl (by decide))))

end Ebi.Props
