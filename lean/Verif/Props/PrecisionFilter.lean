import Verif.Props.Precision

/-!
# C70, further: `filter_materialize` with a precision set

BUFF's `filter_materialize` (buff.rs:230-241) filters the stored bits, where the precision plays no part, and writes
the values that `decompress` gives, where it does.
-/

namespace Ebi.Props

open Ebi

theorem pickFrom_placed_of (bm : Option Bitmap) (g : Ebi.Chunk → List B64) (off : Nat) (cs : List Ebi.Chunk)
    (hg : ∀ c ∈ cs, (g c).length = c.1.length) :
    pickFrom bm off (cs.flatMap g) = (placed off cs).flatMap fun q => pickFrom bm q.1 (g q.2) := by
  induction cs generalizing off with
  | nil => simp [placed, pickFrom]
  | cons c cs ih =>
    have hl := hg c (List.mem_cons_self ..)
    obtain ⟨cv, cb⟩ := c
    simp only [List.flatMap_cons, placed, pickFrom_append]
    rw [ih _ fun c hc => hg c (List.mem_cons_of_mem _ hc), hl]

/-- One chunk. -/
theorem buff_filterMaterialize_precision (E : Env) {n p : Nat} {bs : List Byte} {ws : List B64}
    (hd : Buff.decodeWithPrecision E.o bs p = .ok ws) (q : Predicate B64) (bm : Option Bitmap) (off : Nat) {R : Bitmap}
    (hR : (AnyReader.ops E .buff (some p)).filter n bs q bm off = .ok R) :
    (AnyReader.ops E .buff (some p)).filterMaterialize n bs q bm off = .ok (defaultMaterialize (some R) off ws) := by
  have hf : freshHandle .buff (some p) n bs off
      = .ok ⟨.buff ((Buff.Reader.new n bs).withControlledPrecision p), n, off⟩ := rfl
  have hR' : ((Buff.Reader.new n bs).withControlledPrecision p).filter E.useSimd q bm off = .ok R := by
    rw [(buff_ops E (some p) n bs bm off).1 q] at hR
    exact hR
  have hdec : ((Buff.Reader.new n bs).withControlledPrecision p).decompress E.o
      = .ok (ws, { (Buff.Reader.new n bs).withControlledPrecision p with decompressed := some ws }) := by
    simp only [Buff.Reader.decompress, Buff.Reader.new, Buff.Reader.withControlledPrecision, hd]
  simp only [AnyReader.ops, hf, Res.bind_ok, Handle.values, Handle.exec, AnyReader.exec, Buff.Reader.exec,
    Buff.Reader.filterMaterialize, hR', hdec, Res.map_ok]

variable {E : Env} {a : Args} {file : List Byte} {m : Metadata} {s : BitVec 64}

/-- With a precision set, `filter_materialize` writes the reduced values of the records that `filter` answers, and
`filter` answers by the full stored numbers: what is written need not meet the predicate (`c70_written_outside`). -/
theorem c70_filter_materialize (h : Written E a file m) (hc : a.cfg = .buff s) {p b : Nat}
    (hpm : Buff.precisionMap[p]? = some b)
    (q : Predicate B64) (bm : Option Bitmap) (hbm : ∀ b, bm = some b → Bitmap.WF b)
    (hr : a.records.length * 8 < 2 ^ 32) (hp : BelowMaxima (buffBits E s) a q) :
    ∃ R ws, Decoder.filter E ⟨file, m, some p⟩ q bm none = .ok R ∧
      (∀ x v, a.records[x]? = some v → (∀ b, bm = some b → x ∈ b) →
        (x ∈ R ↔ Answers (buffBits E s) q (Buff.intoFixed v (buffBits E s)).toInt = true)) ∧
      ReducedAll E.o (buffBits E s) b a.records ws ∧
      Decoder.filterMaterialize E ⟨file, m, some p⟩ q bm none = .ok (pick (some R) ws) ∧
      Decoder.materialize E ⟨file, m, some p⟩ (some R) none = .ok (pick (some R) ws) := by
  obtain ⟨R, hR, -, -, hans, -⟩ := c36_decoder_filter_partial h hc (some p) q bm hbm hr hp
  obtain ⟨cs, rfl, rfl, hfit, h2, h3, h4, h5⟩ := h.buff hc
  have hF := buffBits_le E s
  have hsch : (a.metadata cs).header.scheme = .buff := by
    show a.cfg.scheme = _
    rw [hc]; rfl
  generalize hFe : buffBits E s = F at *
  have hin : ∀ q ∈ placed 0 cs, q.2 ∈ cs ∧ q.1 + q.2.1.length ≤ recordCount cs := by
    intro q hq
    have h1 := placed_sum hq
    obtain ⟨pre, suf, e, -⟩ := placed_split hq
    exact ⟨by rw [e]; simp, by omega⟩
  have hlen : ∀ c ∈ cs, c.1.length ≤ recordCount cs := by
    intro c hcm
    obtain ⟨pre, suf, rfl⟩ := List.append_of_mem hcm
    obtain ⟨cv, cb⟩ := c
    rw [recordCount_append, recordCount_cons]
    simp only
    omega
  have hat : ∀ c ∈ cs, Buff.decodeWithPrecision E.o c.2 p = .ok (chunkAt E.o p c) ∧
      ReducedAll E.o F b c.1 (chunkAt E.o p c) := by
    intro c hcm
    have := hlen c hcm
    exact chunkAt_spec E.o (h3 c hcm).1 (by omega) (by omega) hpm (h3 c hcm).2
  have hgl : ∀ c ∈ cs, (chunkAt E.o p c).length = c.1.length := fun c hcm => (hat c hcm).2.1
  have hred : ReducedAll E.o F b a.records (cs.flatMap (chunkAt E.o p)) := by
    rw [← h4]
    exact ReducedAll.flatMap fun c hcm => (hat c hcm).2
  refine ⟨R, cs.flatMap (chunkAt E.o p), hR, hans, hred, ?_, ?_⟩
  · have hchunk : ∀ c ∈ cs, ∀ off, off + c.1.length ≤ recordCount cs → ∃ R',
        (AnyReader.ops E .buff (some p)).filter c.1.length c.2 q bm off = .ok R' ∧ Bitmap.WF R' ∧
        (∀ x ∈ R', off ≤ x ∧ x < off + c.1.length) := by
      intro c hcm off hoff
      obtain ⟨p1, p2⟩ := h3 c hcm
      obtain ⟨R', k1, k2, k3, -⟩ := c36_filter_partial E.useSimd (c.1.map fun v => Buff.intoFixed v F) F c.2 p2
        (by omega) (by rw [List.length_map]; omega) off (by rw [List.length_map]; omega) q bm hbm
        (hp _ h2 c.1 (List.mem_map_of_mem hcm))
      rw [List.length_map] at k1 k3
      exact ⟨R', ((buff_ops E (some p) c.1.length c.2 bm off).1 q).trans k1,
        ⟨k2, fun x hx => by have := k3 x hx; omega⟩, k3⟩
    obtain ⟨R0, e1, e2, e3⟩ := filter_layout_union (a := a) hfit (E.scheme a.cfg) (ops := AnyReader.ops E .buff (some p))
      q bm (Or.inr (by omega)) (fun c hcm off hoff => by
        obtain ⟨R', k1, k2, -⟩ := hchunk c hcm off hoff
        exact ⟨R', k1, k2⟩)
    have hRR : R0 = R := by
      unfold Decoder.filter Decoder.ops at hR
      simp only [hsch] at hR
      have : Res.ok R0 = Res.ok R := e1.symm.trans hR
      cases this
      rfl
    subst hRR
    have hq := query_eq (E.scheme a.cfg) hfit bm (Or.inr (by omega)) none (A := List B64)
      (fun n bs off out => do
        let vs ← (AnyReader.ops E .buff (some p)).filterMaterialize n bs q bm off
        .ok (out ++ vs))
      (fun out c => out ++ pickFrom (some R0) c.1 (chunkAt E.o p c.2))
      (by
        intro c hcv out
        obtain ⟨k1, k2⟩ := hin c (visited_subset hcv)
        obtain ⟨R', g1, -, g3⟩ := hchunk c.2 k1 c.1 k2
        have hfm := buff_filterMaterialize_precision E (hat c.2 k1).1 q bm c.1 g1
        simp only [hfm, Res.bind_ok, Res.ok.injEq, List.append_cancel_left_eq]
        have hl := hgl c.2 k1
        rw [pickFrom_eq (Or.inr (by omega))]
        apply pickFrom_congr
        rw [hl]
        intro x x1 x2
        rw [e3 x]
        constructor
        · intro hx; exact ⟨c, hcv, R', g1, hx⟩
        · rintro ⟨c', hc', r, f1, f2⟩
          obtain ⟨l1, l2⟩ := hin c' (visited_subset hc')
          obtain ⟨R2, m1, -, m3⟩ := hchunk c'.2 l1 c'.1 l2
          rw [m1] at f1
          cases f1
          have hx' := m3 x f2
          have : c' = c := placed_unique (visited_subset hc') (visited_subset hcv) hx'.1 hx'.2 x1 x2
          subst this
          rw [m1] at g1
          cases g1
          exact f2) []
    rw [← List.flatMap_eq_foldl] at hq
    have hall : (visited bm none 0 0 cs).flatMap (fun c => pickFrom (some R0) c.1 (chunkAt E.o p c.2))
        = pick (some R0) (cs.flatMap (chunkAt E.o p)) := by
      show _ = pickFrom (some R0) 0 _
      rw [pickFrom_placed_of _ _ _ _ hgl, visited_none]
      apply flatMap_filter_of_nil
      intro c hcm hd
      rw [Bool.not_eq_false'] at hd
      have hno : ∀ x ∈ R0, ¬ (c.1 ≤ x ∧ x < c.1 + c.2.1.length) := by
        rintro x hx ⟨x1, x2⟩
        obtain ⟨c', hc', r, f1, f2⟩ := (e3 x).1 hx
        obtain ⟨l1, l2⟩ := hin c' (visited_subset hc')
        obtain ⟨R2, m1, -, m3⟩ := hchunk c'.2 l1 c'.1 l2
        rw [m1] at f1
        cases f1
        have hx' := m3 x f2
        have : c' = c := placed_unique (visited_subset hc') hcm hx'.1 hx'.2 x1 x2
        subst this
        rw [visited_disjoint hc'] at hd
        cases hd
      have hl := hgl c.2 (hin c hcm).1
      rw [← hl] at hno
      rw [List.eq_nil_iff_forall_not_mem]
      intro v hv
      unfold pickFrom at hv
      simp only [List.mem_map, List.mem_filter, Option.all_some] at hv
      obtain ⟨⟨w, x⟩, ⟨hw, hx⟩, -⟩ := hv
      have h1 := List.mk_mem_zipIdx_iff_le_and_getElem?_sub.1 hw
      have h2 := (List.getElem?_eq_some_iff.1 h1.2).1
      exact hno x (List.contains_iff_mem.1 hx) ⟨h1.1, by omega⟩
    rw [← hall]
    unfold Decoder.filterMaterialize Decoder.ops
    simp only [hsch]
    exact hq
  · have hr' : (some R : Option Bitmap) = none ∨ recordCount cs < 2 ^ 32 := Or.inr (by omega)
    unfold Decoder.materialize Decoder.ops
    simp only [hsch]
    have hq := query_eq (E.scheme a.cfg) hfit (some R) hr' none (A := List B64)
      (fun n bs off out => do
        let vs ← (AnyReader.ops E .buff (some p)).materialize n bs (some R) off
        .ok (out ++ vs))
      (fun out q => out ++ defaultMaterialize (some R) q.1 (chunkAt E.o p q.2))
      (by
        intro q hq out
        have hmem : q.2 ∈ cs := (hin q (visited_subset hq)).1
        obtain ⟨hd, h8, h9⟩ := freshHandle_precision E (hat _ hmem).1 (hgl _ hmem) q.1
        obtain ⟨hd', h10, -⟩ := h9.exec (q := .materialize (some R)) rfl
        simp only [AnyReader.ops, h8, Res.bind_ok, Handle.values_of_exec h10, Res.map_ok]) []
    rw [← List.flatMap_eq_foldl, flatMap_visited_any _ cs 0 hgl (by rw [Nat.zero_add]; exact hr'),
      pickFrom_eq (hr'.imp id (fun h => by rw [hred.1]; omega))] at hq
    exact hq

/-- 200.75 read with precision 0: `filter_materialize` of the records `≥ 200.5` writes 200. -/
theorem c70_written_outside :
    ∃ d, fileDecoder (.buff 10#64) wideData 2 = some d ∧ d.precision = none ∧
      Written queryEnv (fileArgs (.buff 10#64) wideData 2) d.file d.info ∧
      (Decoder.filterMaterialize queryEnv ⟨d.file, d.info, some 0⟩ (.range ⟨.inclusive 0x4069100000000000#64, .none⟩) none none,
        fle 0x4069100000000000#64 0x4069000000000000#64) = (.ok [0x4069000000000000#64], false) :=
  sample_written (f := fun d =>
      (Decoder.filterMaterialize queryEnv ⟨d.file, d.info, some 0⟩ (.range ⟨.inclusive 0x4069100000000000#64, .none⟩) none none,
        fle 0x4069100000000000#64 0x4069000000000000#64))
    (cfg := .buff 10#64) supported_buff (fun _ _ => trivial) (by simp [wideData]) (by omega) (by omega) (by simp [wideData])
    (by decide +kernel)

/-- The hypotheses of `c70_filter_materialize` on the file of `c70_written_outside`. -/
example : ∃ d, fileDecoder (.buff 10#64) wideData 2 = some d ∧
    Written queryEnv (fileArgs (.buff 10#64) wideData 2) d.file d.info ∧ Buff.precisionMap[0]? = some 0 ∧
    (fileArgs (.buff 10#64) wideData 2).records.length * 8 < 2 ^ 32 ∧
    BelowMaxima (buffBits queryEnv 10#64) (fileArgs (.buff 10#64) wideData 2)
      (.range ⟨.inclusive 0x4069100000000000#64, .none⟩) := by
  obtain ⟨d, h1, -, h2, -⟩ := c70_written_outside
  exact ⟨d, h1, h2, rfl, by decide +kernel, fun _ _ _ _ => trivial⟩

end Ebi.Props
