import Verif.Props.ByChunk

/-!
# Queries on the answer of a query (C82)

The bitmap a filter answers is the bitmask of the next query. Filtering so one after the other selects the records that match
all predicates, in any order and whatever repeated; aggregates and values on the answer are those of the matching records.
-/

namespace Ebi.Props

open Ebi

/-- Filters one after the other, each on the answer of the one before. -/
def filterChain (E : Env) (d : Decoder) : List (Predicate B64) → Option Bitmap → Res (Option Bitmap)
  | [], bm => .ok bm
  | p :: ps, bm => (d.filter E p bm none).bind fun b => filterChain E d ps (some b)

variable {E : Env} {a : Args} {file : List Byte} {m : Metadata}

/-- The answer of a chain of filters: the records that match all predicates. -/
theorem c82_chain (h : Written E a file m) (h1 : a.cfg.scheme ≠ .buff) (h2 : a.cfg.scheme ≠ .deltaSprintz) (prec : Option Nat)
    (hr : a.records.length < 2 ^ 32) (ps : List (Predicate B64)) (hps : ps ≠ []) (bm : Option Bitmap) :
    ∃ b, filterChain E ⟨file, m, prec⟩ ps bm = .ok (some b) ∧ Bitmap.WF b ∧
      ∀ x, x ∈ b ↔ ∃ v, (a.records.map (readBack E a.cfg))[x]? = some v ∧ (∀ b0, bm = some b0 → x ∈ b0) ∧
        ∀ p ∈ ps, p.eval f64Cmp v = true := by
  induction ps generalizing bm with
  | nil => exact absurd rfl hps
  | cons p ps ih =>
    obtain ⟨b, e1, e2, e3⟩ := c31_decoder_filter h h1 h2 prec p bm hr
    rw [filterChain, e1, Res.bind]
    cases ps with
    | nil =>
      refine ⟨b, rfl, e2, fun x => (e3 x).trans ?_⟩
      simp only [List.mem_singleton, forall_eq]
    | cons q ps =>
      obtain ⟨b', i1, i2, i3⟩ := ih (by simp) (some b)
      refine ⟨b', i1, i2, fun x => (i3 x).trans ?_⟩
      constructor
      · rintro ⟨v, hv, hb, hp⟩
        obtain ⟨w, hw, hb0, hpw⟩ := (e3 x).1 (hb b rfl)
        rw [hv] at hw
        cases hw
        refine ⟨v, hv, hb0, fun p' hp' => ?_⟩
        rcases List.mem_cons.1 hp' with rfl | hp'
        · exact hpw
        · exact hp p' hp'
      · rintro ⟨v, hv, hb0, hp⟩
        refine ⟨v, hv, fun b0 e => ?_, fun p' hp' => hp p' (List.mem_cons_of_mem _ hp')⟩
        cases e
        exact (e3 x).2 ⟨v, hv, hb0, hp p (by simp)⟩

/-- The order of the filters and repetitions do not matter: the bitmaps are equal. -/
theorem c82_order (h : Written E a file m) (h1 : a.cfg.scheme ≠ .buff) (h2 : a.cfg.scheme ≠ .deltaSprintz) (prec : Option Nat)
    (hr : a.records.length < 2 ^ 32) {ps qs : List (Predicate B64)} (hps : ps ≠ []) (hpq : ∀ p, p ∈ ps ↔ p ∈ qs)
    (bm : Option Bitmap) :
    filterChain E ⟨file, m, prec⟩ ps bm = filterChain E ⟨file, m, prec⟩ qs bm := by
  have hqs : qs ≠ [] := by
    obtain ⟨p, hp⟩ := List.exists_mem_of_ne_nil ps hps
    exact List.ne_nil_of_mem ((hpq p).1 hp)
  obtain ⟨b, e1, e2, e3⟩ := c82_chain h h1 h2 prec hr ps hps bm
  obtain ⟨b', i1, i2, i3⟩ := c82_chain h h1 h2 prec hr qs hqs bm
  rw [e1, i1, Bitmap.ext e2 i2 fun x => by rw [e3, i3]; simp only [hpq]]

theorem pickFrom_filter (bm : Option Bitmap) (b : Bitmap) (f : B64 → Bool) (vs : List B64) (off : Nat)
    (hb : ∀ i v, vs[i]? = some v → (off + i ∈ b ↔ (∀ b0, bm = some b0 → off + i ∈ b0) ∧ f v = true)) :
    pickFrom (some b) off vs = (pickFrom bm off vs).filter f := by
  induction vs generalizing off with
  | nil => rfl
  | cons v vs ih =>
    have ih' := ih (off + 1) (fun i w hw => by
      have := hb (i + 1) w (by simpa using hw)
      rwa [show off + (i + 1) = off + 1 + i by omega] at this)
    have h0 := hb 0 v rfl
    rw [Nat.add_zero] at h0
    unfold pickFrom at ih' ⊢
    have e1 : (some b).all (fun b => b.contains off) = (bm.all (fun b => b.contains off) && f v) := by
      rw [Bool.eq_iff_iff, Bool.and_eq_true, Option.all_some]
      show b.contains off = true ↔ _
      rw [List.contains_iff_mem, h0]
      cases bm with
      | none => simp
      | some b0 =>
        simp only [Option.some.injEq, forall_eq', Option.all_some]
        rw [List.contains_iff_mem]
    rw [List.zipIdx_cons, List.filter_cons, List.filter_cons]
    simp only [e1]
    cases hs : bm.all (fun b => b.contains off) with
    | false => simpa using ih'
    | true =>
      cases hf : f v with
      | false => simpa [hf] using ih'
      | true => simpa [hf] using ih'

/-- Materializing the answer of a chain of filters: the selected values that match all predicates, in order. -/
theorem c82_values (h : Written E a file m) (h1 : a.cfg.scheme ≠ .buff) (h2 : a.cfg.scheme ≠ .deltaSprintz) (prec : Option Nat)
    (hr : a.records.length < 2 ^ 32) (ps : List (Predicate B64)) (hps : ps ≠ []) (bm : Option Bitmap) :
    ∃ b, filterChain E ⟨file, m, prec⟩ ps bm = .ok (some b) ∧
      Decoder.materialize E ⟨file, m, prec⟩ (some b) none =
        .ok ((pick bm (a.records.map (readBack E a.cfg))).filter fun v => ps.all fun p => p.eval f64Cmp v) := by
  obtain ⟨b, e1, -, e3⟩ := c82_chain h h1 h2 prec hr ps hps bm
  refine ⟨b, e1, ?_⟩
  rw [c30_every_scheme h prec (Or.inr h1) (some b) (Or.inr hr)]
  congr 1
  refine pickFrom_filter bm b _ _ 0 fun i v hv => ?_
  rw [Nat.zero_add, e3 i]
  constructor
  · rintro ⟨w, hw, hb, hp⟩
    rw [hv] at hw
    cases hw
    exact ⟨hb, List.all_eq_true.2 hp⟩
  · rintro ⟨hb, hp⟩
    exact ⟨v, hv, hb, List.all_eq_true.1 hp⟩

/-- `filter_materialize`, `max` and `min` on the answer of a chain of filters: over the values that match all predicates. -/
theorem c82_aggregates (h : Written E a file m) (h1 : a.cfg.scheme ≠ .buff) (h2 : a.cfg.scheme ≠ .deltaSprintz)
    (prec : Option Nat) (ho : MinMaxLaw E.o) (hr : a.records.length < 2 ^ 32) (ps : List (Predicate B64)) (hps : ps ≠ [])
    (bm : Option Bitmap) (q : Predicate B64) :
    ∃ b hi lo, filterChain E ⟨file, m, prec⟩ ps bm = .ok (some b) ∧
      Decoder.filterMaterialize E ⟨file, m, prec⟩ q (some b) none =
        .ok ((pick bm (a.records.map (readBack E a.cfg))).filter fun v => (q :: ps).all fun p => p.eval f64Cmp v) ∧
      Decoder.max E ⟨file, m, prec⟩ (some b) none = .ok hi ∧ Decoder.min E ⟨file, m, prec⟩ (some b) none = .ok lo ∧
      ∀ v ∈ pick bm (a.records.map (readBack E a.cfg)), isNaN v = false → (∀ p ∈ ps, p.eval f64Cmp v = true) →
        fle lo v = true ∧ fle v hi = true := by
  obtain ⟨b, e1, e2⟩ := c82_values h h1 h2 prec hr ps hps bm
  have e3 : pick (some b) (a.records.map (readBack E a.cfg)) =
      (pick bm (a.records.map (readBack E a.cfg))).filter fun v => ps.all fun p => p.eval f64Cmp v := by
    have := c30_every_scheme h prec (Or.inr h1) (some b) (Or.inr hr)
    rw [e2] at this
    exact (Res.ok.inj this).symm
  obtain ⟨-, out, -, f2, -, f4⟩ := c32_decoder h h1 h2 prec q (some b) hr
  obtain ⟨hi, g1, -, -, g4⟩ := c33_decoder_max h h1 h2 prec ho (some b) (Or.inr hr)
  obtain ⟨lo, l1, -, -, l4⟩ := c33_decoder_min h h1 h2 prec ho (some b) (Or.inr hr)
  refine ⟨b, hi, lo, e1, ?_, g1, l1, fun v hv hn hp => ?_⟩
  · rw [f2, f4, e3, List.filter_filter]
    congr 1
  · have : v ∈ pick (some b) (a.records.map (readBack E a.cfg)) := by
      rw [e3]
      exact List.mem_filter.2 ⟨hv, List.all_eq_true.2 hp⟩
    exact ⟨l4 v this hn, g4 v this hn⟩

/-- The hypotheses are met by a file of three chunks. -/
example : ∃ d, fileDecoder (.gorilla 100#64) queryData 2 = some d ∧
    Written queryEnv (fileArgs (.gorilla 100#64) queryData 2) d.file d.info ∧ MinMaxLaw queryEnv.o := by
  have h : (fileDecoder (.gorilla 100#64) queryData 2).map (fun d => (decide (d.file.length < 1000), ())) = some (true, ()) := by
    decide +kernel
  obtain ⟨d, h1, -, h3, -⟩ := sample_written (cfg := .gorilla 100#64) trivial (by
    intro v hv
    simp only [queryData, List.mem_cons, List.not_mem_nil, or_false] at hv
    rcases hv with rfl | rfl | rfl | rfl | rfl <;> (show _ ≠ nanBits; decide)) (by simp [queryData]) (by decide) (by decide)
    (by simp [queryData]) h
  exact ⟨d, h1, h3, soft_minMax⟩

/-- Records different from 1.5 and then from -4.75: 1 and 4, in both orders. -/
example : (fileDecoder (.gorilla 100#64) queryData 2).map (fun d =>
    (filterChain queryEnv d [.ne 0x3ff8000000000000#64, .ne 0xc013000000000000#64] none,
     filterChain queryEnv d [.ne 0xc013000000000000#64, .ne 0x3ff8000000000000#64] none)) =
    some (.ok (some [1, 4]), .ok (some [1, 4])) := by
  decide +kernel

end Ebi.Props
