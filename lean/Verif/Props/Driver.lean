import Verif.Driver
import Verif.Props.DecimalFile

/-!
# C67: the predicates of the filter experiments

The constants are the percentiles their names say, and on a file that gives the data back the filters answer the
shares that follow from it.
-/

namespace Ebi.Props

open Ebi Ebi.Decimal Ebi.Driver

/-! ### Percentiles -/

/-- How many values are greater than `t`. -/
def above (t : B64) (vs : List B64) : Nat := vs.countP fun v => flt t v

/-- How many values are less than `t`. -/
def below (t : B64) (vs : List B64) : Nat := vs.countP fun v => flt v t

/-- `t` is a value at `k` percent: at most that many are less, and fewer than the rest are greater. -/
structure IsPercentile (k : Nat) (vs : List B64) (t : B64) : Prop where
  mem : t ∈ vs
  below : below t vs ≤ vs.length * k / 100
  above : above t vs + vs.length * k / 100 < vs.length

theorem flt_num {a b : B64} (ha : isNaN a = false) (hb : isNaN b = false) : flt a b = decide (key a < key b) := by
  simp [flt, ha, hb]

theorem fle_num {a b : B64} (ha : isNaN a = false) (hb : isNaN b = false) : fle a b = decide (key a ≤ key b) := by
  simp [fle, ha, hb]

/-- There is only one, up to the sign of zero. -/
theorem c67_unique {k : Nat} {vs : List B64} {s t : B64} (hn : ∀ v ∈ vs, isNaN v = false)
    (hs : IsPercentile k vs s) (ht : IsPercentile k vs t) : feq s t = true := by
  have key1 : ∀ {s t : B64}, IsPercentile k vs s → IsPercentile k vs t → ¬ key s < key t := by
    intro s t hs ht hlt
    have h1 := hs.above
    have h2 := ht.below
    have e : vs.countP (fun v => flt s v) + vs.countP (fun v => !flt s v) = vs.length := by
      rw [List.length_eq_countP_add_countP (p := fun v => flt s v)]
      congr 1
      exact List.countP_congr (fun v _ => by simp)
    have h3 : vs.countP (fun v => !flt s v) ≤ vs.countP (fun v => flt v t) := by
      apply List.countP_mono_left
      intro v hv hp
      rw [flt_num (hn s hs.mem) (hn v hv)] at hp
      rw [flt_num (hn v hv) (hn t ht.mem)]
      simp only [Bool.not_eq_true', decide_eq_false_iff_not, decide_eq_true_eq] at hp ⊢
      omega
    unfold Props.above at h1
    unfold Props.below at h2
    omega
  have h1 := key1 hs ht
  have h2 := key1 ht hs
  have : key s = key t := by omega
  simp [feq, hn s hs.mem, hn t ht.mem, this]

/-! ### Sorting -/

theorem insertSorted_perm (v : B64) (ws : List B64) : (insertSorted v ws).Perm (v :: ws) := by
  induction ws with
  | nil => exact .refl _
  | cons w ws ih =>
    rw [insertSorted]
    split
    · exact .refl _
    · exact (ih.cons w).trans (.swap v w ws)

theorem sortFloats_perm (vs : List B64) : (sortFloats vs).Perm vs := by
  induction vs with
  | nil => exact .refl _
  | cons v vs ih => exact (insertSorted_perm v _).trans (ih.cons v)

theorem insertSorted_sorted {v : B64} {ws : List B64} (hv : isNaN v = false) (hw : ∀ w ∈ ws, isNaN w = false)
    (h : ws.Pairwise fun a b => key a ≤ key b) : (insertSorted v ws).Pairwise fun a b => key a ≤ key b := by
  induction ws with
  | nil => simp [insertSorted]
  | cons w ws ih =>
    have hw0 := hw w (List.mem_cons_self ..)
    rw [List.pairwise_cons] at h
    rw [insertSorted, fle_num hv hw0]
    split
    · rename_i hle
      have hle := of_decide_eq_true hle
      rw [List.pairwise_cons, List.pairwise_cons]
      refine ⟨fun x hx => ?_, h⟩
      rcases List.mem_cons.1 hx with rfl | hx
      · exact hle
      · exact Int.le_trans hle (h.1 x hx)
    · rename_i hle
      have hle : ¬ key v ≤ key w := fun hc => hle (decide_eq_true hc)
      rw [List.pairwise_cons]
      refine ⟨fun x hx => ?_, ih (fun x hx => hw x (List.mem_cons_of_mem _ hx)) h.2⟩
      rcases List.mem_cons.1 ((insertSorted_perm v ws).mem_iff.1 hx) with rfl | hx
      · omega
      · exact h.1 x hx

theorem sortFloats_sorted {vs : List B64} (h : ∀ v ∈ vs, isNaN v = false) :
    (sortFloats vs).Pairwise fun a b => key a ≤ key b := by
  induction vs with
  | nil => exact .nil
  | cons v vs ih =>
    refine insertSorted_sorted (h v (List.mem_cons_self ..)) (fun w hw => ?_)
      (ih fun w hw => h w (List.mem_cons_of_mem _ hw))
    exact h w (List.mem_cons_of_mem _ ((sortFloats_perm vs).mem_iff.1 hw))

/-- What is at position `i` of the sorted values. -/
theorem sorted_position {vs : List B64} (hn : ∀ v ∈ vs, isNaN v = false) {i : Nat} (hi : i < vs.length) :
    ∃ t, (sortFloats vs)[i]? = some t ∧ t ∈ vs ∧ below t vs ≤ i ∧ above t vs + i < vs.length := by
  have hp := sortFloats_perm vs
  have hl := hp.length_eq
  have hs := sortFloats_sorted hn
  have hi' : i < (sortFloats vs).length := by omega
  have hnum : ∀ v ∈ sortFloats vs, isNaN v = false := fun v hv => hn v (hp.mem_iff.1 hv)
  refine ⟨(sortFloats vs)[i], List.getElem?_eq_getElem hi', hp.mem_iff.1 (List.getElem_mem _), ?_, ?_⟩
  · unfold Props.below
    rw [← hp.countP_eq]
    generalize sortFloats vs = ws at *
    have : ws.countP (fun v => flt v ws[i]) = (ws.take i).countP (fun v => flt v ws[i]) := by
      have e := List.countP_append (p := fun v => flt v ws[i]) (l₁ := ws.take i) (l₂ := ws.drop i)
      rw [List.take_append_drop] at e
      rw [e, Nat.add_eq_left, List.countP_eq_zero]
      intro v hv
      obtain ⟨j, hj, rfl⟩ := List.getElem_of_mem hv
      rw [List.length_drop] at hj
      have hle : key ws[i] ≤ key ws[i + j] := by
        rcases Nat.eq_zero_or_pos j with rfl | hj0
        · exact Int.le_refl _
        · exact List.pairwise_iff_getElem.1 hs i (i + j) hi' (by omega) (by omega)
      rw [List.getElem_drop, flt_num (hnum _ (List.getElem_mem _)) (hnum _ (List.getElem_mem _))]
      simp only [decide_eq_true_eq]
      omega
    rw [this]
    exact Nat.le_trans (List.countP_le_length ..) (by simp; omega)
  · unfold Props.above
    rw [← hp.countP_eq, ← hl]
    generalize sortFloats vs = ws at *
    have : ws.countP (fun v => flt ws[i] v) = (ws.drop (i + 1)).countP (fun v => flt ws[i] v) := by
      have e := List.countP_append (p := fun v => flt ws[i] v) (l₁ := ws.take (i + 1)) (l₂ := ws.drop (i + 1))
      rw [List.take_append_drop] at e
      rw [e, Nat.add_eq_right, List.countP_eq_zero]
      intro v hv
      obtain ⟨j, hj, rfl⟩ := List.getElem_of_mem hv
      rw [List.length_take] at hj
      have hle : key ws[j] ≤ key ws[i] := by
        by_cases hj0 : j = i
        · subst hj0; exact Int.le_refl _
        · exact List.pairwise_iff_getElem.1 hs j i (by omega) hi' (by omega)
      rw [List.getElem_take, flt_num (hnum _ (List.getElem_mem _)) (hnum _ (List.getElem_mem _))]
      simp only [decide_eq_true_eq]
      omega
    rw [this]
    have := List.countP_le_length (p := fun v => flt ws[i] v) (l := ws.drop (i + 1))
    rw [List.length_drop] at this
    omega

/-! ### The files -/

/-- Data for the experiments: at least one record, none of them NaN. -/
structure SoundData (vs : List B64) : Prop where
  nonempty : vs ≠ []
  numbers : ∀ v ∈ vs, isNaN v = false
  small : vs.length < 2 ^ 57

theorem percentile_at {vs : List B64} (h : SoundData vs) {k : Nat} (hk : k < 100) :
    ∃ t, at? (sortFloats vs) (vs.length * k / 100) = .ok t ∧ IsPercentile k vs t := by
  have hpos := List.length_pos_iff.2 h.nonempty
  have hi : vs.length * k / 100 < vs.length := by
    rw [Nat.div_lt_iff_lt_mul (by decide)]
    exact Nat.mul_lt_mul_of_pos_left hk hpos
  obtain ⟨t, h1, h2, h3, h4⟩ := sorted_position h.numbers hi
  exact ⟨t, by unfold at?; rw [h1], h2, h3, h4⟩

/-- The files of a data set: three for the values above the percentiles, two for the median. -/
theorem c67_created (json : B64 → B64) (buf : List Byte) (h : SoundData (toF64s buf)) :
    ∃ ten half ninety, IsPercentile 10 (toF64s buf) ten ∧ IsPercentile 50 (toF64s buf) half ∧
      IsPercentile 90 (toF64s buf) ninety ∧
      filterConfigs json buf =
        if isFinite ten ∧ isFinite half ∧ isFinite ninety then
          .ok [("greater_10th_percentile", .range ⟨.exclusive (json ten), .none⟩),
            ("greater_50th_percentile", .range ⟨.exclusive (json half), .none⟩),
            ("greater_90th_percentile", .range ⟨.exclusive (json ninety), .none⟩),
            ("eq", .eq (json half)), ("ne", .ne (json half))]
        else .err := by
  obtain ⟨ten, a1, a2⟩ := percentile_at h (k := 10) (by decide)
  obtain ⟨half, b1, b2⟩ := percentile_at h (k := 50) (by decide)
  obtain ⟨ninety, d1, d2⟩ := percentile_at h (k := 90) (by decide)
  refine ⟨ten, half, ninety, a2, b2, d2, ?_⟩
  have hany : (toF64s buf).any isNaN = false := by
    rw [List.any_eq_false]
    intro v hv
    simp [h.numbers v hv]
  have hsm := h.small
  unfold filterConfigs
  simp only [hany, Bool.false_eq_true, if_false]
  rw [Nat.mod_eq_of_lt (a := (toF64s buf).length * 10) (by omega),
    Nat.mod_eq_of_lt (a := (toF64s buf).length * 90) (by omega), a1]
  rw [show (toF64s buf).length * 50 / 100 = (toF64s buf).length / 2 by omega] at b1
  simp only [Res.bind_ok, b1, d1]
  unfold greater reread
  by_cases h1 : isFinite ten = true <;> by_cases h2 : isFinite half = true <;>
    by_cases h3 : isFinite ninety = true <;> simp [h1, h2, h3, collect]

/-- No files for a data set with a NaN, and none without a record: the second is a panic. -/
theorem c67_not_created (json : B64 → B64) (buf : List Byte) :
    ((∃ v ∈ toF64s buf, isNaN v = true) → filterConfigs json buf = .err) ∧
    (toF64s buf = [] → filterConfigs json buf = .panic) := by
  constructor
  · rintro ⟨v, hv, hn⟩
    unfold filterConfigs
    rw [if_pos (List.any_eq_true.2 ⟨v, hv, hn⟩)]
  · intro h
    unfold filterConfigs
    rw [h]
    rfl

/-- With distinct values the shares are exact. -/
theorem c67_distinct {k : Nat} {vs : List B64} {t : B64} (hn : ∀ v ∈ vs, isNaN v = false)
    (hd : vs.Pairwise fun a b => key a ≠ key b) (h : IsPercentile k vs t) :
    above t vs = vs.length - 1 - vs.length * k / 100 ∧ below t vs = vs.length * k / 100 := by
  have h1 := h.above
  have h2 := h.below
  have e : vs.length = above t vs + below t vs + vs.countP (fun v => decide (key v = key t)) := by
    have ht := hn t h.mem
    unfold Props.above Props.below
    clear h h1 h2 hd
    induction vs with
    | nil => rfl
    | cons v vs ih =>
      have hv := hn v (List.mem_cons_self ..)
      have := ih fun w hw => hn w (List.mem_cons_of_mem _ hw)
      rw [List.length_cons, List.countP_cons, List.countP_cons, List.countP_cons, flt_num ht hv, flt_num hv ht]
      simp only [decide_eq_true_eq]
      rcases Int.lt_trichotomy (key v) (key t) with hlt | heq | hgt
      · rw [if_neg (by omega), if_pos hlt, if_neg (by omega)]; omega
      · rw [if_neg (by omega), if_neg (by omega), if_pos heq]; omega
      · rw [if_pos hgt, if_neg (by omega), if_neg (by omega)]; omega
  have e1 : vs.countP (fun v => decide (key v = key t)) ≤ 1 := by
    clear h h1 h2 e hn
    induction vs with
    | nil => simp
    | cons v vs ih =>
      rw [List.pairwise_cons] at hd
      rw [List.countP_cons]
      simp only [decide_eq_true_eq]
      by_cases hv : key v = key t
      · have : vs.countP (fun v => decide (key v = key t)) = 0 := by
          rw [List.countP_eq_zero]
          intro w hw
          simp only [decide_eq_true_eq]
          intro hc
          exact hd.1 w hw (hv.trans hc.symm)
        rw [this, if_pos hv]
        omega
      · rw [if_neg hv]
        have := ih hd.2
        omega
  omega

/-- With equal values nothing is above any percentile. -/
theorem c67_constant {k : Nat} {vs : List B64} {t v : B64} (hv : ∀ w ∈ vs, w = v) (h : IsPercentile k vs t) :
    above t vs = 0 := by
  unfold Props.above
  rw [List.countP_eq_zero]
  intro w hw
  rw [hv w hw, ← hv t h.mem]
  simp [flt]

/-! ### The filters on the files -/

theorem bitmap_count {vs : List B64} {R : Bitmap} (hR : Bitmap.WF R) (p : B64 → Bool)
    (h : ∀ x, x ∈ R ↔ ∃ v, vs[x]? = some v ∧ p v = true) : R.length = vs.countP p := by
  have e : R = (List.range vs.length).filter fun x => vs[x]?.any p := by
    apply Bitmap.sorted_ext hR.1 (List.Pairwise.sublist List.filter_sublist List.pairwise_lt_range)
    intro x
    rw [h, List.mem_filter, List.mem_range]
    constructor
    · rintro ⟨v, h1, h2⟩
      exact ⟨(List.getElem?_eq_some_iff.1 h1).1, by rw [h1]; exact h2⟩
    · rintro ⟨h1, h2⟩
      rw [List.getElem?_eq_getElem h1] at h2 ⊢
      exact ⟨_, rfl, h2⟩
  rw [e, ← List.countP_eq_length_filter]
  clear e h hR R
  induction vs with
  | nil => rfl
  | cons v vs ih =>
    rw [List.length_cons, List.range_succ_eq_map, List.countP_cons, List.countP_map, List.countP_cons, ← ih]
    rfl

/-- What the filters answer on a file, in numbers of records, for constants in `ok`. -/
structure Shares (filter : Predicate B64 → Res Bitmap) (vs : List B64) (ok : B64 → Prop) : Prop where
  greater : ∀ t, ok t → isNaN t = false → ∃ R, filter (.range ⟨.exclusive t, .none⟩) = .ok R ∧
    R.length = above t vs
  eq : ∀ t, ok t → isNaN t = false → ∃ R, filter (.eq t) = .ok R ∧ R.length + above t vs + below t vs = vs.length
  ne : ∀ t, ok t → isNaN t = false → ∃ R, filter (.ne t) = .ok R ∧ R.length = above t vs + below t vs

theorem shares_of {filter : Predicate B64 → Res Bitmap} {vs : List B64} {ok : B64 → Prop}
    (hn : ∀ v ∈ vs, isNaN v = false)
    (h : ∀ p : Predicate B64, (∀ c ∈ Predicate.constants p, ok c) → ∃ R, filter p = .ok R ∧ Bitmap.WF R ∧
      ∀ x, x ∈ R ↔ ∃ v, vs[x]? = some v ∧ p.eval f64Cmp v = true) : Shares filter vs ok := by
  have three : ∀ t, isNaN t = false → vs.countP (fun v => feq v t) + (above t vs + below t vs) = vs.length ∧
      vs.countP (fun v => !feq v t) = above t vs + below t vs := by
    intro t ht
    clear h
    unfold Props.above Props.below
    induction vs with
    | nil => exact ⟨rfl, rfl⟩
    | cons v vs ih =>
      have hv := hn v (List.mem_cons_self ..)
      obtain ⟨i1, i2⟩ := ih (fun w hw => hn w (List.mem_cons_of_mem _ hw))
      simp only [List.length_cons, List.countP_cons, flt_num ht hv, flt_num hv ht, feq, hv, ht, Bool.not_false,
        Bool.true_and, decide_eq_true_eq, Bool.not_eq_true', decide_eq_false_iff_not] at i1 i2 ⊢
      rcases Int.lt_trichotomy (key v) (key t) with hlt | heq | hgt
      · rw [if_neg (by omega), if_neg (by omega), if_pos hlt, if_pos (by omega)]; omega
      · rw [if_pos heq, if_neg (by omega), if_neg (by omega), if_neg (by omega)]; omega
      · rw [if_neg (by omega), if_pos hgt, if_neg (by omega), if_pos (by omega)]; omega
  refine ⟨fun t ho ht => ?_, fun t ho ht => ?_, fun t ho ht => ?_⟩
  · obtain ⟨R, h1, h2, h3⟩ := h (.range ⟨.exclusive t, .none⟩) (by simp [Predicate.constants, ho])
    refine ⟨R, h1, ?_⟩
    rw [bitmap_count h2 _ h3]
    unfold Props.above
    exact List.countP_congr fun v _ => by simp [Predicate.eval, Range.eval, f64Cmp]
  · obtain ⟨R, h1, h2, h3⟩ := h (.eq t) (by simp [Predicate.constants, ho])
    have e : R.length = vs.countP fun v => feq v t := bitmap_count h2 _ h3
    have := (three t ht).1
    exact ⟨R, h1, by omega⟩
  · obtain ⟨R, h1, h2, h3⟩ := h (.ne t) (by simp [Predicate.constants, ho])
    exact ⟨R, h1, (bitmap_count (p := fun v => !feq v t) h2 h3).trans (three t ht).2⟩

/-- Schemes that give the data back and filter the values themselves. -/
theorem c67_filter {E : Env} {a : Args} {file : List Byte} {m : Metadata} (h : Written E a file m)
    (h1 : a.cfg.scheme ≠ .buff) (h2 : a.cfg.scheme ≠ .deltaSprintz) (prec : Option Nat)
    (hn : ∀ v ∈ a.records, isNaN v = false) (hr : a.records.length < 2 ^ 32) :
    Shares (fun p => Decoder.filter E ⟨file, m, prec⟩ p none none) a.records (fun _ => True) := by
  have e : a.records.map (readBack E a.cfg) = a.records := by
    conv => rhs; rw [← List.map_id a.records]
    apply List.map_congr_left
    intro v _
    generalize a.cfg = cfg at h1 h2
    cases cfg <;> first | rfl | exact absurd rfl h1 | exact absurd rfl h2
  apply shares_of hn
  intro p _
  obtain ⟨R, g1, g2, g3⟩ := c31_decoder_filter h h1 h2 prec p none hr
  rw [e] at g3
  exact ⟨R, g1, g2, fun x => by rw [g3]; simp⟩

/-- DeltaSprintz on decimals. -/
theorem c67_filter_delta {E : Env} {a : Args} {file : List Byte} {m : Metadata} {n s : BitVec 64}
    (h : Written E a file m) (hE : E.o = Soft.ops) (hc : a.cfg = .deltaSprintz n s) (p : Nat)
    (hp : p ≤ 9) (hs : s.toNat = 10 ^ p) (hv : ∀ v ∈ a.records, NearDecimal p v) (prec : Option Nat)
    (hn : ∀ v ∈ a.records, isNaN v = false) (hr : a.records.length < 2 ^ 32) :
    Shares (fun q => Decoder.filter E ⟨file, m, prec⟩ q none none) a.records (NearDecimal p) := by
  apply shares_of hn
  intro q hq
  obtain ⟨R, g1, g2, g3⟩ := c65_filter h hE hc p hp hs hv prec q hq none hr
  exact ⟨R, g1, g2, fun x => by rw [g3]; simp⟩

/-- The filters of the experiment, one after the other. -/
def answers (filter : Predicate B64 → Res Bitmap) : List (String × Predicate B64) → Res (List (String × Bitmap))
  | [] => .ok []
  | (name, p) :: ps => do
    let R ← filter p
    let Rs ← answers filter ps
    return (name, R) :: Rs

/-- The whole experiment on a file that gives its data back, when the constants survive the JSON file: how many
records the filters answer. The last line is the exact number for data without repetition. -/
theorem c67_experiment {json : B64 → B64} {buf : List Byte} {filter : Predicate B64 → Res Bitmap} {ok : B64 → Prop}
    (h : SoundData (toF64s buf)) (hj : ∀ v ∈ toF64s buf, json v = v) (hok : ∀ v ∈ toF64s buf, ok v)
    (hf : Shares filter (toF64s buf) ok) {cs : List (String × Predicate B64)} (hc : filterConfigs json buf = .ok cs) :
    ∃ ten half ninety eq ne, answers filter cs =
        .ok [("greater_10th_percentile", ten), ("greater_50th_percentile", half),
          ("greater_90th_percentile", ninety), ("eq", eq), ("ne", ne)] ∧
      ten.length + (toF64s buf).length * 10 / 100 < (toF64s buf).length ∧
      half.length + (toF64s buf).length * 50 / 100 < (toF64s buf).length ∧
      ninety.length + (toF64s buf).length * 90 / 100 < (toF64s buf).length ∧
      1 ≤ eq.length ∧ eq.length + ne.length = (toF64s buf).length ∧
      ((toF64s buf).Pairwise (fun a b => key a ≠ key b) →
        ten.length = (toF64s buf).length - 1 - (toF64s buf).length * 10 / 100 ∧
        half.length = (toF64s buf).length - 1 - (toF64s buf).length * 50 / 100 ∧
        ninety.length = (toF64s buf).length - 1 - (toF64s buf).length * 90 / 100 ∧ eq.length = 1) := by
  obtain ⟨t, u, w, ht, hu, hw, e⟩ := c67_created json buf h
  rw [hc] at e
  split at e
  · rename_i hfin
    injection e with e
    subst e
    obtain ⟨A, a1, a2⟩ := hf.greater t (hok t ht.mem) (h.numbers t ht.mem)
    obtain ⟨B, b1, b2⟩ := hf.greater u (hok u hu.mem) (h.numbers u hu.mem)
    obtain ⟨D, d1, d2⟩ := hf.greater w (hok w hw.mem) (h.numbers w hw.mem)
    obtain ⟨P, p1, p2⟩ := hf.eq u (hok u hu.mem) (h.numbers u hu.mem)
    obtain ⟨Q, q1, q2⟩ := hf.ne u (hok u hu.mem) (h.numbers u hu.mem)
    refine ⟨A, B, D, P, Q, ?_, ?_, ?_, ?_, ?_, ?_, ?_⟩
    · rw [hj t ht.mem, hj u hu.mem, hj w hw.mem]
      simp only [answers, a1, b1, d1, p1, q1, Res.bind_ok, Res.pure_eq]
    · rw [a2]; exact ht.above
    · rw [b2]; exact hu.above
    · rw [d2]; exact hw.above
    · have h1 := hu.above
      have h2 := hu.below
      omega
    · omega
    · intro hd
      have x1 := c67_distinct h.numbers hd ht
      have x2 := c67_distinct h.numbers hd hu
      have x3 := c67_distinct h.numbers hd hw
      have := hu.above
      omega
  · exact absurd e (by simp)

/-- A constant that does not survive the JSON file need not be in the data: then `eq` answers nothing, `ne`
everything. -/
theorem c67_json_moved {vs : List B64} {filter : Predicate B64 → Res Bitmap} {ok : B64 → Prop}
    (hn : ∀ v ∈ vs, isNaN v = false) (hf : Shares filter vs ok)
    {c : B64} (hc : ok c) (hcn : isNaN c = false) (hm : ∀ v ∈ vs, key v ≠ key c) :
    filter (.eq c) = .ok [] ∧ ∃ R, filter (.ne c) = .ok R ∧ R.length = vs.length := by
  obtain ⟨R, r1, r2⟩ := hf.eq c hc hcn
  obtain ⟨S, s1, s2⟩ := hf.ne c hc hcn
  have e : above c vs + below c vs = vs.length := by
    unfold Props.above Props.below
    clear hf r1 r2 s1 s2
    induction vs with
    | nil => rfl
    | cons v vs ih =>
      have hv := hn v (List.mem_cons_self ..)
      have := ih (fun w hw => hn w (List.mem_cons_of_mem _ hw)) (fun w hw => hm w (List.mem_cons_of_mem _ hw))
      have hk := hm v (List.mem_cons_self ..)
      rw [List.length_cons, List.countP_cons, List.countP_cons, flt_num hcn hv, flt_num hv hcn]
      simp only [decide_eq_true_eq]
      rcases Int.lt_or_gt_of_ne hk with hlt | hgt
      · rw [if_neg (by omega), if_pos hlt]; omega
      · rw [if_pos hgt, if_neg (by omega)]; omega
  refine ⟨?_, S, s1, by omega⟩
  rw [r1, List.length_eq_zero_iff.1 (show R.length = 0 by omega)]

/-! Four records, 3 1 2 4: the constants, and what the filters answer on a file of them. -/

def fourRecords : List B64 :=
  [0x4008000000000000#64, 0x3ff0000000000000#64, 0x4000000000000000#64, 0x4010000000000000#64]

theorem fourRecords_sound : SoundData (toF64s (ofF64s fourRecords)) := by
  rw [toF64s_ofF64s]
  have e : fourRecords.all (fun v => !isNaN v) = true := by decide +kernel
  exact ⟨by decide, fun v hv => by simpa using List.all_eq_true.1 e v hv, by decide⟩

example : filterConfigs id (ofF64s fourRecords) = .ok
    [("greater_10th_percentile", .range ⟨.exclusive 0x3ff0000000000000#64, .none⟩),
      ("greater_50th_percentile", .range ⟨.exclusive 0x4008000000000000#64, .none⟩),
      ("greater_90th_percentile", .range ⟨.exclusive 0x4010000000000000#64, .none⟩),
      ("eq", .eq 0x4008000000000000#64), ("ne", .ne 0x4008000000000000#64)] := by decide +kernel

example : ∃ d, fileDecoder (.gorilla 100#64) fourRecords 3 = some d ∧
    Shares (fun p => Decoder.filter queryEnv d p none none) (toF64s (ofF64s fourRecords)) (fun _ => True) ∧
    ∃ cs, filterConfigs id (ofF64s fourRecords) = .ok cs ∧
      answers (fun p => Decoder.filter queryEnv d p none none) cs = .ok [("greater_10th_percentile", [0, 2, 3]),
        ("greater_50th_percentile", [3]), ("greater_90th_percentile", []), ("eq", [0]), ("ne", [1, 2, 3])] := by
  obtain ⟨d, hd, hp, hw, ha⟩ := sample_written (cfg := .gorilla 100#64) (vs := fourRecords) (k := 3) (by trivial)
    (by
      intro v hv hc
      subst hc
      exact absurd hv (by decide)) (by decide) (by decide) (by decide) (by decide)
    (f := fun d => (filterConfigs id (ofF64s fourRecords)).bind fun cs =>
      answers (fun p => Decoder.filter queryEnv d p none none) cs)
    (x := .ok [("greater_10th_percentile", [0, 2, 3]), ("greater_50th_percentile", [3]),
      ("greater_90th_percentile", []), ("eq", [0]), ("ne", [1, 2, 3])]) (by decide +kernel)
  obtain ⟨cs, h1, h2⟩ := Res.bind_eq_ok ha
  have hrec : (fileArgs (.gorilla 100#64) fourRecords 3).records = fourRecords := plainArgs_records _ 3
  have hs := c67_filter hw (by decide) (by decide) none
    (by rw [hrec, ← toF64s_ofF64s fourRecords]; exact fourRecords_sound.numbers) (by rw [hrec]; decide)
  rw [hrec] at hs
  obtain ⟨file, info, prec⟩ := d
  simp only at hp
  subst hp
  exact ⟨_, hd, by rw [toF64s_ofF64s]; exact hs, cs, h1, h2⟩

end Ebi.Props
