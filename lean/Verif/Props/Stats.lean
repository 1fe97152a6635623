import Verif.StatsLemmas
import Verif.Props.Independent

/-!
# C74: what the statistics tool reports
-/

namespace Ebi.Props

open Ebi Ebi.Soft Ebi.Decimal Ebi.Stats

attribute [local irreducible] roundMag magVal largest

/-- The numbers of a text: every item is a number and `values` lists them in order. -/
def Numbers (text : List Char) (values : List B64) : Prop := (allItems text).map parseF64 = values.map some

/-- Items of a line: what is between commas, trimmed, without what is then empty. -/
theorem c74_items (fs : List (List Char)) (h : ∀ x ∈ fs, ',' ∉ x) :
    items (joinFields ',' fs) = (fs.map trim).filter (fun x => x != []) := by
  unfold items
  cases fs with
  | nil => rfl
  | cons x xs => rw [splitOn_join x xs h]

/-- A blank field is skipped here, while the conversion to binary refuses the file. -/
theorem c74_blank_field (sqrt : B64 → B64) : csv2bin "1, ,2".toList = .err ∧
    (∃ s, collect Soft.ops sqrt "1, ,2".toList = .ok s ∧ s.numValues = 2) := by
  have h : parse (allItems "1, ,2".toList) = some ([0, 0], [0x3ff0000000000000#64, 0x4000000000000000#64]) := by decide +kernel
  refine ⟨by decide +kernel, ?_⟩
  unfold collect
  rw [h]
  exact ⟨_, rfl, rfl⟩

/-! ### What happens -/

theorem parse_of_numbers {text : List Char} {values : List B64} (h : Numbers text values) :
    parse (allItems text) = some ((allItems text).map decimalPrecision, values) := by
  obtain ⟨p1, p2⟩ := parse_spec (allItems text)
  cases hp : parse (allItems text) with
  | none =>
    obtain ⟨s, hs, hn⟩ := p1.1 hp
    have : none ∈ values.map some := by
      rw [← h]
      exact List.mem_map.2 ⟨s, hs, hn⟩
    simp at this
  | some r =>
    obtain ⟨h1, h2⟩ := p2 r hp
    have h3 : r.2 = values := by
      rw [Numbers, h2] at h
      exact (List.map_inj_right (fun _ _ h => Option.some.inj h)).1 h
    rw [← h1, ← h3]

theorem numbers_length {text : List Char} {values : List B64} (h : Numbers text values) :
    (allItems text).length = values.length := by
  have := congrArg List.length h
  simpa using this

theorem compute_shape (o : FloatOps) (sqrt : B64 → B64) {ps : List Nat} {vs : List B64} (h : ps.length = vs.length) :
    compute o sqrt ps vs ≠ .err ∧ (compute o sqrt ps vs = .panic ↔ 2 ≤ vs.length ∧ ∃ v ∈ vs, isNaN v = true) := by
  cases vs with
  | nil => simp [compute]
  | cons v vs =>
    cases ps with
    | nil => simp at h
    | cons p ps =>
      obtain ⟨a1, a2⟩ := maxFrom_cases v vs
      obtain ⟨b1, b2⟩ := minFrom_cases v vs
      have hl : (2 ≤ (v :: vs).length ∧ ∃ w ∈ v :: vs, isNaN w = true) ↔ (vs ≠ [] ∧ ∃ w ∈ v :: vs, isNaN w = true) := by
        cases vs <;> simp
      rw [hl, ← a2]
      simp only [compute]
      cases hm : maxFrom v vs with
      | err => exact absurd hm a1
      | panic => simp [Res.bind]
      | ok x =>
        cases hn : minFrom v vs with
        | err => exact absurd hn b1
        | panic =>
          have := a2.2 (b2.1 hn)
          rw [hm] at this
          cases this
        | ok y => simp [Res.bind]

/-- A file gives an error when an item is no number; it ends the tool when it has two or more numbers and one of them is
NaN; otherwise it gives statistics. -/
theorem c74_outcome (o : FloatOps) (sqrt : B64 → B64) (text : List Char) :
    (collect o sqrt text = .err ↔ ∃ s ∈ allItems text, parseF64 s = none) ∧
    (collect o sqrt text = .panic ↔ ∃ values, Numbers text values ∧ 2 ≤ values.length ∧ ∃ v ∈ values, isNaN v = true) := by
  obtain ⟨p1, p2⟩ := parse_spec (allItems text)
  unfold collect
  cases hp : parse (allItems text) with
  | none =>
    refine ⟨by simp [← p1, hp], ?_⟩
    simp only [reduceCtorEq, false_iff]
    rintro ⟨values, h, _⟩
    rw [parse_of_numbers h] at hp
    cases hp
  | some r =>
    obtain ⟨h1, h2⟩ := p2 r hp
    have hl : r.1.length = r.2.length := by
      rw [h1, List.length_map]
      exact numbers_length h2
    obtain ⟨c1, c2⟩ := compute_shape o sqrt hl
    refine ⟨?_, ?_⟩
    · rw [← p1, hp]
      simp [c1]
    · simp only
      rw [c2]
      constructor
      · exact fun h => ⟨r.2, h2, h⟩
      · rintro ⟨values, h, h3⟩
        have := parse_of_numbers h
        rw [hp] at this
        cases this
        exact h3

/-- What the statistics are for a file that has numbers. -/
theorem collect_ok {o : FloatOps} {sqrt : B64 → B64} {text : List Char} {values : List B64} {s : Stats}
    (hn : Numbers text values) (h0 : values ≠ []) (h : collect o sqrt text = .ok s) :
    ∃ v vs p ps hi lo, values = v :: vs ∧ (allItems text).map decimalPrecision = p :: ps ∧ maxFrom v vs = .ok hi ∧
      minFrom v vs = .ok lo ∧ s = {
        precisionMax := ps.foldl max p
        precisionMin := ps.foldl min p
        precisionAvg := meanNat o (p :: ps)
        precisionStd := stdDev o sqrt o.sumInit (meanNat o (p :: ps)) ((p :: ps).map o.ofNat)
        valueMax := hi
        valueMin := lo
        valueAvg := meanF64 o (v :: vs)
        valueStd := stdDev o sqrt 0#64 (meanF64 o (v :: vs)) (v :: vs)
        exponentMax := (vs.map exponentBits).foldl max (exponentBits v)
        exponentMin := (vs.map exponentBits).foldl min (exponentBits v)
        exponentAvg := meanInt o ((v :: vs).map exponentBits)
        exponentStd := stdDev o sqrt o.sumInit (meanInt o ((v :: vs).map exponentBits))
          (((v :: vs).map exponentBits).map (ofI32 o))
        leadingAvg := (xorStats o (v :: vs)).1
        trailingAvg := (xorStats o (v :: vs)).2
        nonUniqueRatio := nonUnique o (v :: vs)
        numValues := (v :: vs).length } := by
  unfold collect at h
  rw [parse_of_numbers hn] at h
  have hl := numbers_length hn
  cases values with
  | nil => exact absurd rfl h0
  | cons v vs =>
    cases hp : (allItems text).map decimalPrecision with
    | nil =>
      have := congrArg List.length hp
      rw [List.length_map, hl] at this
      simp at this
    | cons p ps =>
      simp only [hp, compute] at h
      cases hm : maxFrom v vs with
      | err => rw [hm] at h; cases h
      | panic => rw [hm] at h; cases h
      | ok hi =>
        cases hk : minFrom v vs with
        | err => rw [hm, hk] at h; cases h
        | panic => rw [hm, hk] at h; cases h
        | ok lo =>
          rw [hm, hk] at h
          cases h
          exact ⟨v, vs, p, ps, hi, lo, rfl, rfl, hm, hk, rfl⟩

variable {o : FloatOps} {sqrt : B64 → B64} {text : List Char} {values : List B64} {s : Stats}

/-- The greatest value is the last of those that no other exceeds, the least the first of those that exceed no other. -/
theorem c74_extrema (hn : Numbers text values) (h0 : values ≠ []) (h : collect o sqrt text = .ok s) :
    s.numValues = values.length ∧
    (∃ l r, values = l ++ s.valueMax :: r ∧ (∀ v ∈ l, fle v s.valueMax = true) ∧ (∀ v ∈ r, flt v s.valueMax = true)) ∧
    (∃ l r, values = l ++ s.valueMin :: r ∧ (∀ v ∈ l, flt s.valueMin v = true) ∧ (∀ v ∈ r, fle s.valueMin v = true)) := by
  obtain ⟨v, vs, p, ps, hi, lo, rfl, _, h1, h2, rfl⟩ := collect_ok hn h0 h
  exact ⟨rfl, maxFrom_ok vs [] v [] (by simp) (by simp) h1, minFrom_ok vs [] v [] (by simp) (by simp) h2⟩

/-- The greatest and the least precision and exponent. -/
theorem c74_ranges (hn : Numbers text values) (h0 : values ≠ []) (h : collect o sqrt text = .ok s) :
    ((∃ x ∈ allItems text, decimalPrecision x = s.precisionMax) ∧ ∀ x ∈ allItems text, decimalPrecision x ≤ s.precisionMax) ∧
    ((∃ x ∈ allItems text, decimalPrecision x = s.precisionMin) ∧ ∀ x ∈ allItems text, s.precisionMin ≤ decimalPrecision x) ∧
    ((∃ v ∈ values, exponentBits v = s.exponentMax) ∧ ∀ v ∈ values, exponentBits v ≤ s.exponentMax) ∧
    ((∃ v ∈ values, exponentBits v = s.exponentMin) ∧ ∀ v ∈ values, s.exponentMin ≤ exponentBits v) := by
  obtain ⟨v, vs, p, ps, hi, lo, rfl, hp, h1, h2, rfl⟩ := collect_ok hn h0 h
  obtain ⟨a1, a2⟩ := foldl_max_nat ps p
  obtain ⟨b1, b2⟩ := foldl_min_nat ps p
  obtain ⟨c1, c2⟩ := foldl_max_int (vs.map exponentBits) (exponentBits v)
  obtain ⟨d1, d2⟩ := foldl_min_int (vs.map exponentBits) (exponentBits v)
  rw [← hp] at a1 a2 b1 b2
  rw [← List.map_cons (f := exponentBits)] at c1 c2 d1 d2
  exact ⟨⟨List.mem_map.1 a1, fun x hx => a2 _ (List.mem_map_of_mem hx)⟩,
    ⟨List.mem_map.1 b1, fun x hx => b2 _ (List.mem_map_of_mem hx)⟩,
    ⟨List.mem_map.1 c1, fun x hx => c2 _ (List.mem_map_of_mem hx)⟩,
    ⟨List.mem_map.1 d1, fun x hx => d2 _ (List.mem_map_of_mem hx)⟩⟩

theorem exponentBits_eq (v : B64) : exponentBits v = ((mag v / 2 ^ 52 : Nat) : Int) - 1023 ∧ mag v / 2 ^ 52 < 2048 := by
  have h : ((v >>> 52) &&& 0x7ff#64).toNat = mag v / 2 ^ 52 := by
    rw [BitVec.toNat_and, BitVec.toNat_ushiftRight, Nat.shiftRight_eq_div_pow]
    rw [show (0x7ff#64).toNat = 2 ^ 11 - 1 by decide, Nat.and_two_pow_sub_one_eq_mod]
    unfold mag
    omega
  refine ⟨by unfold exponentBits; rw [h], ?_⟩
  unfold mag
  omega

/-- The exponent of a value: the power of two it reaches, `-1023` for zeros and subnormal numbers, `1024` for infinities
and NaN. Values are in units of `2^-1074`. -/
theorem c74_exponent (v : B64) : -1023 ≤ exponentBits v ∧ exponentBits v ≤ 1024 ∧
    (exponentBits v = 1024 ↔ isFinite v = false) ∧
    (exponentBits v = -1023 ↔ (exactVal v).natAbs < 2 ^ 52) ∧
    (-1023 < exponentBits v → exponentBits v < 1024 →
      2 ^ (exponentBits v + 1074).toNat ≤ (exactVal v).natAbs ∧ (exactVal v).natAbs < 2 ^ (exponentBits v + 1075).toNat) := by
  obtain ⟨h1, h2⟩ := exponentBits_eq v
  rw [exactVal_natAbs, h1]
  have hf : isFinite v = false ↔ mag v / 2 ^ 52 = 2047 := by
    unfold isFinite
    rw [decide_eq_false_iff_not]
    omega
  have hb : ∀ hE : 1 ≤ mag v / 2 ^ 52, 2 ^ (51 + mag v / 2 ^ 52) ≤ magVal (mag v) ∧ magVal (mag v) < 2 ^ (52 + mag v / 2 ^ 52) :=
    fun hE => Elf.magVal_bounds hE
  have hs : mag v / 2 ^ 52 = 0 → magVal (mag v) < 2 ^ 52 := by
    intro h
    unfold magVal
    rw [if_pos h]
    exact Nat.mod_lt _ (by decide)
  refine ⟨by omega, by omega, by rw [hf]; omega, ?_, ?_⟩
  · constructor
    · intro h
      exact hs (by omega)
    · intro h
      rcases Nat.eq_zero_or_pos (mag v / 2 ^ 52) with h0 | h0
      · omega
      · have := (hb h0).1
        have h3 : 2 ^ 52 ≤ 2 ^ (51 + mag v / 2 ^ 52) := Nat.pow_le_pow_right (by decide) (by omega)
        unfold absVal at h
        omega
  · intro h3 h4
    have := hb (by omega)
    rw [show (((mag v / 2 ^ 52 : Nat) : Int) - 1023 + 1074).toNat = 51 + mag v / 2 ^ 52 by omega,
      show (((mag v / 2 ^ 52 : Nat) : Int) - 1023 + 1075).toNat = 52 + mag v / 2 ^ 52 by omega]
    exact this

/-! ### The averages -/

/-- The average precision is the exact one, rounded, when the precisions add up to less than `2^53`. -/
theorem c74_precision_average (hn : Numbers text values) (h0 : values ≠ []) (h : collect Soft.ops sqrt text = .ok s)
    (hl : values.length < 2 ^ 53) (hs : ((allItems text).map decimalPrecision).sum < 2 ^ 53) :
    Rounded s.precisionAvg ((((allItems text).map decimalPrecision).sum : Nat) * 2 ^ 1074) values.length := by
  obtain ⟨v, vs, p, ps, hi, lo, rfl, hp, h1, h2, rfl⟩ := collect_ok hn h0 h
  have hlen := numbers_length hn
  have hlen2 : (p :: ps).length = (v :: vs).length := by rw [← hlen, ← hp, List.length_map]
  rw [hp] at hs ⊢
  show Rounded (meanNat Soft.ops (p :: ps)) _ _
  unfold meanNat
  rw [sumWrap_eq _ (by omega), hlen2]
  exact quot_int (S := ((p :: ps).sum : Nat)) (by omega) (by rw [List.length_cons]; omega) hl

/-- The average exponent is the exact one, rounded, when the exponents add up to an `i32`. -/
theorem c74_exponent_average (hn : Numbers text values) (h0 : values ≠ []) (h : collect Soft.ops sqrt text = .ok s)
    (hl : values.length < 2 ^ 53) (h1 : -2 ^ 31 ≤ (values.map exponentBits).sum) (h2 : (values.map exponentBits).sum < 2 ^ 31) :
    Rounded s.exponentAvg ((values.map exponentBits).sum * 2 ^ 1074) values.length := by
  obtain ⟨v, vs, p, ps, hi, lo, rfl, hp, _, _, rfl⟩ := collect_ok hn h0 h
  show Rounded (meanInt Soft.ops ((v :: vs).map exponentBits)) _ _
  unfold meanInt
  rw [sumWrap32_eq, wrap32_small h1 h2, ofI32_eq h1 h2, List.length_map]
  exact quot_int (by omega) (by rw [List.length_cons]; omega) hl

/-- With fewer than `2097152` values the exponents do add up to an `i32`. -/
theorem c74_exponent_sum (hl : values.length ≤ 2097151) :
    -2 ^ 31 ≤ (values.map exponentBits).sum ∧ (values.map exponentBits).sum < 2 ^ 31 := by
  have gen : ∀ l : List B64, -(1024 * (l.length : Int)) ≤ (l.map exponentBits).sum ∧ (l.map exponentBits).sum ≤ 1024 * (l.length : Int) := by
    intro l
    induction l with
    | nil => simp
    | cons v vs ih =>
      obtain ⟨h1, h2, _⟩ := c74_exponent v
      rw [List.map_cons, List.sum_cons, List.length_cons]
      omega
  have := gen values
  omega

/-- The average value: the sum is off by at most `n * 2^-52` of the sum of the absolute values, and the quotient is
rounded once more. -/
theorem c74_value_average (hn : Numbers text values) (h0 : values ≠ []) (h : collect Soft.ops sqrt text = .ok s)
    (hf : ∀ v ∈ values, isFinite v = true) (hl : values.length ≤ 2 ^ 52) (hA : 2 * weight values ≤ largest) :
    ∃ t : B64, isFinite t = true ∧ 2 ^ 52 * (exactVal t - total values).natAbs ≤ values.length * weight values ∧
      Rounded s.valueAvg (exactVal t) values.length := by
  obtain ⟨v, vs, p, ps, hi, lo, rfl, hp, _, _, rfl⟩ := collect_ok hn h0 h
  have hz : Sums 0 (0x8000000000000000#64) 0 0 := ⟨by decide, by decide, by
    rw [exactVal_eq_zero.2 (show mag 0x8000000000000000#64 = 0 by decide)]; simp⟩
  have h1 := Sums.fold (d0 := 0) ((v :: vs).map fun v => (v, exactVal v, (exactVal v).natAbs)) (Nat.le_refl _) hz
    (by
      intro p hp
      obtain ⟨w, h1, rfl⟩ := List.mem_map.1 hp
      exact Sums.value (hf w h1))
    (by rw [List.length_map]; omega)
    (by simpa [weight, Function.comp_def] using hA)
  have h2 : Sums (0 + (v :: vs).length) ((v :: vs).foldl Soft.add 0x8000000000000000#64) (total (v :: vs)) (weight (v :: vs)) := by
    simpa [weight, total, Function.comp_def] using h1
  rw [Nat.zero_add] at h2
  refine ⟨_, h2.1, h2.error hl, ?_⟩
  exact (quot_any (t := (v :: vs).foldl Soft.add 0x8000000000000000#64) h2.1 (by rw [List.length_cons]; omega) (by omega)).1

/-- `z` of the 64 bits of `x` are zero at the top, and the next one is not. -/
def Leads (x : B64) (z : Nat) : Prop := z ≤ 64 ∧ x.toNat < 2 ^ (64 - z) ∧ (x ≠ 0#64 → z < 64 ∧ 2 ^ (63 - z) ≤ x.toNat) ∧ (x = 0#64 → z = 64)

/-- `z` of the 64 bits of `x` are zero at the bottom, and the next one is not. -/
def Trails (x : B64) (z : Nat) : Prop := 2 ^ z ∣ x.toNat ∧ (x ≠ 0#64 → z < 64 ∧ (x.toNat / 2 ^ z) % 2 = 1) ∧ (x = 0#64 → z = 64)

theorem leads_lz (x : B64) : Leads x (lz64 x.toNat) := by
  refine ⟨lz64_le _, lt_of_lz64 x.isLt, fun h => ?_, fun h => by rw [h]; rfl⟩
  have h0 : x.toNat ≠ 0 := fun hx => h (BitVec.eq_of_toNat_eq (by rw [hx]; rfl))
  exact ⟨lz64_lt h0, le_of_lz64 h0 x.isLt⟩

theorem trails_tz (x : B64) : Trails x (tz64 x.toNat) := by
  refine ⟨tz64_dvd _, fun h => ?_, fun h => by rw [h]; rfl⟩
  have h0 : x.toNat ≠ 0 := fun hx => h (BitVec.eq_of_toNat_eq (by rw [hx]; rfl))
  exact ⟨tz64_lt h0 x.isLt, tz64_odd h0 x.isLt⟩

theorem sum_le_length {l : List Nat} {c : Nat} (h : ∀ x ∈ l, x ≤ c) : l.sum ≤ c * l.length := by
  induction l with
  | nil => simp
  | cons x xs ih =>
    have h1 := h x (List.mem_cons_self ..)
    have h2 := ih fun y hy => h y (List.mem_cons_of_mem _ hy)
    rw [List.sum_cons, List.length_cons, Nat.mul_add]
    omega

/-- The averages of the zeros in the XOR of neighbours; both are `64` when there are no neighbours. -/
theorem c74_xor_average (hn : Numbers text values) (h0 : values ≠ []) (h : collect Soft.ops sqrt text = .ok s)
    (hl : values.length ≤ 2 ^ 46) :
    (values.length = 1 → s.leadingAvg = 0x4050000000000000#64 ∧ s.trailingAvg = 0x4050000000000000#64) ∧
    (2 ≤ values.length → ∃ ls ts : List Nat, ls.length = values.length - 1 ∧ ts.length = values.length - 1 ∧
      (∀ i (hi : i + 1 < values.length) (h1 : i < ls.length) (h2 : i < ts.length),
        Leads (values[i] ^^^ values[i + 1]) ls[i] ∧ Trails (values[i] ^^^ values[i + 1]) ts[i]) ∧
      Rounded s.leadingAvg ((ls.sum : Nat) * 2 ^ 1074) (values.length - 1) ∧
      Rounded s.trailingAvg ((ts.sum : Nat) * 2 ^ 1074) (values.length - 1)) := by
  obtain ⟨v, vs, p, ps, hi, lo, hv, hp, _, _, rfl⟩ := collect_ok hn h0 h
  rw [← hv]
  refine ⟨fun h1 => ?_, fun h2 => ?_⟩
  · unfold xorStats
    simp only [if_pos (show values.length < 2 by omega)]
    exact ⟨trivial, trivial⟩
  · have hx : (xors values).length = values.length - 1 := by
      unfold xors
      rw [List.length_map, List.length_zip, List.length_tail]
      omega
    have hlt : ∀ x ∈ xors values, x < 2 ^ 64 := by
      intro x hx
      obtain ⟨q, _, rfl⟩ := List.mem_map.1 hx
      exact BitVec.isLt _
    have e1 : ((xors values).map lz64).sum ≤ 64 * (values.length - 1) := by
      rw [← hx, ← List.length_map (f := lz64)]
      refine sum_le_length fun x h => ?_
      obtain ⟨y, _, rfl⟩ := List.mem_map.1 h
      exact lz64_le y
    have e2 : ((xors values).map tz64).sum ≤ 64 * (values.length - 1) := by
      rw [← hx, ← List.length_map (f := tz64)]
      refine sum_le_length fun x h => ?_
      obtain ⟨y, hy, rfl⟩ := List.mem_map.1 h
      rcases Nat.eq_zero_or_pos y with h0 | h0
      · rw [h0]; decide
      · exact Nat.le_of_lt (tz64_lt (by omega) (hlt y hy))
    refine ⟨(xors values).map lz64, (xors values).map tz64, by rw [List.length_map, hx], by rw [List.length_map, hx], ?_, ?_, ?_⟩
    · intro i hi h1 h2
      have : (xors values)[i]'(by rw [hx]; omega) = (values[i] ^^^ values[i + 1]).toNat := by
        unfold xors
        simp
      rw [List.getElem_map, List.getElem_map, this]
      exact ⟨leads_lz _, trails_tz _⟩
    · unfold xorStats
      simp only [if_neg (show ¬ values.length < 2 by omega)]
      rw [sumWrap_eq _ (by omega)]
      exact quot_int (S := (((xors values).map lz64).sum : Nat)) (by omega) (by omega) (by omega)
    · unfold xorStats
      simp only [if_neg (show ¬ values.length < 2 by omega)]
      rw [sumWrap_eq _ (by omega)]
      exact quot_int (S := (((xors values).map tz64).sum : Nat)) (by omega) (by omega) (by omega)

/-- The ratio of repeated values: all but the first of each pattern of bits, over all. -/
theorem c74_ratio (hn : Numbers text values) (h0 : values ≠ []) (h : collect Soft.ops sqrt text = .ok s)
    (hl : values.length < 2 ^ 52) :
    ∃ ds : List B64, ds.Nodup ∧ (∀ v, v ∈ ds ↔ v ∈ values) ∧ ds.length ≤ values.length ∧
      Rounded s.nonUniqueRatio (((values.length - ds.length : Nat) : Int) * 2 ^ 1074) values.length := by
  obtain ⟨v, vs, p, ps, hi, lo, hv, hp, _, _, rfl⟩ := collect_ok hn h0 h
  rw [← hv]
  obtain ⟨d1, d2, d3⟩ := distinct_spec values
  refine ⟨distinct values, d1, d2, d3, ?_⟩
  have hpos : 0 < values.length := List.length_pos_iff.2 h0
  show Rounded (nonUnique Soft.ops values) _ _
  unfold nonUnique
  obtain ⟨a1, a2, _⟩ := cast_exact (x := (values.length : Int)) (by omega)
  obtain ⟨b1, b2, _⟩ := cast_exact (x := ((distinct values).length : Int)) (by omega)
  obtain ⟨n1, n2, _⟩ := exactVal_negate (ofInt ((distinct values).length : Int))
  have hsub := add_exact (k := 1074) (a := ofInt (values.length : Int)) (b := neg (ofInt ((distinct values).length : Int)))
    ⟨a1, a2⟩ ⟨by rw [n2]; exact b1, by rw [n1, b2, Int.neg_mul]⟩ (by omega) (by decide)
  have hsub2 : isFinite (Soft.ops.sub (Soft.ops.ofNat values.length) (Soft.ops.ofNat (distinct values).length)) = true ∧
      exactVal (Soft.ops.sub (Soft.ops.ofNat values.length) (Soft.ops.ofNat (distinct values).length)) =
        ((values.length - (distinct values).length : Nat) : Int) * 2 ^ 1074 := by
    refine ⟨hsub.1, hsub.2.trans ?_⟩
    rw [show (values.length : Int) + -((distinct values).length : Int) = ((values.length - (distinct values).length : Nat) : Int) by omega]
  have hq := (quot_any hsub2.1 hpos (by omega)).1
  rw [hsub2.2] at hq
  exact hq

/-! ### The standard deviations -/

/-- Not negative: zero or above, or NaN. -/
def NotNegative (x : B64) : Prop := isNaN x = true ∨ 0 ≤ exactVal x

theorem nonneg_of_sgn {x : B64} (h : sgn x = false) : 0 ≤ exactVal x := by
  unfold exactVal
  rw [h, if_neg (by decide)]
  omega

theorem square_notNegative (a : B64) : NotNegative (Soft.mul a a) := by
  have hs : (sgn a != sgn a) = false := by cases sgn a <;> rfl
  unfold Soft.mul
  simp only [hs]
  split
  · left; decide
  · split
    · split
      · left; decide
      · right; exact nonneg_of_sgn (by decide)
    · right; exact nonneg_of_sgn (sgn_rnd ..)

theorem add_notNegative {a b : B64} (ha : NotNegative a) (hb : NotNegative b) : NotNegative (Soft.add a b) := by
  unfold Soft.add
  split
  · left; decide
  · rename_i hn
    have h1 : isNaN a = false := by cases h : isNaN a <;> simp_all
    have h2 : isNaN b = false := by cases h : isNaN b <;> simp_all
    have ha' : 0 ≤ exactVal a := ha.resolve_left (by rw [h1]; decide)
    have hb' : 0 ≤ exactVal b := hb.resolve_left (by rw [h2]; decide)
    split
    · split
      · left; decide
      · exact ha
    · split
      · exact hb
      · simp only
        split
        · right
          split
          · rw [exactVal_eq_zero.2 (mag_mk true (by decide))]; omega
          · rw [exactVal_eq_zero.2 (mag_mk false (by decide))]; omega
        · right
          exact nonneg_of_sgn (by rw [sgn_rnd]; exact decide_eq_false (by omega))

theorem fold_notNegative (f : B64 → B64) (l : List B64) {z : B64} (hz : NotNegative z) :
    NotNegative (l.foldl (fun s v => Soft.ops.add s (square Soft.ops (f v) v)) z) := by
  induction l generalizing z with
  | nil => exact hz
  | cons v vs ih => exact ih (add_notNegative hz (square_notNegative _))

theorem div_notNegative {t : B64} {n : Nat} (ht : NotNegative t) (h0 : 0 < n) (hn : n < 2 ^ 53) :
    NotNegative (Soft.ops.div t (Soft.ops.ofNat n)) := by
  obtain ⟨h1, h2, h3⟩ := cast_exact (x := (n : Int)) (by omega)
  have hs : sgn (ofInt (n : Int)) = false := by rw [h3]; exact decide_eq_false (by omega)
  obtain ⟨f1, f2⟩ := fin_facts h1
  show NotNegative (Soft.div t (ofInt (n : Int)))
  unfold Soft.div
  rcases Bool.eq_false_or_eq_true (isNaN t) with hN | hN
  · left; rw [hN, Bool.true_or, if_pos rfl]; decide
  · have ht' : 0 ≤ exactVal t := ht.resolve_left (by rw [hN]; decide)
    have hm : mag (ofInt (n : Int)) ≠ 0 := by
      intro hx
      have := exactVal_eq_zero.2 hx
      rw [h2] at this
      have hp : ((2 ^ 1074 : Nat) : Int) = (2 : Int) ^ 1074 := by rw [Int.natCast_pow]; rfl
      have hp2 : 0 < (2 : Nat) ^ 1074 := Nat.two_pow_pos _
      rcases Int.mul_eq_zero.1 this with h | h <;> omega
    have hz : mag t = 0 ∨ sgn t = false := by
      rcases Bool.eq_false_or_eq_true (sgn t) with h | h
      · left
        apply exactVal_eq_zero.1
        unfold exactVal at ht' ⊢
        rw [h, if_pos rfl] at ht' ⊢
        omega
      · exact Or.inr h
    simp only [hN, f1, f2, hs, hm, Bool.or_self, Bool.false_eq_true, if_false, Bool.bne_false]
    right
    split
    · rename_i hi
      rcases hz with hz | hz
      · exfalso
        unfold isInf at hi
        rw [hz] at hi
        revert hi; decide
      · rw [hz]; exact nonneg_of_sgn (by decide)
    · rcases hz with hz | hz
      · unfold absVal
        rw [hz, show magVal 0 = 0 by unfold magVal; rfl, Nat.zero_mul, exactVal_rnd]
        have : magVal (roundMag 0 (magVal (mag (ofInt (n : Int))))) = 0 := by
          have : roundMag 0 (magVal (mag (ofInt (n : Int)))) = 0 := by
            unfold roundMag
            simp [divRne]
          rw [this]; unfold magVal; rfl
        rw [this]
        split <;> omega
      · exact nonneg_of_sgn (by rw [sgn_rnd]; exact hz)

theorem stdDev_spec (sqrt : B64 → B64) {z : B64} (hz : NotNegative z) (m : B64) (l : List B64) (hl : l.length < 2 ^ 53) :
    (l.length ≤ 1 → stdDev Soft.ops sqrt z m l = 0#64) ∧
    (2 ≤ l.length → ∃ x, NotNegative x ∧ stdDev Soft.ops sqrt z m l = sqrt x) := by
  unfold stdDev
  refine ⟨fun h => if_pos h, fun h => ?_⟩
  rw [if_neg (by omega)]
  exact ⟨_, div_notNegative (fold_notNegative (fun _ => m) l hz) (by omega) hl, rfl⟩

/-- One value has deviation zero. With two or more the square root is taken of something that is not negative. -/
theorem c74_deviation (hn : Numbers text values) (h0 : values ≠ []) (h : collect Soft.ops sqrt text = .ok s)
    (hl : values.length < 2 ^ 53) :
    (values.length = 1 → s.precisionStd = 0#64 ∧ s.valueStd = 0#64 ∧ s.exponentStd = 0#64) ∧
    (2 ≤ values.length → ∃ x y z, NotNegative x ∧ NotNegative y ∧ NotNegative z ∧ s.precisionStd = sqrt x ∧
      s.valueStd = sqrt y ∧ s.exponentStd = sqrt z) := by
  obtain ⟨v, vs, p, ps, hi, lo, hv, hp, _, _, rfl⟩ := collect_ok hn h0 h
  have hlen2 : (p :: ps).length = values.length := by rw [← numbers_length hn, ← hp, List.length_map]
  have i1 : NotNegative Soft.ops.sumInit := Or.inr (by
    rw [exactVal_eq_zero.2 (show mag Soft.ops.sumInit = 0 by decide)]; omega)
  have i2 : NotNegative 0#64 := Or.inr (by rw [exactVal_eq_zero.2 (show mag 0#64 = 0 by decide)]; omega)
  obtain ⟨a1, a2⟩ := stdDev_spec sqrt i1 (meanNat Soft.ops (p :: ps)) ((p :: ps).map Soft.ops.ofNat) (by rw [List.length_map, hlen2]; exact hl)
  obtain ⟨b1, b2⟩ := stdDev_spec sqrt i2 (meanF64 Soft.ops (v :: vs)) (v :: vs) (by rw [← hv]; exact hl)
  obtain ⟨c1, c2⟩ := stdDev_spec sqrt i1 (meanInt Soft.ops ((v :: vs).map exponentBits)) (((v :: vs).map exponentBits).map (ofI32 Soft.ops))
    (by rw [List.length_map, List.length_map, ← hv]; exact hl)
  rw [List.length_map, hlen2] at a1 a2
  rw [← hv] at b1 b2
  rw [List.length_map, List.length_map, ← hv] at c1 c2
  refine ⟨fun h1 => ⟨a1 (by omega), ?_, ?_⟩, fun h2 => ?_⟩
  · rw [← hv]; exact b1 (by omega)
  · rw [← hv]; exact c1 (by omega)
  · obtain ⟨x, x1, x2⟩ := a2 h2
    obtain ⟨y, y1, y2⟩ := b2 h2
    obtain ⟨z, z1, z2⟩ := c2 h2
    exact ⟨x, y, z, x1, y1, z1, x2, by rw [← hv]; exact y2, by rw [← hv]; exact z2⟩

/-! ### The file of all statistics -/

/-- `stats.json` is written exactly when no file ends the tool, and holds for each stem the statistics of the last file of
that stem that has any. -/
theorem c74_report (o : FloatOps) (sqrt : B64 → B64) (es : List Entry) :
    (statsJson o sqrt es = .panic ↔ ∃ stem text, Entry.file stem (some text) ∈ es ∧ collect o sqrt text = .panic) ∧
    statsJson o sqrt es ≠ .err ∧
    (∀ m, statsJson o sqrt es = .ok m → ∀ stem s, m stem = some s ↔ ∃ l text r, es = l ++ .file stem (some text) :: r ∧
      collect o sqrt text = .ok s ∧ ∀ t s', Entry.file stem (some t) ∈ r → collect o sqrt t ≠ .ok s') := by
  have gen : ∀ (es : List Entry) (m0 : Table.Map Stats),
      (report o sqrt m0 es = .panic ↔ ∃ stem text, Entry.file stem (some text) ∈ es ∧ collect o sqrt text = .panic) ∧
      report o sqrt m0 es ≠ .err ∧
      (∀ m, report o sqrt m0 es = .ok m → ∀ stem s, m stem = some s ↔
        ((∃ l text r, es = l ++ .file stem (some text) :: r ∧ collect o sqrt text = .ok s ∧
          ∀ t s', Entry.file stem (some t) ∈ r → collect o sqrt t ≠ .ok s') ∨
        (m0 stem = some s ∧ ∀ t s', Entry.file stem (some t) ∈ es → collect o sqrt t ≠ .ok s'))) := by
    intro es
    induction es with
    | nil =>
      intro m0
      simp [report]
    | cons e es ih =>
      intro m0
      -- an entry that leaves the map alone
      have skip : ∀ (e : Entry), report o sqrt m0 (e :: es) = report o sqrt m0 es →
          (∀ stem t, e = .file stem (some t) → collect o sqrt t = .err) →
          (report o sqrt m0 (e :: es) = .panic ↔ ∃ stem text, Entry.file stem (some text) ∈ e :: es ∧ collect o sqrt text = .panic) ∧
          report o sqrt m0 (e :: es) ≠ .err ∧
          (∀ m, report o sqrt m0 (e :: es) = .ok m → ∀ stem s, m stem = some s ↔
            ((∃ l text r, e :: es = l ++ .file stem (some text) :: r ∧ collect o sqrt text = .ok s ∧
              ∀ t s', Entry.file stem (some t) ∈ r → collect o sqrt t ≠ .ok s') ∨
            (m0 stem = some s ∧ ∀ t s', Entry.file stem (some t) ∈ e :: es → collect o sqrt t ≠ .ok s'))) := by
        intro e he hc
        obtain ⟨i1, i2, i3⟩ := ih m0
        rw [he]
        refine ⟨?_, i2, ?_⟩
        · rw [i1]
          constructor
          · rintro ⟨a, b, c, d⟩; exact ⟨a, b, List.mem_cons_of_mem _ c, d⟩
          · rintro ⟨a, b, c, d⟩
            rcases List.mem_cons.1 c with c | c
            · rw [hc a b c.symm] at d; cases d
            · exact ⟨a, b, c, d⟩
        · intro m hm stem s
          rw [i3 m hm stem s]
          constructor
          · rintro (⟨l, t, r, a, b, c⟩ | ⟨a, b⟩)
            · exact Or.inl ⟨e :: l, t, r, by rw [a]; rfl, b, c⟩
            · refine Or.inr ⟨a, fun t s' ht => ?_⟩
              rcases List.mem_cons.1 ht with h | h
              · rw [hc stem t h.symm]; simp
              · exact b t s' h
          · rintro (⟨l, t, r, a, b, c⟩ | ⟨a, b⟩)
            · cases l with
              | nil =>
                rw [List.nil_append] at a
                injection a with a1 a2
                rw [hc stem t a1] at b
                cases b
              | cons x l =>
                rw [List.cons_append] at a
                injection a with a1 a2
                exact Or.inl ⟨l, t, r, a2, b, c⟩
            · exact Or.inr ⟨a, fun t s' h => b t s' (List.mem_cons_of_mem _ h)⟩
      match e with
      | .unreadable => exact skip _ rfl (by simp)
      | .file stem none => exact skip _ rfl (by simp)
      | .file stem (some text) =>
        cases hc : collect o sqrt text with
        | err => exact skip _ (by rw [report, hc]) (by rintro a b h; cases h; exact hc)
        | panic =>
          have : report o sqrt m0 (.file stem (some text) :: es) = .panic := by rw [report, hc]
          rw [this]
          refine ⟨⟨fun _ => ⟨stem, text, List.mem_cons_self .., hc⟩, fun _ => rfl⟩, by simp, by simp⟩
        | ok x =>
          have : report o sqrt m0 (.file stem (some text) :: es) = report o sqrt (m0.set stem x) es := by rw [report, hc]
          rw [this]
          obtain ⟨i1, i2, i3⟩ := ih (m0.set stem x)
          refine ⟨?_, i2, ?_⟩
          · rw [i1]
            constructor
            · rintro ⟨a, b, c, d⟩; exact ⟨a, b, List.mem_cons_of_mem _ c, d⟩
            · rintro ⟨a, b, c, d⟩
              rcases List.mem_cons.1 c with c | c
              · cases c; rw [hc] at d; cases d
              · exact ⟨a, b, c, d⟩
          · intro m hm st s
            rw [i3 m hm st s]
            constructor
            · rintro (⟨l, t, r, a, b, c⟩ | ⟨a, b⟩)
              · exact Or.inl ⟨.file stem (some text) :: l, t, r, by rw [a]; rfl, b, c⟩
              · unfold Table.Map.set at a
                split at a
                · rename_i hst
                  cases a
                  subst hst
                  exact Or.inl ⟨[], text, es, rfl, hc, b⟩
                · rename_i hst
                  refine Or.inr ⟨a, fun t s' ht => ?_⟩
                  rcases List.mem_cons.1 ht with h | h
                  · cases h; exact absurd rfl hst
                  · exact b t s' h
            · rintro (⟨l, t, r, a, b, c⟩ | ⟨a, b⟩)
              · cases l with
                | nil =>
                  rw [List.nil_append] at a
                  injection a with a1 a2
                  cases a1
                  subst a2
                  rw [hc] at b
                  cases b
                  exact Or.inr ⟨by simp [Table.Map.set], c⟩
                | cons y l =>
                  rw [List.cons_append] at a
                  injection a with a1 a2
                  exact Or.inl ⟨l, t, r, a2, b, c⟩
              · refine Or.inr ⟨?_, fun t s' h => b t s' (List.mem_cons_of_mem _ h)⟩
                unfold Table.Map.set
                rw [if_neg]
                · exact a
                · intro h
                  exact b text x (by rw [h]; exact List.mem_cons_self ..) hc
  obtain ⟨g1, g2, g3⟩ := gen es Table.Map.empty
  refine ⟨g1, g2, fun m hm stem s => ?_⟩
  rw [g3 m hm stem s]
  simp [Table.Map.empty]

/-- One file with two numbers of which one is NaN, and there is no `stats.json` at all. -/
theorem c74_nan_loses_all (sqrt : B64 → B64) : ∃ s, collect Soft.ops sqrt "1,2".toList = .ok s ∧
    statsJson Soft.ops sqrt [.file "a" (some "1,2".toList), .file "b" (some "1,nan".toList)] = .panic := by
  have h1 : parse (allItems "1,2".toList) = some ([0, 0], [0x3ff0000000000000#64, 0x4000000000000000#64]) := by decide +kernel
  have h2 : Numbers "1,nan".toList [0x3ff0000000000000#64, 0x7ff8000000000000#64] := by
    show _ = _
    decide +kernel
  refine ⟨_, by unfold collect; rw [h1]; rfl, ?_⟩
  refine (c74_report ..).1.2 ⟨"b", "1,nan".toList, by simp, ?_⟩
  exact (c74_outcome ..).2.2 ⟨_, h2, by decide, _, List.mem_cons_of_mem _ (List.mem_cons_self ..), by decide⟩

/-! ### Many zeros -/

/-- A line of `n` zeros. -/
def zeros (n : Nat) : List Char := joinFields ',' (List.replicate n ['0'])

theorem zeros_items (n : Nat) : allItems (zeros (n + 1)) = List.replicate (n + 1) ['0'] := by
  have hnl : ∀ n, '\n' ∉ zeros n := by
    intro n
    induction n with
    | zero => simp [zeros, joinFields]
    | succ n ih =>
      cases n with
      | zero => simp [zeros, joinFields]
      | succ n =>
        unfold zeros at ih ⊢
        rw [List.replicate_succ, List.replicate_succ, joinFields, ← List.replicate_succ]
        simp [ih]
  have hne : zeros (n + 1) ≠ [] := by
    unfold zeros
    cases n with
    | zero => simp [joinFields]
    | succ n => rw [List.replicate_succ, List.replicate_succ, joinFields]; simp
  have h1 := c64_lines [] (zeros (n + 1)) (by simp) (by simp) (hnl _)
  simp only [List.flatMap_nil, List.nil_append, List.map_nil] at h1
  rw [if_neg hne] at h1
  unfold allItems
  rw [h1, List.flatMap_cons, List.flatMap_nil, List.append_nil]
  unfold zeros
  rw [c74_items _ (by
    intro x hx
    rw [List.eq_of_mem_replicate hx]
    decide), List.map_replicate]
  rw [show trim ['0'] = ['0'] by decide, List.filter_replicate]
  simp

theorem quot_pos {S : Int} {n : Nat} (hS : 0 < S) (hS2 : S < 2 ^ 31) (h0 : 0 < n) (hn : n < 2 ^ 23) :
    0 < exactVal (Soft.ops.div (ofInt S) (Soft.ops.ofNat n)) := by
  have h := quot_int (S := S) (n := n) (by omega) h0 (by omega)
  generalize Soft.ops.div (ofInt S) (Soft.ops.ofNat n) = x at h
  apply Int.lt_of_not_ge
  intro hx
  have hy : exactVal 0x3e80000000000000#64 = 2 ^ 1051 := by decide +kernel
  have hn1 := h.nearest (by
    rw [Int.natAbs_mul, Int.natAbs_pow]
    show S.natAbs * 2 ^ 1074 < (2 ^ 54 - 1) * 2 ^ 2044 * n
    have a1 : S.natAbs * 2 ^ 1074 < 2 ^ 31 * 2 ^ 1074 := Nat.mul_lt_mul_of_pos_right (by omega) (Nat.two_pow_pos _)
    have a2 : (2 : Nat) ^ 31 * 2 ^ 1074 ≤ (2 ^ 54 - 1) * 2 ^ 2044 := by decide +kernel
    have a3 : (2 ^ 54 - 1) * 2 ^ 2044 * 1 ≤ (2 ^ 54 - 1) * 2 ^ 2044 * n := Nat.mul_le_mul_left _ h0
    rw [Nat.mul_one] at a3
    exact Nat.lt_of_lt_of_le a1 (Nat.le_trans a2 a3)) 0x3e80000000000000#64 (by decide)
  rw [hy] at hn1
  have e : (2 : Int) ^ 1074 = 2 ^ 23 * 2 ^ 1051 := by decide +kernel
  rw [e] at hn1
  have hp : 0 < (2 : Int) ^ 1051 := Int.pow_pos (by decide)
  generalize (2 : Int) ^ 1051 = c at *
  have b1 : exactVal x * n ≤ 0 := Int.mul_nonpos_of_nonpos_of_nonneg hx (by omega)
  have b2 : c * n ≤ c * 2 ^ 23 := Int.mul_le_mul_of_nonneg_left (by omega) (by omega)
  have b3 : 0 < c * n := Int.mul_pos hp (by omega)
  have b4 : 1 * (2 ^ 23 * c) ≤ S * (2 ^ 23 * c) := Int.mul_le_mul_of_nonneg_right (by omega) (by omega)
  omega

/-- Of `n` zeros, each of exponent `-1023`, the tool reports a positive average exponent when `n` is between `2099203` and
`4198404`: the sum has wrapped. -/
theorem c74_exponent_wraps (sqrt : B64 → B64) {n : Nat} (hn1 : 2 ^ 31 < 1023 * n) (hn2 : 1023 * n < 2 ^ 32) :
    ∃ s, collect Soft.ops sqrt (zeros n) = .ok s ∧
      s.exponentMax = -1023 ∧ s.exponentMin = -1023 ∧ 0 < exactVal s.exponentAvg := by
  obtain ⟨k, rfl⟩ : ∃ k, n = k + 1 := ⟨n - 1, by omega⟩
  have hp : parseF64 ['0'] = some 0#64 := by decide +kernel
  have hN : Numbers (zeros (k + 1)) (List.replicate (k + 1) 0#64) := by
    unfold Numbers
    rw [zeros_items k, List.map_replicate, List.map_replicate, hp]
  have h0 : List.replicate (k + 1) 0#64 ≠ ([] : List B64) := by
    rw [List.replicate_succ]; simp
  have hnn : ∀ v ∈ List.replicate (k + 1) 0#64, isNaN v = false := by
    intro v hv
    rw [List.eq_of_mem_replicate hv]; decide
  obtain ⟨o1, o2⟩ := c74_outcome Soft.ops sqrt (zeros (k + 1))
  cases hc : collect Soft.ops sqrt (zeros (k + 1)) with
  | err =>
    obtain ⟨x, hx, hn⟩ := o1.1 hc
    rw [zeros_items k] at hx
    rw [List.eq_of_mem_replicate hx, hp] at hn
    cases hn
  | panic =>
    obtain ⟨vs, h1, h2, v, hv, hn⟩ := o2.1 hc
    have : vs = List.replicate (k + 1) 0#64 := by
      have := h1.symm.trans hN
      exact (List.map_inj_right (fun _ _ h => Option.some.inj h)).1 this
    rw [this] at hv
    rw [hnn v hv] at hn
    cases hn
  | ok s =>
    obtain ⟨_, _, ⟨⟨v, hv, r1⟩, _⟩, ⟨⟨w, hw, r2⟩, _⟩⟩ := c74_ranges hN h0 hc
    refine ⟨s, rfl, ?_, ?_, ?_⟩
    · rw [← r1, List.eq_of_mem_replicate hv]; decide
    · rw [← r2, List.eq_of_mem_replicate hw]; decide
    · obtain ⟨v, vs, p, ps, hi, lo, hvs, _, _, _, rfl⟩ := collect_ok hN h0 hc
      show 0 < exactVal (meanInt Soft.ops ((v :: vs).map exponentBits))
      rw [← hvs]
      unfold meanInt
      rw [List.map_replicate, sumWrap32_eq, List.length_replicate, List.sum_replicate_int]
      rw [show exponentBits 0#64 = -1023 by decide]
      have hw : wrap32 (((k + 1 : Nat) : Int) * -1023) = 2 ^ 32 - 1023 * ((k + 1 : Nat) : Int) := by
        have e : ((k + 1 : Nat) : Int) * -1023 = 2 ^ 32 - 1023 * ((k + 1 : Nat) : Int) + -1 * 2 ^ 32 := by omega
        rw [e]
        unfold wrap32
        have e2 : ∀ x : Int, (x + -1 * 2 ^ 32).bmod (2 ^ 32) = x.bmod (2 ^ 32) := by
          intro x
          rw [Int.bmod_def, Int.bmod_def]
          omega
        rw [e2]
        exact wrap32_small (by omega) (by omega)
      rw [hw, ofI32_eq (by omega) (by omega)]
      exact quot_pos (by omega) (by omega) (by omega) (by omega)

/-- Such lengths exist. -/
example : 2 ^ 31 < 1023 * 2099203 ∧ 1023 * 4198404 < 2 ^ 32 := by decide

/-- A file with statistics to which the theorems above apply. -/
example (sqrt : B64 → B64) : ∃ s, Numbers "1.5, ,2\r\n3,2".toList
      [0x3ff8000000000000#64, 0x4000000000000000#64, 0x4008000000000000#64, 0x4000000000000000#64] ∧
    collect Soft.ops sqrt "1.5, ,2\r\n3,2".toList = .ok s ∧ s.valueMax = 0x4008000000000000#64 ∧ s.exponentMin = 0 ∧
    s.precisionMax = 1 ∧ s.nonUniqueRatio = 0x3fd0000000000000#64 := by
  have h : Numbers "1.5, ,2\r\n3,2".toList
      [0x3ff8000000000000#64, 0x4000000000000000#64, 0x4008000000000000#64, 0x4000000000000000#64] := by
    show _ = _
    decide +kernel
  have hd : (allItems "1.5, ,2\r\n3,2".toList).map decimalPrecision = [1, 0, 0, 0] := by decide +kernel
  refine ⟨_, h, by unfold collect; rw [parse_of_numbers h, hd]; rfl, rfl, rfl, rfl, ?_⟩
  show nonUnique Soft.ops [0x3ff8000000000000#64, 0x4000000000000000#64, 0x4008000000000000#64, 0x4000000000000000#64] = _
  decide +kernel

end Ebi.Props
