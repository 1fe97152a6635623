import Verif.Props.Decimal
import Verif.Props.InSitu
import Verif.Props.Knn

/-!
# C65: DeltaSprintz gives decimal data back bit for bit

The double nearest to `m / 10^p` survives quantisation with scale `10^p`, as long as `|m| < 2^51`, the scale
fits the 32 bits it is stored in and it is not a negative zero.
-/

namespace Ebi.Props

open Ebi Ebi.Decimal Ebi.Soft Literal

/-- The double nearest to the exact value. -/
def Literal.toF64 (l : Literal) : B64 := decimalToF64 l.isNeg l.num (l.exponent - l.places)

/-! ### Conversion to binary -/

theorem spanDigits_digits (ds : List (Fin 10)) (r : List Char) (h : ∀ c t, r = c :: t → digit? c = none) :
    spanDigits (ds.map digitChar ++ r) = (ds.map digitChar, r) := by
  induction ds with
  | nil =>
    cases r with
    | nil => rfl
    | cons c t => rw [List.map_nil, List.nil_append, spanDigits, h c t rfl]; rfl
  | cons d ds ih =>
    rw [List.map_cons, List.cons_append, spanDigits, digit_digitChar, ih]
    rfl

theorem takeSign_text (s : Option Bool) (r : List Char) (h : ∀ c t, r = c :: t → c ≠ '-' ∧ c ≠ '+') :
    takeSign (signText s ++ r) = (s == some true, r) := by
  rcases s with - | ⟨- | -⟩
  · simp only [signText, List.nil_append]
    unfold takeSign
    split
    · exact absurd rfl (h _ _ rfl).1
    · exact absurd rfl (h _ _ rfl).2
    · rfl
  · rfl
  · rfl

theorem digits_head (ds : List (Fin 10)) (hd : ds ≠ []) : ∀ c t, ds.map digitChar = c :: t → c ≠ '-' ∧ c ≠ '+' := by
  intro c t h
  cases ds with
  | nil => exact absurd rfl hd
  | cons d ds =>
    rw [List.map_cons, List.cons.injEq] at h
    rw [← h.1]
    have := digitChar_marks d
    exact ⟨fun e => this (by rw [e]; decide), fun e => this (by rw [e]; decide)⟩

theorem parseExp_text (l : Literal) (h : l.WF) : parseExp (expText l.exp) = some l.exponent := by
  unfold Literal.exponent
  cases he : l.exp with
  | none => rfl
  | some e =>
    obtain ⟨up, s, ds⟩ := e
    have hds := h.2 _ he
    simp only [expText, parseExp]
    rw [if_pos (by cases up <;> simp), takeSign_text s _ (digits_head ds hds)]
    simp only [digits1_digits hds, Option.map_some, beq_iff_eq]

theorem expText_head (e : Option (Bool × Option Bool × List (Fin 10))) :
    ∀ c t, expText e = c :: t → digit? c = none ∧ c ≠ '.' := by
  intro c t h
  rcases e with - | ⟨up, s, ds⟩
  · cases h
  · simp only [expText, List.cons.injEq] at h
    rw [← h.1]
    cases up <;> decide

/-- Every literal is read as the double nearest to it. -/
theorem c65_parse (l : Literal) (h : l.WF) : parseF64 l.text = some l.toF64 := by
  -- the text after the sign
  let t := l.int.map digitChar ++ (fracText l.frac ++ expText l.exp)
  have ht : l.text = signText l.sign ++ t := by
    show l.text = signText l.sign ++ (l.int.map digitChar ++ (fracText l.frac ++ expText l.exp))
    simp [Literal.text]
  have hhead : ∃ c r, t = c :: r ∧ (c = '.' ∨ ∃ d, c = digitChar d) := by
    show ∃ c r, l.int.map digitChar ++ (fracText l.frac ++ expText l.exp) = c :: r ∧ _
    cases hi : l.int with
    | cons d ds => exact ⟨digitChar d, _, rfl, Or.inr ⟨d, rfl⟩⟩
    | nil =>
      cases hf : l.frac with
      | none => exact absurd (by rw [hi, hf]; rfl) h.1
      | some f => exact ⟨'.', _, rfl, Or.inl rfl⟩
  obtain ⟨c, r, hcr, hc⟩ := hhead
  have hsign : takeSign l.text = (l.isNeg, t) := by
    rw [ht]
    refine takeSign_text _ _ fun c' t' he => ?_
    rw [hcr, List.cons.injEq] at he
    rw [← he.1]
    rcases hc with rfl | ⟨d, rfl⟩
    · decide
    · have := digitChar_marks d
      exact ⟨fun e => this (by rw [e]; decide), fun e => this (by rw [e]; decide)⟩
  have hlow : lower c ≠ 'i' ∧ lower c ≠ 'n' := by
    rcases hc with rfl | ⟨d, rfl⟩
    · decide
    · clear hcr; revert d; decide
  have hparse : parseF64 l.text = parseNumber l.isNeg t := by
    unfold parseF64
    simp only [hsign, hcr, List.map_cons, List.cons.injEq]
    rw [if_neg (by rintro (h | h) <;> exact hlow.1 h.1), if_neg (fun h => hlow.2 h.1)]
  rw [hparse]
  have hsp : spanDigits t = (l.int.map digitChar, fracText l.frac ++ expText l.exp) := by
    refine spanDigits_digits _ _ fun c' t' he => ?_
    cases hf : l.frac with
    | none => rw [hf] at he; exact (expText_head _ _ _ he).1
    | some f =>
      rw [hf] at he
      simp only [fracText, List.cons_append, List.cons.injEq] at he
      rw [← he.1]; decide
  unfold parseNumber
  rw [hsp]
  cases hf : l.frac with
  | none =>
    have e1 : fracText none ++ expText l.exp = expText l.exp := rfl
    have e2 : takeFraction (expText l.exp) = ([], expText l.exp) := by
      unfold takeFraction
      split
      · rename_i he; exact absurd rfl (expText_head _ _ _ he).2
      · rfl
    have hne : l.int ≠ [] := by
      have := h.1
      rw [hf] at this
      simpa using this
    simp only [e1, e2, List.append_nil, digits1_digits hne, parseExp_text l h]
    unfold Literal.toF64 Literal.num Literal.places
    simp only [hf, Option.getD_none, List.append_nil, List.length_nil]
  | some f =>
    have e1 : fracText (some f) ++ expText l.exp = '.' :: (f.map digitChar ++ expText l.exp) := rfl
    have e2 : spanDigits (f.map digitChar ++ expText l.exp) = (f.map digitChar, expText l.exp) :=
      spanDigits_digits _ _ fun c' t' he => (expText_head _ _ _ he).1
    have hne : l.int ++ f ≠ [] := by
      have := h.1
      rw [hf] at this
      exact this
    simp only [e1, takeFraction, e2, ← List.map_append, digits1_digits hne, parseExp_text l h, List.length_map]
    unfold Literal.toF64 Literal.num Literal.places
    simp only [hf, Option.getD_some]

/-- The conversion tool writes the double nearest to each number, in order. -/
theorem c65_csv2bin (rows : List (List Literal)) (h : ∀ r ∈ rows, ∀ l ∈ r, l.WF) :
    csv2bin (csvText rows) = .ok (rows.flatten.map Literal.toF64) := by
  unfold csv2bin
  rw [allFields_csvText rows h]
  have : ∀ L : List Literal, (∀ l ∈ L, l.WF) → parseAll (L.map Literal.text) = some (L.map Literal.toF64) := by
    intro L hL
    induction L with
    | nil => rfl
    | cons l ls ih =>
      rw [List.map_cons, parseAll, c65_parse l (hL l (List.mem_cons_self ..)),
        ih fun x hx => hL x (List.mem_cons_of_mem _ hx)]
      rfl
  rw [this]
  intro l hl
  obtain ⟨r, hr, hl⟩ := List.mem_flatten.1 hl
  exact h r hr l hl

/-! ### Decimals as doubles -/

attribute [local irreducible] roundMag magVal Elf.U

theorem roundMag_cross {n d n' d' : Nat} (hd : 0 < d) (hd' : 0 < d') (h : n * d' = n' * d) :
    roundMag n d = roundMag n' d' :=
  Nat.le_antisymm (roundMag_mono_cross hd hd' (Nat.le_of_eq h)) (roundMag_mono_cross hd' hd (Nat.le_of_eq h.symm))

/-- A number that is `m / 10^p` is read as the double nearest to `m / 10^p`. -/
theorem toF64_scaled {l : Literal} {p m : Nat} (h : l.Scaled p m) : l.toF64 = nearest l.isNeg m (10 ^ p) := by
  obtain ⟨a, b, h1, h2⟩ := h
  unfold Literal.toF64 decimalToF64 nearest near rnd
  rw [Elf.U_eq]
  generalize hU : Elf.U = U
  have hpos : ∀ k, 0 < 10 ^ k := fun k => Nat.pow_pos (by decide)
  split
  · rename_i h0
    congr 1
    generalize hk : (l.exponent - l.places).toNat = k at *
    have hab : a = b + (k + p) := by omega
    subst hab
    have h3 : m = l.num * 10 ^ (k + p) := by
      rw [Nat.pow_add 10 b, Nat.mul_comm (10 ^ b), ← Nat.mul_assoc] at h2
      exact Nat.eq_of_mul_eq_mul_right (hpos b) h2
    apply roundMag_cross (by decide) (hpos p)
    rw [h3, Nat.mul_one, Nat.pow_add, ← Nat.mul_assoc, Nat.mul_right_comm]
  · rename_i h0
    congr 1
    generalize hk : (-(l.exponent - l.places)).toNat = k at *
    apply roundMag_cross (hpos k) (hpos p)
    have hab : a + k = b + p := by omega
    have h3 : m * 10 ^ k * 10 ^ b = l.num * 10 ^ p * 10 ^ b := by
      rw [Nat.mul_right_comm, h2, Nat.mul_assoc, ← Nat.pow_add, hab, Nat.pow_add, Nat.mul_comm (10 ^ b),
        Nat.mul_assoc]
    have h4 : m * 10 ^ k = l.num * 10 ^ p := Nat.eq_of_mul_eq_mul_right (hpos b) h3
    rw [Nat.mul_right_comm, ← h4, Nat.mul_right_comm]

attribute [local irreducible] near nearest

/-- Decimal data at precision `p`: the double nearest to `±m / 10^p`, not a negative zero, `m < 2^51`. -/
def IsDecimal (p : Nat) (v : B64) : Prop :=
  ∃ (s : Bool) (m : Nat), m < 2 ^ 51 ∧ (s = true → m ≠ 0) ∧ v = nearest s m (10 ^ p)

variable {E : Env} {a : Args} {file : List Byte} {m : Metadata} {n s : BitVec 64}

theorem rounded_soft (S : Nat) (v : B64) :
    rounded Soft.ops S v = toI64 (Soft.round (Soft.mul v (ofInt (S : Int)))) := rfl

/-- The scale is at most `10^19`. -/
theorem pow10_le {p : Nat} (hp : p ≤ 19) : 10 ^ p ≤ 2 ^ 64 :=
  Nat.le_trans (Nat.pow_le_pow_right (by decide) hp) (by decide +kernel)

/-- What DeltaSprintz with scale `10^p` stores for such a value is the numerator. -/
theorem rounded_nearest (p : Nat) (hp : p ≤ 19) (sg : Bool) (M : Nat) (hM : M < 2 ^ 51) :
    rounded Soft.ops (10 ^ p) (nearest sg M (10 ^ p)) = BitVec.ofInt 64 (signed sg M) := by
  have h1 := exactInt_pow10 (Nat.le_trans hp (by decide : 19 ≤ 22))
  have h2 := pow10_le hp
  generalize 10 ^ p = S at *
  rw [rounded_soft]
  exact quantize_nearest h1 h2 hM

theorem readBack_soft (hE : E.o = Soft.ops) (v : B64) : readBack E (.deltaSprintz n s) v =
    Soft.div (ofInt (rounded Soft.ops s.toNat v).toInt) (ofInt ((s.toNat % 2 ^ 32 : Nat) : Int)) := by
  simp only [readBack, hE]
  rfl

/-- A decimal comes back as itself. -/
theorem c65_readBack (hE : E.o = Soft.ops) (p : Nat) (hp : p ≤ 9) (hs : s.toNat = 10 ^ p) (v : B64)
    (hv : IsDecimal p v) : readBack E (.deltaSprintz n s) v = v := by
  obtain ⟨sg, M, hM, hz, rfl⟩ := hv
  have hlt : 10 ^ p < 2 ^ 32 := Nat.lt_of_le_of_lt (Nat.pow_le_pow_right (by decide) hp) (by decide +kernel)
  have h1 := rounded_nearest p (Nat.le_trans hp (by decide)) sg M hM
  have h2 := exactInt_pow10 (Nat.le_trans hp (by decide : 9 ≤ 22))
  rw [readBack_soft hE, hs, h1]
  generalize 10 ^ p = S at *
  rw [Nat.mod_eq_of_lt hlt, dequantize_nearest h2 (by omega)]
  congr 1
  cases sg with
  | false => rfl
  | true => simp [hz rfl]

/-- So a DeltaSprintz file of decimals is lossless: encoding succeeds and decoding gives every double back,
bit for bit. -/
theorem c65_file (hE : E.o = Soft.ops) (hlib : LosslessLibraries E) (a : Args) (p : Nat) (hp : p ≤ 9)
    (hc : a.cfg = .deltaSprintz n s) (hs : s.toNat = 10 ^ p) (ha : a.Valid) (hne : 8 ≤ a.src.data.length)
    (hv : ∀ v ∈ a.records, IsDecimal p v) :
    ∃ file, a.encode (E.scheme a.cfg) = some (.ok file) ∧
      (file.length < 2 ^ 63 → ∃ m, openFile file = .ok m ∧
        Decoder.materialize E ⟨file, m, none⟩ none none = .ok a.records) := by
  obtain ⟨file, h1, h2⟩ := c23_every_scheme E hlib a (by rw [hc]; trivial) ha (by rw [hc]; intros; trivial)
    (by rw [hc]; intro h; cases h) hne
  refine ⟨file, h1, fun hlt => ?_⟩
  obtain ⟨m, h3, h4⟩ := h2 hlt
  refine ⟨m, h3, ?_⟩
  rw [h4]
  congr 1
  have : ∀ L : List B64, (∀ v ∈ L, IsDecimal p v) → L.map (readBack E a.cfg) = L := by
    intro L hL
    induction L with
    | nil => rfl
    | cons v vs ih =>
      rw [List.map_cons, ih fun x hx => hL x (List.mem_cons_of_mem _ hx), hc,
        c65_readBack hE p hp hs v (hL v (List.mem_cons_self ..))]
  exact this _ hv

/-- A literal that fits: its value is `m / 10^p` with `m < 2^51`, and it is not written as a negative zero. -/
def Fits (p : Nat) (l : Literal) : Prop := (∀ m, l.Scaled p m → m < 2 ^ 51) ∧ (l.isNeg = true → l.num ≠ 0)

theorem fits_decimal {l : Literal} {p : Nat} (h : Fits p l) (hm : ∃ m, l.Scaled p m) : IsDecimal p l.toF64 := by
  obtain ⟨M, hM⟩ := hm
  refine ⟨l.isNeg, M, h.1 M hM, fun hn h0 => ?_, toF64_scaled hM⟩
  obtain ⟨a, b, -, h2⟩ := hM
  rw [h0, Nat.zero_mul] at h2
  rcases Nat.mul_eq_zero.1 h2.symm with h3 | h3
  · exact h.2 hn h3
  · have : 0 < 10 ^ a := Nat.pow_pos (by decide)
    omega

/-- End to end: a text file of numbers is converted to doubles, the exact precision `p ≤ 9` is chosen, and the
DeltaSprintz file written with the default scale `10^p` decodes to the same doubles. -/
theorem c65_end_to_end (hE : E.o = Soft.ops) (hlib : LosslessLibraries E) (rows : List (List Literal))
    (hrows : ∀ r ∈ rows, ∀ l ∈ r, Plain64 l) (hlen : rows.flatten.length ≤ 2 ^ 52) (scale : Nat)
    (hscale : defaultScale Soft.ops true (csvText rows) = .ok (some scale)) (h32 : scale < 2 ^ 32)
    (hfit : ∀ p, scale = 10 ^ p → ∀ l ∈ rows.flatten, Fits p l) (a : Args)
    (hc : a.cfg = .deltaSprintz n s) (hs : s.toNat = scale) (ha : a.Valid) (hne : 8 ≤ a.src.data.length)
    (hrec : csv2bin (csvText rows) = .ok a.records) :
    ∃ file, a.encode (E.scheme a.cfg) = some (.ok file) ∧
      (file.length < 2 ^ 63 → ∃ m, openFile file = .ok m ∧
        Decoder.materialize E ⟨file, m, none⟩ none none = csv2bin (csvText rows)) := by
  obtain ⟨p, hp, hsc⟩ : ∃ p, appropriatePrecision Soft.ops true ',' (csvText rows) = .ok p ∧ scale = 10 ^ p := by
    unfold defaultScale at hscale
    cases hq : appropriatePrecision Soft.ops true ',' (csvText rows) with
    | ok p =>
      rw [hq] at hscale
      simp only [Res.map_ok, Res.ok.injEq] at hscale
      split at hscale
      · cases hscale; exact ⟨p, rfl, rfl⟩
      · cases hscale
    | err => rw [hq] at hscale; cases hscale
    | panic => rw [hq] at hscale; cases hscale
  have hp9 : p ≤ 9 := by
    apply Nat.le_of_not_lt
    intro hgt
    have : 10 ^ 10 ≤ 10 ^ p := Nat.pow_le_pow_right (by decide) hgt
    rw [hsc] at h32
    have h10 : (10 : Nat) ^ 10 = 10000000000 := by decide
    omega
  obtain ⟨hall, -⟩ := c64_file_exact comma_sep rows hrows hlen p hp
  have hrec' : a.records = rows.flatten.map Literal.toF64 := by
    have := c65_csv2bin rows fun r hr l hl => (hrows r hr l hl).wf
    rw [hrec] at this
    exact Res.ok.inj this
  obtain ⟨file, h1, h2⟩ := c65_file hE hlib a p hp9 hc (hs.trans hsc) ha hne (by
    intro v hv
    rw [hrec'] at hv
    obtain ⟨l, hl, rfl⟩ := List.mem_map.1 hv
    exact fits_decimal (hfit p hsc l hl) (hall l hl))
  exact ⟨file, h1, fun hlt => by rw [hrec]; exact h2 hlt⟩

theorem roundByScale_soft (v : B64) (S : Nat) : roundByScale Soft.ops v S =
    Soft.div (Soft.round (Soft.mul v (ofInt (S : Int)))) (ofInt (S : Int)) := rfl

/-- `round_by_scale`, which the drivers apply to their queries, leaves a decimal of that precision as it is. -/
theorem c65_round_by_scale (p : Nat) (hp : p ≤ 19) (sg : Bool) (M : Nat) (hM : M < 2 ^ 51) :
    roundByScale Soft.ops (nearest sg M (10 ^ p)) (10 ^ p) = nearest sg M (10 ^ p) := by
  have h1 := exactInt_pow10 (Nat.le_trans hp (by decide : 19 ≤ 22))
  have h2 := pow10_le hp
  generalize 10 ^ p = S at *
  rw [roundByScale_soft]
  exact round_div_nearest h1 h2 hM

/-! ### Filters on decimals -/

/-- The double nearest to some `±m / 10^p`, `m < 2^51`; a negative zero is allowed. -/
def NearDecimal (p : Nat) (v : B64) : Prop := ∃ (s : Bool) (m : Nat), m < 2 ^ 51 ∧ v = nearest s m (10 ^ p)

theorem IsDecimal.near {p : Nat} {v : B64} (h : IsDecimal p v) : NearDecimal p v :=
  let ⟨s, m, h1, _, h2⟩ := h
  ⟨s, m, h1, h2⟩

/-- All constants of a predicate. -/
def Predicate.constants : Predicate B64 → List B64
  | .eq v => [v]
  | .ne v => [v]
  | .range r => (match r.start with | .inclusive v => [v] | .exclusive v => [v] | .none => []) ++
      (match r.stop with | .inclusive v => [v] | .exclusive v => [v] | .none => [])

theorem cmp_decimal {p : Nat} (hp : p ≤ 19) {v w : B64} (hv : NearDecimal p v) (hw : NearDecimal p w) :
    (rounded Soft.ops (10 ^ p) v == rounded Soft.ops (10 ^ p) w) = feq v w ∧
    (rounded Soft.ops (10 ^ p) v).slt (rounded Soft.ops (10 ^ p) w) = flt v w ∧
    (rounded Soft.ops (10 ^ p) v).sle (rounded Soft.ops (10 ^ p) w) = fle v w := by
  obtain ⟨s, M, hM, rfl⟩ := hv
  obtain ⟨t, N, hN, rfl⟩ := hw
  rw [rounded_nearest p hp s M hM, rounded_nearest p hp t N hN]
  have hpos : 0 < 10 ^ p := Nat.pow_pos (by decide)
  have hle := pow10_le hp
  generalize 10 ^ p = S at *
  have h1 := key_lt (s := s) (t := t) hpos hle hM hN
  have h2 := key_lt (s := t) (t := s) hpos hle hN hM
  have e : ∀ (s : Bool) (M : Nat), M < 2 ^ 51 → (BitVec.ofInt 64 (signed s M)).toInt = signed s M := by
    intro s M hM
    rw [BitVec.toInt_ofInt]
    unfold signed
    exact Int.bmod_eq_of_le (by split <;> omega) (by split <;> omega)
  have e1 := e s M hM
  have e2 := e t N hN
  have heq : BitVec.ofInt 64 (signed s M) = BitVec.ofInt 64 (signed t N) ↔ signed s M = signed t N :=
    ⟨fun h => by rw [← e1, h, e2], fun h => by rw [h]⟩
  unfold feq flt fle
  rw [isNaN_nearest, isNaN_nearest]
  simp only [Bool.not_false, Bool.true_and, BitVec.slt, BitVec.sle, e1, e2]
  generalize signed s M = x at *
  generalize signed t N = y at *
  refine ⟨?_, decide_eq_decide.2 h1.symm, decide_eq_decide.2 (by omega)⟩
  rw [Bool.eq_iff_iff, beq_iff_eq, heq, decide_eq_true_eq]
  omega

/-- The rounded predicate asks the same question as the predicate on doubles. -/
theorem eval_decimal {p : Nat} (hp : p ≤ 19) (q : Predicate B64) {v : B64} (hv : NearDecimal p v)
    (hq : ∀ c ∈ Predicate.constants q, NearDecimal p c) :
    (q.map (rounded Soft.ops (10 ^ p))).eval i64Cmp (rounded Soft.ops (10 ^ p) v) = q.eval f64Cmp v := by
  cases q with
  | eq c => exact (cmp_decimal hp hv (hq c (by simp [Predicate.constants]))).1
  | ne c => exact congrArg (fun b => !b) (cmp_decimal hp hv (hq c (by simp [Predicate.constants]))).1
  | range r =>
    obtain ⟨a, b⟩ := r
    simp only [Predicate.map, Predicate.eval, Range.eval]
    congr 1
    · cases a with
      | none => rfl
      | inclusive c => exact (cmp_decimal hp (hq c (by simp [Predicate.constants])) hv).2.2
      | exclusive c => exact (cmp_decimal hp (hq c (by simp [Predicate.constants])) hv).2.1
    · cases b with
      | none => rfl
      | inclusive c => exact (cmp_decimal hp hv (hq c (by simp [Predicate.constants]))).2.2
      | exclusive c => exact (cmp_decimal hp hv (hq c (by simp [Predicate.constants]))).2.1

/-- A filter over a DeltaSprintz file of decimals, with decimal constants of the same precision, answers the
records that satisfy the predicate as doubles. -/
theorem c65_filter (h : Written E a file m) (hE : E.o = Soft.ops) (hc : a.cfg = .deltaSprintz n s) (p : Nat)
    (hp : p ≤ 9) (hs : s.toNat = 10 ^ p) (hv : ∀ v ∈ a.records, NearDecimal p v) (prec : Option Nat)
    (q : Predicate B64) (hq : ∀ c ∈ Predicate.constants q, NearDecimal p c) (bm : Option Bitmap)
    (hr : a.records.length < 2 ^ 32) :
    ∃ R, Decoder.filter E ⟨file, m, prec⟩ q bm none = .ok R ∧ Bitmap.WF R ∧
      ∀ x, x ∈ R ↔ ∃ v, a.records[x]? = some v ∧ (∀ b, bm = some b → x ∈ b) ∧ q.eval f64Cmp v = true := by
  have hlt : 10 ^ p < 2 ^ 32 := Nat.lt_of_le_of_lt (Nat.pow_le_pow_right (by decide) hp) (by decide +kernel)
  obtain ⟨R, h1, h2, h3⟩ := c39_decoder_filter h hc (by rw [hs]; exact hlt) prec q bm hr
  refine ⟨R, h1, h2, fun x => ?_⟩
  rw [h3]
  constructor
  · rintro ⟨v, g1, g2, g3⟩
    refine ⟨v, g1, g2, ?_⟩
    rw [hE, hs, eval_decimal (by omega) q (hv v (List.mem_of_getElem? g1)) hq] at g3
    exact g3
  · rintro ⟨v, g1, g2, g3⟩
    refine ⟨v, g1, g2, ?_⟩
    rw [hE, hs, eval_decimal (by omega) q (hv v (List.mem_of_getElem? g1)) hq]
    exact g3

/-! ### Where it ends -/

/-- With ten to nineteen decimals the default configuration is still written, but the scale does not fit its
32 bits: no record except zero comes back. -/
theorem c65_wide_scale (hE : E.o = Soft.ops) (p : Nat) (hp : 10 ≤ p) (hp' : p ≤ 19) (hs : s.toNat = 10 ^ p) (sg : Bool)
    (M : Nat) (hM : M < 2 ^ 51) (h0 : 0 < M) :
    readBack E (.deltaSprintz n s) (nearest sg M (10 ^ p)) = nearest sg M (10 ^ p % 2 ^ 32) ∧
      readBack E (.deltaSprintz n s) (nearest sg M (10 ^ p)) ≠ nearest sg M (10 ^ p) := by
  have h1 := rounded_nearest p hp' sg M hM
  have hmod : 0 < 10 ^ p % 2 ^ 32 := by
    have : ∀ k : Fin 20, 0 < 10 ^ k.val % 2 ^ 32 := by decide +kernel
    exact this ⟨p, by omega⟩
  have hlt : 10 ^ p % 2 ^ 32 < 2 ^ 32 := Nat.mod_lt _ (by decide)
  have hbig : 10000000000 ≤ 10 ^ p := Nat.le_trans (by decide +kernel : 10000000000 ≤ 10 ^ 10)
    (Nat.pow_le_pow_right (by decide) hp)
  have hle := pow10_le hp'
  rw [readBack_soft hE, hs, h1]
  generalize hT : 10 ^ p % 2 ^ 32 = T at *
  generalize 10 ^ p = S at *
  rw [dequantize_nearest (exactInt_lt hmod (by omega)) (by omega)]
  have e1 : (sg && M != 0) = sg := by
    have : (M != 0) = true := by simp; omega
    rw [this, Bool.and_true]
  rw [e1]
  refine ⟨rfl, fun he => ?_⟩
  have h2 := congrArg mag he
  unfold nearest at h2
  have b1 : near M T ≤ 0x7ff0000000000000 := near_le ..
  have b2 : near M S ≤ 0x7ff0000000000000 := near_le ..
  rw [mag_mk _ (by omega), mag_mk _ (by omega)] at h2
  exact near_half hle hmod (by omega) hM h0 h2.symm

/-- A negative zero loses its sign. -/
theorem c65_negative_zero : readBack sampleEnv (.deltaSprintz 100#64 100#64) 0x8000000000000000#64 = 0#64 := by
  decide +kernel

/-- The bound on the numerator matters: `38494687409950.13` (numerator between `2^51` and `2^52`) comes back as
the next double at scale 100. -/
theorem c65_large_fails : parseF64 "38494687409950.13".toList = some 0x42c1815f159b8f11#64 ∧
    readBack sampleEnv (.deltaSprintz 100#64 100#64) 0x42c1815f159b8f11#64 = 0x42c1815f159b8f12#64 ∧
    2 ^ 51 ≤ 3849468740995013 ∧ 3849468740995013 < 2 ^ 52 := by
  decide +kernel

/-- An upper-case exponent: the precision chosen for `1E-5` is 0, and with the default scale 1 the record
comes back as zero. -/
theorem c65_upper_exponent_lost : defaultScale Soft.ops true "1E-5\n".toList = .ok (some 1) ∧
    csv2bin "1E-5\n".toList = .ok [0x3ee4f8b588e368f1#64] ∧
    readBack sampleEnv (.deltaSprintz 100#64 1#64) 0x3ee4f8b588e368f1#64 = 0#64 := by decide +kernel

/-! ### A sample -/

/-- `1.25`, `-0.5` and `300.07`. -/
def decimalRows : List (List Literal) :=
  [[⟨none, [1], some [2, 5], none⟩, ⟨some true, [], some [5], none⟩], [⟨none, [3, 0, 0], some [0, 7], none⟩]]

/-- Encoder arguments for them. -/
def decimalArgs : Args :=
  { plainArgs (decimalRows.flatten.map Literal.toF64) 2 with cfg := .deltaSprintz 100#64 100#64 }

theorem decimalArgs_valid : decimalArgs.Valid := by
  have h := plainArgs_valid (decimalRows.flatten.map Literal.toF64) 2 (by simp [decimalRows]) (by decide) (by decide)
    (by simp [decimalRows])
  exact ⟨h.1, h.2, h.3, h.4, h.5, h.6, h.7, h.8, h.9⟩

theorem decimalRows_fit : ∀ l ∈ decimalRows.flatten, Fits 2 l := by
  intro l hl
  have : ∀ (l : Literal), l.exponent - l.places + 2 ≤ 2 → l.num ≤ 30007 → l.num ≠ 0 →  Fits 2 l := by
    intro l h1 h2 h3
    refine ⟨fun m hm => ?_, fun _ => h3⟩
    obtain ⟨a, b, h4, h5⟩ := hm
    have hab : a ≤ b + 2 := by omega
    have h6 : l.num * 10 ^ a ≤ 30007 * (100 * 10 ^ b) := by
      refine Nat.mul_le_mul h2 (Nat.le_trans (Nat.pow_le_pow_right (by decide) hab) ?_)
      rw [Nat.pow_add, Nat.mul_comm]
      exact Nat.le_refl _
    rw [← h5, ← Nat.mul_assoc] at h6
    have h7 := Nat.le_of_mul_le_mul_right h6 (Nat.pow_pos (by decide))
    omega
  simp only [decimalRows, List.flatten_cons, List.flatten_nil, List.append_nil, List.cons_append, List.nil_append,
    List.mem_cons, List.not_mem_nil, or_false] at hl
  rcases hl with rfl | rfl | rfl <;> exact this _ (by decide) (by decide) (by decide)

example : ∃ file, decimalArgs.encode (sampleEnv.scheme decimalArgs.cfg) = some (.ok file) ∧
    (file.length < 2 ^ 63 → ∃ m, openFile file = .ok m ∧
      Decoder.materialize sampleEnv ⟨file, m, none⟩ none none = csv2bin (csvText decimalRows)) := by
  refine c65_end_to_end rfl sampleEnv_lossless decimalRows ?_ (by decide) 100 (by decide +kernel) (by decide) ?_
    decimalArgs rfl rfl decimalArgs_valid (by simp [decimalArgs, plainArgs, Source.data, decimalRows]) ?_
  · intro r hr l hl
    have hl' : l ∈ decimalRows.flatten := List.mem_flatten.2 ⟨r, hr, hl⟩
    simp only [decimalRows, List.flatten_cons, List.flatten_nil, List.append_nil, List.cons_append, List.nil_append,
      List.mem_cons, List.not_mem_nil, or_false] at hl'
    rcases hl' with rfl | rfl | rfl <;>
      exact ⟨⟨by decide, fun e he => (by cases he)⟩, fun e he => (by cases he), by decide, by decide, by decide⟩
  · intro p hp
    have : p = 2 := (Nat.pow_right_inj (by decide : 1 < 10)).1 (hp.symm.trans (by decide : 100 = 10 ^ 2))
    subst this
    exact decimalRows_fit
  · rw [c65_csv2bin]
    · simp [decimalArgs, plainArgs, Args.records, Source.data]
    · intro r hr l hl
      have hl' : l ∈ decimalRows.flatten := List.mem_flatten.2 ⟨r, hr, hl⟩
      simp only [decimalRows, List.flatten_cons, List.flatten_nil, List.append_nil, List.cons_append, List.nil_append,
        List.mem_cons, List.not_mem_nil, or_false] at hl'
      rcases hl' with rfl | rfl | rfl <;> exact ⟨by decide, fun e he => (by cases he)⟩

/-- The constant `0.07` is a decimal of precision 2. -/
example : NearDecimal 2 0x3fb1eb851eb851ec#64 := ⟨false, 7, by decide, by unfold nearest near; decide +kernel⟩

end Ebi.Props
