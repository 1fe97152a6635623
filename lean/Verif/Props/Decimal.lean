import Verif.DecimalLemmas

/-!
# C64: the precision and scale chosen for a text file

A decimal literal is described by its parts, apart from the code that reads it: sign, digits, fraction and
exponent. Its exact value is `num * 10^(exponent - places)`.
-/

namespace Ebi.Props

open Ebi Ebi.Decimal

/-- The character of a digit. -/
def digitChar (d : Fin 10) : Char := Char.ofNat (48 + d.val)

/-- A decimal number as it is written. -/
structure Literal where
  /-- `some true` for `-`, `some false` for `+`. -/
  sign : Option Bool
  int : List (Fin 10)
  frac : Option (List (Fin 10))
  /-- Upper-case `E`, sign, digits. -/
  exp : Option (Bool × Option Bool × List (Fin 10))

namespace Literal

def signText : Option Bool → List Char
  | none => []
  | some true => ['-']
  | some false => ['+']

def fracText : Option (List (Fin 10)) → List Char
  | none => []
  | some ds => '.' :: ds.map digitChar

def expText : Option (Bool × Option Bool × List (Fin 10)) → List Char
  | none => []
  | some (up, s, ds) => (if up then 'E' else 'e') :: (signText s ++ ds.map digitChar)

/-- The text. -/
def text (l : Literal) : List Char :=
  signText l.sign ++ l.int.map digitChar ++ fracText l.frac ++ expText l.exp

/-- At least one digit before the exponent, and in the exponent if there is one. -/
def WF (l : Literal) : Prop := l.int ++ l.frac.getD [] ≠ [] ∧ ∀ e, l.exp = some e → e.2.2 ≠ []

/-- Value of a list of digits. -/
def value (ds : List (Fin 10)) : Nat := ds.foldl (fun a d => 10 * a + d.val) 0

/-- All digits as one number. -/
def num (l : Literal) : Nat := value (l.int ++ l.frac.getD [])

/-- Digits after the point. -/
def places (l : Literal) : Nat := (l.frac.getD []).length

/-- The written exponent. -/
def exponent (l : Literal) : Int :=
  match l.exp with
  | none => 0
  | some (_, s, ds) => if s = some true then -(value ds : Int) else value ds

def isNeg (l : Literal) : Bool := l.sign == some true

/-- `m = num * 10^(exponent - places) * 10^p`: the value times `10^p` is the integer `m`. -/
def Scaled (l : Literal) (p m : Nat) : Prop :=
  ∃ a b : Nat, (a : Int) - b = l.exponent - l.places + p ∧ m * 10 ^ b = l.num * 10 ^ a

/-- Digits needed after the point to write the number without exponent. -/
def needed (l : Literal) : Nat := (l.places - l.exponent).toNat

/-- Written with a lower-case `e`, or without exponent. -/
def LowerE (l : Literal) : Prop := ∀ e, l.exp = some e → e.1 = false

end Literal

open Literal

/-! ### Digits -/

theorem digit_digitChar (d : Fin 10) : digit? (digitChar d) = some d.val := by revert d; decide
theorem digitChar_size (d : Fin 10) : (digitChar d).utf8Size = 1 := by revert d; decide

/-- The characters a literal's digits are not. -/
def Marks : List Char := ['e', 'E', '.', '+', '-', ',', '\n', '\r', ' ', 'i', 'n']

theorem digitChar_marks (d : Fin 10) : digitChar d ∉ Marks := by revert d; decide

theorem not_mem_digits {c : Char} (h : c ∈ Marks) (ds : List (Fin 10)) : c ∉ ds.map digitChar := by
  intro hc
  obtain ⟨d, -, rfl⟩ := List.mem_map.1 hc
  exact digitChar_marks d h

theorem byteLen_digits (ds : List (Fin 10)) : byteLen (ds.map digitChar) = ds.length := by
  unfold byteLen
  induction ds with
  | nil => rfl
  | cons d ds ih =>
    simp only [List.map_cons, List.sum_cons, digitChar_size, List.length_cons] at ih ⊢
    omega

theorem digits_digits (ds : List (Fin 10)) (acc : Nat) :
    digits acc (ds.map digitChar) = some (ds.foldl (fun a d => 10 * a + d.val) acc) := by
  induction ds generalizing acc with
  | nil => rfl
  | cons d ds ih =>
    rw [List.map_cons, digits, digit_digitChar]
    exact ih _

theorem digits1_digits {ds : List (Fin 10)} (h : ds ≠ []) : digits1 (ds.map digitChar) = some (value ds) := by
  unfold digits1
  rw [if_neg (by simpa using h), digits_digits]
  rfl

theorem not_mem_sign {c : Char} (h1 : c ≠ '-') (h2 : c ≠ '+') (s : Option Bool) : c ∉ signText s := by
  rcases s with - | ⟨- | -⟩ <;> simp [signText, h1, h2]

/-- The signed exponent text is read by `i32` parsing, when it fits. -/
theorem parseI32_text {s : Option Bool} {ds : List (Fin 10)} (h : ds ≠ []) (hv : value ds < 2 ^ 31) :
    parseI32 (signText s ++ ds.map digitChar) = some (if s = some true then -(value ds : Int) else value ds) := by
  have hd := digits1_digits h
  rcases s with - | ⟨- | -⟩
  · simp only [signText, List.nil_append]
    cases ds with
    | nil => exact absurd rfl h
    | cons d ds =>
      have hm := digitChar_marks d
      unfold parseI32
      split
      · rename_i t he
        rw [List.map_cons, List.cons.injEq] at he
        rw [he.1] at hm
        exact absurd (by decide) hm
      · rename_i t he
        rw [List.map_cons, List.cons.injEq] at he
        rw [he.1] at hm
        exact absurd (by decide) hm
      · rw [hd]; simp [hv]
  · simp [signText, parseI32, hd, hv]
  · simp only [signText, List.cons_append, List.nil_append, parseI32, hd, Option.bind_some]
    rw [if_pos (by omega), if_true]

/-! ### The number of decimals -/

theorem body_no {c : Char} (h1 : c ∈ Marks) (h2 : c ≠ '-') (h3 : c ≠ '+') (h4 : c ≠ '.') (l : Literal) :
    c ∉ signText l.sign ++ l.int.map digitChar ++ fracText l.frac := by
  rw [List.mem_append, List.mem_append, not_or, not_or]
  refine ⟨⟨not_mem_sign h2 h3 _, not_mem_digits h1 _⟩, ?_⟩
  cases l.frac with
  | none => simp [fracText]
  | some ds => simp only [fracText, List.mem_cons, not_or]; exact ⟨h4, not_mem_digits h1 _⟩

theorem int_no_dot (l : Literal) : '.' ∉ signText l.sign ++ l.int.map digitChar := by
  rw [List.mem_append, not_or]
  exact ⟨not_mem_sign (by decide) (by decide) _, not_mem_digits (by decide) _⟩

/-- The full claim: for every literal the helper answers the digits needed after the point. -/
def PrecisionClaim : Prop := ∀ l : Literal, l.WF → decimalPrecision l.text = l.needed

/-- What holds: the claim for a lower-case `e` and exponents and precisions within `i32`. Missing: upper-case
`E` (`c64_upper_exponent`) and exponents beyond `i32` (`c64_large_exponent`). -/
theorem c64_precision_partial (l : Literal) (h : l.WF) (he : l.LowerE) (hx : l.exponent.natAbs < 2 ^ 31)
    (hn : l.places < 2 ^ 31) (hp : l.needed < 2 ^ 31) : decimalPrecision l.text = l.needed := by
  obtain ⟨sg, ip, fr, ex⟩ := l
  cases ex with
  | none =>
    have h1 : 'e' ∉ (Literal.mk sg ip fr none).text := by
      unfold Literal.text
      rw [show expText (Literal.mk sg ip fr none).exp = [] from rfl, List.append_nil]
      exact body_no (by decide) (by decide) (by decide) (by decide) _
    unfold decimalPrecision
    rw [cut_none h1]
    cases fr with
    | none =>
      have h2 : '.' ∉ (Literal.mk sg ip none none).text := by
        have := int_no_dot (Literal.mk sg ip none none)
        simpa [Literal.text, fracText, expText] using this
      rw [cut_none h2]
      rfl
    | some f =>
      have h2 : (Literal.mk sg ip (some f) none).text = (signText sg ++ ip.map digitChar) ++ '.' :: f.map digitChar := by
        simp [Literal.text, fracText, expText]
      rw [h2, cut_append (int_no_dot (Literal.mk sg ip (some f) none))]
      simp only [byteLen_digits, needed, places, exponent, Option.getD_some]
      omega
  | some e =>
    obtain ⟨up, s, ds⟩ := e
    have hu : up = false := he _ rfl
    subst hu
    have hds : ds ≠ [] := h.2 _ rfl
    have h1 : (Literal.mk sg ip fr (some (false, s, ds))).text
        = (signText sg ++ ip.map digitChar ++ fracText fr) ++ 'e' :: (signText s ++ ds.map digitChar) := by
      simp [Literal.text, expText]
    have hv : value ds < 2 ^ 31 := by
      simp only [exponent] at hx
      split at hx <;> omega
    unfold decimalPrecision
    rw [h1, cut_append (body_no (by decide) (by decide) (by decide) (by decide) (Literal.mk sg ip fr (some (false, s, ds))))]
    simp only [parseI32_text hds hv, Option.getD_some]
    have hX : (if s = some true then -(value ds : Int) else value ds) = (Literal.mk sg ip fr (some (false, s, ds))).exponent := rfl
    rw [hX]
    generalize hXd : (Literal.mk sg ip fr (some (false, s, ds))).exponent = X at *
    cases fr with
    | none =>
      have h2 : '.' ∉ signText sg ++ ip.map digitChar ++ fracText none := by
        have := int_no_dot (Literal.mk sg ip none (some (false, s, ds)))
        simpa [fracText] using this
      rw [cut_none h2]
      simp only [needed, places, Option.getD_none, List.length_nil, hXd] at hp ⊢
      split
      · have : wrap32 (-X) = -X := Int.bmod_eq_of_le (by omega) (by omega)
        rw [this]
        omega
      · omega
    | some f =>
      have h2 : signText sg ++ ip.map digitChar ++ fracText (some f) = (signText sg ++ ip.map digitChar) ++ '.' :: f.map digitChar := rfl
      rw [h2, cut_append (int_no_dot (Literal.mk sg ip (some f) (some (false, s, ds))))]
      simp only [byteLen_digits, needed, places, Option.getD_some, hXd] at hp hn ⊢
      have e1 : wrap32 (f.length : Int) = f.length := Int.bmod_eq_of_le (by omega) (by omega)
      have e2 : wrap32 ((f.length : Int) - X) = f.length - X := Int.bmod_eq_of_le (by omega) (by omega)
      rw [e1, e2]
      omega

/-- Enough: at the needed precision the value is an integer multiple of `10^-p`, and at every larger one. -/
theorem c64_needed_enough (l : Literal) (p : Nat) (h : l.needed ≤ p) : ∃ m, l.Scaled p m := by
  refine ⟨l.num * 10 ^ (l.exponent - l.places + p).toNat, (l.exponent - l.places + p).toNat, 0, ?_, by simp⟩
  unfold needed at h
  omega

/-- Least: unless the last digit is a zero, no smaller precision will do. -/
theorem c64_needed_least (l : Literal) (p m : Nat) (h0 : l.num % 10 ≠ 0) (h : l.Scaled p m) : l.needed ≤ p := by
  obtain ⟨a, b, h1, h2⟩ := h
  apply Nat.le_of_not_lt
  intro hlt
  unfold needed at hlt
  have hab : a < b := by omega
  obtain ⟨k, rfl⟩ : ∃ k, b = a + (k + 1) := ⟨b - a - 1, by omega⟩
  rw [Nat.pow_add, Nat.pow_succ, Nat.mul_comm (10 ^ a), ← Nat.mul_assoc] at h2
  have h3 : m * (10 ^ k * 10) = l.num := Nat.eq_of_mul_eq_mul_right (Nat.pow_pos (by decide)) h2
  rw [← Nat.mul_assoc] at h3
  omega

/-- `12.5e-3`. -/
def sampleLiteral : Literal := ⟨some true, [1, 2], some [5], some (false, some true, [3])⟩

example : String.ofList sampleLiteral.text = "-12.5e-3" ∧ sampleLiteral.needed = 4 ∧
    decimalPrecision sampleLiteral.text = 4 ∧ sampleLiteral.num % 10 ≠ 0 := by decide +kernel

example : sampleLiteral.WF ∧ sampleLiteral.LowerE := by
  refine ⟨⟨by decide, ?_⟩, ?_⟩ <;> (intro e he; cases he; decide)

/-- An upper-case `E` is not seen: the characters after the point are counted, exponent included, or 0 without
a point. -/
theorem c64_upper_exponent (l : Literal) (s : Option Bool) (ds : List (Fin 10)) (he : l.exp = some (true, s, ds)) :
    decimalPrecision l.text =
      match l.frac with
      | none => 0
      | some f => f.length + (1 + (signText s).length + ds.length) := by
  obtain ⟨sg, ip, fr, ex⟩ := l
  cases he
  have h1 : 'e' ∉ (Literal.mk sg ip fr (some (true, s, ds))).text := by
    unfold Literal.text
    rw [List.mem_append, not_or]
    refine ⟨body_no (by decide) (by decide) (by decide) (by decide) _, ?_⟩
    simp only [expText, if_true, List.mem_cons, List.mem_append, not_or]
    exact ⟨by decide, not_mem_sign (by decide) (by decide) _, not_mem_digits (by decide) _⟩
  have h3 : '.' ∉ expText (some (true, s, ds)) := by
    simp only [expText, if_true, List.mem_cons, List.mem_append, not_or]
    exact ⟨by decide, not_mem_sign (by decide) (by decide) _, not_mem_digits (by decide) _⟩
  unfold decimalPrecision
  rw [cut_none h1]
  cases fr with
  | none =>
    have h2 : '.' ∉ (Literal.mk sg ip none (some (true, s, ds))).text := by
      unfold Literal.text
      rw [List.mem_append, not_or]
      refine ⟨?_, h3⟩
      have := int_no_dot (Literal.mk sg ip none (some (true, s, ds)))
      simpa [fracText] using this
    rw [cut_none h2]
  | some f =>
    have h2 : (Literal.mk sg ip (some f) (some (true, s, ds))).text
        = (signText sg ++ ip.map digitChar) ++ '.' :: (f.map digitChar ++ expText (some (true, s, ds))) := by
      simp [Literal.text, fracText]
    rw [h2, cut_append (int_no_dot (Literal.mk sg ip (some f) (some (true, s, ds))))]
    have e1 : ∀ a b : List Char, byteLen (a ++ b) = byteLen a + byteLen b := fun a b => by simp [byteLen]
    have e2 : byteLen (expText (some (true, s, ds))) = 1 + (signText s).length + ds.length := by
      have : expText (some (true, s, ds)) = ['E'] ++ signText s ++ ds.map digitChar := by simp [expText]
      rw [this, e1, e1, byteLen_digits]
      congr 1
      rcases s with - | ⟨- | -⟩ <;> rfl
    simp only [e1, byteLen_digits, e2]

/-- The claim is false: `1E-5` needs five decimals, the helper answers none. -/
theorem c64_precision_fails : ¬ PrecisionClaim := by
  intro h
  have h1 := h ⟨none, [1], none, some (true, some true, [5])⟩
    ⟨by decide, by intro e he; cases he; decide⟩
  revert h1
  decide +kernel

/-- Exponents that do not fit `i32` count as zero. -/
theorem c64_large_exponent : decimalPrecision ("1.25e-2147483649".toList) = 2 ∧
    decimalPrecision ("1e-2147483648".toList) = 2 ^ 64 - 2 ^ 31 ∧
    decimalPrecision ("1.5e-2147483648".toList) = 0 := by decide +kernel

/-! ### The precision chosen for a file -/

/-- How many records need at least `p` decimals. -/
def atLeast (precs : List Nat) (p : Nat) : Nat := precs.countP (fun q => decide (p ≤ q))

/-- The chosen precision is the largest one that at least one record in a hundred reaches. -/
theorem c64_chosen (precs : List Nat) (hl : precs.length ≤ 2 ^ 52) (p : Nat) :
    chosen Soft.ops false precs = some p ↔
      p ∈ precs ∧ precs.length ≤ 100 * atLeast precs p ∧
        ∀ q ∈ precs, p < q → 100 * atLeast precs q < precs.length := by
  rw [chosen_iff]
  by_cases h0 : precs = []
  · subst h0; simp
  · have hn : 0 < precs.length := List.length_pos_iff.2 h0
    simp only [Bool.false_eq_true, if_false, share_lt hn List.countP_le_length hl, decide_eq_false_iff_not,
      decide_eq_true_eq, Nat.not_lt]
    rfl

/-- So fewer than one record in a hundred needs more decimals than chosen. -/
theorem c64_few_above (precs : List Nat) (hl : precs.length ≤ 2 ^ 52) (p : Nat)
    (h : chosen Soft.ops false precs = some p) : 100 * precs.countP (fun q => decide (p < q)) < precs.length := by
  obtain ⟨h1, -, h3⟩ := (c64_chosen precs hl p).1 h
  have hn : 0 < precs.length := List.length_pos_of_mem h1
  by_cases hz : precs.countP (fun q => decide (p < q)) = 0
  · rw [hz]; omega
  · -- the least precision above `p`
    have hex : ∃ q, q ∈ precs ∧ p < q ∧ ∀ r ∈ precs, p < r → q ≤ r := by
      obtain ⟨x, hx, hxp⟩ := List.countP_pos_iff.1 (Nat.pos_of_ne_zero hz)
      have : ∀ k q, q ∈ precs → p < q → q ≤ p + k → ∃ q, q ∈ precs ∧ p < q ∧ ∀ r ∈ precs, p < r → q ≤ r := by
        intro k
        induction k with
        | zero => intro q _ h1 h2; omega
        | succ k ih =>
          intro q hq h1 h2
          by_cases hm : ∃ r ∈ precs, p < r ∧ r < q
          · obtain ⟨r, hr, h3, h4⟩ := hm
            exact ih r hr h3 (by omega)
          · refine ⟨q, hq, h1, fun r hr h3 => Nat.le_of_not_lt fun h4 => hm ⟨r, hr, h3, h4⟩⟩
      exact this x x hx (by simpa using hxp) (by omega)
    obtain ⟨q, hq, hpq, hmin⟩ := hex
    have := h3 q hq hpq
    have he : precs.countP (fun r => decide (p < r)) = atLeast precs q := by
      unfold atLeast
      apply List.countP_congr
      intro r hr
      simp only [decide_eq_true_eq]
      exact ⟨fun h => hmin r hr h, fun h => by omega⟩
    rw [he]
    exact this

/-- With `exact_precision` it is the largest precision of all records. -/
theorem c64_chosen_exact (precs : List Nat) (hl : precs.length ≤ 2 ^ 52) (p : Nat) :
    chosen Soft.ops true precs = some p ↔ p ∈ precs ∧ ∀ q ∈ precs, q ≤ p := by
  rw [chosen_iff]
  by_cases h0 : precs = []
  · subst h0; simp
  · have hn : 0 < precs.length := List.length_pos_iff.2 h0
    simp only [if_true, share_zero hn List.countP_le_length hl, true_and]
    constructor
    · rintro ⟨h1, h2⟩
      refine ⟨h1, fun q hq => Nat.le_of_not_lt fun hlt => ?_⟩
      have := h2 q hq hlt
      cases this
    · rintro ⟨h1, h2⟩
      exact ⟨h1, fun q hq hlt => absurd (h2 q hq) (by omega)⟩

/-- Something is chosen exactly when there is a record. -/
theorem c64_chosen_some (exact : Bool) (precs : List Nat) (hl : precs.length ≤ 2 ^ 52) :
    (chosen Soft.ops exact precs).isSome = true ↔ precs ≠ [] := by
  constructor
  · intro h h0
    subst h0
    cases exact <;> cases h
  · intro h0
    have hn : 0 < precs.length := List.length_pos_iff.2 h0
    -- the largest precision with enough records, searched from above
    have hmax : ∃ M, ∀ q ∈ precs, q ≤ M := by
      clear hn hl
      induction precs with
      | nil => exact ⟨0, by simp⟩
      | cons x xs ih =>
        by_cases hx : xs = []
        · subst hx; exact ⟨x, by simp⟩
        · obtain ⟨M, hM⟩ := ih hx
          refine ⟨max x M, fun q hq => ?_⟩
          rcases List.mem_cons.1 hq with rfl | hq
          · exact Nat.le_max_left ..
          · exact Nat.le_trans (hM q hq) (Nat.le_max_right ..)
    obtain ⟨M, hM⟩ := hmax
    let good : Nat → Prop := fun p => p ∈ precs ∧ (exact = false → precs.length ≤ 100 * atLeast precs p)
    have hleast : ∃ p, good p := by
      have : ∀ k q, q ∈ precs → q ≤ k → ∃ q, q ∈ precs ∧ ∀ r ∈ precs, q ≤ r := by
        intro k
        induction k with
        | zero => intro q hq h2; exact ⟨q, hq, fun r _ => by omega⟩
        | succ k ih =>
          intro q hq h2
          by_cases hm : ∃ r ∈ precs, r < q
          · obtain ⟨r, hr, h4⟩ := hm
            exact ih r hr (by omega)
          · exact ⟨q, hq, fun r hr => Nat.le_of_not_lt fun h4 => hm ⟨r, hr, h4⟩⟩
      obtain ⟨x, hx⟩ := List.exists_mem_of_ne_nil _ h0
      obtain ⟨q, hq, hmin⟩ := this x x hx (Nat.le_refl _)
      refine ⟨q, hq, fun _ => ?_⟩
      have : atLeast precs q = precs.length := by
        unfold atLeast
        rw [List.countP_eq_length]
        intro r hr
        simpa using hmin r hr
      omega
    have hlast : ∀ k p, good p → M ≤ p + k → ∃ p, good p ∧ ∀ q, good q → q ≤ p := by
      intro k
      induction k with
      | zero => intro p hp h2; exact ⟨p, hp, fun q hq => Nat.le_trans (hM q hq.1) (by omega)⟩
      | succ k ih =>
        intro p hp h2
        by_cases hm : ∃ r, good r ∧ p < r
        · obtain ⟨r, hr, h4⟩ := hm
          exact ih r hr (by omega)
        · exact ⟨p, hp, fun q hq => Nat.le_of_not_lt fun h4 => hm ⟨q, hq, h4⟩⟩
    obtain ⟨p0, hp0⟩ := hleast
    obtain ⟨p, hp, hbest⟩ := hlast M p0 hp0 (by omega)
    have : chosen Soft.ops exact precs = some p := by
      cases exact with
      | false =>
        refine (c64_chosen precs hl p).2 ⟨hp.1, hp.2 rfl, fun q hq hlt => Nat.lt_of_not_le fun hc => ?_⟩
        have := hbest q ⟨hq, fun _ => hc⟩
        omega
      | true =>
        refine (c64_chosen_exact precs hl p).2 ⟨hp.1, fun q hq => hbest q ⟨hq, fun h => by cases h⟩⟩
    rw [this]
    rfl

/-! ### Whole files -/

/-- The fields of a line with a separator between them. -/
def joinFields (sep : Char) : List (List Char) → List Char
  | [] => []
  | [x] => x
  | x :: y :: r => x ++ sep :: joinFields sep (y :: r)

/-- A text file: each row on a line of its own. -/
def tableText (sep : Char) (rows : List (List Literal)) : List Char :=
  rows.flatMap (fun r => joinFields sep (r.map Literal.text) ++ ['\n'])

/-- With commas. -/
def csvText (rows : List (List Literal)) : List Char := tableText ',' rows

theorem splitOn_last {c : Char} {a : List Char} (h : c ∉ a) : splitOn c a = [a] := by
  induction a with
  | nil => rfl
  | cons x xs ih =>
    rw [List.mem_cons, not_or] at h
    rw [splitOn, if_neg (fun e => h.1 e.symm), ih h.2]

theorem splitOn_append {c : Char} {a : List Char} (h : c ∉ a) (b : List Char) :
    splitOn c (a ++ c :: b) = a :: splitOn c b := by
  induction a with
  | nil => simp [splitOn]
  | cons x xs ih =>
    rw [List.mem_cons, not_or] at h
    rw [List.cons_append, splitOn, if_neg (fun e => h.1 e.symm), ih h.2]

theorem dropCr_self {s : List Char} (h : '\r' ∉ s) : dropCr s = s := by
  unfold dropCr
  split
  · rename_i t ht
    exact absurd (by rw [← List.mem_reverse, ht]; exact List.mem_cons_self ..) h
  · rfl

theorem lines_text (L : List (List Char)) (h : ∀ x ∈ L, '\n' ∉ x ∧ '\r' ∉ x) :
    lines (L.flatMap (fun x => x ++ ['\n'])) = L := by
  have h1 : splitOn '\n' (L.flatMap (fun x => x ++ ['\n'])) = L ++ [[]] := by
    induction L with
    | nil => rfl
    | cons x xs ih =>
      rw [List.flatMap_cons, List.append_assoc, List.singleton_append,
        splitOn_append (h x (List.mem_cons_self ..)).1, ih fun y hy => h y (List.mem_cons_of_mem _ hy)]
      rfl
  unfold lines
  rw [h1, List.reverse_append]
  simp only [List.reverse_cons, List.reverse_nil, List.nil_append, List.singleton_append, List.reverse_reverse,
    if_true, List.append_nil]
  have h2 : ∀ M : List (List Char), (∀ x ∈ M, '\r' ∉ x) → M.map dropCr = M := by
    intro M hM
    induction M with
    | nil => rfl
    | cons x xs ih =>
      rw [List.map_cons, dropCr_self (hM x (List.mem_cons_self ..)), ih fun y hy => hM y (List.mem_cons_of_mem _ hy)]
  exact h2 L fun x hx => (h x hx).2

theorem dropWhile_none {f : Char → Bool} {s : List Char} (h : ∀ c ∈ s, f c = false) : s.dropWhile f = s := by
  cases s with
  | nil => rfl
  | cons x xs => rw [List.dropWhile_cons_of_neg (by rw [h x (List.mem_cons_self ..)]; decide)]

theorem trim_self {s : List Char} (h : ∀ c ∈ s, isSpace c = false) : trim s = s := by
  unfold trim
  rw [dropWhile_none h, dropWhile_none (fun c hc => h c (List.mem_reverse.1 hc)), List.reverse_reverse]

theorem splitOn_join {sep : Char} (x : List Char) (xs : List (List Char)) (h : ∀ z ∈ x :: xs, sep ∉ z) :
    splitOn sep (joinFields sep (x :: xs)) = x :: xs := by
  induction xs generalizing x with
  | nil => exact splitOn_last (h x (List.mem_cons_self ..))
  | cons y ys ih =>
    rw [joinFields, splitOn_append (h x (List.mem_cons_self ..)), ih y fun z hz => h z (List.mem_cons_of_mem _ hz)]

theorem fields_join {sep : Char} (fs : List (List Char)) (h : ∀ x ∈ fs, sep ∉ x ∧ x ≠ [] ∧ trim x = x) :
    fields sep (joinFields sep fs) = fs := by
  unfold fields
  cases fs with
  | nil => rfl
  | cons x xs =>
    rw [splitOn_join x xs fun z hz => (h z hz).1, List.filter_eq_self.2 (fun z hz => by simpa using (h z hz).2.1)]
    have : ∀ M : List (List Char), (∀ z ∈ M, trim z = z) → M.map trim = M := by
      intro M hM
      induction M with
      | nil => rfl
      | cons z zs ih =>
        rw [List.map_cons, hM z (List.mem_cons_self ..), ih fun y hy => hM y (List.mem_cons_of_mem _ hy)]
    exact this _ fun z hz => (h z hz).2.2

/-- The characters of literals. -/
def literalChars : List Char :=
  ['-', '+', '.', 'e', 'E', '0', '1', '2', '3', '4', '5', '6', '7', '8', '9']

theorem literalChars_ok : ∀ c ∈ literalChars, isSpace c = false ∧ c ≠ ',' ∧ c ≠ '\n' ∧ c ≠ '\r' := by decide

theorem digitChar_mem (d : Fin 10) : digitChar d ∈ literalChars := by revert d; decide

theorem text_chars (l : Literal) : ∀ c ∈ l.text, c ∈ literalChars := by
  have hs : ∀ s, ∀ c ∈ signText s, c ∈ literalChars := by
    intro s c hc
    rcases s with - | ⟨- | -⟩
    · cases hc
    · rw [List.mem_singleton.1 hc]; decide
    · rw [List.mem_singleton.1 hc]; decide
  have hd : ∀ ds : List (Fin 10), ∀ c ∈ ds.map digitChar, c ∈ literalChars := by
    intro ds c hc
    obtain ⟨d, -, rfl⟩ := List.mem_map.1 hc
    exact digitChar_mem d
  intro c hc
  unfold Literal.text at hc
  simp only [List.mem_append] at hc
  rcases hc with ((hc | hc) | hc) | hc
  · exact hs _ c hc
  · exact hd _ c hc
  · cases hf : l.frac with
    | none => rw [hf] at hc; cases hc
    | some f =>
      rw [hf] at hc
      rcases List.mem_cons.1 hc with rfl | hc
      · decide
      · exact hd _ c hc
  · cases he : l.exp with
    | none => rw [he] at hc; cases hc
    | some e =>
      obtain ⟨up, s, ds⟩ := e
      rw [he] at hc
      rcases List.mem_cons.1 hc with rfl | hc
      · cases up <;> decide
      · rcases List.mem_append.1 hc with hc | hc
        · exact hs _ c hc
        · exact hd _ c hc

theorem text_ne_nil {l : Literal} (h : l.WF) : l.text ≠ [] := by
  intro e
  unfold Literal.text at e
  simp only [List.append_eq_nil_iff, List.map_eq_nil_iff] at e
  apply h.1
  rw [e.1.1.2, List.nil_append]
  cases hf : l.frac with
  | none => rfl
  | some f => rw [hf] at e; cases e.1.2

/-- A separator between numbers. -/
def IsSep (sep : Char) : Prop := sep ∉ literalChars ∧ sep ≠ '\n' ∧ sep ≠ '\r'

theorem comma_sep : IsSep ',' := ⟨by decide, by decide, by decide⟩

theorem lines_tableText {sep : Char} (hs : IsSep sep) (rows : List (List Literal)) :
    lines (tableText sep rows) = rows.map (fun r => joinFields sep (r.map Literal.text)) := by
  have hj : ∀ (c : Char), c ≠ sep → (∀ l : Literal, c ∉ l.text) → ∀ r : List Literal,
      c ∉ joinFields sep (r.map Literal.text) := by
    intro c h1 h2 r
    induction r with
    | nil => simp [joinFields]
    | cons l ls ih =>
      cases ls with
      | nil => exact h2 l
      | cons l' ls =>
        simp only [List.map_cons, joinFields, List.mem_append, List.mem_cons, not_or] at ih ⊢
        exact ⟨h2 l, h1, ih⟩
  have e1 : tableText sep rows =
      (rows.map (fun r => joinFields sep (r.map Literal.text))).flatMap (fun x => x ++ ['\n']) := by
    unfold tableText
    rw [List.flatMap_map]
  rw [e1, lines_text]
  intro x hx
  obtain ⟨r, -, rfl⟩ := List.mem_map.1 hx
  exact ⟨hj _ (Ne.symm hs.2.1) (fun l hc => (literalChars_ok _ (text_chars l _ hc)).2.2.1 rfl) r,
    hj _ (Ne.symm hs.2.2) (fun l hc => (literalChars_ok _ (text_chars l _ hc)).2.2.2 rfl) r⟩

/-- The fields of a text are its literals, in order. -/
theorem allFields_tableText {sep : Char} (hs : IsSep sep) (rows : List (List Literal))
    (h : ∀ r ∈ rows, ∀ l ∈ r, l.WF) : allFields sep (tableText sep rows) = rows.flatten.map Literal.text := by
  have hf : ∀ r ∈ rows, fields sep (joinFields sep (r.map Literal.text)) = r.map Literal.text := by
    intro r hr
    apply fields_join
    intro x hx
    obtain ⟨l, hl, rfl⟩ := List.mem_map.1 hx
    refine ⟨fun hc => hs.1 (text_chars l _ hc), text_ne_nil (h r hr l hl), ?_⟩
    exact trim_self fun c hc => (literalChars_ok c (text_chars l c hc)).1
  unfold allFields
  rw [lines_tableText hs, List.flatMap_map]
  induction rows with
  | nil => rfl
  | cons r rs ih =>
    rw [List.flatMap_cons, hf r (List.mem_cons_self ..), ih (fun x hx => h x (List.mem_cons_of_mem _ hx))
      (fun x hx => hf x (List.mem_cons_of_mem _ hx)), List.flatten_cons, List.map_append]

theorem allFields_csvText (rows : List (List Literal)) (h : ∀ r ∈ rows, ∀ l ∈ r, l.WF) :
    allFields ',' (csvText rows) = rows.flatten.map Literal.text := allFields_tableText comma_sep rows h

/-- A literal the helper reads correctly. -/
structure Plain64 (l : Literal) : Prop where
  wf : l.WF
  lower : l.LowerE
  exponent : l.exponent.natAbs < 2 ^ 31
  places : l.places < 2 ^ 31
  needed : l.needed < 2 ^ 31

theorem precisions_tableText {sep : Char} (hs : IsSep sep) (rows : List (List Literal)) (h : ∀ r ∈ rows, ∀ l ∈ r, Plain64 l) :
    (allFields sep (tableText sep rows)).map decimalPrecision = rows.flatten.map Literal.needed := by
  rw [allFields_tableText hs rows fun r hr l hl => (h r hr l hl).wf, List.map_map]
  apply List.map_congr_left
  intro l hl
  obtain ⟨r, hr, hl⟩ := List.mem_flatten.1 hl
  have hp := h r hr l hl
  exact c64_precision_partial l hp.wf hp.lower hp.exponent hp.places hp.needed

/-- The answer for a file of literals, with `exact_precision`: every record is a multiple of `10^-p`, and one
of them needs that many decimals (`c64_needed_least`: no smaller `p` would do unless it ends in a zero). -/
theorem c64_file_exact {sep : Char} (hs : IsSep sep) (rows : List (List Literal)) (h : ∀ r ∈ rows, ∀ l ∈ r, Plain64 l)
    (hl : rows.flatten.length ≤ 2 ^ 52) (p : Nat)
    (hp : appropriatePrecision Soft.ops true sep (tableText sep rows) = .ok p) :
    (∀ l ∈ rows.flatten, ∃ m, l.Scaled p m) ∧ (∃ l ∈ rows.flatten, l.needed = p) := by
  unfold appropriatePrecision at hp
  rw [precisions_tableText hs rows h] at hp
  split at hp
  · rename_i q hq
    split at hp
    · cases hp
      obtain ⟨h1, h2⟩ := (c64_chosen_exact _ (by rw [List.length_map]; exact hl) p).1 hq
      refine ⟨fun l hm => c64_needed_enough l p (h2 _ (List.mem_map_of_mem hm)), ?_⟩
      obtain ⟨l, hm, he⟩ := List.mem_map.1 h1
      exact ⟨l, hm, he⟩
    · cases hp
  · cases hp

/-- Otherwise: fewer than one record in a hundred is not a multiple of `10^-p`. -/
theorem c64_file {sep : Char} (hs : IsSep sep) (rows : List (List Literal)) (h : ∀ r ∈ rows, ∀ l ∈ r, Plain64 l)
    (hl : rows.flatten.length ≤ 2 ^ 52) (p : Nat)
    (hp : appropriatePrecision Soft.ops false sep (tableText sep rows) = .ok p) :
    ∃ bad : List Literal, 100 * bad.length < rows.flatten.length ∧
      ∀ l ∈ rows.flatten, l ∈ bad ∨ ∃ m, l.Scaled p m := by
  unfold appropriatePrecision at hp
  rw [precisions_tableText hs rows h] at hp
  split at hp
  · rename_i q hq
    split at hp
    · cases hp
      have h1 := c64_few_above _ (by rw [List.length_map]; exact hl) p hq
      refine ⟨rows.flatten.filter (fun l => decide (p < l.needed)), ?_, fun l hm => ?_⟩
      · rw [List.countP_map, List.length_map] at h1
        rw [← List.countP_eq_length_filter]
        exact h1
      · by_cases hlt : p < l.needed
        · exact Or.inl (List.mem_filter.2 ⟨hm, by simpa using hlt⟩)
        · exact Or.inr (c64_needed_enough l p (by omega))
    · cases hp
  · cases hp

/-- Every file with a record gets a precision; an empty one is an error. -/
theorem c64_file_some {sep : Char} (hs : IsSep sep) (exact : Bool) (rows : List (List Literal)) (h : ∀ r ∈ rows, ∀ l ∈ r, Plain64 l)
    (hl : rows.flatten.length ≤ 2 ^ 52) :
    (∃ p, appropriatePrecision Soft.ops exact sep (tableText sep rows) = .ok p) ↔ rows.flatten ≠ [] := by
  unfold appropriatePrecision
  rw [precisions_tableText hs rows h]
  have h1 := c64_chosen_some exact (rows.flatten.map Literal.needed) (by rw [List.length_map]; exact hl)
  rw [ne_eq, List.map_eq_nil_iff] at h1
  rw [ne_eq, ← h1]
  cases hc : chosen Soft.ops exact (rows.flatten.map Literal.needed) with
  | none => simp
  | some p =>
    have hmem : p ∈ rows.flatten.map Literal.needed := ((chosen_iff Soft.ops exact _ p).1 hc).1
    obtain ⟨l, hm, he⟩ := List.mem_map.1 hmem
    obtain ⟨r, hr, hm⟩ := List.mem_flatten.1 hm
    have := (h r hr l hm).needed
    simp only [Option.isSome_some, iff_true]
    exact ⟨p, if_pos (by omega)⟩

example : (let rows := [[sampleLiteral, ⟨none, [7], none, none⟩], [⟨none, [1], some [2, 5], none⟩]]
    String.ofList (csvText rows) = "-12.5e-3,7\n1.25\n" ∧
      appropriatePrecision Soft.ops true ',' (csvText rows) = .ok 4 ∧
      defaultScale Soft.ops true (csvText rows) = .ok (some 10000) ∧
      appropriateScale Soft.ops ',' (csvText rows) = .ok 10000) := by decide +kernel

example : Plain64 sampleLiteral := by
  refine ⟨⟨by decide, ?_⟩, ?_, by decide, by decide, by decide⟩ <;> (intro e he; cases he; decide)

example : chosen Soft.ops false (List.replicate 198 1 ++ [2, 3, 4]) = some 2 ∧
    chosen Soft.ops true (List.replicate 198 1 ++ [2, 3, 4]) = some 4 := by decide +kernel

end Ebi.Props
