import Verif.Props.DecimalFile
import Verif.Props.Text
import Verif.Props.Ucr

/-!
# C62, C64, C65, C66: exactly which texts are numbers, and what happens to the others

The converse of `c65_parse`, the characters that count as blanks, and the outcomes that are errors or panics.
-/

namespace Ebi.Props

open Ebi Ebi.Decimal Ebi.Ucr Ebi.Soft Literal

/-! ### Blanks -/

/-- The 25 characters with the property `White_Space`. -/
def whiteSpace : List Nat :=
  [9, 10, 11, 12, 13, 32, 133, 160, 5760, 8192, 8193, 8194, 8195, 8196, 8197, 8198, 8199, 8200, 8201, 8202, 8232, 8233,
   8239, 8287, 12288]

/-- Trimming takes off these characters and no others. -/
theorem c64_space (c : Char) : isSpace c = true ↔ c.toNat ∈ whiteSpace := by
  unfold isSpace whiteSpace
  simp only [Bool.or_eq_true, Bool.and_eq_true, decide_eq_true_eq, beq_iff_eq, List.mem_cons, List.not_mem_nil, or_false]
  omega

/-! ### Numbers -/

theorem digit_some {c : Char} (h : (digit? c).isSome = true) : ∃ d : Fin 10, c = digitChar d := by
  unfold digit? at h
  split at h
  · rename_i hc
    refine ⟨⟨c.toNat - 48, by omega⟩, ?_⟩
    unfold digitChar
    simp only
    rw [show 48 + (c.toNat - 48) = c.toNat by omega]
    exact (Char.ofNat_toNat c).symm
  · cases h

theorem spanDigits_spec (s : List Char) : ∃ ds : List (Fin 10), (spanDigits s).1 = ds.map digitChar ∧
    s = ds.map digitChar ++ (spanDigits s).2 := by
  induction s with
  | nil => exact ⟨[], rfl, rfl⟩
  | cons c s ih =>
    obtain ⟨ds, h1, h2⟩ := ih
    rw [spanDigits]
    by_cases hc : (digit? c).isSome = true
    · obtain ⟨d, rfl⟩ := digit_some hc
      rw [if_pos hc]
      refine ⟨d :: ds, by rw [h1]; rfl, ?_⟩
      rw [List.map_cons, List.cons_append]
      exact congrArg _ h2
    · rw [if_neg hc]
      exact ⟨[], rfl, rfl⟩

theorem digits_some {s : List Char} {acc n : Nat} (h : digits acc s = some n) : ∃ ds : List (Fin 10), s = ds.map digitChar := by
  induction s generalizing acc with
  | nil => exact ⟨[], rfl⟩
  | cons c s ih =>
    rw [digits] at h
    cases hc : digit? c with
    | none => rw [hc] at h; cases h
    | some d =>
      rw [hc] at h
      obtain ⟨ds, rfl⟩ := ih h
      obtain ⟨e, rfl⟩ := digit_some (by rw [hc]; rfl)
      exact ⟨e :: ds, rfl⟩

theorem digits1_some {s : List Char} {n : Nat} (h : digits1 s = some n) : ∃ ds : List (Fin 10), ds ≠ [] ∧ s = ds.map digitChar := by
  unfold digits1 at h
  split at h
  · cases h
  · rename_i hs
    obtain ⟨ds, rfl⟩ := digits_some h
    exact ⟨ds, fun e => hs (by rw [e]; rfl), rfl⟩

theorem takeSign_spec (s : List Char) : ∃ sg : Option Bool, s = signText sg ++ (takeSign s).2 ∧
    (takeSign s).1 = (sg == some true) := by
  unfold takeSign
  split
  · exact ⟨some true, rfl, rfl⟩
  · exact ⟨some false, rfl, rfl⟩
  · exact ⟨none, rfl, rfl⟩

theorem parseExp_some {s : List Char} {x : Int} (h : parseExp s = some x) :
    ∃ e, s = expText e ∧ ∀ y, e = some y → y.2.2 ≠ [] := by
  cases s with
  | nil => exact ⟨none, rfl, by simp⟩
  | cons c t =>
    rw [parseExp] at h
    split at h
    · rename_i hc
      obtain ⟨n, h1, -⟩ := Option.map_eq_some_iff.1 h
      obtain ⟨ds, hne, h2⟩ := digits1_some h1
      obtain ⟨sg, h3, -⟩ := takeSign_spec t
      refine ⟨some (decide (c = 'E'), sg, ds), ?_, fun y hy => by cases hy; exact hne⟩
      simp only [expText, decide_eq_true_eq]
      rw [← h2, ← h3]
      rcases hc with rfl | rfl <;> simp
    · cases h

theorem takeFraction_spec (s : List Char) : ∃ f : Option (List (Fin 10)), s = fracText f ++ (takeFraction s).2 ∧
    (takeFraction s).1 = (f.getD []).map digitChar := by
  unfold takeFraction
  split
  · rename_i t
    obtain ⟨ds, h1, h2⟩ := spanDigits_spec t
    refine ⟨some ds, ?_, h1⟩
    simp only [fracText, List.cons_append]
    rw [← h2]
  · exact ⟨none, rfl, rfl⟩

theorem parseNumber_some {neg : Bool} {s : List Char} {v : B64} (h : parseNumber neg s = some v) (sg : Option Bool) :
    ∃ l : Literal, l.WF ∧ l.sign = sg ∧ signText sg ++ s = l.text := by
  unfold parseNumber at h
  simp only at h
  obtain ⟨ds, h1, h2⟩ := spanDigits_spec s
  obtain ⟨f, h3, h4⟩ := takeFraction_spec (spanDigits s).2
  split at h
  · rename_i n x hn hx
    obtain ⟨e, h5, h6⟩ := parseExp_some hx
    refine ⟨⟨sg, ds, f, e⟩, ⟨?_, h6⟩, rfl, ?_⟩
    · show ds ++ f.getD [] ≠ []
      obtain ⟨ds', hne, h7⟩ := digits1_some hn
      rw [h1, h4, ← List.map_append] at h7
      intro e0
      rw [e0] at h7
      cases ds' with
      | nil => exact hne rfl
      | cons _ _ => cases h7
    · show _ = signText sg ++ ds.map digitChar ++ fracText f ++ expText e
      rw [← h5, List.append_assoc, List.append_assoc]
      rw [← h3, ← h2]
  · cases h

/-- A word in letters of either case, given as pairs of both. -/
def Spelled : List Char → List (Char × Char) → Prop
  | [], [] => True
  | c :: w, p :: ps => (c = p.1 ∨ c = p.2) ∧ Spelled w ps
  | _, _ => False

def infWord : List (Char × Char) := [('i', 'I'), ('n', 'N'), ('f', 'F')]
def infinityWord : List (Char × Char) :=
  [('i', 'I'), ('n', 'N'), ('f', 'F'), ('i', 'I'), ('n', 'N'), ('i', 'I'), ('t', 'T'), ('y', 'Y')]
def nanWord : List (Char × Char) := [('n', 'N'), ('a', 'A'), ('n', 'N')]

theorem lower_eq {c : Char} {k : Nat} (hk : k < 26) : lower c = Char.ofNat (97 + k) ↔
    c = Char.ofNat (97 + k) ∨ c = Char.ofNat (65 + k) := by
  have inj : ∀ i j : Fin 26, Char.ofNat (97 + i.val) = Char.ofNat (97 + j.val) → i = j := by decide
  have big : ∀ j : Fin 26, ¬ (65 ≤ (Char.ofNat (97 + j.val)).toNat ∧ (Char.ofNat (97 + j.val)).toNat ≤ 90) := by decide
  have up : ∀ j : Fin 26, (Char.ofNat (65 + j.val)).toNat = 65 + j.val := by decide
  unfold lower
  split
  · rename_i hc
    have e1 : c.toNat + 32 = 97 + (c.toNat - 65) := by omega
    have e2 : c = Char.ofNat (65 + (c.toNat - 65)) := by
      rw [show 65 + (c.toNat - 65) = c.toNat by omega]
      exact (Char.ofNat_toNat c).symm
    rw [e1]
    constructor
    · intro h
      have := inj ⟨c.toNat - 65, by omega⟩ ⟨k, hk⟩ h
      rw [Fin.mk.injEq] at this
      exact Or.inr (by rw [← this]; exact e2)
    · rintro (h | h)
      · rw [h] at hc
        exact absurd hc (big ⟨k, hk⟩)
      · have := congrArg Char.toNat h
        rw [up ⟨k, hk⟩] at this
        rw [show c.toNat - 65 = k by simp only at this; omega]
  · rename_i hc
    constructor
    · exact Or.inl
    · rintro (h | h)
      · exact h
      · rw [h, up ⟨k, hk⟩] at hc
        simp only at hc
        omega

theorem lower_letter {c l u : Char} (k : Nat) (hk : k < 26) (hl : l = Char.ofNat (97 + k)) (hu : u = Char.ofNat (65 + k)) :
    lower c = l ↔ c = l ∨ c = u := by
  rw [hl, hu]
  exact lower_eq hk

theorem lower_word {w : List Char} : ∀ {ps : List (Char × Char)},
    (∀ p ∈ ps, ∀ c, lower c = p.1 ↔ c = p.1 ∨ c = p.2) → (w.map lower = ps.map Prod.fst ↔ Spelled w ps) := by
  induction w with
  | nil => intro ps _; cases ps <;> simp [Spelled]
  | cons c w ih =>
    intro ps h
    cases ps with
    | nil => simp [Spelled]
    | cons p ps =>
      simp only [List.map_cons, List.cons.injEq, Spelled]
      rw [h p (List.mem_cons_self ..) c, ih fun q hq => h q (List.mem_cons_of_mem _ hq)]

theorem letters (ps : List (Char × Char)) (h : ps ⊆ [('i', 'I'), ('n', 'N'), ('f', 'F'), ('t', 'T'), ('y', 'Y'), ('a', 'A')]) :
    ∀ p ∈ ps, ∀ c, lower c = p.1 ↔ c = p.1 ∨ c = p.2 := by
  intro p hp c
  have := h hp
  simp only [List.mem_cons, List.not_mem_nil, or_false] at this
  rcases this with rfl | rfl | rfl | rfl | rfl | rfl
  · exact lower_letter 8 (by decide) (by decide) (by decide)
  · exact lower_letter 13 (by decide) (by decide) (by decide)
  · exact lower_letter 5 (by decide) (by decide) (by decide)
  · exact lower_letter 19 (by decide) (by decide) (by decide)
  · exact lower_letter 24 (by decide) (by decide) (by decide)
  · exact lower_letter 0 (by decide) (by decide) (by decide)

/-- What a text means: a literal is the double nearest to it; `inf`, `infinity` and `nan` may be spelled in either case
and carry a sign; every other text is refused. -/
inductive Means : List Char → B64 → Prop
  | number (l : Literal) : l.WF → Means l.text l.toF64
  | infinite (sg : Option Bool) (w : List Char) : Spelled w infWord ∨ Spelled w infinityWord →
      Means (signText sg ++ w) (if sg = some true then 0xfff0000000000000#64 else 0x7ff0000000000000#64)
  | notANumber (sg : Option Bool) (w : List Char) : Spelled w nanWord →
      Means (signText sg ++ w) (if sg = some true then 0xfff8000000000000#64 else 0x7ff8000000000000#64)

theorem spelled_head {w : List Char} {p : Char × Char} {ps : List (Char × Char)} (h : Spelled w (p :: ps))
    (hp : p.1 ≠ '-' ∧ p.1 ≠ '+' ∧ p.2 ≠ '-' ∧ p.2 ≠ '+') : ∀ c t, w = c :: t → c ≠ '-' ∧ c ≠ '+' := by
  intro c t hw
  subst hw
  rcases h.1 with rfl | rfl
  · exact ⟨hp.1, hp.2.1⟩
  · exact ⟨hp.2.2.1, hp.2.2.2⟩

/-- Parsing accepts exactly the texts that mean something, and answers what they mean. -/
theorem c65_accepted (s : List Char) (v : B64) : parseF64 s = some v ↔ Means s v := by
  have i1 := fun w => lower_word (w := w) (letters infWord (by decide))
  have i2 := fun w => lower_word (w := w) (letters infinityWord (by decide))
  have i3 := fun w => lower_word (w := w) (letters nanWord (by decide))
  constructor
  · intro h
    obtain ⟨sg, h1, h2⟩ := takeSign_spec s
    unfold parseF64 at h
    simp only at h
    split at h
    · rename_i hw
      injection h with h
      have := Means.infinite sg (takeSign s).2 (hw.imp (i1 _).1 (i2 _).1)
      rw [← h1] at this
      rw [← h, h2]
      rcases sg with - | ⟨- | -⟩ <;> exact this
    · split at h
      · rename_i hw
        injection h with h
        have := Means.notANumber sg (takeSign s).2 ((i3 _).1 hw)
        rw [← h1] at this
        rw [← h, h2]
        rcases sg with - | ⟨- | -⟩ <;> exact this
      · rename_i hn1 hn2
        obtain ⟨l, h3, h4, h5⟩ := parseNumber_some h sg
        rw [h1, h5]
        have h6 := c65_parse l h3
        rw [← h5, ← h1] at h6
        unfold parseF64 at h6
        simp only at h6
        rw [if_neg hn1, if_neg hn2, h] at h6
        injection h6 with h6
        rw [h6]
        exact .number l h3
  · intro h
    cases h with
    | number l hl => exact c65_parse l hl
    | infinite sg w hw =>
      have hh : ∀ c t, w = c :: t → c ≠ '-' ∧ c ≠ '+' := by
        rcases hw with hw | hw
        · exact spelled_head hw (by decide)
        · exact spelled_head hw (by decide)
      unfold parseF64
      simp only [takeSign_text sg w hh]
      have hc : w.map lower = ['i', 'n', 'f'] ∨ w.map lower = ['i', 'n', 'f', 'i', 'n', 'i', 't', 'y'] :=
        hw.imp (i1 w).2 (i2 w).2
      rw [if_pos hc]
      rcases sg with - | ⟨- | -⟩ <;> decide
    | notANumber sg w hw =>
      have hh := spelled_head hw (by decide)
      have hl := (i3 w).2 hw
      unfold parseF64
      simp only [takeSign_text sg w hh]
      rw [if_neg (by rw [hl]; decide), if_pos (by rw [hl]; decide)]
      rcases sg with - | ⟨- | -⟩ <;> decide

/-- Three of each kind, and texts that are refused. -/
example : Means "-1.25e-3".toList 0xbf547ae147ae147b#64 ∧ Means "-iNfinitY".toList 0xfff0000000000000#64 ∧
    Means "+NaN".toList 0x7ff8000000000000#64 ∧ (∀ v, ¬ Means "1:5".toList v) ∧ (∀ v, ¬ Means "".toList v) ∧
    (∀ v, ¬ Means ".e5".toList v) ∧ (∀ v, ¬ Means "1e".toList v) ∧ ∀ v, ¬ Means " 1".toList v := by
  have no : ∀ s : List Char, parseF64 s = none → ∀ v, ¬ Means s v := by
    intro s hs v hm
    rw [(c65_accepted s v).2 hm] at hs
    cases hs
  exact ⟨(c65_accepted _ _).1 (by decide +kernel), (c65_accepted _ _).1 (by decide +kernel),
    (c65_accepted _ _).1 (by decide +kernel), no _ (by decide +kernel), no _ (by decide +kernel), no _ (by decide +kernel),
    no _ (by decide +kernel), no _ (by decide +kernel)⟩

/-! ### Errors -/

/-- Choosing a precision or a scale and converting a text may fail but not panic. -/
theorem c64_no_panic (o : FloatOps) (exact : Bool) (sep : Char) (text : List Char) :
    appropriatePrecision o exact sep text ≠ .panic ∧ appropriateScale o sep text ≠ .panic ∧
    defaultScale o exact text ≠ .panic ∧ csv2bin text ≠ .panic := by
  have h : ∀ sep, appropriatePrecision o exact sep text ≠ .panic := by
    intro sep
    unfold appropriatePrecision
    split
    · split <;> simp
    · simp
  refine ⟨h sep, ?_, ?_, ?_⟩
  · unfold appropriateScale
    split
    · split <;> simp
    · simp
  · have := h ','
    unfold defaultScale
    cases hp : appropriatePrecision o exact ',' text with
    | ok p => simp [Res.map]
    | err => simp [Res.map]
    | panic => exact absurd hp this
  · unfold csv2bin
    split <;> simp

/-- The scale of the default configurations is `10^p` up to `p = 19`; beyond, DeltaSprintz and BUFF are left out. -/
theorem c64_default_scale (o : FloatOps) (exact : Bool) (text : List Char) (r : Option Nat) :
    defaultScale o exact text = .ok r ↔ ∃ p, appropriatePrecision o exact ',' text = .ok p ∧
      ((p ≤ 19 ∧ r = some (10 ^ p)) ∨ (20 ≤ p ∧ r = none)) := by
  have h1 : ∀ p, 10 ^ p < 2 ^ 64 ↔ p ≤ 19 := by
    intro p
    constructor
    · intro h
      apply Nat.le_of_not_lt
      intro hp
      have : 10 ^ 20 ≤ 10 ^ p := Nat.pow_le_pow_right (by decide) hp
      omega
    · intro h
      exact Nat.lt_of_le_of_lt (Nat.pow_le_pow_right (by decide) h) (by decide)
  unfold defaultScale
  cases hp : appropriatePrecision o exact ',' text with
  | err => simp [Res.map]
  | panic => simp [Res.map]
  | ok p =>
    simp only [Res.map, Res.ok.injEq, h1, exists_eq_left']
    by_cases h : p ≤ 19
    · rw [if_pos h]
      constructor
      · intro e; exact Or.inl ⟨h, e.symm⟩
      · rintro (⟨-, e⟩ | ⟨h2, -⟩)
        · exact e.symm
        · omega
    · rw [if_neg h]
      constructor
      · intro e; exact Or.inr ⟨by omega, e.symm⟩
      · rintro (⟨h2, -⟩ | ⟨-, e⟩)
        · exact absurd h2 h
        · exact e.symm

/-- A value of a series that is not a number counts as zero. -/
theorem c66_missing (o : FloatOps) (prec : Int) (v : B64) : pixel o prec v =
    let w := if isNaN v = true then 0x0000000000000000#64 else v
    if 0 ≤ prec then roundByScale o w prec.toNat else w := by
  unfold pixel nanToZero
  by_cases h : prec < 0
  · simp [h, show ¬ (0 ≤ prec) by omega]
  · simp [h, show 0 ≤ prec by omega]

theorem parseAll_none {fs : List (List Char)} : parseAll fs = none ↔ ∃ f ∈ fs, parseF64 f = none := by
  induction fs with
  | nil => simp [parseAll]
  | cons f fs ih =>
    rw [parseAll]
    cases hf : parseF64 f with
    | none => simp [hf]
    | some v =>
      cases ha : parseAll fs with
      | none => simp [hf, ← ih, ha]
      | some ws =>
        rw [ha] at ih
        simp only [reduceCtorEq, false_iff] at ih
        simp [hf]
        intro g hg he
        exact ih ⟨g, hg, he⟩

theorem splitOn_ne (c : Char) (s : List Char) : splitOn c s ≠ [] := by
  cases s with
  | nil => simp [splitOn]
  | cons x xs =>
    rw [splitOn]
    split
    · simp
    · split <;> simp

/-- One field that is no number, in any line but the first, and loading the file panics; otherwise it succeeds. -/
theorem c66_malformed (o : FloatOps) (prec : Int) (text : List Char) :
    (slurp o prec text = .panic ↔ ∃ l ∈ (lines text).drop 1, ∃ f ∈ splitOn '\t' (trim l), ∀ v, ¬ Means f v) ∧
    slurp o prec text ≠ .err := by
  have hmean : ∀ f, parseF64 f = none ↔ ∀ v, ¬ Means f v := by
    intro f
    constructor
    · intro h v hm
      rw [(c65_accepted f v).2 hm] at h
      cases h
    · intro h
      cases hf : parseF64 f with
      | none => rfl
      | some v => exact absurd ((c65_accepted f v).1 hf) (h v)
  have one : ∀ l, (series o prec l = .panic ∧ ∃ f ∈ splitOn '\t' (trim l), ∀ v, ¬ Means f v) ∨
      ((∃ s, series o prec l = .ok s) ∧ ¬ ∃ f ∈ splitOn '\t' (trim l), ∀ v, ¬ Means f v) := by
    intro l
    have hp := parseAll_none (fs := splitOn '\t' (trim l))
    simp only [hmean] at hp
    unfold series
    cases ha : parseAll (splitOn '\t' (trim l)) with
    | none => exact Or.inl ⟨rfl, hp.1 ha⟩
    | some vs =>
      rw [ha] at hp
      right
      refine ⟨?_, fun h => by cases hp.2 h⟩
      cases vs with
      | nil =>
        have hne := splitOn_ne '\t' (trim l)
        cases hs : splitOn '\t' (trim l) with
        | nil => exact absurd hs hne
        | cons f fs =>
          rw [hs, parseAll] at ha
          split at ha <;> cases ha
      | cons v vs => exact ⟨_, rfl⟩
  unfold slurp
  generalize (lines text).drop 1 = ls
  induction ls with
  | nil => simp [seriesOf]
  | cons l ls ih =>
    rw [seriesOf]
    rcases one l with ⟨h1, h2⟩ | ⟨⟨s, h1⟩, h2⟩
    · rw [h1]
      refine ⟨⟨fun _ => ⟨l, List.mem_cons_self .., h2⟩, fun _ => rfl⟩, ?_⟩
      intro h; cases h
    · rw [h1]
      obtain ⟨i1, i2⟩ := ih
      simp only [Res.bind_ok, List.mem_cons, exists_eq_or_imp]
      cases hs : seriesOf o prec ls with
      | ok r =>
        rw [hs] at i1
        refine ⟨⟨fun h => (by cases h), fun h => ?_⟩, by intro h; cases h⟩
        rcases h with h | h
        · exact absurd h h2
        · cases i1.2 h
      | err => exact absurd hs i2
      | panic => exact ⟨⟨fun _ => Or.inr (i1.1 hs), fun _ => rfl⟩, by intro h; cases h⟩

/-- Without a scale for the training file there is no accuracy, and no panic either. -/
theorem c66_no_scale {E : Env} {cfg : Config} {stamp : Tpch.Stamp} {prec : Option Nat} {fuel n : Nat}
    {trainText testText : List Char} (h : appropriatePrecision E.o false '\t' trainText = .err ∨
      ∃ p, 20 ≤ p ∧ appropriatePrecision E.o false '\t' trainText = .ok p) :
    accuracy E cfg stamp prec fuel n trainText testText = some .err := by
  have : datasetScale E.o trainText = .err := by
    unfold datasetScale
    rcases h with h | ⟨p, h1, h⟩
    · rw [h]
    · rw [h]
      have : 10 ^ 20 ≤ 10 ^ p := Nat.pow_le_pow_right (by decide) h1
      simp only
      rw [if_neg (by omega)]
  unfold accuracy
  rw [this]
  rfl

/-- An empty training file is such a file; `1\t0.00000000000000000001` with its 20 decimals is another. -/
example : appropriatePrecision Soft.ops false '\t' [] = .err ∧
    appropriatePrecision Soft.ops false '\t' "0.12345678901234567891\n".toList = .ok 20 := by decide +kernel

/-! ### Columns that are not there -/

open Ebi.Tpch in
/-- Query 6 panics on a table without one of its columns, once the columns there are have been opened. -/
theorem c62_no_column {E : Env} {cfg : Config} {clock : Nat → Stamp} {t : Table} {ds : List Decoder}
    (h : openColumns E cfg clock 0 t = .ok ds) :
    lDiscount ∉ t.map Prod.fst ∨ lQuantity ∉ t.map Prod.fst ∨ lExtendedprice ∉ t.map Prod.fst →
      h06 E cfg clock t = .panic := by
  have idx : ∀ name : Name, (name ∉ t.map Prod.fst → t.index name = .panic) ∧ (t.index name = .panic ∨ ∃ i, t.index name = .ok i) := by
    intro name
    unfold Table.index
    cases hf : t.findIdx? (fun c => c.1 = name) with
    | none => exact ⟨fun _ => rfl, Or.inl rfl⟩
    | some i =>
      refine ⟨fun hn => ?_, Or.inr ⟨i, rfl⟩⟩
      exfalso
      apply hn
      have := List.findIdx?_eq_some_iff_getElem.1 hf
      obtain ⟨hi, he, -⟩ := this
      simp only [decide_eq_true_eq] at he
      exact List.mem_map.2 ⟨t[i], List.getElem_mem hi, he⟩
  intro hm
  unfold h06
  rw [h]
  simp only [Res.bind_ok]
  rcases (idx lDiscount).2 with h1 | ⟨i, h1⟩
  · rw [h1]; rfl
  rw [h1]
  simp only [Res.bind_ok]
  rcases (idx lQuantity).2 with h2 | ⟨j, h2⟩
  · rw [h2]; rfl
  rw [h2]
  simp only [Res.bind_ok]
  rcases (idx lExtendedprice).2 with h3 | ⟨k, h3⟩
  · rw [h3]; rfl
  rcases hm with hm | hm | hm
  · rw [(idx _).1 hm] at h1; cases h1
  · rw [(idx _).1 hm] at h2; cases h2
  · rw [(idx _).1 hm] at h3; cases h3

open Ebi.Tpch in
/-- The first column that cannot be written decides: an error of the encoder is an error of the query, a panic is a
panic. -/
theorem c62_unwritten {E : Env} {cfg : Config} {clock : Nat → Stamp} {pre suf : Table} {name : Name} {values : List B64}
    {ds : List Decoder} (h : openColumns E cfg clock 0 pre = .ok ds) :
    ((encoderArgs cfg (clock pre.length) values).encode (E.scheme cfg) = some .err →
      h06 E cfg clock (pre ++ (name, values) :: suf) = .err ∧ h01 E cfg clock (pre ++ (name, values) :: suf) = .err) ∧
    ((encoderArgs cfg (clock pre.length) values).encode (E.scheme cfg) = some .panic →
      h06 E cfg clock (pre ++ (name, values) :: suf) = .panic ∧ h01 E cfg clock (pre ++ (name, values) :: suf) = .panic) := by
  have key : ∀ (pre : Table) (i : Nat) (ds : List Decoder), openColumns E cfg clock i pre = .ok ds →
      ((encoderArgs cfg (clock (i + pre.length)) values).encode (E.scheme cfg) = some .err →
        openColumns E cfg clock i (pre ++ (name, values) :: suf) = .err) ∧
      ((encoderArgs cfg (clock (i + pre.length)) values).encode (E.scheme cfg) = some .panic →
        openColumns E cfg clock i (pre ++ (name, values) :: suf) = .panic) := by
    intro pre
    induction pre with
    | nil =>
      intro i ds _
      constructor
      · intro he
        simp only [List.nil_append, openColumns, openColumn, List.length_nil, Nat.add_zero] at he ⊢
        rw [he]; rfl
      · intro he
        simp only [List.nil_append, openColumns, openColumn, List.length_nil, Nat.add_zero] at he ⊢
        rw [he]; rfl
    | cons c pre ih =>
      intro i ds hd
      obtain ⟨cn, cv⟩ := c
      rw [openColumns] at hd
      cases h1 : openColumn E cfg (clock i) cv with
      | err => rw [h1] at hd; cases hd
      | panic => rw [h1] at hd; cases hd
      | ok d =>
        rw [h1] at hd
        simp only [Res.bind_ok] at hd
        cases h2 : openColumns E cfg clock (i + 1) pre with
        | err => rw [h2] at hd; cases hd
        | panic => rw [h2] at hd; cases hd
        | ok ds' =>
          have := ih (i + 1) ds' h2
          simp only [List.cons_append, openColumns, h1, Res.bind_ok, List.length_cons]
          rw [show i + (pre.length + 1) = i + 1 + pre.length by omega]
          exact ⟨fun he => by rw [this.1 he]; rfl, fun he => by rw [this.2 he]; rfl⟩
  obtain ⟨k1, k2⟩ := key pre 0 ds h
  rw [Nat.zero_add] at k1 k2
  refine ⟨fun he => ?_, fun he => ?_⟩
  · have := k1 he
    unfold h06 h01
    rw [this]
    exact ⟨rfl, rfl⟩
  · have := k2 he
    unfold h06 h01
    rw [this]
    exact ⟨rfl, rfl⟩

open Ebi.Tpch in
/-- A table without `l_quantity`, and a `gzip` that reports an error. -/
example : (∃ ds, openColumns tpchEnv (.uncompressed 8192#64) tpchClock 0 ((tpchTable 0#64 0#64).take 2) = .ok ds) ∧
    lQuantity ∉ ((tpchTable 0#64 0#64).take 2).map Prod.fst ∧
    (encoderArgs (.gzip 6#32) (tpchClock 0) [0#64]).encode
      (Env.scheme { tpchEnv with gzip := { tpchEnv.gzip with enc := fun _ => none } } (.gzip 6#32)) = some .err := by
  have key : ∀ r : Res (List Decoder), (match r with | .ok _ => true | _ => false) = true → ∃ ds, r = .ok ds := by
    intro r h
    cases r with
    | ok ds => exact ⟨ds, rfl⟩
    | err => cases h
    | panic => cases h
  exact ⟨key _ (by decide +kernel), by decide, by decide +kernel⟩

end Ebi.Props
