import Verif.Ucr
import Verif.Props.DecimalFile
import Verif.Props.Tpch

/-!
# C66: the accuracy the UCR2018 driver reports

The accuracy is the share of the test series whose nearest training series carries their label, but both files
lose their first series.
-/

namespace Ebi.Props

open Ebi Ebi.Decimal Ebi.Ucr Ebi.Soft

/-! ### What accuracy means -/

/-- `j` is the last of the training series nearest to `x`; distances that are no numbers do not count. -/
def NearestSeries (o : FloatOps) (train : List Series) (x : Series) (j : Nat) : Prop :=
  ∃ s, train[j]? = some s ∧ isNaN (squaredDistance o s.values x.values) = false ∧
    ∀ i s', train[i]? = some s' → isNaN (squaredDistance o s'.values x.values) = false →
      fle (squaredDistance o s.values x.values) (squaredDistance o s'.values x.values) = true ∧
      (j < i → fle (squaredDistance o s'.values x.values) (squaredDistance o s.values x.values) = false)

/-- The nearest series carries the label of `x`. -/
def Classified (o : FloatOps) (train : List Series) (x : Series) : Prop :=
  ∃ j s, NearestSeries o train x j ∧ train[j]? = some s ∧ s.label = x.label

/-- `acc` is the share of the test series that are classified correctly. -/
def IsAccuracy (o : FloatOps) (train test : List Series) (acc : B64) : Prop :=
  ∃ marks : List Bool, marks.length = test.length ∧
    (∀ (i : Nat) (x : Series), test[i]? = some x → (marks[i]? = some true ↔ Classified o train x)) ∧
    acc = o.div (o.ofNat (marks.count true)) (o.ofNat test.length)

theorem nearestSeries_unique {o : FloatOps} {train : List Series} {x : Series} {i j : Nat}
    (hi : NearestSeries o train x i) (hj : NearestSeries o train x j) : i = j := by
  obtain ⟨s, a1, a2, a3⟩ := hi
  obtain ⟨t, b1, b2, b3⟩ := hj
  rcases Nat.lt_trichotomy i j with h | h | h
  · have e1 := (a3 j t b1 b2).2 h
    have e2 := (b3 i s a1 a2).1
    rw [e1] at e2; cases e2
  · exact h
  · have e1 := (b3 i s a1 a2).2 h
    have e2 := (a3 j t b1 b2).1
    rw [e1] at e2; cases e2

theorem isAccuracy_unique {o : FloatOps} {train test : List Series} {a b : B64} (ha : IsAccuracy o train test a)
    (hb : IsAccuracy o train test b) : a = b := by
  obtain ⟨m, h1, h2, rfl⟩ := ha
  obtain ⟨n, g1, g2, rfl⟩ := hb
  have : m = n := by
    apply List.ext_getElem (by omega)
    intro i hm hn
    have hx : i < test.length := by omega
    have e1 := h2 i test[i] (List.getElem?_eq_getElem hx)
    have e2 := g2 i test[i] (List.getElem?_eq_getElem hx)
    rw [← e2, List.getElem?_eq_getElem hm, List.getElem?_eq_getElem hn, Option.some.injEq, Option.some.injEq] at e1
    cases hA : m[i] <;> cases hB : n[i] <;> simp_all
  rw [this]

/-! ### From the flat file to series -/

/-- The training series as the file gives them back. -/
def readBackSeries (E : Env) (cfg : Config) (s : Series) : Series := ⟨s.label, s.values.map (readBack E cfg)⟩

theorem vectorAt_series {t : Nat} (train : List Series) (ht : ∀ s ∈ train, s.values.length = t) (i : Nat) (s : Series)
    (h : train[i]? = some s) : vectorAt t (train.flatMap Series.values) i = s.values := by
  induction train generalizing i with
  | nil => cases h
  | cons y ys ih =>
    have hy := ht y (List.mem_cons_self ..)
    cases i with
    | zero =>
      cases h
      unfold vectorAt
      rw [List.flatMap_cons, Nat.zero_mul, List.drop_zero, ← hy, List.take_left]
    | succ i =>
      rw [List.flatMap_cons, show i + 1 = 1 + i by omega,
        vectorAt_append_right (k := 1) (by rw [hy, Nat.one_mul])]
      exact ih (fun s hs => ht s (List.mem_cons_of_mem _ hs)) i h

theorem flatMap_values_length {t : Nat} (train : List Series) (ht : ∀ s ∈ train, s.values.length = t) :
    (train.flatMap Series.values).length = train.length * t := by
  induction train with
  | nil => simp
  | cons y ys ih =>
    rw [List.flatMap_cons, List.length_append, ht y (List.mem_cons_self ..),
      ih fun s hs => ht s (List.mem_cons_of_mem _ hs), List.length_cons, Nat.succ_mul, Nat.add_comm]

/-- The answer of the search, in terms of series. -/
theorem nearest_series {o : FloatOps} {train : List Series} {x : Series} (ht0 : x.values ≠ [])
    (ht : ∀ s ∈ train, s.values.length = x.values.length) {r : Knn}
    (h : Nearest o x.values (train.flatMap Series.values) r) :
    NearestSeries o train x r.index ∨
      (r.index = 2 ^ 64 - 1 ∧ ∀ s ∈ train, isNaN (squaredDistance o s.values x.values) = true) := by
  have hpos : 0 < x.values.length := List.length_pos_iff.2 ht0
  have hn : (train.flatMap Series.values).length / x.values.length = train.length := by
    rw [flatMap_values_length train ht, Nat.mul_div_cancel _ hpos]
  unfold Nearest at h
  simp only [hn] at h
  rcases h with ⟨h1, h2, h3, h4⟩ | ⟨h1, h2⟩
  · left
    have e : train[r.index]? = some train[r.index] := List.getElem?_eq_getElem h1
    rw [vectorAt_series train ht _ _ e] at h2
    rw [h2] at h3 h4
    refine ⟨_, e, h3, fun i s' hs' hnum => ?_⟩
    obtain ⟨hi, -⟩ := List.getElem?_eq_some_iff.1 hs'
    have := h4 i hi (by rw [vectorAt_series train ht _ _ hs']; exact hnum)
    rw [vectorAt_series train ht _ _ hs'] at this
    exact this
  · right
    refine ⟨by rw [h1], fun s hs => ?_⟩
    obtain ⟨i, hi, rfl⟩ := List.getElem_of_mem hs
    have := h2 i hi
    rw [vectorAt_series train ht _ _ (List.getElem?_eq_getElem hi)] at this
    exact this

/-! ### The run -/

/-- A training set the configuration carries: series of `t > 0` values each, none of which it loses, and either all
in one chunk or chunks of whole series. -/
structure Trained (E : Env) (cfg : Config) (stamp : Tpch.Stamp) (train : List Series) (t : Nat) : Prop where
  libraries : LosslessLibraries E
  supported : Supported E cfg
  nonempty : train ≠ []
  positive : 0 < t
  length : ∀ s ∈ train, s.values.length = t
  small : train.length * t < 2 ^ 60
  limit : cfg.scheme = .buff → train.length * t < 2 ^ 32
  whole : t ∣ 2 ^ 24 ∨ train.length * t ≤ 2 ^ 24
  accepts : ∀ s ∈ train, ∀ v ∈ s.values, Accepts E cfg v
  version : stamp.version.1 < 2 ^ 16 ∧ stamp.version.2.1 < 2 ^ 16 ∧ stamp.version.2.2 < 2 ^ 16
  times : stamp.times.WF
  elapsed : stamp.elapsed.WF
  files : ∀ file, encodeTrain E cfg stamp train = some (.ok file) → file.length < 2 ^ 63

theorem encodeTrain_written {E : Env} {cfg : Config} {stamp : Tpch.Stamp} {train : List Series} {t : Nat}
    (h : Trained E cfg stamp train t) :
    ∃ file m, encodeTrain E cfg stamp train = some (.ok file) ∧ openFile file = .ok m ∧
      Written E (Tpch.encoderArgs cfg stamp (train.flatMap Series.values)) file m := by
  have hlen := flatMap_values_length train h.length
  have hpos : 0 < train.length * t := Nat.mul_pos (List.length_pos_iff.2 h.nonempty) h.positive
  have hs := h.small
  have hacc : ∀ v ∈ train.flatMap Series.values, Accepts E cfg v := by
    intro v hv
    obtain ⟨s, hs, hv⟩ := List.mem_flatMap.1 hv
    exact h.accepts s hs v hv
  have hfiles := h.files
  unfold encodeTrain at hfiles ⊢
  generalize train.flatMap Series.values = vs at *
  have hne : vs ≠ [] := by intro e; rw [e] at hlen; simp at hlen; omega
  have hb : ofF64s vs ≠ [] := by
    intro e
    have h6 := congrArg List.length e
    simp at h6
    omega
  have hrec := encoderArgs_records cfg stamp vs
  have hv : (Tpch.encoderArgs cfg stamp vs).Valid := by
    refine ⟨?_, ?_, h.version.1, h.version.2.1, h.version.2.2, h.times, h.elapsed, ?_, ?_⟩
    · show (ChunkOption.recordCount _).Positive
      exact ⟨by omega, by omega⟩
    · show (ChunkOption.recordCount _).WF
      simp only [ChunkOption.WF, ChunkOption.value]; omega
    · simp [Tpch.encoderArgs, hne, Source.Clean, hb]
    · simp [Tpch.encoderArgs, hne, Source.data, hlen]; omega
  have h8 : 8 ≤ (Tpch.encoderArgs cfg stamp vs).src.data.length := by
    have := (Tpch.encoderArgs cfg stamp vs).records_length
    rw [hrec] at this
    omega
  obtain ⟨file, h1, h2⟩ := written E h.libraries (Tpch.encoderArgs cfg stamp vs) h.supported hv
    (by rw [hrec]; exact hacc) (by rw [hrec, hlen]; exact h.limit) h8
  obtain ⟨m, hw⟩ := h2 (hfiles file h1)
  exact ⟨file, m, h1, hw.encoded.opened, hw⟩

section Run

variable {E : Env} {cfg : Config} {stamp : Tpch.Stamp} {train : List Series} {t : Nat} {file : List Byte} {m : Metadata}
  {prec : Option Nat} {fuel : Nat}

theorem encoderArgs_whole (h : Trained E cfg stamp train t) :
    WholeVectors t (Tpch.encoderArgs cfg stamp (train.flatMap Series.values)) := by
  intro k hk
  have : k = 2 ^ 24 := by
    have : (ChunkOption.recordCount (128 * 1024 * 1024 / 8)).recordsPerChunk = some k := hk
    simp [ChunkOption.recordsPerChunk] at this
    omega
  rw [this, encoderArgs_records, flatMap_values_length train h.length]
  exact h.whole

/-- One search: with a distance that is a number the answer is whether `x` is classified, otherwise it panics. -/
theorem trial_spec (h : Trained E cfg stamp train t) (ho : openFile file = .ok m)
    (hw : Written E (Tpch.encoderArgs cfg stamp (train.flatMap Series.values)) file m)
    (hp : prec = none ∨ cfg.scheme ≠ .buff) (hfuel : train.length * t < fuel) (x : Series)
    (hx : x.values.length = t) :
    (∃ b, trial E file prec train fuel x = some (.ok b) ∧
      (b = true ↔ Classified E.o (train.map (readBackSeries E cfg)) x) ∧
      ∃ s ∈ train, isNaN (squaredDistance E.o (s.values.map (readBack E cfg)) x.values) = false) ∨
    (trial E file prec train fuel x = some .panic ∧
      ∀ s ∈ train, isNaN (squaredDistance E.o (s.values.map (readBack E cfg)) x.values) = true) := by
  have hx0 : x.values ≠ [] := by
    intro e
    rw [e] at hx
    have := h.positive
    simp at hx
    omega
  have hlen := flatMap_values_length train h.length
  obtain ⟨r, h1, h2⟩ := c41_knn_partial hw prec hp hx0 (by rw [hx]; exact encoderArgs_whole h) (fuel := fuel)
    (by rw [encoderArgs_records, hlen]; exact hfuel)
  rw [encoderArgs_records] at h2
  have e1 : (train.flatMap Series.values).map (readBack E (Tpch.encoderArgs cfg stamp
      (train.flatMap Series.values)).cfg) = (train.map (readBackSeries E cfg)).flatMap Series.values := by
    show (train.flatMap Series.values).map (readBack E cfg) = _
    rw [List.map_flatMap, List.flatMap_map]
    rfl
  rw [e1] at h2
  have hl : ∀ s ∈ train.map (readBackSeries E cfg), s.values.length = x.values.length := by
    intro s hs
    obtain ⟨y, hy, rfl⟩ := List.mem_map.1 hs
    rw [hx, ← h.length y hy]
    simp [readBackSeries]
  have e2 : trial E file prec train fuel x =
      match train[r.index]? with
      | some s => some (.ok (x.label == s.label))
      | none => some .panic := by
    unfold trial openTrain
    rw [ho]
    simp only [Res.map_ok, andThen, h1]
    cases train[r.index]? <;> rfl
  rcases nearest_series hx0 hl h2 with h3 | ⟨h3, h4⟩
  · left
    obtain ⟨s', hs', hnum, -⟩ := id h3
    rw [List.getElem?_map] at hs'
    obtain ⟨s, hs, rfl⟩ := Option.map_eq_some_iff.1 hs'
    refine ⟨x.label == s.label, by rw [e2, hs], ?_, s, List.mem_of_getElem? hs, hnum⟩
    rw [beq_iff_eq]
    constructor
    · intro he
      exact ⟨r.index, readBackSeries E cfg s, h3, by rw [List.getElem?_map, hs]; rfl, he.symm⟩
    · rintro ⟨j, s2, g1, g2, g3⟩
      have := nearestSeries_unique h3 g1
      subst this
      rw [List.getElem?_map, hs] at g2
      cases g2
      exact g3.symm
  · right
    refine ⟨?_, fun s hs => h4 _ (List.mem_map_of_mem hs)⟩
    have : train[r.index]? = none := by
      apply List.getElem?_eq_none
      have a := h.small
      have b : train.length ≤ train.length * t := Nat.le_mul_of_pos_right _ h.positive
      omega
    rw [e2, this]

theorem trials_ok {x : Series} {b : Bool} (h : trial E file prec train fuel x = some (.ok b)) (n : Nat) (c : Bool) :
    trials E file prec train fuel x (n + 1) c = some (.ok b) := by
  induction n generalizing c with
  | zero => rw [trials, h]; rfl
  | succ n ih => rw [trials, h]; exact ih b

theorem trials_panic {x : Series} (h : trial E file prec train fuel x = some .panic) (n : Nat) (c : Bool) :
    trials E file prec train fuel x (n + 1) c = some .panic := by
  rw [trials, h]; rfl

theorem countCorrect_ok {n : Nat} (P : Series → Prop) (xs : List Series)
    (h : ∀ x ∈ xs, ∃ b, trial E file prec train fuel x = some (.ok b) ∧ (b = true ↔ P x)) (k : Nat) :
    ∃ marks : List Bool, marks.length = xs.length ∧
      (∀ (i : Nat) (x : Series), xs[i]? = some x → (marks[i]? = some true ↔ P x)) ∧
      countCorrect E file prec train fuel (n + 1) xs k = some (.ok (k + marks.count true)) := by
  induction xs generalizing k with
  | nil => exact ⟨[], rfl, fun i x hx => (by cases hx), rfl⟩
  | cons x xs ih =>
    obtain ⟨b, h1, h2⟩ := h x (List.mem_cons_self ..)
    obtain ⟨marks, g1, g2, g3⟩ := ih (fun y hy => h y (List.mem_cons_of_mem _ hy)) (if b then k + 1 else k)
    refine ⟨b :: marks, by simp [g1], fun i y hy => ?_, ?_⟩
    · cases i with
      | zero => cases hy; rw [← h2]; simp
      | succ i => exact g2 i y hy
    · rw [countCorrect, trials_ok h1]
      show countCorrect E file prec train fuel (n + 1) xs (if b then k + 1 else k) = _
      rw [g3]
      cases b <;> simp <;> omega

theorem countCorrect_panic {n : Nat} (xs : List Series)
    (h : ∀ x ∈ xs, (∃ b, trial E file prec train fuel x = some (.ok b)) ∨ trial E file prec train fuel x = some .panic)
    (hb : ∃ x ∈ xs, trial E file prec train fuel x = some .panic) (k : Nat) :
    countCorrect E file prec train fuel (n + 1) xs k = some .panic := by
  induction xs generalizing k with
  | nil => obtain ⟨x, hx, -⟩ := hb; cases hx
  | cons x xs ih =>
    rcases h x (List.mem_cons_self ..) with ⟨b, h1⟩ | h1
    · rw [countCorrect, trials_ok h1]
      show countCorrect E file prec train fuel (n + 1) xs (if b then k + 1 else k) = _
      refine ih (fun y hy => h y (List.mem_cons_of_mem _ hy)) ?_ _
      obtain ⟨y, hy, h2⟩ := hb
      rcases List.mem_cons.1 hy with rfl | hy
      · rw [h1] at h2; cases h2
      · exact ⟨y, hy, h2⟩
    · rw [countCorrect, trials_panic h1]; rfl

theorem countCorrect_zero (xs : List Series) (k : Nat) :
    countCorrect E file prec train fuel 0 xs k = some (.ok k) := by
  induction xs generalizing k with
  | nil => rfl
  | cons x xs ih => rw [countCorrect]; exact ih k

end Run

/-! ### Whole runs -/

/-- What the run does after the files are read. -/
theorem accuracy_eq {E : Env} {cfg : Config} {stamp : Tpch.Stamp} {prec : Option Nat} {fuel n : Nat}
    {trainText testText : List Char} {scale : Nat} {train test : List Series} {t : Nat}
    (hs : datasetScale E.o trainText = .ok scale)
    (htest : slurp E.o (asI32 scale) testText = .ok test) (htrain : slurp E.o (asI32 scale) trainText = .ok train)
    (h : Trained E (setScale cfg (BitVec.ofNat 64 scale)) stamp train t) (hp : prec = none ∨ cfg.scheme ≠ .buff)
    (hne : test ≠ []) :
    ∃ file m, openFile file = .ok m ∧
      Written E (Tpch.encoderArgs (setScale cfg (BitVec.ofNat 64 scale)) stamp (train.flatMap Series.values)) file m ∧
      accuracy E cfg stamp prec fuel n trainText testText =
        andThen (countCorrect E file prec train fuel n test 0) fun k =>
          some (.ok (E.o.div (E.o.ofNat k) (E.o.ofNat test.length))) := by
  obtain ⟨file, m, h1, h2, h3⟩ := encodeTrain_written h
  refine ⟨file, m, h2, h3, ?_⟩
  have h4 := c30_every_scheme h3 prec (hp.imp id (fun hc => by
    show (setScale cfg _).scheme ≠ _
    cases cfg <;> exact hc)) none (Or.inl rfl)
  unfold accuracy
  simp only [hs, htest, htrain, andThen, if_neg hne, h1, openTrain, h2, Res.map_ok, h4]

section Full

variable {E : Env} {cfg : Config} {stamp : Tpch.Stamp} {prec : Option Nat} {fuel n : Nat}
  {trainText testText : List Char} {scale : Nat} {train test : List Series} {t : Nat}

theorem setScale_scheme (cfg : Config) (s : BitVec 64) : (setScale cfg s).scheme = cfg.scheme := by
  cases cfg <;> rfl

/-- The share reported is the accuracy of classification by the nearest series of the training data as the file
gives it back, whatever the scheme and however often (at least once) each search is repeated. Missing from the full
claim: `train` and `test` are the series without the first of each file (`c66_first_lost`), and the data is
rounded correctly only up to nine decimals (`c66_scale_cast`). -/
theorem c66_accuracy_partial (hs : datasetScale E.o trainText = .ok scale)
    (htest : slurp E.o (asI32 scale) testText = .ok test) (htrain : slurp E.o (asI32 scale) trainText = .ok train)
    (h : Trained E (setScale cfg (BitVec.ofNat 64 scale)) stamp train t) (hp : prec = none ∨ cfg.scheme ≠ .buff)
    (hne : test ≠ []) (hlen : ∀ x ∈ test, x.values.length = t) (hfuel : train.length * t < fuel)
    (hnum : ∀ x ∈ test, ∃ s ∈ train, isNaN (squaredDistance E.o
      (s.values.map (readBack E (setScale cfg (BitVec.ofNat 64 scale)))) x.values) = false) :
    ∃ acc, accuracy E cfg stamp prec fuel (n + 1) trainText testText = some (.ok acc) ∧
      IsAccuracy E.o (train.map (readBackSeries E (setScale cfg (BitVec.ofNat 64 scale)))) test acc := by
  obtain ⟨file, m, h1, h2, h3⟩ := accuracy_eq (fuel := fuel) (n := n + 1) hs htest htrain h hp hne
  obtain ⟨marks, g1, g2, g3⟩ := countCorrect_ok (E := E) (file := file) (prec := prec) (train := train) (fuel := fuel)
    (n := n) (Classified E.o (train.map (readBackSeries E (setScale cfg (BitVec.ofNat 64 scale))))) test (by
      intro x hx
      rcases trial_spec h h1 h2 (hp.imp id (by rw [setScale_scheme]; exact id)) hfuel x (hlen x hx) with
        ⟨b, k1, k2, -⟩ | ⟨-, k2⟩
      · exact ⟨b, k1, k2⟩
      · obtain ⟨s, hs, hn⟩ := hnum x hx
        rw [k2 s hs] at hn; cases hn) 0
  refine ⟨_, ?_, marks, g1, g2, rfl⟩
  rw [h3, g3, Nat.zero_add]
  rfl

/-- A test series without any distance that is a number: the run panics on the index. -/
theorem c66_no_distance (hs : datasetScale E.o trainText = .ok scale)
    (htest : slurp E.o (asI32 scale) testText = .ok test) (htrain : slurp E.o (asI32 scale) trainText = .ok train)
    (h : Trained E (setScale cfg (BitVec.ofNat 64 scale)) stamp train t) (hp : prec = none ∨ cfg.scheme ≠ .buff)
    (hlen : ∀ x ∈ test, x.values.length = t) (hfuel : train.length * t < fuel)
    (hnum : ∃ x ∈ test, ∀ s ∈ train, isNaN (squaredDistance E.o
      (s.values.map (readBack E (setScale cfg (BitVec.ofNat 64 scale)))) x.values) = true) :
    accuracy E cfg stamp prec fuel (n + 1) trainText testText = some .panic := by
  obtain ⟨x, hx, hx2⟩ := hnum
  obtain ⟨file, m, h1, h2, h3⟩ := accuracy_eq (fuel := fuel) (n := n + 1) hs htest htrain h hp (List.ne_nil_of_mem hx)
  have hp' : prec = none ∨ (setScale cfg (BitVec.ofNat 64 scale)).scheme ≠ .buff := by
    rw [setScale_scheme]; exact hp
  rw [h3, countCorrect_panic test ?_ ⟨x, hx, ?_⟩]
  · rfl
  · intro y hy
    rcases trial_spec h h1 h2 hp' hfuel y (hlen y hy) with ⟨b, k1, -⟩ | ⟨k1, -⟩
    · exact Or.inl ⟨b, k1⟩
    · exact Or.inr k1
  · rcases trial_spec h h1 h2 hp' hfuel x (hlen x hx) with ⟨b, -, -, s, k1, k2⟩ | ⟨k1, -⟩
    · rw [hx2 s k1] at k2; cases k2
    · exact k1

/-- With no repetition at all nothing is searched and the accuracy is zero over the number of series. -/
theorem c66_no_repetition (hs : datasetScale E.o trainText = .ok scale)
    (htest : slurp E.o (asI32 scale) testText = .ok test) (htrain : slurp E.o (asI32 scale) trainText = .ok train)
    (h : Trained E (setScale cfg (BitVec.ofNat 64 scale)) stamp train t) (hp : prec = none ∨ cfg.scheme ≠ .buff)
    (hne : test ≠ []) :
    accuracy E cfg stamp prec fuel 0 trainText testText = some (.ok (E.o.div (E.o.ofNat 0) (E.o.ofNat test.length))) := by
  obtain ⟨file, m, h1, h2, h3⟩ := accuracy_eq (fuel := fuel) (n := 0) hs htest htrain h hp hne
  rw [h3, countCorrect_zero]
  rfl

/-- The configurations that give every value back. -/
def ReadsBack (E : Env) (cfg : Config) (train : List Series) : Prop := ∀ s ∈ train, ∀ v ∈ s.values, readBack E cfg v = v

theorem readBackSeries_self (h : ReadsBack E cfg train) : train.map (readBackSeries E cfg) = train := by
  have : ∀ s ∈ train, readBackSeries E cfg s = s := by
    intro s hs
    obtain ⟨l, vs⟩ := s
    unfold readBackSeries
    congr 1
    have h1 := h _ hs
    simp only at h1
    clear h hs
    induction vs with
    | nil => rfl
    | cons v vs ih =>
      rw [List.map_cons, h1 v (List.mem_cons_self ..), ih fun w hw => h1 w (List.mem_cons_of_mem _ hw)]
  rw [List.map_congr_left this]
  simp

/-- The accuracy does not depend on the compression, among the configurations that give the data back. -/
theorem c66_same_accuracy {cfg' : Config} {stamp' : Tpch.Stamp} {prec' : Option Nat} {n' : Nat}
    (hs : datasetScale E.o trainText = .ok scale)
    (htest : slurp E.o (asI32 scale) testText = .ok test) (htrain : slurp E.o (asI32 scale) trainText = .ok train)
    (h : Trained E (setScale cfg (BitVec.ofNat 64 scale)) stamp train t)
    (h' : Trained E (setScale cfg' (BitVec.ofNat 64 scale)) stamp' train t)
    (hp : prec = none ∨ cfg.scheme ≠ .buff) (hp' : prec' = none ∨ cfg'.scheme ≠ .buff)
    (hr : ReadsBack E (setScale cfg (BitVec.ofNat 64 scale)) train)
    (hr' : ReadsBack E (setScale cfg' (BitVec.ofNat 64 scale)) train)
    (hne : test ≠ []) (hlen : ∀ x ∈ test, x.values.length = t) (hfuel : train.length * t < fuel)
    (hnum : ∀ x ∈ test, ∃ s ∈ train, isNaN (squaredDistance E.o s.values x.values) = false) :
    accuracy E cfg stamp prec fuel (n + 1) trainText testText =
      accuracy E cfg' stamp' prec' fuel (n' + 1) trainText testText := by
  have key : ∀ {c : Config}, ReadsBack E c train → ∀ x ∈ test, ∃ s ∈ train,
      isNaN (squaredDistance E.o (s.values.map (readBack E c)) x.values) = false := by
    intro c hc x hx
    obtain ⟨s, hs, hn⟩ := hnum x hx
    refine ⟨s, hs, ?_⟩
    have : s.values.map (readBack E c) = s.values := by
      rw [List.map_congr_left (hc s hs)]; simp
    rw [this]; exact hn
  obtain ⟨a, g1, g2⟩ := c66_accuracy_partial (n := n) hs htest htrain h hp hne hlen hfuel (key hr)
  obtain ⟨b, k1, k2⟩ := c66_accuracy_partial (n := n') hs htest htrain h' hp' hne hlen hfuel (key hr')
  rw [readBackSeries_self hr] at g2
  rw [readBackSeries_self hr'] at k2
  rw [g1, k1, isAccuracy_unique g2 k2]

end Full

attribute [local irreducible] roundMag magVal Elf.U near nearest

/-! ### From the text -/

/-- A labelled series as it is written: its label and its values. -/
abbrev Row := Literal × List Literal

/-- The file of these series. -/
def tsvText (rows : List Row) : List Char := tableText '\t' (rows.map fun r => r.1 :: r.2)

/-- The series a row stands for, its values rounded to `p` decimals. -/
def rowSeries (p : Nat) (r : Row) : Series :=
  ⟨toI64 r.1.toF64, r.2.map fun l => roundByScale Soft.ops l.toF64 (10 ^ p)⟩

/-- Well-formed numbers throughout. -/
def Row.WF (r : Row) : Prop := r.1.WF ∧ ∀ l ∈ r.2, l.WF

theorem tab_sep : IsSep '\t' := ⟨by decide, by decide, by decide⟩

theorem trim_ends {s : List Char} (h1 : ∀ c t, s = c :: t → isSpace c = false)
    (h2 : ∀ c t, s.reverse = c :: t → isSpace c = false) : trim s = s := by
  have key : ∀ u : List Char, (∀ c t, u = c :: t → isSpace c = false) → u.dropWhile isSpace = u := by
    intro u hu
    cases u with
    | nil => rfl
    | cons c t => rw [List.dropWhile_cons_of_neg (by rw [hu c t rfl]; decide)]
  unfold trim
  rw [key s h1, key s.reverse h2, List.reverse_reverse]

theorem join_ends {sep : Char} (x : List Char) (xs : List (List Char)) (P : Char → Prop)
    (h : ∀ z ∈ x :: xs, z ≠ [] ∧ ∀ c ∈ z, P c) :
    (∀ c t, joinFields sep (x :: xs) = c :: t → P c) ∧ (∀ c t, (joinFields sep (x :: xs)).reverse = c :: t → P c) := by
  constructor
  · intro c t he
    obtain ⟨h1, h2⟩ := h x (List.mem_cons_self ..)
    obtain ⟨y, ys, rfl⟩ := List.exists_cons_of_ne_nil h1
    cases xs with
    | nil =>
      rw [joinFields, List.cons.injEq] at he
      rw [← he.1]; exact h2 y (List.mem_cons_self ..)
    | cons z zs =>
      rw [joinFields, List.cons_append, List.cons.injEq] at he
      rw [← he.1]; exact h2 y (List.mem_cons_self ..)
  · induction xs generalizing x with
    | nil =>
      intro c t he
      rw [joinFields] at he
      exact (h x (List.mem_cons_self ..)).2 c (List.mem_reverse.1 (by rw [he]; exact List.mem_cons_self ..))
    | cons z zs ih =>
      intro c t he
      have ih' := ih z fun w hw => h w (List.mem_cons_of_mem _ hw)
      rw [joinFields, List.reverse_append, List.reverse_cons] at he
      cases hr : (joinFields sep (z :: zs)).reverse with
      | nil =>
        have : joinFields sep (z :: zs) = [] := List.reverse_eq_nil_iff.1 hr
        obtain ⟨y, ys, hz⟩ := List.exists_cons_of_ne_nil (h z (by simp)).1
        subst hz
        cases zs <;> simp [joinFields] at this
      | cons d u =>
        rw [hr, List.append_assoc, List.cons_append, List.cons.injEq] at he
        rw [← he.1]; exact ih' d u hr

theorem parseAll_literals (L : List Literal) (hL : ∀ l ∈ L, l.WF) :
    parseAll (L.map Literal.text) = some (L.map Literal.toF64) := by
  induction L with
  | nil => rfl
  | cons l ls ih =>
    rw [List.map_cons, parseAll, c65_parse l (hL l (List.mem_cons_self ..)),
      ih fun x hx => hL x (List.mem_cons_of_mem _ hx)]
    rfl

theorem isNaN_literal (l : Literal) : isNaN l.toF64 = false := by
  unfold Literal.toF64 decimalToF64 rnd
  split
  · exact Elf.isNaN_mk (roundMag_le _ _)
  · exact Elf.isNaN_mk (roundMag_le _ _)

theorem pixel_literal (prec : Int) (l : Literal) : pixel Soft.ops prec l.toF64 =
    if prec < 0 then l.toF64 else roundByScale Soft.ops l.toF64 prec.toNat := by
  unfold pixel nanToZero
  simp only [isNaN_literal l, Bool.false_eq_true, if_false]

/-- One line. -/
theorem series_row (prec : Int) (r : Row) (h : r.WF) :
    series Soft.ops prec (joinFields '\t' ((r.1 :: r.2).map Literal.text)) =
      .ok ⟨toI64 r.1.toF64, r.2.map fun l =>
        if prec < 0 then l.toF64 else roundByScale Soft.ops l.toF64 prec.toNat⟩ := by
  have hwf : ∀ l ∈ r.1 :: r.2, l.WF := by
    intro l hl
    rcases List.mem_cons.1 hl with rfl | hl
    · exact h.1
    · exact h.2 l hl
  have hz : ∀ z ∈ r.1.text :: r.2.map Literal.text, z ≠ [] ∧ ∀ c ∈ z, c ∈ literalChars := by
    intro z hz
    rw [← List.map_cons] at hz
    obtain ⟨l, hl, rfl⟩ := List.mem_map.1 hz
    exact ⟨text_ne_nil (hwf l hl), text_chars l⟩
  obtain ⟨e1, e2⟩ := join_ends (sep := '\t') r.1.text (r.2.map Literal.text) (· ∈ literalChars) hz
  unfold series
  rw [List.map_cons, trim_ends (fun c t he => (literalChars_ok c (e1 c t he)).1)
    (fun c t he => (literalChars_ok c (e2 c t he)).1),
    splitOn_join _ _ (fun z hz' hc => tab_sep.1 ((hz z hz').2 _ hc)), ← List.map_cons, parseAll_literals _ hwf]
  simp only [List.map_cons, List.map_map, Res.ok.injEq, Series.mk.injEq]
  exact ⟨rfl, List.map_congr_left fun l _ => pixel_literal prec l⟩

/-- What is read from a file of series: all but the first. -/
theorem c66_slurp (prec : Int) (rows : List Row) (h : ∀ r ∈ rows, r.WF) :
    slurp Soft.ops prec (tsvText rows) = .ok ((rows.drop 1).map fun r =>
      ⟨toI64 r.1.toF64, r.2.map fun l =>
        if prec < 0 then l.toF64 else roundByScale Soft.ops l.toF64 prec.toNat⟩) := by
  unfold slurp tsvText
  rw [lines_tableText tab_sep, List.map_map, ← List.map_drop]
  have h' : ∀ r ∈ rows.drop 1, r.WF := fun r hr => h r (List.mem_of_mem_drop hr)
  generalize rows.drop 1 = rs at h'
  induction rs with
  | nil => rfl
  | cons r rs ih =>
    have e := series_row prec r (h' r (List.mem_cons_self ..))
    rw [List.map_cons, seriesOf, Function.comp, e, ih fun x hx => h' x (List.mem_cons_of_mem _ hx)]
    rfl

/-- The scale as an `i32`: right up to nine decimals; from ten to nineteen it is never the scale. -/
theorem c66_scale_cast : (∀ p, p ≤ 9 → asI32 (10 ^ p) = ((10 ^ p : Nat) : Int)) ∧
    (∀ p, 10 ≤ p → p ≤ 19 → asI32 (10 ^ p) ≠ ((10 ^ p : Nat) : Int)) ∧
    asI32 (10 ^ 10) = 1410065408 ∧ asI32 (10 ^ 12) < 0 := by
  have h1 : ∀ p : Fin 10, asI32 (10 ^ p.val) = ((10 ^ p.val : Nat) : Int) := by decide +kernel
  have h2 : ∀ p : Fin 20, 10 ≤ p.val → asI32 (10 ^ p.val) ≠ ((10 ^ p.val : Nat) : Int) := by decide +kernel
  exact ⟨fun p hp => h1 ⟨p, by omega⟩, fun p hp hp' => h2 ⟨p, by omega⟩ hp, by decide +kernel, by decide +kernel⟩

theorem datasetScale_ok {trainText : List Char} {p : Nat} (hp : p ≤ 19)
    (h : appropriatePrecision Soft.ops false '\t' trainText = .ok p) : datasetScale Soft.ops trainText = .ok (10 ^ p) := by
  unfold datasetScale
  have : 10 ^ p < 2 ^ 64 := Nat.lt_of_le_of_lt (Nat.pow_le_pow_right (by decide) hp) (by decide +kernel)
  rw [h]
  exact if_pos this

/-- Up to nine decimals the values read are the written ones, rounded to that many decimals. -/
theorem slurp_rows {p : Nat} (hp : p ≤ 9) (rows : List Row) (h : ∀ r ∈ rows, r.WF) :
    slurp Soft.ops (asI32 (10 ^ p)) (tsvText rows) = .ok ((rows.drop 1).map (rowSeries p)) := by
  rw [c66_slurp _ rows h, c66_scale_cast.1 p hp]
  refine congrArg Res.ok ?_
  apply List.map_congr_left
  intro r _
  unfold rowSeries
  generalize 10 ^ p = S
  have : ¬ ((S : Int) < 0) := by omega
  simp only [if_neg this, Int.toNat_natCast]

/-- From two text files to the accuracy: with a precision of at most nine decimals, it is that of the series in the
files but the first of each. -/
theorem c66_text_partial {E : Env} {cfg : Config} {stamp : Tpch.Stamp} {prec : Option Nat} {fuel n p t : Nat}
    (hE : E.o = Soft.ops) (train test : List Row) (hw : ∀ r ∈ train, r.WF) (hw' : ∀ r ∈ test, r.WF)
    (hp9 : p ≤ 9) (hpr : appropriatePrecision Soft.ops false '\t' (tsvText train) = .ok p)
    (h : Trained E (setScale cfg (BitVec.ofNat 64 (10 ^ p))) stamp ((train.drop 1).map (rowSeries p)) t)
    (hp : prec = none ∨ cfg.scheme ≠ .buff) (hne : 1 < test.length) (hlen : ∀ r ∈ test, r.2.length = t)
    (hfuel : train.length * t < fuel)
    (hnum : ∀ x ∈ test.drop 1, ∃ s ∈ (train.drop 1).map (rowSeries p), isNaN (squaredDistance Soft.ops
      (s.values.map (readBack E (setScale cfg (BitVec.ofNat 64 (10 ^ p))))) (rowSeries p x).values) = false) :
    ∃ acc, accuracy E cfg stamp prec fuel (n + 1) (tsvText train) (tsvText test) = some (.ok acc) ∧
      IsAccuracy Soft.ops (((train.drop 1).map (rowSeries p)).map
        (readBackSeries E (setScale cfg (BitVec.ofNat 64 (10 ^ p))))) ((test.drop 1).map (rowSeries p)) acc := by
  have := c66_accuracy_partial (E := E) (cfg := cfg) (stamp := stamp) (prec := prec) (fuel := fuel) (n := n)
    (t := t) (trainText := tsvText train) (testText := tsvText test) (scale := 10 ^ p)
    (test := (test.drop 1).map (rowSeries p)) (train := (train.drop 1).map (rowSeries p))
    (by rw [hE]; exact datasetScale_ok (by omega) hpr) (by rw [hE]; exact slurp_rows hp9 test hw')
    (by rw [hE]; exact slurp_rows hp9 train hw) h hp
    (by
      intro e
      have e2 := congrArg List.length e
      simp at e2
      omega)
    (by
      intro x hx
      obtain ⟨r, hr, rfl⟩ := List.mem_map.1 hx
      rw [← hlen r (List.mem_of_mem_drop hr)]
      simp [rowSeries])
    (by
      refine Nat.lt_of_le_of_lt (Nat.mul_le_mul_right _ ?_) hfuel
      simp)
    (by
      intro x hx
      obtain ⟨r, hr, rfl⟩ := List.mem_map.1 hx
      rw [hE]
      exact hnum r hr)
  rw [hE] at this
  exact this

/-- A test file of at most one line panics. -/
theorem c66_one_series {E : Env} {cfg : Config} {stamp : Tpch.Stamp} {prec : Option Nat} {fuel n scale : Nat}
    {trainText testText : List Char} (hs : datasetScale E.o trainText = .ok scale)
    (h : (lines testText).length ≤ 1) : accuracy E cfg stamp prec fuel n trainText testText = some .panic := by
  have h1 : slurp E.o (asI32 scale) testText = .ok [] := by
    unfold slurp
    rw [List.drop_of_length_le h]
    rfl
  unfold accuracy
  simp only [hs, h1, andThen, if_true]

/-- DeltaSprintz gives the training data back, when each number has at most the chosen decimals and fits. -/
theorem c66_delta_reads_back {E : Env} {p : Nat} {n s0 : BitVec 64} (hE : E.o = Soft.ops) (hp : p ≤ 9) (rows : List Row)
    (h : ∀ r ∈ rows, ∀ l ∈ r.2, Fits p l ∧ ∃ m, l.Scaled p m) :
    ReadsBack E (setScale (.deltaSprintz n s0) (BitVec.ofNat 64 (10 ^ p))) (rows.map (rowSeries p)) := by
  intro s hs v hv
  obtain ⟨r, hr, rfl⟩ := List.mem_map.1 hs
  obtain ⟨l, hl, rfl⟩ := List.mem_map.1 hv
  obtain ⟨h1, h2⟩ := h r hr l hl
  obtain ⟨m, hm⟩ := h2
  have hround : roundByScale Soft.ops l.toF64 (10 ^ p) = l.toF64 := by
    rw [toF64_scaled hm]
    exact c65_round_by_scale p (by omega) _ m (h1.1 m hm)
  rw [hround]
  have hlt : 10 ^ p < 2 ^ 64 := Nat.lt_of_le_of_lt (Nat.pow_le_pow_right (by decide) hp) (by decide +kernel)
  exact c65_readBack hE p hp (by rw [BitVec.toNat_ofNat, Nat.mod_eq_of_lt hlt]) _ (fits_decimal h1 ⟨m, hm⟩)

/-! ### The limits -/

/-- A dataset: `1\t0`, `2\t9`, and the test set `1\t0`, `1\t0`. -/
def lostTrain : List Row := [(⟨none, [1], none, none⟩, [⟨none, [0], none, none⟩]),
  (⟨none, [2], none, none⟩, [⟨none, [9], none, none⟩])]
def lostTest : List Row := [(⟨none, [1], none, none⟩, [⟨none, [0], none, none⟩]),
  (⟨none, [1], none, none⟩, [⟨none, [0], none, none⟩])]

def sampleStamp : Tpch.Stamp := ⟨(0, 1, 0), Times.zero, ⟨0, 0⟩⟩

/-- The claim without dropping the first series. -/
def AccuracyClaim : Prop := ∀ (train test : List Row) (p : Nat) (acc : B64), (∀ r ∈ train, r.WF) → (∀ r ∈ test, r.WF) →
    p ≤ 9 → appropriatePrecision Soft.ops false '\t' (tsvText train) = .ok p →
    (∀ r ∈ train ++ test, r.2.length = 1) →
    accuracy sampleEnv (.uncompressed 100#64) sampleStamp none 10 1 (tsvText train) (tsvText test) = some (.ok acc) →
    IsAccuracy Soft.ops (train.map (rowSeries p)) (test.map (rowSeries p)) acc

theorem lost_classified : ∀ x ∈ lostTest.map (rowSeries 0), Classified Soft.ops (lostTrain.map (rowSeries 0)) x := by
  have h0 : ∀ x ∈ lostTest.map (rowSeries 0), x = ⟨1#64, [0#64]⟩ := by decide +kernel
  have h1 : lostTrain.map (rowSeries 0) = [⟨1#64, [0#64]⟩, ⟨2#64, [0x4022000000000000#64]⟩] := by decide +kernel
  intro x hx
  rw [h0 x hx, h1]
  refine ⟨0, _, ⟨_, rfl, by decide +kernel, ?_⟩, rfl, rfl⟩
  intro i s' hs hn
  match i, hs with
  | 0, hs => cases hs; exact ⟨by decide +kernel, fun h => absurd h (by decide)⟩
  | 1, hs => cases hs; exact ⟨by decide +kernel, fun _ => by decide +kernel⟩
  | i + 2, hs => simp at hs

/-- The first series of each file is lost: here every test series lies on the first training series and has its label,
the accuracy is one, and the driver reports zero. -/
theorem c66_first_lost : accuracy sampleEnv (.uncompressed 100#64) sampleStamp none 10 1 (tsvText lostTrain)
      (tsvText lostTest) = some (.ok 0#64) ∧
    IsAccuracy Soft.ops (lostTrain.map (rowSeries 0)) (lostTest.map (rowSeries 0)) 0x3ff0000000000000#64 ∧
    ¬ AccuracyClaim := by
  have h1 : accuracy sampleEnv (.uncompressed 100#64) sampleStamp none 10 1 (tsvText lostTrain)
      (tsvText lostTest) = some (.ok 0#64) := by decide +kernel
  have h2 : IsAccuracy Soft.ops (lostTrain.map (rowSeries 0)) (lostTest.map (rowSeries 0)) 0x3ff0000000000000#64 := by
    refine ⟨[true, true], rfl, fun i x hx => ?_, by decide +kernel⟩
    have hi : i < 2 := (List.getElem?_eq_some_iff.1 hx).1
    refine ⟨fun _ => lost_classified x (List.mem_of_getElem? hx), fun _ => ?_⟩
    match i, hi with
    | 0, _ => rfl
    | 1, _ => rfl
  refine ⟨h1, h2, fun hc => ?_⟩
  have hwf : ∀ rows : List Row, rows = lostTrain ∨ rows = lostTest → ∀ r ∈ rows, r.WF := by
    intro rows hr r hm
    have : r ∈ lostTrain ++ lostTest := by
      rcases hr with rfl | rfl
      · exact List.mem_append_left _ hm
      · exact List.mem_append_right _ hm
    simp only [lostTrain, lostTest, List.cons_append, List.nil_append, List.mem_cons, List.not_mem_nil, or_false] at this
    rcases this with rfl | rfl | rfl | rfl <;>
      exact ⟨⟨by decide, fun e he => (by cases he)⟩, fun l hl => (by
        rw [List.mem_singleton.1 hl]
        exact ⟨by decide, fun e he => (by cases he)⟩)⟩
  have h3 := hc lostTrain lostTest 0 0#64 (hwf _ (Or.inl rfl)) (hwf _ (Or.inr rfl)) (by decide) (by decide +kernel)
    (by decide) h1
  exact absurd (isAccuracy_unique h3 h2) (by decide)

/-- Ten decimals: the scale passed on is 1410065408, and `0.0123456789` is not read as itself. -/
theorem c66_wrong_rounding : parseF64 "0.0123456789".toList = some 0x3f8948b0f8fab5e6#64 ∧
    datasetScale Soft.ops "1\t0.0123456789\n".toList = .ok (10 ^ 10) ∧
    slurp Soft.ops (asI32 (10 ^ 10)) "1\t0\n1\t0.0123456789\n".toList = .ok [⟨1#64, [0x3f8948b0fef201a6#64]⟩] := by
  decide +kernel

/-! ### A sample -/

/-- `7\t0\t0`, `1\t0.5\t-1.25`, `2\t9\t9`. -/
def sampleTrain : List Row := [(⟨none, [7], none, none⟩, [⟨none, [0], none, none⟩, ⟨none, [0], none, none⟩]),
  (⟨none, [1], none, none⟩, [⟨none, [0], some [5], none⟩, ⟨some true, [1], some [2, 5], none⟩]),
  (⟨none, [2], none, none⟩, [⟨none, [9], none, none⟩, ⟨none, [9], none, none⟩])]

/-- The same with other labels and values. -/
def sampleTest : List Row := [(⟨none, [7], none, none⟩, [⟨none, [0], none, none⟩, ⟨none, [0], none, none⟩]),
  (⟨none, [2], none, none⟩, [⟨none, [8], some [5], none⟩, ⟨none, [8], none, none⟩]),
  (⟨none, [2], none, none⟩, [⟨none, [0], none, none⟩, ⟨none, [1], none, none⟩])]

theorem sampleRows_wf : ∀ r ∈ sampleTrain ++ sampleTest, r.WF := by
  intro r hr
  have hl : ∀ l ∈ r.1 :: r.2, l.exp = none ∧ l.int ≠ [] := by
    have : ∀ r ∈ sampleTrain ++ sampleTest, ∀ l ∈ r.1 :: r.2, l.exp = none ∧ l.int ≠ [] := by decide
    exact this r hr
  have key : ∀ l ∈ r.1 :: r.2, l.WF := by
    intro l hm
    obtain ⟨h1, h2⟩ := hl l hm
    refine ⟨fun e => h2 (List.append_eq_nil_iff.1 e).1, fun e he => ?_⟩
    rw [h1] at he; cases he
  exact ⟨key r.1 (List.mem_cons_self ..), fun l hm => key l (List.mem_cons_of_mem _ hm)⟩

theorem sampleTrain_trained : Trained sampleEnv (.deltaSprintz 100#64 100#64) sampleStamp
    ((sampleTrain.drop 1).map (rowSeries 2)) 2 where
  libraries := sampleEnv_lossless
  supported := trivial
  nonempty := by simp [sampleTrain]
  positive := by decide
  length := by
    intro s hs
    obtain ⟨r, hr, rfl⟩ := List.mem_map.1 hs
    have : ∀ r ∈ sampleTrain.drop 1, r.2.length = 2 := by decide
    rw [← this r hr]
    simp [rowSeries]
  small := by simp [sampleTrain]
  limit := by simp [sampleTrain]
  whole := Or.inl ⟨2 ^ 23, by decide⟩
  accepts := fun _ _ _ _ => trivial
  version := by decide
  times := by simp [sampleStamp, Times.WF, Times.zero, Duration.WF]
  elapsed := by simp [sampleStamp, Duration.WF]
  files := by
    intro file hf
    have h : (encodeTrain sampleEnv (.deltaSprintz 100#64 100#64) sampleStamp
        ((sampleTrain.drop 1).map (rowSeries 2))).map (fun r => r.map (fun f => decide (f.length < 1000)))
        = some (.ok true) := by decide +kernel
    rw [hf] at h
    have : decide (file.length < 1000) = true := by simpa using h
    have := of_decide_eq_true this
    omega

/-- The hypotheses of `c66_text_partial` on these files with DeltaSprintz. -/
example : ∃ acc, accuracy sampleEnv (.deltaSprintz 100#64 0#64) sampleStamp none 10 3 (tsvText sampleTrain)
      (tsvText sampleTest) = some (.ok acc) ∧
    IsAccuracy Soft.ops (((sampleTrain.drop 1).map (rowSeries 2)).map
      (readBackSeries sampleEnv (.deltaSprintz 100#64 100#64))) ((sampleTest.drop 1).map (rowSeries 2)) acc :=
  c66_text_partial (p := 2) (t := 2) (cfg := .deltaSprintz 100#64 0#64) rfl sampleTrain sampleTest
    (fun r hr => sampleRows_wf r (List.mem_append_left _ hr)) (fun r hr => sampleRows_wf r (List.mem_append_right _ hr))
    (by decide) (by decide +kernel) sampleTrain_trained (Or.inl rfl) (by decide) (by decide) (by decide) (by decide +kernel)

/-- One of the two is classified correctly. -/
example : accuracy sampleEnv (.deltaSprintz 100#64 0#64) sampleStamp none 10 3 (tsvText sampleTrain)
    (tsvText sampleTest) = some (.ok 0x3fe0000000000000#64) := by decide +kernel

end Ebi.Props
