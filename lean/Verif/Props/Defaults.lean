import Verif.Defaults
import Verif.Props.Saving
import Verif.Props.Driver
import Verif.Props.DecimalFile

/-!
# C83: the default configurations

The specification: which file and which configuration each scheme gets.
-/

namespace Ebi.Props

open Ebi Saving Decimal Driver Defaults

/-! ### Specification -/

/-- The name the experimenter has for a scheme. -/
def schemeName : SchemeId → String
  | .uncompressed => "uncompressed" | .rle => "rle" | .buff => "buff" | .gorilla => "gorilla" | .chimp => "chimp"
  | .chimp128 => "chimp128" | .elfOnChimp => "elf_on_chimp" | .elf => "elf" | .deltaSprintz => "delta_sprintz"
  | .zstd => "zstd" | .gzip => "gzip" | .snappy => "snappy" | .ffiAlp => "ffi_alp"

/-- The file of a scheme in the directory of a data set. -/
def configFile (s : SchemeId) : Name := (schemeName s ++ ".json").toList

/-- The two schemes that need a scale. -/
def NeedsScale (s : SchemeId) : Prop := s = .buff ∨ s = .deltaSprintz

/-- A default configuration of a scheme for data of `p` decimals: it is of that scheme, its scale (if it has one) is
exactly `10^p`, and the other parameters are the defaults of the library. -/
def IsDefault (p : Nat) (s : SchemeId) (c : Config) : Prop :=
  c.scheme = s ∧
  match c with
  | .buff scale => scale.toNat = 10 ^ p
  | .deltaSprintz n scale => n.toNat = 8192 ∧ scale.toNat = 10 ^ p
  | .uncompressed n | .rle n | .gorilla n | .chimp n | .chimp128 n | .elfOnChimp n | .elf n => n.toNat = 8192
  | .zstd l => l.toNat = 3
  | .gzip l => l.toNat = 6
  | .snappy | .ffiAlp => True

/-- A directory in which every scheme of `ok` has its default configuration, and every other file is as in `d`. -/
def DefaultsIn (p : Nat) (ok : SchemeId → Prop) (d d' : Dir Setup) : Prop :=
  (∀ s, ok s → ∃ c, IsDefault p s c ∧ d'.get (configFile s) = some ⟨.recordCount 16777216, c⟩) ∧
  ∀ n, (∀ s, ok s → n ≠ configFile s) → d'.get n = d.get n

/-! ### Lemmas -/

theorem configFile_eq (s : SchemeId) : configFile s = fileName (schemeName s) := by
  unfold configFile fileName
  rw [String.toList_append]

theorem fileName_inj {a b : String} (h : fileName a = fileName b) : a = b :=
  String.toList_inj.1 (List.append_cancel_right h)

theorem schemeName_inj {s t : SchemeId} (h : schemeName s = schemeName t) : s = t := by
  cases s <;> cases t <;> first | rfl | exact absurd h (by decide +kernel)

/-- Each scheme has its own file. -/
theorem c83_names {s t : SchemeId} (h : configFile s = configFile t) : s = t := by
  rw [configFile_eq, configFile_eq] at h
  exact schemeName_inj (fileName_inj h)

theorem writeAll_other (L : List (String × Config)) : ∀ (d : Dir Setup) (n : Name), (∀ x ∈ L, n ≠ fileName x.1) →
    (writeAll d L).get n = d.get n := by
  induction L with
  | nil => intro d n _; rfl
  | cons x L ih =>
    intro d n h
    show (writeAll (d.put (fileName x.1) _) L).get n = _
    rw [ih _ _ fun y hy => h y (List.mem_cons_of_mem _ hy), get_put, if_neg (h x (List.mem_cons_self ..))]

theorem writeAll_mem (L : List (String × Config)) (hn : (L.map Prod.fst).Nodup) : ∀ (d : Dir Setup), ∀ x ∈ L,
    (writeAll d L).get (fileName x.1) = some ⟨defaultOption, x.2⟩ := by
  induction L with
  | nil => intro d x hx; cases hx
  | cons y L ih =>
    rw [List.map_cons, List.nodup_cons] at hn
    intro d x hx
    show (writeAll (d.put (fileName y.1) ⟨defaultOption, y.2⟩) L).get _ = _
    rcases List.mem_cons.1 hx with rfl | hx
    · rw [writeAll_other, get_put, if_pos rfl]
      intro z hz e
      exact hn.1 (fileName_inj e ▸ List.mem_map_of_mem hz)
    · exact ih hn.2 _ x hx

theorem pow_fits (p : Nat) : 10 ^ p < 2 ^ 64 ↔ p ≤ 19 := by
  constructor
  · intro h
    apply Nat.le_of_not_lt
    intro hp
    have h1 : 10 ^ 20 ≤ 10 ^ p := Nat.pow_le_pow_right (by decide) hp
    have h2 : (10 : Nat) ^ 20 > 2 ^ 64 := by decide
    omega
  · intro h
    have h1 : 10 ^ p ≤ 10 ^ 19 := Nat.pow_le_pow_right (by decide) h
    have h2 : (10 : Nat) ^ 19 < 2 ^ 64 := by decide
    omega

theorem configs_nodup (p : Nat) : ((unscaled ++ scaled p).map Prod.fst).Nodup := by
  unfold scaled
  split
  · show ["uncompressed", "chimp128", "chimp", "elf_on_chimp", "elf", "gorilla", "rle", "zstd", "gzip", "snappy",
      "ffi_alp", "delta_sprintz", "buff"].Nodup
    decide +kernel
  · show ["uncompressed", "chimp128", "chimp", "elf_on_chimp", "elf", "gorilla", "rle", "zstd", "gzip", "snappy",
      "ffi_alp"].Nodup
    decide +kernel

theorem configs_have (p : Nat) (s : SchemeId) (h : NeedsScale s → p ≤ 19) :
    ∃ c, IsDefault p s c ∧ (schemeName s, c) ∈ unscaled ++ scaled p := by
  have hs : p ≤ 19 → scaled p = [("delta_sprintz", .deltaSprintz 8192#64 (BitVec.ofNat 64 (10 ^ p))),
      ("buff", .buff (BitVec.ofNat 64 (10 ^ p)))] := fun hp => if_pos ((pow_fits p).2 hp)
  have hb : p ≤ 19 → (BitVec.ofNat 64 (10 ^ p)).toNat = 10 ^ p := fun hp => by
    rw [BitVec.toNat_ofNat, Nat.mod_eq_of_lt ((pow_fits p).2 hp)]
  cases s
  case buff =>
    have hp := h (Or.inl rfl)
    exact ⟨.buff (BitVec.ofNat 64 (10 ^ p)), ⟨rfl, hb hp⟩, List.mem_append_right _ (by rw [hs hp]; simp [schemeName])⟩
  case deltaSprintz =>
    have hp := h (Or.inr rfl)
    exact ⟨.deltaSprintz 8192#64 (BitVec.ofNat 64 (10 ^ p)), ⟨rfl, rfl, hb hp⟩,
      List.mem_append_right _ (by rw [hs hp]; simp [schemeName])⟩
  case uncompressed => exact ⟨.uncompressed 8192#64, ⟨rfl, rfl⟩, List.mem_append_left _ (by simp [unscaled, schemeName])⟩
  case rle => exact ⟨.rle 8192#64, ⟨rfl, rfl⟩, List.mem_append_left _ (by simp [unscaled, schemeName])⟩
  case gorilla => exact ⟨.gorilla 8192#64, ⟨rfl, rfl⟩, List.mem_append_left _ (by simp [unscaled, schemeName])⟩
  case chimp => exact ⟨.chimp 8192#64, ⟨rfl, rfl⟩, List.mem_append_left _ (by simp [unscaled, schemeName])⟩
  case chimp128 => exact ⟨.chimp128 8192#64, ⟨rfl, rfl⟩, List.mem_append_left _ (by simp [unscaled, schemeName])⟩
  case elfOnChimp => exact ⟨.elfOnChimp 8192#64, ⟨rfl, rfl⟩, List.mem_append_left _ (by simp [unscaled, schemeName])⟩
  case elf => exact ⟨.elf 8192#64, ⟨rfl, rfl⟩, List.mem_append_left _ (by simp [unscaled, schemeName])⟩
  case zstd => exact ⟨.zstd 3#32, ⟨rfl, rfl⟩, List.mem_append_left _ (by simp [unscaled, schemeName])⟩
  case gzip => exact ⟨.gzip 6#32, ⟨rfl, rfl⟩, List.mem_append_left _ (by simp [unscaled, schemeName])⟩
  case snappy => exact ⟨.snappy, ⟨rfl, trivial⟩, List.mem_append_left _ (by simp [unscaled, schemeName])⟩
  case ffiAlp => exact ⟨.ffiAlp, ⟨rfl, trivial⟩, List.mem_append_left _ (by simp [unscaled, schemeName])⟩

theorem configs_only (p : Nat) {x : String × Config} (hx : x ∈ unscaled ++ scaled p) :
    ∃ s, x.1 = schemeName s ∧ (NeedsScale s → p ≤ 19) := by
  rcases List.mem_append.1 hx with h | h
  · have hn : ∀ s : SchemeId, s ≠ .buff → s ≠ .deltaSprintz → (NeedsScale s → p ≤ 19) := by
      intro s h1 h2 h
      rcases h with h | h
      · exact absurd h h1
      · exact absurd h h2
    simp only [unscaled, List.mem_cons, List.not_mem_nil, or_false] at h
    rcases h with rfl | rfl | rfl | rfl | rfl | rfl | rfl | rfl | rfl | rfl | rfl
    · exact ⟨.uncompressed, rfl, hn _ (by decide) (by decide)⟩
    · exact ⟨.chimp128, rfl, hn _ (by decide) (by decide)⟩
    · exact ⟨.chimp, rfl, hn _ (by decide) (by decide)⟩
    · exact ⟨.elfOnChimp, rfl, hn _ (by decide) (by decide)⟩
    · exact ⟨.elf, rfl, hn _ (by decide) (by decide)⟩
    · exact ⟨.gorilla, rfl, hn _ (by decide) (by decide)⟩
    · exact ⟨.rle, rfl, hn _ (by decide) (by decide)⟩
    · exact ⟨.zstd, rfl, hn _ (by decide) (by decide)⟩
    · exact ⟨.gzip, rfl, hn _ (by decide) (by decide)⟩
    · exact ⟨.snappy, rfl, hn _ (by decide) (by decide)⟩
    · exact ⟨.ffiAlp, rfl, hn _ (by decide) (by decide)⟩
  · unfold scaled at h
    split at h
    · rename_i hp
      simp only [List.mem_cons, List.not_mem_nil, or_false] at h
      rcases h with rfl | rfl
      · exact ⟨.deltaSprintz, rfl, fun _ => (pow_fits p).1 hp⟩
      · exact ⟨.buff, rfl, fun _ => (pow_fits p).1 hp⟩
    · cases h

theorem writeAll_defaults (p : Nat) (d : Dir Setup) :
    DefaultsIn p (fun s => NeedsScale s → p ≤ 19) d (writeAll d (unscaled ++ scaled p)) := by
  constructor
  · intro s hs
    obtain ⟨c, h1, h2⟩ := configs_have p s hs
    exact ⟨c, h1, by rw [configFile_eq]; exact writeAll_mem _ (configs_nodup p) d _ h2⟩
  · intro n hn
    apply writeAll_other
    intro x hx e
    obtain ⟨s, h1, h2⟩ := configs_only p hx
    exact hn s h2 (by rw [configFile_eq, ← h1]; exact e)

/-! ### One data set -/

/-- Where the precision `p` of the data is found, all schemes get their default configuration, the two that need a scale
only up to 19 decimals; all other files of the directory stay as they are. Where it is not found, there is an error. -/
theorem c83_created (o : FloatOps) (exact : Bool) (text : List Char) (d : Dir Setup) :
    (∀ p, appropriatePrecision o exact ',' text = .ok p → ∃ d', createDefault o exact text d = .ok d' ∧
      DefaultsIn p (fun s => NeedsScale s → p ≤ 19) d d') ∧
    (appropriatePrecision o exact ',' text = .err → createDefault o exact text d = .err) ∧
    createDefault o exact text d ≠ .panic := by
  unfold createDefault
  refine ⟨fun p hp => ⟨_, by rw [hp]; rfl, writeAll_defaults p d⟩, fun h => by rw [h]; rfl, ?_⟩
  unfold appropriatePrecision
  split
  · split <;> intro h <;> cases h
  · intro h; cases h

/-- In a new directory these files are all there are. -/
theorem c83_fresh (o : FloatOps) (exact : Bool) (text : List Char) (p : Nat)
    (hp : appropriatePrecision o exact ',' text = .ok p) : ∃ d', createDefault o exact text [] = .ok d' ∧
      ∀ n, d'.has n = true ↔ ∃ s, n = configFile s ∧ (NeedsScale s → p ≤ 19) := by
  obtain ⟨d', h1, h2, h3⟩ := (c83_created o exact text []).1 p hp
  refine ⟨d', h1, fun n => ⟨fun h => ?_, ?_⟩⟩
  · by_cases hx : ∃ s, n = configFile s ∧ (NeedsScale s → p ≤ 19)
    · exact hx
    · have := h3 n fun s hs e => hx ⟨s, e, hs⟩
      unfold Dir.has at h
      rw [this] at h
      cases h
  · rintro ⟨s, rfl, hs⟩
    obtain ⟨c, -, h4⟩ := h2 s hs
    unfold Dir.has
    rw [h4]
    rfl

/-- The files are found again: `config_entries` takes them for their extension, and their stem is the name of the
scheme. -/
theorem c83_found (s : SchemeId) : extension (configFile s) = some "json".toList ∧
    fileStem (configFile s) = (schemeName s).toList := by
  have h : configFile s = (schemeName s).toList ++ '.' :: "json".toList := by
    unfold configFile
    rw [String.toList_append]
    rfl
  rw [h]
  have h1 : (schemeName s).toList ≠ [] := by cases s <;> decide +kernel
  obtain ⟨h2, h3, -⟩ := c76_extension h1 (e := "json".toList) (by decide +kernel) []
  exact ⟨h3, h2⟩

/-- Made again for other data of at most 19 decimals, the directory is as if made once. -/
theorem c83_again (o : FloatOps) (exact exact' : Bool) (text text' : List Char) (p p' : Nat) (d : Dir Setup)
    (hp : appropriatePrecision o exact ',' text = .ok p) (hp' : appropriatePrecision o exact' ',' text' = .ok p')
    (h19 : p' ≤ 19) : ∃ d₁ d₂ d₃, createDefault o exact text d = .ok d₁ ∧ createDefault o exact' text' d₁ = .ok d₂ ∧
      createDefault o exact' text' d = .ok d₃ ∧ ∀ n, d₂.get n = d₃.get n := by
  refine ⟨_, _, _, by unfold createDefault; rw [hp]; rfl, by unfold createDefault; rw [hp']; rfl,
    by unfold createDefault; rw [hp']; rfl, fun n => ?_⟩
  by_cases hn : ∃ x ∈ unscaled ++ scaled p', n = fileName x.1
  · obtain ⟨x, hx, rfl⟩ := hn
    rw [writeAll_mem _ (configs_nodup p') _ x hx, writeAll_mem _ (configs_nodup p') _ x hx]
  · have h1 : ∀ x ∈ unscaled ++ scaled p', n ≠ fileName x.1 := fun x hx e => hn ⟨x, hx, e⟩
    rw [writeAll_other _ _ n h1, writeAll_other _ _ n h1]
    apply (writeAll_defaults p d).2
    intro s _ e
    obtain ⟨c, -, hc⟩ := configs_have p' s fun _ => h19
    exact h1 _ hc (e.trans (configFile_eq s))

/-- What would be expected of every run: the configurations in the directory are the default ones for the data. -/
def FreshClaim : Prop :=
  ∀ (exact : Bool) (text : List Char) (d d' : Dir Setup) (p : Nat), appropriatePrecision Soft.ops exact ',' text = .ok p →
    createDefault Soft.ops exact text d = .ok d' → ∀ s x, d'.get (configFile s) = some x → IsDefault p s x.cfg

/-- It holds up to 19 decimals. Missing: from 20 decimals on, see `c83_stale`. -/
theorem c83_current_partial (o : FloatOps) (exact : Bool) (text : List Char) (d d' : Dir Setup) (p : Nat)
    (hp : appropriatePrecision o exact ',' text = .ok p) (h19 : p ≤ 19) (hd : createDefault o exact text d = .ok d') (s : SchemeId)
    (x : Setup) (hx : d'.get (configFile s) = some x) : IsDefault p s x.cfg := by
  obtain ⟨d₁, h1, h2, -⟩ := (c83_created o exact text d).1 p hp
  rw [hd] at h1
  cases h1
  obtain ⟨c, h3, h4⟩ := h2 s fun _ => h19
  rw [hx] at h4
  cases h4
  exact h3

/-- It fails from 20 decimals on: the two configurations are not written, and what was there stays. -/
theorem c83_stale (o : FloatOps) (exact : Bool) (text : List Char) (p : Nat) (d : Dir Setup) (s : SchemeId)
    (hs : NeedsScale s) (hp : appropriatePrecision o exact ',' text = .ok p) (h20 : 20 ≤ p) :
    ∃ d', createDefault o exact text d = .ok d' ∧ d'.get (configFile s) = d.get (configFile s) := by
  obtain ⟨d', h1, -, h3⟩ := (c83_created o exact text d).1 p hp
  refine ⟨d', h1, h3 _ fun t ht e => ?_⟩
  have := c83_names e
  subst this
  have := ht hs
  omega

theorem c83_stale_fails : ¬ FreshClaim := by
  intro h
  have hp : appropriatePrecision Soft.ops true ',' "0.12345678901234567890".toList = .ok 20 := by decide +kernel
  obtain ⟨d', h1, h2⟩ := c83_stale Soft.ops true _ 20 [(configFile .buff, ⟨.full, .buff 10#64⟩)] .buff (Or.inl rfl) hp
    (Nat.le_refl _)
  have h3 := h true _ _ d' 20 hp h1 .buff ⟨.full, .buff 10#64⟩ (by rw [h2]; decide +kernel)
  have h4 : (10 : Nat) = 10 ^ 20 := h3.2
  exact absurd h4 (by decide)

/-! ### All data sets -/

/-- A data set is left out: a value is NaN, or a percentile is infinite, or the precision cannot be found. -/
def LeftOut (o : FloatOps) (json : B64 → B64) (exact : Bool) (csvs : Dir (List Char)) (x : Name × List Byte) : Prop :=
  filterConfigs json x.2 = .err ∨
    ∃ text, csvOf csvs x.1 = some text ∧ appropriatePrecision o exact ',' text = .err

/-- Exactly the data sets that are left out are to be skipped. Each of the others has its default configurations for the
decimals of its own CSV file; the directories of the skipped data sets and of data sets that are not there are as before. -/
def Configured (o : FloatOps) (json : B64 → B64) (exact : Bool) (csvs : Dir (List Char)) (xs : List (Name × List Byte))
    (st st' : State) : Prop :=
  (∀ n, n ∈ st'.skip ↔ n ∈ st.skip ∨ ∃ x ∈ xs, x.1 = n ∧ LeftOut o json exact csvs x) ∧
  (∀ x ∈ xs, ¬ LeftOut o json exact csvs x → ∃ text p, csvOf csvs x.1 = some text ∧
    appropriatePrecision o exact ',' text = .ok p ∧
    DefaultsIn p (fun s => NeedsScale s → p ≤ 19) (st.dirs x.1) (st'.dirs x.1)) ∧
  ∀ n, (∀ x ∈ xs, x.1 = n → LeftOut o json exact csvs x) → st'.dirs n = st.dirs n

/-- After the loop exactly the data sets that could not be configured are to be skipped. Each of the others has its default
configurations for the decimals of its own CSV file; the directories of skipped and foreign data sets are as before. -/
theorem c83_all (o : FloatOps) (json : B64 → B64) (exact : Bool) (csvs : Dir (List Char)) :
    ∀ (xs : List (Name × List Byte)) (st st' : State), (xs.map Prod.fst).Nodup →
      createConfigs o json exact csvs xs st = .ok st' →
      Configured o json exact csvs xs st st' := by
  intro xs
  induction xs with
  | nil =>
    intro st st' _ h
    cases h
    simp [Configured]
  | cons x xs ih =>
    obtain ⟨stem, buf⟩ := x
    intro st st' hn h
    rw [List.map_cons, List.nodup_cons] at hn
    have hfresh : ∀ y ∈ xs, y.1 ≠ stem := fun y hy e => hn.1 (List.mem_map.2 ⟨y, hy, e⟩)
    -- the two ways in which the head is left out
    have left : LeftOut o json exact csvs (stem, buf) →
        createConfigs o json exact csvs xs { st with skip := stem :: st.skip } = .ok st' →
        Configured o json exact csvs ((stem, buf) :: xs) st st' := by
      intro hl h
      obtain ⟨h1, h2, h3⟩ := ih _ _ hn.2 h
      refine ⟨fun n => ?_, fun y hy hnl => ?_, fun n hall => ?_⟩
      · rw [h1]
        simp only [List.mem_cons, exists_eq_or_imp]
        constructor
        · rintro ((rfl | h) | h)
          · exact Or.inr (Or.inl ⟨rfl, hl⟩)
          · exact Or.inl h
          · exact Or.inr (Or.inr h)
        · rintro (h | ⟨rfl, -⟩ | h)
          · exact Or.inl (Or.inr h)
          · exact Or.inl (Or.inl rfl)
          · exact Or.inr h
      · rcases List.mem_cons.1 hy with rfl | hy
        · exact absurd hl hnl
        · exact h2 y hy hnl
      · exact h3 n fun y hy => hall y (List.mem_cons_of_mem _ hy)
    unfold createConfigs at h
    split at h
    · cases h
    · rename_i he
      exact left (Or.inl he) h
    · rename_i r he
      split at h
      · cases h
      · rename_i text ht
        split at h
        · cases h
        · rename_i hc
          refine left (Or.inr ⟨text, ht, ?_⟩) h
          cases hq : appropriatePrecision o exact ',' text with
          | ok p =>
            unfold createDefault at hc
            rw [hq] at hc
            cases hc
          | err => rfl
          | panic =>
            unfold createDefault at hc
            rw [hq] at hc
            cases hc
        · rename_i d hc
          have hp : ∃ p, appropriatePrecision o exact ',' text = .ok p := by
            cases hq : appropriatePrecision o exact ',' text with
            | ok p => exact ⟨p, rfl⟩
            | err => unfold createDefault at hc; rw [hq] at hc; cases hc
            | panic => unfold createDefault at hc; rw [hq] at hc; cases hc
          obtain ⟨p, hp⟩ := hp
          have hin : ¬ LeftOut o json exact csvs (stem, buf) := by
            rintro (h | ⟨t, h1, h2⟩)
            · rw [he] at h; cases h
            · have : text = t := Option.some.inj (ht.symm.trans h1)
              subst this
              rw [hp] at h2
              cases h2
          obtain ⟨h1, h2, h3⟩ := ih _ _ hn.2 h
          have hdir : st'.dirs stem = d := by
            rw [h3 stem fun y hy e => absurd e (hfresh y hy)]
            exact if_pos rfl
          refine ⟨fun n => ?_, fun y hy hnl => ?_, fun n hall => ?_⟩
          · rw [h1]
            simp only [List.mem_cons, exists_eq_or_imp]
            constructor
            · rintro (h | h)
              · exact Or.inl h
              · exact Or.inr (Or.inr h)
            · rintro (h | ⟨-, h⟩ | h)
              · exact Or.inl h
              · exact absurd h hin
              · exact Or.inr h
          · rcases List.mem_cons.1 hy with rfl | hy
            · obtain ⟨d', g1, g2⟩ := (c83_created o exact text (st.dirs stem)).1 p hp
              rw [hc] at g1
              cases g1
              exact ⟨text, p, ht, hp, by rw [hdir]; exact g2⟩
            · obtain ⟨t, q, g1, g2, g3⟩ := h2 y hy hnl
              refine ⟨t, q, g1, g2, ?_⟩
              have : (st.setDir stem d).dirs y.1 = st.dirs y.1 := if_neg (hfresh y hy)
              rw [← this]
              exact g3
          · have hne : n ≠ stem := fun e => hin (hall _ (List.mem_cons_self ..) e.symm)
            rw [h3 n fun y hy => hall y (List.mem_cons_of_mem _ hy)]
            exact if_neg hne

/-- One binary file without a record ends the whole command, whatever the others hold, unless one before it does; one
without a CSV file of the same stem does so with an error. -/
theorem c83_ends (o : FloatOps) (json : B64 → B64) (exact : Bool) (csvs : Dir (List Char)) (x : Name × List Byte)
    (ys : List (Name × List Byte)) : ∀ (xs : List (Name × List Byte)) (st st₁ : State),
      createConfigs o json exact csvs xs st = .ok st₁ →
      (toF64s x.2 = [] → createConfigs o json exact csvs (xs ++ x :: ys) st = .panic) ∧
      (∀ r, filterConfigs json x.2 = .ok r → csvOf csvs x.1 = none →
        createConfigs o json exact csvs (xs ++ x :: ys) st = .err) := by
  intro xs
  induction xs with
  | nil =>
    intro st st₁ _
    refine ⟨fun h => ?_, fun r hr hc => ?_⟩
    · show createConfigs o json exact csvs (x :: ys) st = _
      unfold createConfigs
      rw [(c67_not_created json x.2).2 h]
    · show createConfigs o json exact csvs (x :: ys) st = _
      unfold createConfigs
      rw [hr]
      simp only
      rw [hc]
  | cons z xs ih =>
    obtain ⟨stem, buf⟩ := z
    intro st st₁ h
    rw [List.cons_append]
    cases he : filterConfigs json buf with
    | panic => simp only [createConfigs, he] at h; cases h
    | err =>
      simp only [createConfigs, he] at h ⊢
      exact ih _ _ h
    | ok r =>
      cases ht : csvOf csvs stem with
      | none => simp only [createConfigs, he, ht] at h; cases h
      | some t =>
        cases hc : createDefault o exact t (st.dirs stem) with
        | panic => simp only [createConfigs, he, ht, hc] at h; cases h
        | err =>
          simp only [createConfigs, he, ht, hc] at h ⊢
          exact ih _ _ h
        | ok d =>
          simp only [createConfigs, he, ht, hc] at h ⊢
          exact ih _ _ h

/-- Nothing else ends it: if every binary file has a record and a CSV file, the loop comes to its end, whatever is in
them. -/
theorem c83_comes_to_end (o : FloatOps) (json : B64 → B64) (exact : Bool) (csvs : Dir (List Char)) :
    ∀ (xs : List (Name × List Byte)) (st : State),
      (∀ x ∈ xs, toF64s x.2 ≠ [] ∧ (toF64s x.2).length < 2 ^ 57 ∧ csvOf csvs x.1 ≠ none) →
      ∃ st', createConfigs o json exact csvs xs st = .ok st' := by
  intro xs
  induction xs with
  | nil => intro st _; exact ⟨st, rfl⟩
  | cons x xs ih =>
    obtain ⟨stem, buf⟩ := x
    intro st h
    have hxs := fun st => ih st fun y hy => h y (List.mem_cons_of_mem _ hy)
    obtain ⟨h1, h2, h3⟩ := h _ (List.mem_cons_self ..)
    have hf : filterConfigs json buf ≠ .panic := by
      by_cases hn : ∃ v ∈ toF64s buf, isNaN v = true
      · rw [(c67_not_created json buf).1 hn]
        intro e; cases e
      · obtain ⟨_, _, _, -, -, -, e⟩ := c67_created json buf ⟨h1, fun v hv => by
          cases hq : isNaN v with
          | false => rfl
          | true => exact absurd ⟨v, hv, hq⟩ hn, h2⟩
        rw [e]
        split <;> (intro e; cases e)
    unfold createConfigs
    split
    · rename_i e; exact absurd e hf
    · exact hxs _
    · split
      · rename_i e; exact absurd e h3
      · split
        · rename_i e; exact absurd e (c83_created o exact _ _).2.2
        · exact hxs _
        · exact hxs _

theorem lastDot_some : ∀ {n a b : Name}, lastDot n = some (a, b) → n = a ++ '.' :: b := by
  intro n
  induction n with
  | nil => intro a b h; cases h
  | cons c cs ih =>
    intro a b h
    unfold lastDot at h
    split at h
    · rename_i a' b' he
      cases h
      rw [ih he]
      rfl
    · split at h
      · rename_i hc
        cases h
        rw [hc]
        rfl
      · cases h

/-- The names a CSV file can have for a stem. -/
def CsvNames (stem n : Name) : Prop := n = stem ∨ n = stem ++ ".csv".toList ∨ n = stem ++ ".txt".toList

theorem csv_names {stem : Name} (h0 : stem ≠ []) (hd : '.' ∉ stem) (n : Name) :
    (isCsv n && fileStem n == stem) = true ↔ CsvNames stem n := by
  constructor
  · intro h
    rw [Bool.and_eq_true, beq_iff_eq] at h
    obtain ⟨h1, h2⟩ := h
    unfold isCsv extension at h1
    unfold fileStem at h2
    cases hs : splitName n with
    | mk a e =>
      rw [hs] at h1 h2
      simp only at h1 h2
      unfold splitName at hs
      split at hs
      · rename_i c a' b hl
        cases hs
        have hn := lastDot_some hl
        simp only [Bool.or_eq_true, beq_iff_eq] at h1
        rcases h1 with rfl | rfl
        · exact Or.inr (Or.inl (by rw [hn, h2]; rfl))
        · exact Or.inr (Or.inr (by rw [hn, h2]; rfl))
      · cases hs
        exact Or.inl h2
  · rintro (rfl | rfl | rfl)
    · obtain ⟨h1, h2, -⟩ := c76_no_extension hd []
      simp [isCsv, h1, h2]
    · obtain ⟨h1, h2, -⟩ := c76_extension h0 (e := "csv".toList) (by decide +kernel) []
      have : stem ++ ".csv".toList = stem ++ '.' :: "csv".toList := rfl
      unfold isCsv
      rw [this, h1, h2, Bool.and_eq_true, beq_iff_eq]
      exact ⟨rfl, rfl⟩
    · obtain ⟨h1, h2, -⟩ := c76_extension h0 (e := "txt".toList) (by decide +kernel) []
      have : stem ++ ".txt".toList = stem ++ '.' :: "txt".toList := rfl
      unfold isCsv
      rw [this, h1, h2, Bool.and_eq_true, beq_iff_eq]
      exact ⟨rfl, rfl⟩

/-- The text the precision is taken from: that of the last file named after the stem, with extension `csv` or `txt` or
none. -/
theorem c83_csv {stem : Name} (h0 : stem ≠ []) (hd : '.' ∉ stem) (csvs : Dir (List Char)) :
    (∀ l n text r, csvs = l ++ (n, text) :: r → CsvNames stem n → (∀ f ∈ r, ¬ CsvNames stem f.1) →
      csvOf csvs stem = some text) ∧
    ((∀ f ∈ csvs, ¬ CsvNames stem f.1) → csvOf csvs stem = none) := by
  have none_of : ∀ r : Dir (List Char), (∀ f ∈ r, ¬ CsvNames stem f.1) →
      r.reverse.find? (fun f => isCsv f.1 && fileStem f.1 == stem) = none := by
    intro r hr
    rw [List.find?_eq_none]
    intro f hf hc
    exact hr f (List.mem_reverse.1 hf) ((csv_names h0 hd f.1).1 hc)
  constructor
  · rintro l n text r rfl hn hr
    unfold csvOf
    rw [List.reverse_append, List.reverse_cons, List.append_assoc, List.find?_append, none_of r hr, Option.none_or,
      List.cons_append, List.nil_append, List.find?_cons]
    simp only
    rw [(csv_names h0 hd n).2 hn]
    rfl
  · intro h
    unfold csvOf
    rw [none_of csvs h]
    rfl

/-- Two files with the same stem: the precision is taken from the one the directory lists last, which need not be the one
the binary file was made from. -/
theorem c83_csv_shadowed (a b : List Char) : csvOf [("x.csv".toList, a), ("x.txt".toList, b)] "x".toList = some b ∧
    csvOf [("x.txt".toList, b), ("x.csv".toList, a)] "x".toList = some a := by
  constructor <;> rfl

/-! ### The configurations in use -/

/-- The DeltaSprintz configuration made for a text file of at most 9 decimals, read from the directory and used on the
binary file made from the text, gives a file that decodes to the numbers of the text. -/
theorem c83_exact {E : Env} (hE : E.o = Soft.ops) (hlib : LosslessLibraries E) (rows : List (List Literal))
    (hrows : ∀ r ∈ rows, ∀ l ∈ r, Plain64 l) (hlen : rows.flatten.length ≤ 2 ^ 52) (p : Nat)
    (hp : appropriatePrecision Soft.ops true ',' (csvText rows) = .ok p) (h9 : p ≤ 9)
    (hfit : ∀ l ∈ rows.flatten, Fits p l) (d d' : Dir Setup)
    (hd : createDefault Soft.ops true (csvText rows) d = .ok d') (x : Setup)
    (hx : d'.get (configFile .deltaSprintz) = some x) (a : Args) (hcfg : a.cfg = x.cfg) (hopt : a.opt = x.opt)
    (ha : a.Valid) (hne : 8 ≤ a.src.data.length) (hrec : csv2bin (csvText rows) = .ok a.records) :
    a.opt = .recordCount 16777216 ∧ ∃ file, a.encode (E.scheme a.cfg) = some (.ok file) ∧
      (file.length < 2 ^ 63 → ∃ m, openFile file = .ok m ∧
        Decoder.materialize E ⟨file, m, none⟩ none none = csv2bin (csvText rows)) := by
  obtain ⟨d₁, h1, h2, -⟩ := (c83_created Soft.ops true (csvText rows) d).1 p hp
  rw [hd] at h1
  cases h1
  obtain ⟨c, ⟨hc1, hc2⟩, h3⟩ := h2 .deltaSprintz fun _ => Nat.le_trans h9 (by decide)
  rw [hx] at h3
  cases h3
  refine ⟨hopt, ?_⟩
  cases c with
  | deltaSprintz n s =>
    have hlt : 10 ^ p < 2 ^ 32 := Nat.lt_of_le_of_lt (Nat.pow_le_pow_right (by decide) h9) (by decide +kernel)
    have h64 : 10 ^ p < 2 ^ 64 := Nat.lt_trans hlt (by decide)
    refine c65_end_to_end hE hlib rows hrows hlen (10 ^ p) ?_ hlt ?_ a hcfg hc2.2 ha hne hrec
    · unfold defaultScale
      rw [hp, Res.map_ok, if_pos h64]
    · intro q hq l hl
      have : p = q := Nat.pow_right_inj (by decide) |>.1 hq
      exact this ▸ hfit l hl
  | _ => cases hc1

/-! ### Examples -/

/-- The hypotheses of the theorems hold: a text of two decimals, one of twenty, one without a number. -/
example : appropriatePrecision Soft.ops true ',' "1.25,3\n".toList = .ok 2 ∧
    appropriatePrecision Soft.ops false ',' "0.12345678901234567890".toList = .ok 20 ∧
    appropriatePrecision Soft.ops true ',' "".toList = .err := by decide +kernel

/-- The file of the sample is used as it comes from the directory. -/
example : (createDefault Soft.ops true (csvText decimalRows) []).map (fun d => d.get (configFile .deltaSprintz))
    = .ok (some ⟨.recordCount 16777216, .deltaSprintz 8192#64 100#64⟩) ∧
    appropriatePrecision Soft.ops true ',' (csvText decimalRows) = .ok 2 ∧
    (∀ l ∈ decimalRows.flatten, Fits 2 l) ∧
    { decimalArgs with cfg := .deltaSprintz 8192#64 100#64, opt := .recordCount 16777216 }.Valid := by
  refine ⟨by decide +kernel, by decide +kernel, decimalRows_fit, ?_⟩
  have h := plainArgs_valid (decimalRows.flatten.map Literal.toF64) 16777216 (by simp [decimalRows]) (by decide) (by decide)
    (by simp [decimalRows])
  exact ⟨h.1, h.2, h.3, h.4, h.5, h.6, h.7, h.8, h.9⟩

/-- Three data sets: one that is configured, one with a NaN, one whose CSV file has no number. -/
example : (createConfigs Soft.ops id true [("a.csv".toList, "1.5,2.25".toList), ("c".toList, [])]
      [("a".toList, ofF64s [0x3ff8000000000000#64, 0x4002000000000000#64]), ("b".toList, ofF64s [0x7ff8000000000000#64]),
       ("c".toList, ofF64s [0#64])] ⟨[], fun _ => []⟩).map
      (fun st => (st.skip, (st.dirs "a".toList).get (configFile .buff), (st.dirs "c".toList).length))
    = .ok (["c".toList, "b".toList], some ⟨.recordCount 16777216, .buff 100#64⟩, 0) := by decide +kernel

end Ebi.Props
