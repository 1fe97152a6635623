import Verif.Embedding
import Verif.StatsLemmas
import Verif.Props.Ieee
import Verif.Props.Matrix

/-!
# C75: the embedding experiment
-/

namespace Ebi.Props

open Ebi Ebi.Decimal Ebi.Soft Ebi.Embedding

attribute [local irreducible] roundMag magVal Elf.U near nearest

/-! ### Precision and scale -/

/-- The number of decimals is the precision read, rounded half up; a negative one counts as none. -/
theorem c75_precision {v : B64} (hv : isFinite v = true) :
    (exactVal v ≤ 0 → precisionOf v = 0) ∧
    (exactVal v < (2 ^ 64 - 1) * 2 ^ 1074 → 0 ≤ exactVal v →
      2 * exactVal v < (2 * precisionOf v + 1) * 2 ^ 1074 ∧ 2 * precisionOf v * 2 ^ 1074 ≤ 2 * exactVal v + 2 ^ 1074) ∧
    ((2 ^ 64 - 1) * 2 ^ 1074 ≤ exactVal v → precisionOf v = 2 ^ 64 - 1) := by
  obtain ⟨h1, h2, h3⟩ := c73_round hv
  have hn : isNaN (Soft.round v) = false := by
    rw [isFinite_iff] at h1
    change mag (Soft.round v) < _ at h1
    simp only [isNaN, decide_eq_false_iff_not]
    omega
  have hp : precisionOf v = if sgn v then 0 else min (((exactVal v).natAbs + 2 ^ 1073) / 2 ^ 1074) (2 ^ 64 - 1) := by
    unfold precisionOf toUsize
    change sgn (Soft.round v) = _ at h2
    change (exactVal (Soft.round v)).natAbs = _ at h3
    rw [hn, h2, Bool.false_or, show absVal (Soft.round v) = (exactVal (Soft.round v)).natAbs from (exactVal_natAbs _).symm, h3,
      Nat.mul_div_cancel _ (Nat.two_pow_pos _)]
  have hs : sgn v = true → exactVal v ≤ 0 := by
    intro h
    unfold exactVal
    rw [h, if_pos rfl]
    omega
  have hs' : sgn v = false → 0 ≤ exactVal v := by
    intro h
    unfold exactVal
    rw [h]
    simp
  have e2 : (2 : Nat) ^ 1074 = 2 * 2 ^ 1073 := by rw [Nat.mul_comm, ← Nat.pow_succ]
  have e3 : (2 : Int) ^ 1074 = ((2 ^ 1074 : Nat) : Int) := by rw [Int.natCast_pow]; rfl
  have hpos : 0 < (2 : Nat) ^ 1073 := Nat.two_pow_pos _
  rw [hp, e3]
  rw [e2] at *
  generalize (2 : Nat) ^ 1073 = T at *
  generalize exactVal v = x at *
  clear h1 h2 h3 hn hp e3
  have hd := Nat.div_add_mod (x.natAbs + T) (2 * T)
  have hm := Nat.mod_lt (x.natAbs + T) (show 0 < 2 * T by omega)
  cases hsv : sgn v with
  | true =>
    have h0 := hs hsv
    simp only [if_true]
    refine ⟨fun _ => trivial, fun _ h => ?_, fun h => ?_⟩
    · have : x = 0 := by omega
      subst this
      omega
    · omega
  | false =>
    have h0 := hs' hsv
    simp only [Bool.false_eq_true, if_false]
    generalize hq : (x.natAbs + T) / (2 * T) = q at *
    refine ⟨fun h => ?_, fun h _ => ?_, fun h => ?_⟩
    · have : x = 0 := by omega
      subst this
      have : q = 0 := by rw [← hq]; exact Nat.div_eq_of_lt (by simp; omega)
      omega
    · have hle : q ≤ 2 ^ 64 - 1 := by
        rw [← hq]
        apply Nat.le_of_lt_succ
        rw [Nat.div_lt_iff_lt_mul (by omega)]
        omega
      rw [Nat.min_eq_left hle]
      have e : (2 * T : Nat) * q = 2 * (T * q) := Nat.mul_assoc ..
      have e' : (2 * (q : Int) + 1) * ((2 * T : Nat) : Int) = 4 * ((T * q : Nat) : Int) + 2 * T := by
        rw [Int.add_mul, Int.mul_assoc, ← Int.natCast_mul q, Nat.mul_left_comm, Nat.mul_comm q]
        omega
      have e'' : 2 * (q : Int) * ((2 * T : Nat) : Int) = 4 * ((T * q : Nat) : Int) := by
        rw [Int.mul_assoc, ← Int.natCast_mul q, Nat.mul_left_comm, Nat.mul_comm q]
        omega
      rw [e', e'']
      omega
    · have : 2 ^ 64 - 1 ≤ q := by
        rw [← hq, Nat.le_div_iff_mul_le (by omega)]
        omega
      omega

/-- A scheme that quantizes is run exactly when the low 32 bits of the number of decimals are at most twelve, with that
power of ten; the others always run as they are. -/
theorem c75_scale (p : Nat) (cfg : Config) :
    ((cfg.scheme ≠ .buff ∧ cfg.scheme ≠ .deltaSprintz) → configFor (scaleOf p) cfg = some cfg) ∧
    ((cfg.scheme = .buff ∨ cfg.scheme = .deltaSprintz) →
      (p % 2 ^ 32 ≤ 12 →
        configFor (scaleOf p) cfg = some (Ucr.setScale cfg (BitVec.ofNat 64 (10 ^ (p % 2 ^ 32))))) ∧
      (12 < p % 2 ^ 32 → configFor (scaleOf p) cfg = none)) := by
  constructor
  · rintro ⟨h1, h2⟩
    simp [configFor, h1, h2]
  · intro h
    have hor : cfg.scheme = .deltaSprintz ∨ cfg.scheme = .buff := h.symm
    generalize hk : p % 2 ^ 32 = k
    refine ⟨fun hle => ?_, fun hgt => ?_⟩
    · have h1 : 10 ^ k ≤ 10 ^ 12 := Nat.pow_le_pow_right (by decide) hle
      unfold configFor scaleOf
      rw [if_pos hor, hk, if_pos (by omega)]
      simp only [Nat.not_lt.2 h1, if_false]
    · have h1 : 10 ^ 12 < 10 ^ k := Nat.pow_lt_pow_right (by decide) hgt
      unfold configFor scaleOf
      rw [if_pos hor, hk]
      split <;> rename_i heq
      · rfl
      · split at heq
        · cases heq
          rw [if_pos h1]
        · cases heq

/-- The number of decimals is cut to 32 bits: 2^32 + 3 decimals are run with the scale of three. -/
theorem c75_cut : scaleOf (2 ^ 32 + 3) = some 1000 ∧
    configFor (scaleOf (2 ^ 32 + 3)) (.buff 0#64) = some (.buff 1000#64) := by decide +kernel

/-- Every scale BUFF is run with is one of its table. -/
theorem c75_supported (E : Env) (hE : ∀ k ≤ 12, E.log10Scale (10 ^ k) = k) {p : Nat} {cfg cfg' : Config}
    (h : configFor (scaleOf p) cfg = some cfg') : Supported E cfg' := by
  by_cases hb : cfg.scheme = .buff
  · by_cases hp : p % 2 ^ 32 ≤ 12
    · rw [((c75_scale p cfg).2 (Or.inl hb)).1 hp] at h
      cases h
      cases cfg with
      | buff s =>
        generalize p % 2 ^ 32 = k at hp
        have h1 : 10 ^ k ≤ 10 ^ 12 := Nat.pow_le_pow_right (by decide) hp
        show (Buff.fractionBits E.log10Scale (BitVec.ofNat 64 (10 ^ k)).toNat).isSome = true
        rw [BitVec.toNat_ofNat, Nat.mod_eq_of_lt (by omega)]
        have h0 : 10 ^ k ≠ 0 := Nat.pos_iff_ne_zero.1 (Nat.pow_pos (by decide))
        unfold Buff.fractionBits
        rw [if_neg h0, hE k hp]
        have : ∀ k, k ≤ 12 → (Buff.precisionMap[k]?).isSome = true := by decide
        exact this k hp
      | _ => cases hb
    · rw [((c75_scale p cfg).2 (Or.inl hb)).2 (by omega)] at h
      cases h
  · have : cfg'.scheme ≠ .buff := by
      unfold configFor at h
      split at h
      · split at h
        · cases h
        · split at h
          · cases h
          · cases h
            intro e
            apply hb
            cases cfg <;> first | rfl | exact e
      · cases h
        exact hb
    cases cfg' <;> first | trivial | exact absurd rfl this

/-! ### One repetition -/

/-- A data set a configuration carries. -/
structure Case (E : Env) (cfg : Config) (values : List B64) (s : Tpch.Stamp) : Prop where
  libraries : LosslessLibraries E
  supported : Supported E cfg
  accepts : ∀ v ∈ values, Accepts E cfg v
  nonempty : values ≠ []
  few : values.length < 2 ^ 32
  version : s.version.1 < 2 ^ 16 ∧ s.version.2.1 < 2 ^ 16 ∧ s.version.2.2 < 2 ^ 16
  times : s.times.WF
  elapsed : s.elapsed.WF
  files : ∀ file, (Tpch.encoderArgs cfg s values).encode (E.scheme cfg) = some (.ok file) → file.length < 2 ^ 63

variable {E : Env} {cfg : Config} {s : Tpch.Stamp} {values : List B64}

theorem Case.valid (h : Case E cfg values s) :
    (Tpch.encoderArgs cfg s values).Valid ∧ 8 ≤ (Tpch.encoderArgs cfg s values).src.data.length := by
  have hne := h.nonempty
  have hf := h.few
  have hb : ofF64s values ≠ [] := by
    intro e
    have h6 := congrArg List.length e
    have := List.length_pos_iff.2 hne
    simp at h6
    omega
  refine ⟨⟨?_, ?_, h.version.1, h.version.2.1, h.version.2.2, h.times, h.elapsed, ?_, ?_⟩, ?_⟩
  · show (ChunkOption.recordCount _).Positive
    exact ⟨by omega, by omega⟩
  · show (ChunkOption.recordCount _).WF
    simp only [ChunkOption.WF, ChunkOption.value]; omega
  · simp [Tpch.encoderArgs, hne, Source.Clean, hb]
  · simp [Tpch.encoderArgs, hne, Source.data]; omega
  · have := List.length_pos_iff.2 hne
    simp [Tpch.encoderArgs, hne, Source.data]; omega

/-- What one repetition reports: the first five bytes of the file, which begin with the magic number; the sizes of the
input, of the file and of the chunks; the first five bytes of the first record read back. -/
structure Reports (E : Env) (cfg : Config) (values : List B64) (s : Tpch.Stamp) (r : Repetition) : Prop where
  file : ∃ file header chunks footer : List Byte,
    (Tpch.encoderArgs cfg s values).encode (E.scheme cfg) = some (.ok file) ∧
    file = header ++ chunks ++ footer ∧ header.length = 30 ∧ 0 < footer.length ∧
    r.encoded = file.take 5 ∧ r.encoded.length = 5 ∧ r.statistics.compressedSize = file.length ∧
    r.statistics.chunkOnly = chunks.length
  magic : r.encoded.take 4 = [0x45#8, 0x42#8, 0x49#8, 0x31#8]
  input : r.statistics.uncompressedSize = 8 * values.length
  ratio : r.statistics.ratio = E.o.div (E.o.ofNat r.statistics.compressedSize) (E.o.ofNat (8 * values.length))
  ratioChunkOnly : r.statistics.ratioChunkOnly =
    E.o.div (E.o.ofNat r.statistics.chunkOnly) (E.o.ofNat (8 * values.length))
  decoded : ∃ v, values.head? = some v ∧ r.decoded = (ofF64s [readBack E cfg v]).take 5

theorem c75_repetition (h : Case E cfg values s) :
    ∃ r, repetition E cfg values s = some (.ok r) ∧ Reports E cfg values s r := by
  obtain ⟨hv, h8⟩ := h.valid
  have hrec := encoderArgs_records cfg s values
  have hf := h.few
  obtain ⟨file, h1, h2⟩ := Props.written E h.libraries (Tpch.encoderArgs cfg s values) h.supported hv
    (by rw [hrec]; exact h.accepts) (by rw [hrec]; exact fun _ => hf) h8
  obtain ⟨m, hw⟩ := h2 (h.files file h1)
  have ho := hw.encoded.opened
  obtain ⟨file', g1, g2⟩ := c47_sizes hw.law (Tpch.encoderArgs cfg s values) hv hw.accepts hw.len h8
  have e1 : file' = file := by
    have := g1.symm.trans h1
    cases this; rfl
  subst e1
  obtain ⟨m', chunks, g3, g4, g5, ⟨hd, ft, g6, g7, g8⟩, -⟩ := g2 (h.files _ h1)
  have e2 : m' = m := by
    have := g3.symm.trans ho
    cases this; rfl
  subst e2
  obtain ⟨k1, k2, -, -, -, -, -, -, k3, -⟩ := c22_file hw
  have hm := c30_every_scheme hw none (Or.inl rfl) none (Or.inl rfl)
  rw [pick_none, hrec] at hm
  have hr : m'.footer.records = values.length := by
    rw [k3, ← Args.records_length, hrec]
  obtain ⟨v, vs, rfl⟩ := List.exists_cons_of_ne_nil h.nonempty
  have hlen : 30 ≤ file'.length := by omega
  have hmin : min 5 file'.length = 5 := by omega
  have hdl : ¬ (ofF64s ((v :: vs).map (readBack E cfg))).length < 5 := by
    simp; omega
  have hu : m'.footer.records * 8 % 2 ^ 64 = 8 * (v :: vs).length := by
    rw [hr, Nat.mod_eq_of_lt (by omega), Nat.mul_comm]
  refine ⟨⟨file'.take 5, statistics E.o m', (ofF64s ((v :: vs).map (readBack E cfg))).take 5⟩, ?_, ?_⟩
  · unfold repetition
    rw [show (Tpch.encoderArgs cfg s (v :: vs)).encode (E.scheme cfg) = some (.ok file') from h1]
    simp only [Ucr.andThen, Ucr.openTrain, ho, Res.map_ok]
    rw [show (Tpch.encoderArgs cfg s (v :: vs)).cfg = cfg from rfl] at hm
    rw [hm]
    simp only [shorten, hmin, if_neg hdl]
  · refine ⟨⟨file', hd, chunks.flatMap Prod.snd, ft, h1, g6, g7, ?_, rfl, ?_, g4, ?_⟩, ?_, hu, ?_, ?_, v, rfl, ?_⟩
    · rw [g8]
      show 0 < footer0Size + _ + _ + _
      simp only [footer0Size]
      omega
    · rw [List.length_take]; omega
    · show m'.totalChunkSize = _
      have := congrArg List.length g6
      simp only [List.length_append] at this
      omega
    · show (file'.take 5).take 4 = _
      rw [List.take_take, ← k2, k1]
      rfl
    · show E.o.div _ (E.o.ofNat (m'.footer.records * 8 % 2 ^ 64)) = _
      rw [hu]; rfl
    · show E.o.div _ (E.o.ofNat (m'.footer.records * 8 % 2 ^ 64)) = _
      rw [hu]; rfl
    · show (ofF64s ((v :: vs).map (readBack E cfg))).take 5 = _
      rw [List.map_cons, ofF64s_cons, ofF64s_cons, ofF64s_nil, List.append_nil]
      exact List.take_append_of_le_length (by rw [f64Bytes_length]; omega)

/-- The two ratios are the exact quotients of the sizes, rounded once. -/
theorem c75_ratio {r : Repetition} (hE : E.o = Soft.ops) (h : Reports E cfg values s r) (hne : values ≠ [])
    (h1 : values.length < 2 ^ 50) (h2 : r.statistics.compressedSize < 2 ^ 53) :
    Rounded r.statistics.ratio (r.statistics.compressedSize * 2 ^ 1074) (8 * values.length) ∧
    Rounded r.statistics.ratioChunkOnly (r.statistics.chunkOnly * 2 ^ 1074) (8 * values.length) ∧
    r.statistics.chunkOnly < r.statistics.compressedSize := by
  have hpos := List.length_pos_iff.2 hne
  obtain ⟨file, hd, ch, ft, -, g1, g2, g3, -, -, g4, g5⟩ := h.file
  have hl : r.statistics.chunkOnly < r.statistics.compressedSize := by
    rw [g4, g5, g1]
    simp only [List.length_append]
    omega
  refine ⟨?_, ?_, hl⟩
  · rw [h.ratio, hE]
    exact Stats.quot_int (S := (r.statistics.compressedSize : Int)) (by omega) (by omega) (by omega)
  · rw [h.ratioChunkOnly, hE]
    exact Stats.quot_int (S := (r.statistics.chunkOnly : Int)) (by omega) (by omega) (by omega)

/-- The schemes without quantisation print the first bytes of the data set itself. -/
theorem c75_lossless {r : Repetition} (h : Reports E cfg values s r) (h1 : cfg.scheme ≠ .buff)
    (h2 : cfg.scheme ≠ .deltaSprintz) : r.decoded = (ofF64s values).take 5 := by
  obtain ⟨v, hv, hr⟩ := h.decoded
  have e : readBack E cfg v = v := by
    cases cfg <;> first | rfl | exact absurd rfl h1 | exact absurd rfl h2
  cases values with
  | nil => cases hv
  | cons w ws =>
    cases hv
    rw [hr, e, ofF64s_cons, ofF64s_cons, ofF64s_nil, List.append_nil]
    exact (List.take_append_of_le_length (by rw [f64Bytes_length]; omega)).symm

/-! ### The whole experiment -/

theorem repetitions_ok : ∀ (stamps : List Tpch.Stamp), (∀ s ∈ stamps, Case E cfg values s) →
    ∃ rs, repetitions E cfg values stamps = some (.ok rs) ∧ rs.length = stamps.length ∧
      ∀ (i : Nat) (s : Tpch.Stamp) (r : Repetition), stamps[i]? = some s → rs[i]? = some r → Reports E cfg values s r
  | [], _ => ⟨[], rfl, rfl, by simp⟩
  | s :: ss, h => by
    obtain ⟨r, h1, h2⟩ := c75_repetition (h s (List.mem_cons_self ..))
    obtain ⟨rs, h3, h4, h5⟩ := repetitions_ok ss fun x hx => h x (List.mem_cons_of_mem _ hx)
    refine ⟨r :: rs, by simp only [repetitions, h1, h3, Ucr.andThen], by simp [h4], ?_⟩
    intro i s' r' hs hr
    cases i with
    | zero => cases hs; cases hr; exact h2
    | succ i => exact h5 i s' r' (by simpa using hs) (by simpa using hr)

/-- The result of one configuration on one data set: left out, or one report per repetition. -/
def Entry (E : Env) (stamps : List Tpch.Stamp) (precision : Nat) (values : List B64) (cfg : Config)
    (r : Option Performance) : Prop :=
  match configFor (scaleOf precision) cfg with
  | none => r = none
  | some c => ∃ rs, r = some ⟨c, precision, rs⟩ ∧ rs.length = stamps.length ∧
      ∀ (i : Nat) (s : Tpch.Stamp) (x : Repetition), stamps[i]? = some s → rs[i]? = some x → Reports E c values s x

theorem configFor_scheme {scale : Option Nat} {c c' : Config} (h : configFor scale c = some c') : c'.scheme = c.scheme := by
  unfold configFor at h
  split at h
  · split at h
    · cases h
    · split at h
      · cases h
      · cases h; cases c <;> rfl
  · cases h; rfl

theorem forConfigs_ok {stamps : List Tpch.Stamp} {p : Nat} : ∀ (cs : List Config) (m : SchemeId → Option Performance),
    (cs.map Config.scheme).Nodup →
    (∀ c ∈ cs, ∀ c', configFor (scaleOf p) c = some c' → ∀ s ∈ stamps, Case E c' values s) →
    (∀ c ∈ cs, m c.scheme = none) →
    ∃ m', forConfigs E stamps p values m cs = some (.ok m') ∧
      (∀ c ∈ cs, Entry E stamps p values c (m' c.scheme)) ∧
      ∀ k, k ∉ cs.map Config.scheme → m' k = m k
  | [], m, _, _, _ => ⟨m, rfl, by simp, by simp⟩
  | c :: cs, m, hd, h, hm => by
    rw [List.map_cons, List.nodup_cons] at hd
    have ht := fun c' hc => h c' (List.mem_cons_of_mem c hc)
    unfold forConfigs
    cases hc : configFor (scaleOf p) c with
    | none =>
      obtain ⟨m', h1, h2, h3⟩ := forConfigs_ok cs m hd.2 ht fun c' hc => hm c' (List.mem_cons_of_mem c hc)
      refine ⟨m', h1, ?_, ?_⟩
      · intro x hx
        rcases List.mem_cons.1 hx with rfl | hx
        · unfold Entry
          rw [hc, h3 _ hd.1]
          exact hm x (List.mem_cons_self ..)
        · exact h2 x hx
      · intro k hk
        exact h3 k fun hk' => hk (List.mem_cons_of_mem _ hk')
    | some c' =>
      obtain ⟨rs, r1, r2, r3⟩ := repetitions_ok stamps (h c (List.mem_cons_self ..) c' hc)
      have hs := configFor_scheme hc
      obtain ⟨m', h1, h2, h3⟩ := forConfigs_ok cs (fun k => if k = c'.scheme then some ⟨c', p, rs⟩ else m k) hd.2 ht (by
        intro x hx
        have : x.scheme ≠ c'.scheme := by
          rw [hs]
          intro e
          exact hd.1 (e ▸ List.mem_map_of_mem hx)
        rw [if_neg this]
        exact hm x (List.mem_cons_of_mem c hx))
      refine ⟨m', by simp only [r1, Ucr.andThen]; exact h1, ?_, ?_⟩
      · intro x hx
        rcases List.mem_cons.1 hx with rfl | hx
        · unfold Entry
          rw [hc, h3 _ hd.1]
          exact ⟨rs, by rw [hs]; simp, r2, r3⟩
        · exact h2 x hx
      · intro k hk
        rw [List.map_cons, List.mem_cons, not_or] at hk
        rw [h3 k hk.2, if_neg (by rw [hs]; exact hk.1)]

theorem forDatasets_ok {stamps : List Tpch.Stamp} {precisions : Table.Map B64} :
    ∀ (ds : List (String × List B64)) (m : Table.Map (SchemeId → Option Performance)),
    (ds.map Prod.fst).Nodup →
    (∀ d ∈ ds, ∃ p, precisions d.1 = some p ∧ ∀ c ∈ configs, ∀ c', configFor (scaleOf (precisionOf p)) c = some c' →
      ∀ s ∈ stamps, Case E c' d.2 s) →
    ∃ m', forDatasets E stamps precisions m ds = some (.ok m') ∧
      (∀ d ∈ ds, ∃ p r, precisions d.1 = some p ∧ m' d.1 = some r ∧
        ∀ c ∈ configs, Entry E stamps (precisionOf p) d.2 c (r c.scheme)) ∧
      ∀ k, k ∉ ds.map Prod.fst → m' k = m k
  | [], m, _, _ => ⟨m, rfl, by simp, by simp⟩
  | (key, vs) :: ds, m, hd, h => by
    rw [List.map_cons, List.nodup_cons] at hd
    obtain ⟨p, hp, hc⟩ := h (key, vs) (List.mem_cons_self ..)
    obtain ⟨r, r1, r2, -⟩ := forConfigs_ok (E := E) (values := vs) (stamps := stamps) (p := precisionOf p) configs
      (fun _ => none) (by decide) hc (by simp)
    obtain ⟨m', h1, h2, h3⟩ := forDatasets_ok ds (m.set key r) hd.2 fun d hx => h d (List.mem_cons_of_mem _ hx)
    refine ⟨m', ?_, ?_, ?_⟩
    · unfold forDatasets
      rw [hp]
      simp only [r1, Ucr.andThen]
      exact h1
    · intro d hx
      rcases List.mem_cons.1 hx with rfl | hx
      · exact ⟨p, r, hp, by rw [h3 _ hd.1]; simp [Table.Map.set], r2⟩
      · exact h2 d hx
    · intro k hk
      rw [List.map_cons, List.mem_cons, not_or] at hk
      rw [h3 k hk.2]
      simp [Table.Map.set, hk.1]

/-- The experiment reports on every data set, and on nothing else, with every configuration that is not left out. -/
theorem c75_results {stamps : List Tpch.Stamp} {precisions : Table.Map B64} {ds : List (String × List B64)}
    (hd : (ds.map Prod.fst).Nodup)
    (h : ∀ d ∈ ds, ∃ p, precisions d.1 = some p ∧ ∀ c ∈ configs, ∀ c', configFor (scaleOf (precisionOf p)) c = some c' →
      ∀ s ∈ stamps, Case E c' d.2 s) :
    ∃ m, command E stamps precisions ds = some (.ok m) ∧
      (∀ d ∈ ds, ∃ p r, precisions d.1 = some p ∧ m d.1 = some r ∧
        ∀ c ∈ configs, Entry E stamps (precisionOf p) d.2 c (r c.scheme)) ∧
      ∀ k, k ∉ ds.map Prod.fst → m k = none :=
  forDatasets_ok ds _ hd h

/-- Every configuration is there once, the scheme of each is another. -/
theorem c75_configs : configs.length = 13 ∧ (configs.map Config.scheme).Nodup := by decide

/-! ### What ends the experiment -/

/-- A data set without a precision ends the whole experiment: no result, whatever the others gave. -/
theorem c75_missing_precision {stamps : List Tpch.Stamp} {precisions : Table.Map B64} {ds : List (String × List B64)}
    {d : String × List B64} (hd : d ∈ ds) (h : precisions d.1 = none) (m : Table.Map (SchemeId → Option Performance)) :
    command E stamps precisions ds ≠ some (.ok m) := by
  unfold command
  generalize Table.Map.empty = m0
  induction ds generalizing m0 with
  | nil => cases hd
  | cons x xs ih =>
    obtain ⟨key, vs⟩ := x
    unfold forDatasets
    rcases List.mem_cons.1 hd with rfl | hd
    · rw [h]; simp
    · split
      · simp
      · rename_i p _
        cases forConfigs E stamps (precisionOf p) vs (fun _ => none) configs with
        | none => simp [Ucr.andThen]
        | some r =>
          cases r with
          | ok r => exact ih hd _
          | err => simp [Ucr.andThen]
          | panic => simp [Ucr.andThen]

theorem forConfigs_fails {stamps : List Tpch.Stamp} {p : Nat} {c c' : Config}
    (hc : configFor (scaleOf p) c = some c') (hf : ∀ rs, repetitions E c' values stamps ≠ some (.ok rs)) :
    ∀ (cs : List Config) (m m' : SchemeId → Option Performance), c ∈ cs →
      forConfigs E stamps p values m cs ≠ some (.ok m')
  | x :: xs, m, m', h => by
    unfold forConfigs
    have ih := fun h m => forConfigs_fails hc hf xs m m' h
    rcases List.mem_cons.1 h with rfl | h
    · rw [hc]
      simp only
      cases hr : repetitions E c' values stamps with
      | none => simp [Ucr.andThen]
      | some r =>
        cases r with
        | ok r => exact absurd hr (hf r)
        | err => simp [Ucr.andThen]
        | panic => simp [Ucr.andThen]
    · split
      · exact ih h _
      · rename_i y _
        cases repetitions E y values stamps with
        | none => simp [Ucr.andThen]
        | some r =>
          cases r with
          | ok r => exact ih h _
          | err => simp [Ucr.andThen]
          | panic => simp [Ucr.andThen]

/-- So does one without values: what the encoder writes for it cannot be opened. -/
theorem c75_empty {stamps : List Tpch.Stamp} {precisions : Table.Map B64} {ds : List (String × List B64)}
    {key : String} (hE : LosslessLibraries E) (hd : (key, []) ∈ ds) (hs : stamps ≠ [])
    (hw : ∀ s ∈ stamps, (s.version.1 < 2 ^ 16 ∧ s.version.2.1 < 2 ^ 16 ∧ s.version.2.2 < 2 ^ 16) ∧ s.times.WF ∧ s.elapsed.WF)
    (m : Table.Map (SchemeId → Option Performance)) :
    command E stamps precisions ds ≠ some (.ok m) := by
  -- the second configuration, uncompressed, is never left out
  have hrun : ∀ p m m', forConfigs E stamps p [] m configs ≠ some (.ok m') := by
    intro p m m'
    refine forConfigs_fails (c := .uncompressed 8192#64) (c' := .uncompressed 8192#64)
      ((c75_scale p _).1 ⟨by decide, by decide⟩) ?_ configs m m' (by decide)
    intro rs
    obtain ⟨s, ss, rfl⟩ := List.exists_cons_of_ne_nil hs
    obtain ⟨w1, w2, w3⟩ := hw s (List.mem_cons_self ..)
    obtain ⟨file, h1, h2⟩ := c28_empty_input_panics (scheme_law E hE (.uncompressed 8192#64) trivial) (by decide)
      (Tpch.encoderArgs (.uncompressed 8192#64) s []) (by
        refine ⟨?_, ?_, w1.1, w1.2.1, w1.2.2, w2, w3, ?_, ?_⟩
        · show (ChunkOption.recordCount _).Positive
          exact ⟨by omega, by omega⟩
        · show (ChunkOption.recordCount _).WF
          simp only [ChunkOption.WF, ChunkOption.value]; omega
        · simp [Tpch.encoderArgs, Source.Clean]
        · simp [Tpch.encoderArgs, Source.data]) (by simp [Tpch.encoderArgs, Source.data])
    have : repetition E (.uncompressed 8192#64) [] s = some .panic := by
      unfold repetition
      rw [h1]
      simp only [Ucr.andThen, Ucr.openTrain, h2]
      rfl
    simp only [repetitions, this, Ucr.andThen]
    simp
  unfold command
  generalize Table.Map.empty = m0
  induction ds generalizing m0 with
  | nil => cases hd
  | cons x xs ih =>
    obtain ⟨k, vs⟩ := x
    unfold forDatasets
    split
    · simp
    · rename_i p _
      rcases List.mem_cons.1 hd with e | hd
      · cases e
        cases hr : forConfigs E stamps (precisionOf p) [] (fun _ => none) configs with
        | none => simp [Ucr.andThen]
        | some r =>
          cases r with
          | ok r => exact absurd hr (hrun _ _ _)
          | err => simp [Ucr.andThen]
          | panic => simp [Ucr.andThen]
      · cases forConfigs E stamps (precisionOf p) vs (fun _ => none) configs with
        | none => simp [Ucr.andThen]
        | some r =>
          cases r with
          | ok r => exact ih hd _
          | err => simp [Ucr.andThen]
          | panic => simp [Ucr.andThen]

/-! ### Ten decimals -/

/-- With ten decimals DeltaSprintz is run with a scale its files hold the low half of: the experiment then reads the first
record 1.0 back as 7.09… and prints its bytes. -/
theorem c75_ten_decimals (hE : E.o = Soft.ops) {vs : List B64} {r : Repetition}
    (h : Reports E (.deltaSprintz 8192#64 10000000000#64) (0x3ff0000000000000#64 :: vs) s r) :
    configFor (scaleOf 10) (.deltaSprintz 8192#64 0#64) = some (.deltaSprintz 8192#64 10000000000#64) ∧
    r.decoded ≠ (ofF64s (0x3ff0000000000000#64 :: vs)).take 5 := by
  refine ⟨by decide +kernel, ?_⟩
  obtain ⟨v, hv, hr⟩ := h.decoded
  cases hv
  have e : readBack E (.deltaSprintz 8192#64 10000000000#64) 0x3ff0000000000000#64 = 0x401c5e131071b849#64 := by
    show E.o.div (E.o.ofI64 (E.o.toI64 (E.o.round (E.o.mul 0x3ff0000000000000#64 (E.o.ofNat 10000000000)))))
      (E.o.ofNat (10000000000 % 2 ^ 32)) = _
    rw [hE]
    decide +kernel
  rw [hr, e, ofF64s_cons, ofF64s_cons, ofF64s_nil, List.append_nil,
    List.take_append_of_le_length (by rw [f64Bytes_length]; omega)]
  decide

/-! ### An instance -/

/-- The environment of the examples with a logarithm that counts the digits. -/
def embeddingEnv : Env := { sampleEnv with log10Scale := fun s => (Nat.toDigits 10 s).length - 1 }

/-- 1.5 and 2.25, with a precision of 1.6 decimals; 1.5, with thirteen. -/
def embeddingData : List (String × List B64) :=
  [("a", [0x3ff8000000000000#64, 0x4002000000000000#64]), ("b", [0x3ff8000000000000#64])]

def embeddingPrecisions : Table.Map B64 := fun k =>
  if k = "a" then some 0x3ff999999999999a#64 else if k = "b" then some 0x402a000000000000#64 else none

theorem embedding_log10 : ∀ k ≤ 12, embeddingEnv.log10Scale (10 ^ k) = k := by decide +kernel

theorem embedding_precisions : precisionOf 0x3ff999999999999a#64 = 2 ∧ precisionOf 0x402a000000000000#64 = 13 := by
  decide +kernel

/-- Does the encoder end with a file of less than a thousand bytes? -/
def smallFile (cfg : Config) (vs : List B64) : Bool :=
  match (Tpch.encoderArgs cfg sampleStamp vs).encode (embeddingEnv.scheme cfg) with
  | some (.ok f) => decide (f.length < 1000)
  | _ => false

theorem embedding_case {cfg : Config} {vs : List B64} (h1 : Supported embeddingEnv cfg) (h2 : vs ≠ [])
    (h3 : vs.length < 1000) (h4 : ∀ v ∈ vs, Accepts embeddingEnv cfg v) (h5 : smallFile cfg vs = true) :
    Case embeddingEnv cfg vs sampleStamp where
  libraries := ⟨sampleEnv_lossless.zstd, sampleEnv_lossless.gzip, sampleEnv_lossless.snappy, sampleEnv_lossless.alp⟩
  supported := h1
  accepts := h4
  nonempty := h2
  few := by omega
  version := by decide
  times := by simp [sampleStamp, Times.WF, Times.zero, Duration.WF]
  elapsed := by simp [sampleStamp, Duration.WF]
  files := by
    intro file hfile
    unfold smallFile at h5
    rw [hfile] at h5
    have := of_decide_eq_true h5
    omega

theorem embedding_accepts (cfg : Config) : Accepts embeddingEnv cfg 0x3ff8000000000000#64 ∧
    Accepts embeddingEnv cfg 0x4002000000000000#64 := by
  have h1 : ElfRange 0x3ff8000000000000#64 := Or.inr (Or.inr (by decide +kernel))
  have h2 : ElfRange 0x4002000000000000#64 := Or.inr (Or.inr (by decide +kernel))
  have hn : (0x3ff8000000000000#64 : B64) ≠ nanBits ∧ (0x4002000000000000#64 : B64) ≠ nanBits := by decide
  cases cfg with
  | elf c => exact ⟨Or.inl h1, Or.inl h2⟩
  | elfOnChimp c => exact ⟨Or.inl h1, Or.inl h2⟩
  | gorilla c => exact hn
  | chimp c => exact hn
  | chimp128 c => exact hn
  | _ => exact ⟨trivial, trivial⟩

theorem embedding_small : (configs.all fun c =>
    (match configFor (scaleOf 2) c with
      | some c' => smallFile c' [0x3ff8000000000000#64, 0x4002000000000000#64]
      | none => false) &&
    (match configFor (scaleOf 13) c with
      | some c' => smallFile c' [0x3ff8000000000000#64]
      | none => true)) = true := by decide +kernel

/-- The hypotheses of `c75_results` hold for it, with all thirteen configurations. -/
theorem embedding_cases : ∀ d ∈ embeddingData, ∃ p, embeddingPrecisions d.1 = some p ∧
    ∀ c ∈ configs, ∀ c', configFor (scaleOf (precisionOf p)) c = some c' →
      ∀ s ∈ List.replicate 10 sampleStamp, Case embeddingEnv c' d.2 s := by
  have hall := List.all_eq_true.1 embedding_small
  intro d hd
  simp only [embeddingData, List.mem_cons, List.not_mem_nil, or_false] at hd
  rcases hd with rfl | rfl
  · refine ⟨_, rfl, ?_⟩
    rw [embedding_precisions.1]
    intro c hc c' h s hs
    rw [List.eq_of_mem_replicate hs]
    have h6 := hall c hc
    rw [h] at h6
    simp only [Bool.and_eq_true] at h6
    refine embedding_case (c75_supported _ embedding_log10 h) (by simp) (by simp) ?_ h6.1
    intro v hv
    simp only [List.mem_cons, List.not_mem_nil, or_false] at hv
    rcases hv with rfl | rfl
    · exact (embedding_accepts _).1
    · exact (embedding_accepts _).2
  · refine ⟨_, rfl, ?_⟩
    rw [embedding_precisions.2]
    intro c hc c' h s hs
    rw [List.eq_of_mem_replicate hs]
    have h6 := hall c hc
    rw [h] at h6
    simp only [Bool.and_eq_true] at h6
    refine embedding_case (c75_supported _ embedding_log10 h) (by simp) (by simp) ?_ h6.2
    intro v hv
    simp only [List.mem_cons, List.not_mem_nil, or_false] at hv
    rw [hv]
    exact (embedding_accepts _).1

example : ∃ m, command embeddingEnv (List.replicate 10 sampleStamp) embeddingPrecisions embeddingData = some (.ok m) ∧
    (∃ r, m "b" = some r ∧ r .buff = none ∧ ∃ perf, r .gorilla = some perf ∧ perf.precision = 13 ∧ perf.runs.length = 10) := by
  obtain ⟨m, h1, h2, -⟩ := c75_results (by decide) embedding_cases
  refine ⟨m, h1, ?_⟩
  obtain ⟨p, r, h3, h4, h5⟩ := h2 ("b", [0x3ff8000000000000#64]) (by simp [embeddingData])
  cases h3
  have hb := h5 (.buff 0#64) (by decide)
  have hg := h5 (.gorilla 8192#64) (by decide)
  rw [embedding_precisions.2] at hb hg
  unfold Entry at hb hg
  rw [show configFor (scaleOf 13) (.buff 0#64) = none by decide +kernel] at hb
  rw [show configFor (scaleOf 13) (.gorilla 8192#64) = some (.gorilla 8192#64) by decide +kernel] at hg
  obtain ⟨rs, g1, g2, -⟩ := hg
  exact ⟨r, h4, hb, _, g1, rfl, by simpa using g2⟩

/-- One repetition, run: the magic number, the size of the input and the bytes printed. -/
example : (repetition embeddingEnv (.uncompressed 8192#64) [0x4002000000000123#64] sampleStamp).map
    (fun r => r.map fun r => (r.encoded.take 4, r.statistics.uncompressedSize, r.decoded)) =
    some (.ok ([0x45#8, 0x42#8, 0x49#8, 0x31#8], 8, [0x23#8, 0x01#8, 0x00#8, 0x00#8, 0x00#8])) := by
  decide +kernel

/-- A data set the precisions do not name, and one without values. -/
example : ("c", [0x3ff8000000000000#64]) ∈ ("c", [0x3ff8000000000000#64]) :: embeddingData ∧ embeddingPrecisions "c" = none :=
  ⟨List.mem_cons_self .., rfl⟩
example : ∀ m, command embeddingEnv (List.replicate 10 sampleStamp) embeddingPrecisions (("a", []) :: embeddingData) ≠
    some (.ok m) :=
  c75_empty (E := embeddingEnv) (key := "a")
    ⟨sampleEnv_lossless.zstd, sampleEnv_lossless.gzip, sampleEnv_lossless.snappy, sampleEnv_lossless.alp⟩
    (List.mem_cons_self ..) (by decide) (by
      intro s hs
      rw [List.eq_of_mem_replicate hs]
      exact ⟨by decide, by simp [sampleStamp, Times.WF, Times.zero, Duration.WF], by simp [sampleStamp, Duration.WF]⟩)

/-- DeltaSprintz with ten decimals on a file that begins with 1.0. -/
example : ∃ r, repetition embeddingEnv (.deltaSprintz 8192#64 10000000000#64) [0x3ff0000000000000#64] sampleStamp = some (.ok r) ∧
    r.decoded ≠ (ofF64s [0x3ff0000000000000#64]).take 5 := by
  obtain ⟨r, h1, h2⟩ := c75_repetition (E := embeddingEnv) (cfg := .deltaSprintz 8192#64 10000000000#64)
    (values := [0x3ff0000000000000#64]) (s := sampleStamp)
    (embedding_case trivial (by simp) (by simp) (fun _ _ => trivial) (by decide +kernel))
  exact ⟨r, h1, (c75_ten_decimals rfl h2).2⟩

end Ebi.Props
