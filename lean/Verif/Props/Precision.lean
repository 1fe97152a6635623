import Verif.Props.InSitu
import Verif.Props.Matmul
import Verif.Decimal

/-!
# C70: a precision set on a decoder

`Decoder::with_precision` (api/decoder.rs:158-161) through `GeneralChunkReader::with_precision`
(chunk_reader.rs:72-77) and `decode_with_precision` (controlled_precision.rs) on whole files.
-/

namespace Ebi.Props

open Ebi

/-- The number `w` that a BUFF file with `F` fraction bits gives for the record `v` when only `b` of them are wanted:
decoded from an integer that is at most the stored one and below it by less than `2^(F - b)`. -/
def Reduced (o : FloatOps) (F b : Nat) (v w : B64) : Prop :=
  ∃ x : BitVec 64, w = fixedValue o F x ∧ x.toInt ≤ (Buff.intoFixed v F).toInt ∧
    (Buff.intoFixed v F).toInt - x.toInt < (2 ^ (F - b) : Nat) ∧ (F ≤ b → x = Buff.intoFixed v F)

/-- Position by position. -/
def ReducedAll (o : FloatOps) (F b : Nat) (vs ws : List B64) : Prop :=
  ws.length = vs.length ∧ ∀ (i : Nat) (v w : B64), vs[i]? = some v → ws[i]? = some w → Reduced o F b v w

/-! ### Chunks -/

/-- What a chunk gives at precision `p`. -/
def chunkAt (o : FloatOps) (p : Nat) (c : Ebi.Chunk) : List B64 :=
  match Buff.decodeWithPrecision o c.2 p with
  | .ok ws => ws
  | _ => []

theorem chunkAt_spec (o : FloatOps) {F p b : Nat} {c : Ebi.Chunk} (hne : c.1 ≠ []) (hn : c.1.length < 2 ^ 32)
    (hF : F < 2 ^ 32) (hp : Buff.precisionMap[p]? = some b)
    (henc : Buff.encode (c.1.map fun v => Buff.intoFixed v F) F = .ok c.2) :
    Buff.decodeWithPrecision o c.2 p = .ok (chunkAt o p c) ∧ ReducedAll o F b c.1 (chunkAt o p c) := by
  obtain ⟨bytes, t, h1, h2, h3⟩ := c15_controlled_precision o (c.1.map fun v => Buff.intoFixed v F) F p b
    (by simpa using hne) (by simpa using hn) hF hp
  rw [henc] at h1
  injection h1 with h1
  subst h1
  have e : chunkAt o p c = c.1.map fun v => fixedValue o F (t (Buff.intoFixed v F)) := by
    unfold chunkAt
    rw [h2]
    simp [List.map_map]
  refine ⟨by rw [e, h2, List.map_map]; rfl, by rw [e, List.length_map], ?_⟩
  intro i v w hv hw
  rw [e, List.getElem?_map, hv] at hw
  simp only [Option.map_some, Option.some.injEq] at hw
  obtain ⟨k1, k2, k3, -⟩ := h3 (Buff.intoFixed v F) (List.mem_map_of_mem (List.mem_of_getElem? hv))
  exact ⟨t (Buff.intoFixed v F), hw.symm, k1, k2, k3⟩

theorem ReducedAll.flatMap {o : FloatOps} {F b : Nat} {g h : Ebi.Chunk → List B64} :
    ∀ {cs : List Ebi.Chunk}, (∀ c ∈ cs, ReducedAll o F b (g c) (h c)) →
      ReducedAll o F b (cs.flatMap g) (cs.flatMap h)
  | [], _ => ⟨rfl, by simp⟩
  | c :: cs, H => by
    obtain ⟨h1, h2⟩ := H c (List.mem_cons_self ..)
    obtain ⟨h3, h4⟩ := ReducedAll.flatMap (cs := cs) fun c' hc => H c' (List.mem_cons_of_mem _ hc)
    refine ⟨by simp only [List.flatMap_cons, List.length_append]; omega, fun i v w hv hw => ?_⟩
    simp only [List.flatMap_cons] at hv hw
    by_cases hi : i < (g c).length
    · rw [List.getElem?_append_left hi] at hv
      rw [List.getElem?_append_left (by omega)] at hw
      exact h2 i v w hv hw
    · rw [List.getElem?_append_right (by omega)] at hv
      rw [List.getElem?_append_right (by omega), h1] at hw
      exact h4 _ v w hv hw

/-- A fresh reader with a precision. -/
theorem freshHandle_precision (E : Env) {n p : Nat} {bs : List Byte} {ws : List B64}
    (hd : Buff.decodeWithPrecision E.o bs p = .ok ws) (hn : ws.length = n) (off : Nat) :
    ∃ h, freshHandle .buff (some p) n bs off = .ok h ∧ h.Holds E off ws := by
  refine ⟨⟨.buff ((Buff.Reader.new n bs).withControlledPrecision p), n, off⟩, rfl, ⟨⟨.buff ⟨n, bs, some p, some ws⟩, ?_⟩, trivial⟩,
    hn.symm, rfl⟩
  simp only [AnyReader.decompress, Buff.Reader.decompress, Buff.Reader.new, Buff.Reader.withControlledPrecision, hd]
  rfl

variable {E : Env} {a : Args} {file : List Byte} {m : Metadata} {s : BitVec 64}

/-- The chunks of a BUFF file opened with a precision of the table. -/
theorem Written.atPrecision (h : Written E a file m) (hc : a.cfg = .buff s) {p b : Nat}
    (hp : Buff.precisionMap[p]? = some b) :
    ∃ cs : List Ebi.Chunk, file = a.layout cs ∧ m = a.metadata cs ∧
      Fits a.cfg a.opt a.version a.times a.elapsed cs ∧
      Split a.opt.recordsPerChunk a.records (cs.map Prod.fst) ∧ recordCount cs = a.records.length ∧
      (∀ c ∈ cs, Buff.decodeWithPrecision E.o c.2 p = .ok (chunkAt E.o p c) ∧ (chunkAt E.o p c).length = c.1.length) ∧
      ReducedAll E.o (buffBits E s) b a.records (cs.flatMap (chunkAt E.o p)) ∧
      Opens E ⟨file, m, some p⟩ (cs.map (chunkAt E.o p)) := by
  obtain ⟨cs, rfl, rfl, hfit, h2, h3, h4, h5⟩ := h.buff hc
  have hF := buffBits_le E s
  have hlim := h.limit (by rw [hc]; rfl)
  have hlen : ∀ c ∈ cs, c.1.length ≤ recordCount cs := by
    intro c hcm
    obtain ⟨pre, suf, rfl⟩ := List.append_of_mem hcm
    obtain ⟨cv, cb⟩ := c
    rw [recordCount_append, recordCount_cons]
    simp only
    omega
  have hall : ∀ c ∈ cs, Buff.decodeWithPrecision E.o c.2 p = .ok (chunkAt E.o p c) ∧
      ReducedAll E.o (buffBits E s) b c.1 (chunkAt E.o p c) := by
    intro c hcm
    have := hlen c hcm
    exact chunkAt_spec E.o (h3 c hcm).1 (by omega) (by omega) hp (h3 c hcm).2
  refine ⟨cs, rfl, rfl, hfit, h2, h5, fun c hcm => ⟨(hall c hcm).1, (hall c hcm).2.1⟩, ?_, ?_⟩
  · rw [← h4]
    exact ReducedAll.flatMap fun c hcm => (hall c hcm).2
  have hcount : ∀ xs : List Ebi.Chunk, (∀ c ∈ xs, c ∈ cs) → (xs.map (chunkAt E.o p)).flatten.length = recordCount xs := by
    intro xs hx
    rw [recordCount_eq]
    induction xs with
    | nil => rfl
    | cons c xs ih =>
      simp only [List.map_cons, List.flatten_cons, List.length_append]
      rw [ih fun c' hc' => hx c' (List.mem_cons_of_mem _ hc'), (hall c (hx c (List.mem_cons_self ..))).2.1]
  refine ⟨?_, ?_, ?_, ?_⟩
  · show cs.length = _
    simp
  · show recordCount cs = _
    exact (hcount cs fun _ hc => hc).symm
  · intro c hcm
    obtain ⟨c', h6, rfl⟩ := List.mem_map.1 hcm
    have := List.length_pos_iff.2 (h3 c' h6).1
    exact List.length_pos_iff.1 (by rw [(hall c' h6).2.1]; exact this)
  · intro i c hcm
    rw [List.getElem?_map] at hcm
    obtain ⟨⟨c', bs⟩, h6, rfl⟩ := Option.map_eq_some_iff.1 hcm
    obtain ⟨hi, h7⟩ := List.getElem?_eq_some_iff.1 h6
    have hs : cs = cs.take i ++ (c', bs) :: cs.drop (i + 1) := by
      rw [← h7, ← List.drop_eq_getElem_cons hi, List.take_append_drop]
    have hil : (cs.take i).length = i := by rw [List.length_take]; omega
    have hl : loadChunk (E.scheme a.cfg) (a.layout cs) (a.metadata cs) i
        = .ok (c'.length, bs, recordCount (cs.take i)) := by
      have h8 := hfit
      rw [hs] at h8
      have h9 := loadChunk_layout (E.scheme a.cfg) h8
      rw [← hs, hil] at h9
      exact h9
    have hmem : (c', bs) ∈ cs := List.mem_of_getElem? h6
    obtain ⟨hd, h8, h9⟩ := freshHandle_precision E (hall _ hmem).1 (hall _ hmem).2.1 (recordCount (cs.take i))
    refine ⟨hd, ?_, ?_⟩
    · show (loadChunk (E.scheme a.cfg) (a.layout cs) (a.metadata cs) i >>= fun x =>
        freshHandle a.cfg.scheme (some p) x.1 x.2.1 x.2.2) = _
      rw [hl, show a.cfg.scheme = .buff by rw [hc]; rfl]
      exact h8
    · rw [← List.map_take, hcount _ fun c hcm => List.mem_of_mem_take hcm]
      exact h9

theorem flatMap_visited_any {bm : Option Bitmap} (g : Ebi.Chunk → List B64) {off : Nat} (cs : List Ebi.Chunk) (i : Nat)
    (hg : ∀ c ∈ cs, (g c).length = c.1.length) (hr : bm = none ∨ off + recordCount cs < 2 ^ 32) :
    (visited bm none i off cs).flatMap (fun p => defaultMaterialize bm p.1 (g p.2))
      = defaultMaterialize bm off (cs.flatMap g) := by
  induction cs generalizing off i with
  | nil => rfl
  | cons c cs ih =>
    have hl := hg c (List.mem_cons_self ..)
    obtain ⟨cv, cb⟩ := c
    rw [recordCount_cons] at hr
    simp only at hl
    simp only [List.flatMap_cons, defaultMaterialize_append, hl]
    rw [← ih (i + 1) (fun c hc => hg c (List.mem_cons_of_mem _ hc)) (hr.imp id (fun h => by omega)), visited]
    cases h : rangeDisjoint bm (off, off + cv.length)
    · simp [h]
    · have := defaultMaterialize_disjoint (bm := bm) (off := off) (vs := g (cv, cb)) (by rw [hl]; exact h)
        (hr.imp id (fun h => by omega))
      simp [this, h]

/-! ### C70 -/

/-- One list of reduced values answers every query that materializes: `materialize` under any bitmask, matrix products
and nearest neighbours (the last two for whole matrices and vectors per chunk, as in C41 and C42). -/
theorem c70_values (h : Written E a file m) (hc : a.cfg = .buff s) {p b : Nat}
    (hp : Buff.precisionMap[p]? = some b) :
    ∃ ws, ReducedAll E.o (buffBits E s) b a.records ws ∧
      (∀ bm : Option Bitmap, bm = none ∨ a.records.length < 2 ^ 32 →
        Decoder.materialize E ⟨file, m, some p⟩ bm none = .ok (pick bm ws)) ∧
      (∀ (target : List B64) (tr tc dr dc : Nat), a.records ≠ [] → dc = tr → 0 < dr * dc → dr * dc < 2 ^ 64 →
        a.records.length % (dr * dc) = 0 → target.length = tr * tc →
        8 * (a.records.length / (dr * dc) * dr * tc) < 2 ^ 63 → WholeVectors (dr * dc) a →
        Decoder.matmul E ⟨file, m, some p⟩ target (tr, tc) (dr, dc)
          = .ok (products E.o ws dr dc (a.records.length / (dr * dc)) target tr tc)) ∧
      (∀ (target : List B64) (fuel : Nat), target ≠ [] → WholeVectors target.length a → a.records.length < fuel →
        ∃ r, Decoder.knn1 E ⟨file, m, some p⟩ target fuel = some (.ok r) ∧ Nearest E.o target ws r) := by
  obtain ⟨cs, rfl, rfl, hfit, h2, h5, h3, h4, ho⟩ := h.atPrecision hc hp
  have hsch : (a.metadata cs).header.scheme = .buff := by
    show a.cfg.scheme = _
    rw [hc]; rfl
  have e : (cs.map (chunkAt E.o p)).flatten = cs.flatMap (chunkAt E.o p) := by rw [List.flatMap_def]
  have hal : ∀ t, WholeVectors t a → Aligned t (cs.map (chunkAt E.o p)) := by
    intro t hw
    have := aligned_of_split h2 hw id
    have key : ∀ xs : List Ebi.Chunk, (∀ c ∈ xs, c ∈ cs) → Aligned t ((xs.map Prod.fst).map fun c => c.map id) →
        Aligned t (xs.map (chunkAt E.o p)) := by
      intro xs
      induction xs with
      | nil => intro _ _; trivial
      | cons c xs ih =>
        cases xs with
        | nil => intro _ _; trivial
        | cons c2 xs =>
          intro hx hA
          simp only [List.map_cons] at hA ih ⊢
          refine ⟨?_, ih (fun c' hc' => hx c' (List.mem_cons_of_mem _ hc')) hA.2⟩
          rw [(h3 c (hx c (List.mem_cons_self ..))).2]
          have := hA.1
          rwa [List.length_map] at this
    exact key cs (fun _ h => h) this
  refine ⟨cs.flatMap (chunkAt E.o p), h4, fun bm hr => ?_, ?_, ?_⟩
  · rw [← h5] at hr
    unfold Decoder.materialize Decoder.ops
    simp only [hsch]
    have hq := query_eq (E.scheme a.cfg) hfit bm hr none (A := List B64)
      (fun n bs off out => do
        let vs ← (AnyReader.ops E .buff (some p)).materialize n bs bm off
        .ok (out ++ vs))
      (fun out q => out ++ defaultMaterialize bm q.1 (chunkAt E.o p q.2))
      (by
        intro q hq out
        obtain ⟨pre, suf, e1, -⟩ := placed_split (visited_subset hq)
        have hmem : q.2 ∈ cs := by rw [e1]; simp
        obtain ⟨hd, h8, h9⟩ := freshHandle_precision E (h3 _ hmem).1 (h3 _ hmem).2 q.1
        obtain ⟨hd', h10, -⟩ := h9.exec (q := .materialize bm) rfl
        simp only [AnyReader.ops, h8, Res.bind_ok, Handle.values_of_exec h10, Res.map_ok]) []
    rw [← List.flatMap_eq_foldl, flatMap_visited_any _ cs 0 (fun c hcm => (h3 c hcm).2) (by rw [Nat.zero_add]; exact hr),
      pickFrom_eq (hr.imp id (fun h => by rw [h4.1]; omega))] at hq
    exact hq
  · intro target tr tc dr dc hne hshape hsize h64 hdvd htarget hcap hw
    have hl : (cs.map (chunkAt E.o p)).flatten.length = a.records.length := by rw [e]; exact h4.1
    have := matmul_opens ho (by
        intro e2
        rw [e2] at hl
        exact hne (List.length_eq_zero_iff.1 hl.symm)) hshape hsize h64
      (Nat.dvd_of_mod_eq_zero (by rw [hl]; exact hdvd)) htarget (by rw [hl]; exact hcap) (hal _ hw)
    rw [hl, e] at this
    exact this
  · intro target fuel ht hw hfuel
    have hl : (cs.map (chunkAt E.o p)).flatten.length = a.records.length := by rw [e]; exact h4.1
    have := knn_opens ho ht (hal _ hw) (fuel := fuel) (by rw [hl]; exact hfuel)
    rw [e] at this
    exact this

/-- A precision with at least as many bits as are stored changes nothing. -/
theorem c70_full {o : FloatOps} {F b : Nat} (hF : F ≤ b) {vs ws : List B64} (h : ReducedAll o F b vs ws) :
    ws = vs.map fun v => fixedValue o F (Buff.intoFixed v F) := by
  apply List.ext_getElem?
  intro i
  rw [List.getElem?_map]
  cases hv : vs[i]? with
  | none =>
    rw [List.getElem?_eq_none_iff] at hv
    rw [Option.map_none, List.getElem?_eq_none_iff, h.1]
    exact hv
  | some v =>
    have hi : i < ws.length := by rw [h.1]; exact (List.getElem?_eq_some_iff.1 hv).1
    obtain ⟨x, h1, -, -, h4⟩ := h.2 i v ws[i] hv (List.getElem?_eq_getElem hi)
    rw [List.getElem?_eq_getElem hi, h1, h4 hF]
    rfl

/-- In doubles: never above the fully decoded value, and below it by less than `2^-b`, for stored integers up to `2^52`. -/
theorem c70_error {F p b : Nat} (hF : F ≤ 50) (hp : Buff.precisionMap[p]? = some b) {v w : B64}
    (h : Reduced Soft.ops F b v w) (hv : (Buff.intoFixed v F).toInt.natAbs ≤ 2 ^ 52) :
    isFinite w = true ∧ exactVal w ≤ exactVal (fixedValue Soft.ops F (Buff.intoFixed v F)) ∧
      exactVal (fixedValue Soft.ops F (Buff.intoFixed v F)) - exactVal w < (2 ^ (1074 - b) : Nat) := by
  obtain ⟨x, rfl, h1, h2, h3⟩ := h
  generalize Buff.intoFixed v F = q at *
  have hb50 : b ≤ 50 := by
    have hm : b ∈ Buff.precisionMap := List.mem_of_getElem? hp
    have : ∀ x ∈ Buff.precisionMap, x ≤ 50 := by decide
    exact this b hm
  have ex : ∀ x : BitVec 64, x.toInt.natAbs < 2 ^ 53 →
      isFinite (fixedValue Soft.ops F x) = true ∧
        exactVal (fixedValue Soft.ops F x) = x.toInt * (2 ^ (1074 - F) : Nat) := by
    intro x hx
    have := Buff.dequant_exact (q := x.toInt) (A := x.toInt.natAbs) (s := 0) (F := F) (by simp) hx
      (by omega) (by omega)
    rw [show (2 : Int) ^ (1074 - F) = ((2 ^ (1074 - F) : Nat) : Int) by simp] at this
    exact this
  have h50 : 2 ^ (F - b) ≤ 2 ^ 50 := Nat.pow_le_pow_right (by decide) (by omega)
  obtain ⟨e1, e2⟩ := ex q (by omega)
  obtain ⟨e3, e4⟩ := ex x (by omega)
  refine ⟨e3, ?_, ?_⟩
  · rw [e2, e4]
    exact Int.mul_le_mul_of_nonneg_right h1 (Int.natCast_nonneg _)
  · rw [e2, e4, ← Int.sub_mul]
    clear ex e1 e2 e3 e4 h50
    have hpos : 0 < 2 ^ (1074 - b) := Nat.two_pow_pos _
    have hpos2 : 0 < 2 ^ (1074 - F) := Nat.two_pow_pos _
    have hK : ¬ F ≤ b → 2 ^ (F - b) * 2 ^ (1074 - F) = 2 ^ (1074 - b) := by
      intro hFb
      rw [← Nat.pow_add]
      congr 1
      omega
    generalize 2 ^ (1074 - b) = K3 at *
    generalize 2 ^ (1074 - F) = K2 at *
    generalize 2 ^ (F - b) = K1 at *
    by_cases hFb : F ≤ b
    · rw [h3 hFb, Int.sub_self, Int.zero_mul]
      exact Int.natCast_pos.2 hpos
    · rw [← hK hFb, Int.natCast_mul]
      exact Int.mul_lt_mul_of_pos_right h2 (Int.natCast_pos.2 hpos2)

/-- From precision 1 on that is less than half a unit of the last decimal asked for. -/
theorem c70_half_unit_partial {F p b : Nat} (hF : F ≤ 50) (h1 : 1 ≤ p) (hp : Buff.precisionMap[p]? = some b) {v w : B64}
    (h : Reduced Soft.ops F b v w) (hv : (Buff.intoFixed v F).toInt.natAbs ≤ 2 ^ 52) :
    2 * 10 ^ p * (exactVal (fixedValue Soft.ops F (Buff.intoFixed v F)) - exactVal w) < (2 ^ 1074 : Nat) := by
  obtain ⟨-, h2, h3⟩ := c70_error hF hp h hv
  have hlt : p < 13 := (List.getElem?_eq_some_iff.1 hp).1
  have ht : ∀ i : Fin 13, 1 ≤ i.val → 2 * 10 ^ i.val ≤ 2 ^ (Buff.precisionMap[i.val]'i.isLt) := by decide
  have hb : b = Buff.precisionMap[p] := by
    obtain ⟨_, e⟩ := List.getElem?_eq_some_iff.1 hp
    exact e.symm
  have ht2 := ht ⟨p, hlt⟩ h1
  simp only [← hb] at ht2
  have hb50 : b ≤ 50 := by
    have hm : b ∈ Buff.precisionMap := List.mem_of_getElem? hp
    have : ∀ x ∈ Buff.precisionMap, x ≤ 50 := by decide
    exact this b hm
  generalize hd : exactVal (fixedValue Soft.ops F (Buff.intoFixed v F)) - exactVal w = d at *
  obtain ⟨n, rfl⟩ := Int.eq_ofNat_of_zero_le (by omega : 0 ≤ d)
  have h4 : n < 2 ^ (1074 - b) := by exact_mod_cast h3
  have h5 : 2 * 10 ^ p * n < 2 ^ 1074 := by
    have e : 2 ^ b * 2 ^ (1074 - b) = 2 ^ 1074 := by rw [← Nat.pow_add]; congr 1; omega
    rw [← e]
    exact Nat.lt_of_le_of_lt (Nat.mul_le_mul_right n ht2) (Nat.mul_lt_mul_of_pos_left h4 (Nat.two_pow_pos _))
  exact_mod_cast h5

/-- A precision beyond the table (13 entries) panics as soon as a chunk is materialized. -/
theorem c70_no_such_precision (h : Written E a file m) (hc : a.cfg = .buff s) (hne : a.records ≠ []) {p : Nat}
    (hp : 13 ≤ p) : Decoder.materialize E ⟨file, m, some p⟩ none none = .panic := by
  obtain ⟨cs, rfl, rfl, hfit, h2, h3, h4, h5⟩ := h.buff hc
  have hsch : (a.metadata cs).header.scheme = .buff := by
    show a.cfg.scheme = _
    rw [hc]; rfl
  have hpan : ∀ bs, Buff.decodeWithPrecision E.o bs p = .panic := by
    intro bs
    have : ∀ F, Buff.bitsUnnecessary p F = none := by
      intro F
      unfold Buff.bitsUnnecessary
      rw [List.getElem?_eq_none_iff.2 (by exact hp)]
      rfl
    unfold Buff.decodeWithPrecision Buff.decodeTo
    cases hh : Buff.readHeader bs with
    | ok x => simp only [this]
    | panic => rfl
    | err =>
      unfold Buff.readHeader at hh
      split at hh <;> cases hh
  cases cs with
  | nil => exact absurd h4.symm hne
  | cons c cs =>
    have hl : loadChunk (E.scheme a.cfg) (a.layout (c :: cs)) (a.metadata (c :: cs)) 0
        = .ok (c.1.length, c.2, 0) := by
      have h9 := loadChunk_layout (pre := []) (E.scheme a.cfg) hfit
      exact h9
    have hw := chunkLoop_walk (cfg := a.cfg) (opt := a.opt) (version := a.version) (times := a.times)
      (elapsed := a.elapsed) (cs := c :: cs) (A := List B64) none (Or.inl rfl) none (fun i out => do
        let (n, bs, off) ← loadChunk (E.scheme a.cfg) (a.layout (c :: cs)) (a.metadata (c :: cs)) i
        let vs ← (AnyReader.ops E .buff (some p)).materialize n bs none off
        .ok (out ++ vs)) (fun _ _ _ => .panic) (by
          rintro pre ⟨cv, cb⟩ suf out e
          have h9 := hfit
          rw [e] at h9
          have h10 := loadChunk_layout (E.scheme a.cfg) h9
          rw [← e] at h10
          have h11 : loadChunk (E.scheme a.cfg) (a.layout (c :: cs)) (a.metadata (c :: cs)) pre.length
            = .ok (cv.length, cb, recordCount pre) := h10
          rw [h11]
          simp only [AnyReader.ops, freshHandle, AnyReader.new, Res.bind_ok, AnyReader.withPrecision, Handle.values,
            Handle.exec, AnyReader.exec, Buff.Reader.exec, Buff.Reader.withControlledPrecision, Buff.Reader.new,
            defaultExec, Buff.Reader.decompress, hpan]
          rfl) []
    unfold Decoder.materialize Decoder.ops
    simp only [hsch]
    refine Eq.trans hw ?_
    simp [walk, rangeDisjoint]

/-- Filters, sums, minima and maxima take no notice of the precision: they work on the stored bits, whatever the file. -/
theorem c70_in_situ (E : Env) (file : List Byte) (m : Metadata) (p : Option Nat) (bm : Option Bitmap) (cid : Option Nat) :
    (∀ q, Decoder.filter E ⟨file, m, p⟩ q bm cid = Decoder.filter E ⟨file, m, none⟩ q bm cid) ∧
    Decoder.sum E ⟨file, m, p⟩ bm cid = Decoder.sum E ⟨file, m, none⟩ bm cid ∧
    Decoder.min E ⟨file, m, p⟩ bm cid = Decoder.min E ⟨file, m, none⟩ bm cid ∧
    Decoder.max E ⟨file, m, p⟩ bm cid = Decoder.max E ⟨file, m, none⟩ bm cid := by
  have key : ∀ id, (AnyReader.ops E id p).filter = (AnyReader.ops E id none).filter ∧
      (AnyReader.ops E id p).sum = (AnyReader.ops E id none).sum ∧
      (AnyReader.ops E id p).min = (AnyReader.ops E id none).min ∧
      (AnyReader.ops E id p).max = (AnyReader.ops E id none).max := by
    intro id
    by_cases h : id = .buff
    · subst h
      refine ⟨?_, ?_, ?_, ?_⟩
      · funext n bs q bm off
        rw [(buff_ops E p n bs bm off).1 q, (buff_ops E none n bs bm off).1 q]
      · funext n bs bm off
        rw [(buff_ops E p n bs bm off).2.1, (buff_ops E none n bs bm off).2.1]
      · funext n bs bm off
        rw [(buff_ops E p n bs bm off).2.2.1, (buff_ops E none n bs bm off).2.2.1]
      · funext n bs bm off
        rw [(buff_ops E p n bs bm off).2.2.2, (buff_ops E none n bs bm off).2.2.2]
    · have : ∀ n bs off, freshHandle id p n bs off = freshHandle id none n bs off := by
        intro n bs off
        rw [freshHandle_other h, freshHandle_other h]
      simp only [AnyReader.ops, this, and_self]
  obtain ⟨k1, k2, k3, k4⟩ := key m.header.scheme
  refine ⟨fun q => ?_, ?_, ?_, ?_⟩
  · simp only [Decoder.filter, Decoder.ops, Query.filter, k1]
  · simp only [Decoder.sum, Decoder.ops, Query.sum, k2]
  · simp only [Decoder.min, Decoder.ops, Query.min, k3]
  · simp only [Decoder.max, Decoder.ops, Query.max, k4]

/-- With another scheme nothing at all depends on it. -/
theorem c70_ignored (E : Env) (file : List Byte) (m : Metadata) (p : Option Nat) (h : m.header.scheme ≠ .buff) :
    Decoder.ops E ⟨file, m, p⟩ = Decoder.ops E ⟨file, m, none⟩ ∧
    ∀ i, Decoder.chunkReader E ⟨file, m, p⟩ i = Decoder.chunkReader E ⟨file, m, none⟩ i := by
  have : ∀ n bs off, freshHandle m.header.scheme p n bs off = freshHandle m.header.scheme none n bs off := by
    intro n bs off
    rw [freshHandle_other h, freshHandle_other h]
  constructor
  · simp only [Decoder.ops, AnyReader.ops, this]
  · intro i
    simp only [Decoder.chunkReader, this]

/-! ### What does not hold -/

/-- The documentation (chunk_reader.rs:383, api/decoder.rs:128-130) says that the values read with precision `n` are the
original ones after rounding to `n` decimals. 0.506 and 0, stored with 15 fraction bits and read with precision 2, come
back as 0.50390625 and 0: rounded to two decimals 0.51 has become 0.50, and to three 0.506 has become 0.504. -/
theorem c70_rounds_differently :
    Buff.intoFixed 0x3fe03126e978d4fe#64 15 = 16580#64 ∧
    ((Buff.encode [16580#64, 0#64] 15).bind fun bytes => Buff.decodeWithPrecision Soft.ops bytes 2)
      = .ok [0x3fe0200000000000#64, 0#64] ∧
    Decimal.roundByScale Soft.ops 0x3fe03126e978d4fe#64 100 = 0x3fe051eb851eb852#64 ∧
    Decimal.roundByScale Soft.ops 0x3fe0200000000000#64 100 = 0x3fe0000000000000#64 ∧
    Decimal.roundByScale Soft.ops 0x3fe03126e978d4fe#64 1000 = 0x3fe03126e978d4fe#64 ∧
    Decimal.roundByScale Soft.ops 0x3fe0200000000000#64 1000 = 0x3fe020c49ba5e354#64 := by
  decide +kernel

/-- 200.75 and 0. -/
def wideData : List B64 := [0x4069180000000000#64, 0#64]

/-- On one decoder with precision 0: the largest record is 200.75 and the filter `≥ 200.5` answers it, and the value
written for it is 200. -/
theorem c70_disagree :
    ∃ d, fileDecoder (.buff 10#64) wideData 2 = some d ∧ d.precision = none ∧
      Written queryEnv (fileArgs (.buff 10#64) wideData 2) d.file d.info ∧
      (Decoder.materialize queryEnv ⟨d.file, d.info, some 0⟩ none none,
        Decoder.max queryEnv ⟨d.file, d.info, some 0⟩ none none,
        Decoder.filter queryEnv ⟨d.file, d.info, some 0⟩ (.range ⟨.inclusive 0x4069100000000000#64, .none⟩) none none)
        = (.ok [0x4069000000000000#64, 0#64], .ok 0x4069180000000000#64, .ok [0]) :=
  sample_written (f := fun d => (Decoder.materialize queryEnv ⟨d.file, d.info, some 0⟩ none none,
        Decoder.max queryEnv ⟨d.file, d.info, some 0⟩ none none,
        Decoder.filter queryEnv ⟨d.file, d.info, some 0⟩ (.range ⟨.inclusive 0x4069100000000000#64, .none⟩) none none))
    (cfg := .buff 10#64) supported_buff (fun _ _ => trivial) (by simp [wideData]) (by omega) (by omega) (by simp [wideData])
    (by decide +kernel)

/-- The hypotheses of `c70_half_unit_partial` on 0.506, 15 fraction bits and precision 2. -/
example : Buff.precisionMap[2]? = some 8 ∧ Reduced Soft.ops 15 8 0x3fe03126e978d4fe#64 0x3fe0200000000000#64 ∧
    (Buff.intoFixed 0x3fe03126e978d4fe#64 15).toInt.natAbs ≤ 2 ^ 52 :=
  ⟨rfl, ⟨16512#64, by decide +kernel, by decide +kernel, by decide +kernel, by decide⟩, by decide +kernel⟩

end Ebi.Props
