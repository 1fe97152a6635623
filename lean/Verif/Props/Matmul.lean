import Verif.Props.Knn

/-!
# C42: matrix multiplication
-/

namespace Ebi.Props

open Ebi

/-- Scalar product, summed in order. -/
def dot (o : FloatOps) (u v : List B64) : B64 := (List.zipWith o.mul u v).foldl o.add o.sumInit

/-- Row `r` of the `q`-th of the consecutive `dr × dc` matrices, stored row by row. -/
def dataRow (data : List B64) (dr dc q r : Nat) : List B64 := (data.drop (q * (dr * dc) + r * dc)).take dc

/-- Column `j` of the target, stored column by column (api/decoder.rs:541-577). -/
def targetColumn (target : List B64) (tr j : Nat) : List B64 := (target.drop (j * tr)).take tr

/-- The products of `batch` data matrices with the target, each row by row. -/
def products (o : FloatOps) (data : List B64) (dr dc batch : Nat) (target : List B64) (tr tc : Nat) : List B64 :=
  (List.range batch).flatMap fun q => (List.range dr).flatMap fun r => (List.range tc).map fun j =>
    dot o (dataRow data dr dc q r) (targetColumn target tr j)

/-! ## The loops -/

theorem dotProduct_eq (o : FloatOps) (x : Nat) (col vs : List B64) :
    defaultDotProduct o x col vs = dot o ((vs.drop x).take col.length) col := by
  have hd : vs.drop (min vs.length x) = vs.drop x := by
    by_cases h : x ≤ vs.length
    · rw [Nat.min_eq_right h]
    · rw [Nat.min_eq_left (by omega), List.drop_of_length_le (Nat.le_refl _), List.drop_of_length_le (by omega)]
  unfold defaultDotProduct dot
  simp only [hd]
  rw [zipWith_take, List.zip_eq_zipWith, List.map_zipWith]

theorem dotColumns_spec {E : Env} {lo : Nat} {vs : List B64} (x : Nat) (cols : List (List B64)) (h : Handle)
    (hh : h.Holds E lo vs) :
    ∃ h', dotColumns E x cols h = .ok (cols.map fun col => dot E.o ((vs.drop x).take col.length) col, h') ∧
      h'.Holds E lo vs := by
  induction cols generalizing h with
  | nil => exact ⟨h, rfl, hh⟩
  | cons col cols ih =>
    obtain ⟨h1, e1, hh1⟩ := hh.exec (q := .dotProduct x col) rfl
    obtain ⟨h2, e2, hh2⟩ := ih h1 hh1
    refine ⟨h2, ?_, hh2⟩
    rw [dotColumns, Handle.number_of_exec e1]
    simp only [Res.bind_ok, e2, List.map_cons, dotProduct_eq]

theorem dotRows_spec {E : Env} {lo : Nat} {vs : List B64} (cols : List (List B64)) (off dc k row : Nat) (h : Handle)
    (hh : h.Holds E lo vs) :
    ∃ h', dotRows E cols off dc k row h = .ok ((List.range k).flatMap (fun r =>
        cols.map fun col => dot E.o ((vs.drop (off + (row + r) * dc)).take col.length) col), h') ∧
      h'.Holds E lo vs := by
  induction k generalizing row h with
  | zero => exact ⟨h, rfl, hh⟩
  | succ k ih =>
    obtain ⟨h1, e1, hh1⟩ := dotColumns_spec (off + row * dc) cols h hh
    obtain ⟨h2, e2, hh2⟩ := ih (row + 1) h1 hh1
    refine ⟨h2, ?_, hh2⟩
    rw [dotRows, e1]
    simp only [Res.bind_ok, e2, List.range_succ_eq_map, List.flatMap_cons, List.flatMap_map, Nat.add_zero]
    congr 3
    congr 1
    funext r
    rw [show row + 1 + r = row + r.succ by omega]

/-- The loop over the batch: `c` is the chunk being read, `rest` the chunks after it. -/
theorem matmulLoop_spec {E : Env} {d : Decoder} {cols : List (List B64)} {dr dc : Nat} (hpos : 0 < dr * dc)
    (hcols : ∀ col ∈ cols, col.length = dc) (b : Nat) :
    ∀ (chunk off : Nat) (h : Handle) (lo : Nat) (c : List B64) (rest : List (List B64)), h.Holds E lo c →
      (∀ (j : Nat) (c' : List B64), rest[j]? = some c' →
        ∃ h' lo', d.chunkReader E (chunk + 1 + j) = .ok h' ∧ h'.Holds E lo' c') →
      dr * dc ∣ c.length → (∀ c' ∈ rest, c' ≠ [] ∧ dr * dc ∣ c'.length) → dr * dc ∣ off →
      (c.drop off ++ rest.flatten).length = b * (dr * dc) →
      matmulLoop E d cols dr dc b chunk off h
        = .ok ((List.range b).flatMap fun q => (List.range dr).flatMap fun r =>
            cols.map fun col => dot E.o (dataRow (c.drop off ++ rest.flatten) dr dc q r) col) := by
  induction b with
  | zero => intros; rfl
  | succ b ih =>
    -- one matrix that lies in the chunk `c` at `off`
    have key : ∀ (chunk off : Nat) (h : Handle) (lo : Nat) (c : List B64) (rest : List (List B64)),
        h.Holds E lo c →
        (∀ (j : Nat) (c' : List B64), rest[j]? = some c' →
          ∃ h' lo', d.chunkReader E (chunk + 1 + j) = .ok h' ∧ h'.Holds E lo' c') →
        dr * dc ∣ c.length → (∀ c' ∈ rest, c' ≠ [] ∧ dr * dc ∣ c'.length) → dr * dc ∣ off →
        (c.drop off ++ rest.flatten).length = (b + 1) * (dr * dc) → off < c.length →
        (do
          let (vs, h) ← dotRows E cols off dc dr 0 h
          let ws ← matmulLoop E d cols dr dc b chunk (off + dr * dc) h
          .ok (vs ++ ws))
          = .ok ((List.range (b + 1)).flatMap fun q => (List.range dr).flatMap fun r =>
            cols.map fun col => dot E.o (dataRow (c.drop off ++ rest.flatten) dr dc q r) col) := by
      intro chunk off h lo c rest hh hread hc hrest hoff hlen hlt
      have hin : off + dr * dc ≤ c.length := by
        obtain ⟨x, hx⟩ := hc
        obtain ⟨y, hy⟩ := hoff
        rw [hx, hy] at hlt
        have hxy : y < x := Nat.lt_of_mul_lt_mul_left hlt
        rw [hx, hy, ← Nat.mul_succ]
        exact Nat.mul_le_mul_left _ hxy
      obtain ⟨h1, e1, hh1⟩ := dotRows_spec cols off dc dr 0 h hh
      have hdrop : (c.drop off ++ rest.flatten).drop (dr * dc) = c.drop (off + dr * dc) ++ rest.flatten := by
        rw [List.drop_append_of_le_length (by rw [List.length_drop]; omega), List.drop_drop]
      have e2 := ih chunk (off + dr * dc) h1 lo c rest hh1 hread hc hrest
        (Nat.dvd_add hoff (Nat.dvd_refl _)) (by
          rw [← hdrop, List.length_drop, hlen, Nat.succ_mul, Nat.add_sub_cancel])
      rw [e1]
      simp only [Res.bind_ok, e2, Nat.zero_add]
      rw [List.range_succ_eq_map, List.flatMap_cons, List.flatMap_map, ← hdrop]
      congr 2
      · rw [List.flatMap_def, List.flatMap_def]
        congr 1
        apply List.map_congr_left
        intro r hr
        apply List.map_congr_left
        intro col hcol
        rw [hcols col hcol]
        congr 1
        unfold dataRow
        have hr2 : (r + 1) * dc ≤ dr * dc := Nat.mul_le_mul_right _ (List.mem_range.1 hr)
        rw [Nat.succ_mul] at hr2
        rw [Nat.zero_mul, Nat.zero_add, List.drop_append_of_le_length (by rw [List.length_drop]; omega),
          List.take_append_of_le_length (by rw [List.length_drop, List.length_drop]; omega), List.drop_drop]
      · congr 1
        funext q
        congr 1
        funext r
        unfold dataRow
        rw [List.drop_drop, Nat.succ_mul]
        rw [show dr * dc + (q * (dr * dc) + r * dc) = q * (dr * dc) + dr * dc + r * dc by omega]
    intro chunk off h lo c rest hh hread hc hrest hoff hlen
    rw [matmulLoop]
    by_cases hlt : off < c.length
    · rw [if_neg (by rw [hh.records]; omega)]
      exact key chunk off h lo c rest hh hread hc hrest hoff hlen hlt
    · rw [if_pos (by rw [hh.records]; omega)]
      have hnil : c.drop off = [] := List.drop_of_length_le (by omega)
      rw [hnil, List.nil_append] at hlen ⊢
      cases rest with
      | nil =>
        rw [List.flatten_nil, List.length_nil, Nat.succ_mul] at hlen
        omega
      | cons c' rest =>
        obtain ⟨h', lo', e1, hh'⟩ := hread 0 c' rfl
        rw [Nat.add_zero] at e1
        have hc' := hrest c' (List.mem_cons_self ..)
        have hl : 0 < c'.length := List.length_pos_iff.2 hc'.1
        have := key (chunk + 1) 0 h' lo' c' rest hh'
          (fun j c2 hj => by
            have := hread (j + 1) c2 (by simpa using hj)
            rw [show chunk + 1 + (j + 1) = chunk + 1 + 1 + j by omega] at this
            exact this)
          hc'.2 (fun c2 h2 => hrest c2 (List.mem_cons_of_mem _ h2)) (Nat.dvd_zero _)
          (by simpa using hlen) hl
        simp only [e1, Res.bind_ok]
        simpa using this

theorem chunksExact_eq (tr m : Nat) (xs : List B64) (off : Nat) :
    chunksExact tr m (xs.drop (off * tr)) = (List.range m).map fun j => targetColumn xs tr (off + j) := by
  induction m generalizing off with
  | zero => rfl
  | succ m ih =>
    rw [chunksExact, List.drop_drop, ← Nat.succ_mul, ih, List.range_succ_eq_map, List.map_cons, List.map_map]
    congr 1
    apply List.map_congr_left
    intro j _
    show targetColumn xs tr (off + 1 + j) = targetColumn xs tr (off + (j + 1))
    rw [show off + 1 + j = off + (j + 1) by omega]

theorem aligned_all {t : Nat} {css : List (List B64)} (h : Aligned t css) (hd : t ∣ css.flatten.length) :
    ∀ c ∈ css, t ∣ c.length := by
  induction css with
  | nil => simp
  | cons c css ih =>
    cases css with
    | nil =>
      intro c' hc
      obtain rfl : c' = c := by simpa using hc
      simpa using hd
    | cons c2 css =>
      rw [List.flatten_cons, List.length_append] at hd
      have h2 := ih h.2 ((Nat.dvd_add_right h.1).1 hd)
      intro c' hc
      rcases List.mem_cons.1 hc with rfl | hc
      · exact h.1
      · exact h2 c' hc

/-- On any open file whose chunks hold `css`. -/
theorem matmul_opens {E : Env} {d : Decoder} {css : List (List B64)} (h : Opens E d css) (hne : css ≠ [])
    {target : List B64} {tr tc dr dc : Nat} (hshape : dc = tr) (hsize : 0 < dr * dc) (h64 : dr * dc < 2 ^ 64)
    (hdvd : dr * dc ∣ css.flatten.length) (htarget : target.length = tr * tc)
    (hcap : 8 * (css.flatten.length / (dr * dc) * dr * tc) < 2 ^ 63) (hal : Aligned (dr * dc) css) :
    d.matmul E target (tr, tc) (dr, dc)
      = .ok (products E.o css.flatten dr dc (css.flatten.length / (dr * dc)) target tr tc) := by
  subst hshape
  have hall := aligned_all hal hdvd
  cases css with
  | nil => exact absurd rfl hne
  | cons c css =>
    obtain ⟨h0, e0, hh0⟩ := h.reader 0 c rfl
    have hc := h.nonempty c (List.mem_cons_self ..)
    have hlc : 0 < c.length := List.length_pos_iff.2 hc
    have hdc : 0 < dc := Nat.pos_of_mul_pos_left hsize
    have hb : (c :: css).flatten.length / (dr * dc) ≠ 0 := by
      have h1 : dr * dc ≤ (c :: css).flatten.length :=
        Nat.le_of_dvd (by rw [List.flatten_cons, List.length_append]; omega) hdvd
      have := Nat.div_pos h1 hsize
      omega
    unfold Decoder.matmul
    simp only [Nat.mod_eq_of_lt h64, h.records, Nat.mod_eq_zero_of_dvd hdvd, ne_eq, not_true_eq_false, or_self,
      if_false]
    rw [if_neg (by omega), Nat.mod_eq_of_lt (by omega), if_neg (by omega), e0]
    simp only [Res.bind_ok]
    rw [if_neg hb, if_neg (by omega)]
    have hcols : chunksExact dc (target.length / dc) target = (List.range tc).map (targetColumn target dc) := by
      have := chunksExact_eq dc (target.length / dc) target 0
      rw [Nat.zero_mul, List.drop_zero] at this
      rw [this, htarget, Nat.mul_div_cancel_left _ hdc]
      simp
    rw [hcols, matmulLoop_spec hsize ?_ _ 0 0 h0 _ c css hh0 ?_ (hall c (List.mem_cons_self ..))
      (fun c' hc' => ⟨h.nonempty c' (List.mem_cons_of_mem _ hc'), hall c' (List.mem_cons_of_mem _ hc')⟩)
      (Nat.dvd_zero _) ?_]
    · simp only [List.drop_zero, products, List.map_map, List.flatten_cons]
      rfl
    · intro col hcol
      obtain ⟨j, hj, rfl⟩ := List.mem_map.1 hcol
      have hj := List.mem_range.1 hj
      have h1 : (j + 1) * dc ≤ tc * dc := Nat.mul_le_mul_right _ hj
      rw [Nat.succ_mul, Nat.mul_comm tc] at h1
      unfold targetColumn
      rw [List.length_take, List.length_drop, htarget]
      omega
    · intro j c' hj
      obtain ⟨h', e, hh⟩ := h.reader (j + 1) c' (by simpa using hj)
      exact ⟨h', _, by rw [Nat.zero_add, Nat.add_comm]; exact e, hh⟩
    · rw [List.drop_zero, ← List.flatten_cons, Nat.div_mul_cancel hdvd]

/-! ## Files -/

/-- C42 for files whose chunks hold whole matrices, whatever the scheme. The target has as many entries as
its shape says, and the result fits the address space. Missing: matrices that straddle chunks
(`c42_straddling_wrong`) and the shapes that panic (`c42_zero_shape_panics`) or are not checked
(`c42_target_unchecked`). -/
theorem c42_matmul_partial {E : Env} {a : Args} {file : List Byte} {m : Metadata} (h : Written E a file m)
    (prec : Option Nat) (hp : prec = none ∨ a.cfg.scheme ≠ .buff) (hne : a.records ≠ []) {target : List B64}
    {tr tc dr dc : Nat} (hshape : dc = tr) (hsize : 0 < dr * dc) (h64 : dr * dc < 2 ^ 64)
    (hdvd : a.records.length % (dr * dc) = 0) (htarget : target.length = tr * tc)
    (hcap : 8 * (a.records.length / (dr * dc) * dr * tc) < 2 ^ 63) (hw : WholeVectors (dr * dc) a) :
    Decoder.matmul E ⟨file, m, prec⟩ target (tr, tc) (dr, dc)
      = .ok (products E.o (a.records.map (readBack E a.cfg)) dr dc (a.records.length / (dr * dc)) target tr tc) := by
  obtain ⟨cs, h1, h2⟩ := h.encoded.opens h.law h.valid h.accepts h.len prec hp
  have e : (cs.map fun c => c.map (readBack E a.cfg)).flatten = a.records.map (readBack E a.cfg) := by
    rw [← List.map_flatten, h1.flatten]
  have hcs : cs.map (fun c => c.map (readBack E a.cfg)) ≠ [] := by
    intro e2
    rw [e2] at e
    exact hne (List.map_eq_nil_iff.1 e.symm)
  have h3 := matmul_opens (target := target) (tc := tc) h2 hcs hshape hsize h64
    (by rw [e, List.length_map]; exact Nat.dvd_of_mod_eq_zero hdvd) htarget
    (by rw [e, List.length_map]; exact hcap) (aligned_of_split h1 hw _)
  rw [e, List.length_map] at h3
  exact h3

/-- Incompatible shapes are refused on every file, before anything is read. -/
theorem c42_preconditions (E : Env) (d : Decoder) (target : List B64) {tr tc dr dc : Nat} (hsize : 0 < dr * dc)
    (h64 : dr * dc < 2 ^ 64) (h : dc ≠ tr ∨ d.info.footer.records % (dr * dc) ≠ 0) :
    d.matmul E target (tr, tc) (dr, dc) = .err := by
  unfold Decoder.matmul
  simp only [Nat.mod_eq_of_lt h64]
  rw [if_neg (by omega), if_pos h]

/-- A shape with a zero panics (remainder by zero) instead, whether or not the shapes are compatible. -/
theorem c42_zero_shape_panics (E : Env) (d : Decoder) (target : List B64) (tr tc dr dc : Nat)
    (h : dr = 0 ∨ dc = 0) : d.matmul E target (tr, tc) (dr, dc) = .panic := by
  unfold Decoder.matmul
  have : dr * dc = 0 := by rcases h with rfl | rfl <;> simp
  simp only [this, Nat.zero_mod, if_true]

/-! ## Examples and witnesses -/

/-- 1, 2, 3, 4, 5, 6. -/
def matData : List B64 := [0x3ff0000000000000#64, 0x4000000000000000#64, 0x4008000000000000#64,
  0x4010000000000000#64, 0x4014000000000000#64, 0x4018000000000000#64]

def ones (n : Nat) : List B64 := List.replicate n 0x3ff0000000000000#64

/-- The hypotheses of `c42_matmul_partial`: three 1 × 2 matrices, four records per chunk. -/
example : ∃ d, plainDecoder matData 4 = some d ∧ Written sampleEnv (plainArgs matData 4) d.file d.info ∧
    (plainArgs matData 4).records ≠ [] ∧ WholeVectors (1 * 2) (plainArgs matData 4) ∧
    (plainArgs matData 4).records.length % (1 * 2) = 0 ∧ (ones 2).length = 2 * 1 := by
  have h : (plainDecoder matData 4).map (fun d => decide (d.file.length < 1000)) = some true := by
    decide +kernel
  obtain ⟨d, hd, h2⟩ := Option.map_eq_some_iff.1 h
  have h3 : d.file.length < 1000 := of_decide_eq_true h2
  rw [plainArgs_records]
  refine ⟨d, hd, plainDecoder_written hd (by simp [matData]) (by omega) (by omega) (by simp [matData]) (by omega),
    by simp [matData], ?_, rfl, rfl⟩
  intro k hk
  cases hk
  exact Or.inl ⟨2, rfl⟩

/-- Its answer: 3, 7, 11. -/
example : (plainDecoder matData 4).map (fun d => d.matmul sampleEnv (ones 2) (2, 1) (1, 2))
    = some (.ok [0x4008000000000000#64, 0x401c000000000000#64, 0x4026000000000000#64]) ∧
    products Soft.ops matData 1 2 3 (ones 2) 2 1
      = [0x4008000000000000#64, 0x401c000000000000#64, 0x4026000000000000#64] := by
  constructor <;> decide +kernel

/-- The same with three records per chunk: the second matrix straddles; the answer is 3, 3, 9. -/
theorem c42_straddling_wrong :
    ∃ d, plainDecoder matData 3 = some d ∧ Written sampleEnv (plainArgs matData 3) d.file d.info ∧
      d.matmul sampleEnv (ones 2) (2, 1) (1, 2)
        = .ok [0x4008000000000000#64, 0x4008000000000000#64, 0x4022000000000000#64] ∧
      products Soft.ops matData 1 2 3 (ones 2) 2 1
        ≠ [0x4008000000000000#64, 0x4008000000000000#64, 0x4022000000000000#64] := by
  have h : (plainDecoder matData 3).map (fun d => (decide (d.file.length < 1000),
      d.matmul sampleEnv (ones 2) (2, 1) (1, 2)))
      = some (true, .ok [0x4008000000000000#64, 0x4008000000000000#64, 0x4022000000000000#64]) := by
    decide +kernel
  obtain ⟨d, hd, h2⟩ := Option.map_eq_some_iff.1 h
  have h3 : d.file.length < 1000 := of_decide_eq_true (congrArg Prod.fst h2)
  exact ⟨d, hd, plainDecoder_written hd (by simp [matData]) (by omega) (by omega) (by simp [matData]) (by omega),
    congrArg Prod.snd h2, by decide +kernel⟩

/-- The target's length is not compared with its shape: four entries for the shape 2 × 1 give two columns
of products where the shape asks for one. -/
theorem c42_target_unchecked :
    (plainDecoder matData 4).map (fun d => (d.matmul sampleEnv (ones 4) (2, 1) (1, 2)).map List.length)
      = some (.ok 6) := by
  decide +kernel

end Ebi.Props
