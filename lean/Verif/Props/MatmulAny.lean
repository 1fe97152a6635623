import Verif.Props.Matmul

/-!
# C42, any chunks and any target: what `matmul` computes

The whole answer of `matmul`, however the records are cut into chunks and however long the target is.
-/

namespace Ebi.Props

open Ebi

/-- Where matrices of `size` records begin in a chunk: at every multiple of `size`, the last one possibly unfinished. Each
is given with the rest of the chunk. -/
def starts (size : Nat) (c : List B64) : List (List B64) :=
  (List.range ((c.length + size - 1) / size)).map fun i => c.drop (i * size)

/-- The spec: each chunk is cut from its first record, and as many matrices are taken, in order, as the records would
hold without the cuts. A row that the chunk does not hold in full is multiplied as far as it goes. -/
def productsOf (o : FloatOps) (css : List (List B64)) (dr dc : Nat) (cols : List (List B64)) : List B64 :=
  ((css.flatMap (starts (dr * dc))).take (css.flatten.length / (dr * dc))).flatMap fun v =>
    (List.range dr).flatMap fun r => cols.map fun col => dot o ((v.drop (r * dc)).take dc) col

def startsFrom (size off : Nat) (c : List B64) : List (List B64) :=
  (List.range ((c.length - off + size - 1) / size)).map fun i => c.drop (off + i * size)

theorem startsFrom_cons {size off : Nat} (hs : 0 < size) {c : List B64} (h : off < c.length) :
    startsFrom size off c = c.drop off :: startsFrom size (off + size) c := by
  have hk : (c.length - off + size - 1) / size = (c.length - (off + size) + size - 1) / size + 1 := by
    by_cases hl : off + size ≤ c.length
    · rw [show c.length - off + size - 1 = c.length - (off + size) + size - 1 + size by omega, Nat.add_div_right _ hs]
    · rw [show c.length - (off + size) + size - 1 = size - 1 by omega, Nat.div_eq_of_lt (by omega : size - 1 < size)]
      rw [show c.length - off + size - 1 = c.length - off - 1 + size by omega, Nat.add_div_right _ hs,
        Nat.div_eq_of_lt (by omega)]
  unfold startsFrom
  rw [hk, List.range_succ_eq_map, List.map_cons, List.map_map, Nat.zero_mul, Nat.add_zero]
  congr 1
  apply List.map_congr_left
  intro i _
  show c.drop (off + (i + 1) * size) = _
  rw [Nat.succ_mul, show off + (i * size + size) = off + size + i * size by omega]

theorem startsFrom_nil {size off : Nat} (hs : 0 < size) {c : List B64} (h : c.length ≤ off) : startsFrom size off c = [] := by
  unfold startsFrom
  rw [show c.length - off + size - 1 = size - 1 by omega, Nat.div_eq_of_lt (by omega)]
  rfl

theorem startsFrom_zero (size : Nat) (c : List B64) : startsFrom size 0 c = starts size c := by
  unfold startsFrom starts
  simp only [Nat.sub_zero, Nat.zero_add]

/-- The loop over the batch. -/
theorem matmulLoop_any {E : Env} {d : Decoder} {cols : List (List B64)} {dr dc : Nat} (hpos : 0 < dr * dc)
    (hcols : ∀ col ∈ cols, col.length = dc) (b : Nat) :
    ∀ (chunk off : Nat) (h : Handle) (lo : Nat) (c : List B64) (rest : List (List B64)), h.Holds E lo c →
      (∀ (j : Nat) (c' : List B64), rest[j]? = some c' →
        ∃ h' lo', d.chunkReader E (chunk + 1 + j) = .ok h' ∧ h'.Holds E lo' c') →
      (∀ c' ∈ rest, c' ≠ []) →
      b ≤ (startsFrom (dr * dc) off c ++ rest.flatMap (starts (dr * dc))).length →
      matmulLoop E d cols dr dc b chunk off h
        = .ok (((startsFrom (dr * dc) off c ++ rest.flatMap (starts (dr * dc))).take b).flatMap fun v =>
            (List.range dr).flatMap fun r => cols.map fun col => dot E.o ((v.drop (r * dc)).take dc) col) := by
  induction b with
  | zero => intros; rfl
  | succ b ih =>
    have key : ∀ (chunk off : Nat) (h : Handle) (lo : Nat) (c : List B64) (rest : List (List B64)),
        h.Holds E lo c →
        (∀ (j : Nat) (c' : List B64), rest[j]? = some c' →
          ∃ h' lo', d.chunkReader E (chunk + 1 + j) = .ok h' ∧ h'.Holds E lo' c') →
        (∀ c' ∈ rest, c' ≠ []) → off < c.length →
        b + 1 ≤ (startsFrom (dr * dc) off c ++ rest.flatMap (starts (dr * dc))).length →
        (do
          let (vs, h) ← dotRows E cols off dc dr 0 h
          let ws ← matmulLoop E d cols dr dc b chunk (off + dr * dc) h
          .ok (vs ++ ws))
        = .ok (((startsFrom (dr * dc) off c ++ rest.flatMap (starts (dr * dc))).take (b + 1)).flatMap fun v =>
            (List.range dr).flatMap fun r => cols.map fun col => dot E.o ((v.drop (r * dc)).take dc) col) := by
      intro chunk off h lo c rest hh hread hrest hlt hlen
      obtain ⟨h1, e1, hh1⟩ := dotRows_spec cols off dc dr 0 h hh
      rw [startsFrom_cons hpos hlt, List.cons_append, List.length_cons] at hlen
      have e2 := ih chunk (off + dr * dc) h1 lo c rest hh1 hread hrest (by omega)
      rw [e1]
      simp only [Res.bind_ok, e2, Nat.zero_add]
      rw [startsFrom_cons hpos hlt, List.cons_append, List.take_succ_cons, List.flatMap_cons]
      congr 2
      rw [List.flatMap_def, List.flatMap_def]
      congr 1
      apply List.map_congr_left
      intro r _
      apply List.map_congr_left
      intro col hcol
      rw [hcols col hcol, List.drop_drop]
    intro chunk off h lo c rest hh hread hrest hlen
    rw [matmulLoop]
    by_cases hlt : off < c.length
    · rw [if_neg (by rw [hh.records]; omega)]
      exact key chunk off h lo c rest hh hread hrest hlt hlen
    · rw [if_pos (by rw [hh.records]; omega)]
      rw [startsFrom_nil hpos (by omega), List.nil_append] at hlen ⊢
      cases rest with
      | nil => simp at hlen
      | cons c' rest =>
        obtain ⟨h', lo', e1, hh'⟩ := hread 0 c' rfl
        rw [Nat.add_zero] at e1
        have hl : 0 < c'.length := List.length_pos_iff.2 (hrest c' (List.mem_cons_self ..))
        have := key (chunk + 1) 0 h' lo' c' rest hh'
          (fun j c2 hj => by
            have := hread (j + 1) c2 (by simpa using hj)
            rw [show chunk + 1 + (j + 1) = chunk + 1 + 1 + j by omega] at this
            exact this)
          (fun c2 h2 => hrest c2 (List.mem_cons_of_mem _ h2)) hl
          (by rw [startsFrom_zero]; simpa using hlen)
        simp only [e1, Res.bind_ok]
        rw [startsFrom_zero] at this
        rw [List.flatMap_cons]
        exact this

theorem starts_length (size : Nat) (c : List B64) : (starts size c).length = (c.length + size - 1) / size := by
  simp [starts]

theorem starts_enough {size : Nat} (hs : 0 < size) (css : List (List B64)) :
    css.flatten.length / size ≤ (css.flatMap (starts size)).length := by
  induction css with
  | nil => simp
  | cons c css ih =>
    rw [List.flatten_cons, List.flatMap_cons, List.length_append, List.length_append, starts_length]
    generalize css.flatten.length = n at ih
    generalize (css.flatMap (starts size)).length = k at ih
    have h1 := Nat.div_add_mod n size
    have h2 := Nat.mod_lt n hs
    have h3 := Nat.div_add_mod (c.length + size - 1) size
    have h4 := Nat.mod_lt (c.length + size - 1) hs
    have : (c.length + n) / size < (c.length + size - 1) / size + n / size + 1 := by
      rw [Nat.div_lt_iff_lt_mul hs, Nat.add_mul, Nat.add_mul, Nat.mul_comm _ size, Nat.mul_comm (n / size), Nat.one_mul]
      omega
    omega

/-- On any open file whose chunks hold `css`. -/
theorem matmul_any {E : Env} {d : Decoder} {css : List (List B64)} (h : Opens E d css) (hne : css ≠ [])
    {target : List B64} {tr tc dr dc : Nat} (hshape : dc = tr) (hsize : 0 < dr * dc) (h64 : dr * dc < 2 ^ 64)
    (hdvd : dr * dc ∣ css.flatten.length)
    (hcap : 8 * (css.flatten.length / (dr * dc) * dr * tc % 2 ^ 64) < 2 ^ 63) :
    d.matmul E target (tr, tc) (dr, dc)
      = .ok (productsOf E.o css dr dc ((List.range (target.length / tr)).map (targetColumn target tr))) := by
  subst hshape
  cases css with
  | nil => exact absurd rfl hne
  | cons c css =>
    obtain ⟨h0, e0, hh0⟩ := h.reader 0 c rfl
    have hc := h.nonempty c (List.mem_cons_self ..)
    have hlc : 0 < c.length := List.length_pos_iff.2 hc
    have hdc : 0 < dc := Nat.pos_of_mul_pos_left hsize
    have hb : (c :: css).flatten.length / (dr * dc) ≠ 0 := by
      have h1 : dr * dc ≤ (c :: css).flatten.length :=
        Nat.le_of_dvd (by rw [List.flatten_cons, List.length_append]; omega) hdvd
      have := Nat.div_pos h1 hsize
      omega
    unfold Decoder.matmul
    simp only [Nat.mod_eq_of_lt h64, h.records, Nat.mod_eq_zero_of_dvd hdvd, ne_eq, not_true_eq_false, or_self,
      if_false]
    rw [if_neg (by omega), if_neg (by omega), e0]
    simp only [Res.bind_ok]
    rw [if_neg hb, if_neg (by omega)]
    have hcols : chunksExact dc (target.length / dc) target =
        (List.range (target.length / dc)).map (targetColumn target dc) := by
      have := chunksExact_eq dc (target.length / dc) target 0
      rw [Nat.zero_mul, List.drop_zero] at this
      rw [this]
      simp
    rw [hcols, matmulLoop_any hsize ?_ _ 0 0 h0 _ c css hh0 ?_
      (fun c' hc' => h.nonempty c' (List.mem_cons_of_mem _ hc')) ?_]
    · rw [startsFrom_zero, ← List.flatMap_cons]
      rfl
    · intro col hcol
      obtain ⟨j, hj, rfl⟩ := List.mem_map.1 hcol
      have hj := List.mem_range.1 hj
      have h1 : (j + 1) * dc ≤ target.length / dc * dc := Nat.mul_le_mul_right _ hj
      have h2 := Nat.div_mul_le_self target.length dc
      rw [Nat.succ_mul] at h1
      unfold targetColumn
      rw [List.length_take, List.length_drop]
      omega
    · intro j c' hj
      obtain ⟨h', e, hh⟩ := h.reader (j + 1) c' (by simpa using hj)
      exact ⟨h', _, by rw [Nat.zero_add, Nat.add_comm]; exact e, hh⟩
    · rw [startsFrom_zero, ← List.flatMap_cons]
      exact starts_enough hsize (c :: css)

/-- C42 without alignment and without a condition on the length of the target: the answer of `matmul` on every file with
every scheme, for the chunks the file is cut into (`Split`, the specification of C25). -/
theorem c42_any {E : Env} {a : Args} {file : List Byte} {m : Metadata} (h : Written E a file m)
    (prec : Option Nat) (hp : prec = none ∨ a.cfg.scheme ≠ .buff) (hne : a.records ≠ []) {target : List B64}
    {tr tc dr dc : Nat} (hshape : dc = tr) (hsize : 0 < dr * dc) (h64 : dr * dc < 2 ^ 64)
    (hdvd : a.records.length % (dr * dc) = 0)
    (hcap : 8 * (a.records.length / (dr * dc) * dr * tc % 2 ^ 64) < 2 ^ 63) :
    ∃ cs, Split a.opt.recordsPerChunk a.records cs ∧ Decoder.matmul E ⟨file, m, prec⟩ target (tr, tc) (dr, dc)
      = .ok (productsOf E.o (cs.map fun c => c.map (readBack E a.cfg)) dr dc
          ((List.range (target.length / tr)).map (targetColumn target tr))) := by
  obtain ⟨cs, h1, h2⟩ := h.encoded.opens h.law h.valid h.accepts h.len prec hp
  have e : (cs.map fun c => c.map (readBack E a.cfg)).flatten = a.records.map (readBack E a.cfg) := by
    rw [← List.map_flatten, h1.flatten]
  have hcs : cs.map (fun c => c.map (readBack E a.cfg)) ≠ [] := by
    intro e2
    rw [e2] at e
    exact hne (List.map_eq_nil_iff.1 e.symm)
  exact ⟨cs, h1, matmul_any (target := target) (tc := tc) h2 hcs hshape hsize h64
    (by rw [e, List.length_map]; exact Nat.dvd_of_mod_eq_zero hdvd) (by rw [e, List.length_map]; exact hcap)⟩

theorem flatMap_const_length {A B : Type} (l : List A) (f : A → List B) (k : Nat) (h : ∀ a ∈ l, (f a).length = k) :
    (l.flatMap f).length = l.length * k := by
  induction l with
  | nil => simp
  | cons a l ih =>
    rw [List.flatMap_cons, List.length_append, h a (List.mem_cons_self ..), ih fun a ha => h a (List.mem_cons_of_mem _ ha),
      List.length_cons, Nat.succ_mul, Nat.add_comm]

/-- The answer has a row for every row of the data, and as many columns as the target holds, whatever its shape says. -/
theorem c42_result_size (o : FloatOps) (css : List (List B64)) {dr dc : Nat} (hsize : 0 < dr * dc)
    (cols : List (List B64)) :
    (productsOf o css dr dc cols).length = css.flatten.length / (dr * dc) * (dr * cols.length) := by
  unfold productsOf
  rw [flatMap_const_length _ _ (dr * cols.length), List.length_take, Nat.min_eq_left (starts_enough hsize css)]
  intro v _
  rw [flatMap_const_length _ _ cols.length, List.length_range]
  intro r _
  rw [List.length_map]

/-- The three matrices 1 × 2 of `c42_straddling_wrong`, by the spec: 1 + 2, then 3 alone, then 4 + 5. -/
example : productsOf Soft.ops [matData.take 3, matData.drop 3] 1 2 [ones 2] =
    [0x4008000000000000#64, 0x4008000000000000#64, 0x4022000000000000#64] := by decide +kernel

end Ebi.Props
