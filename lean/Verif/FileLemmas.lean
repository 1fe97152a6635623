import Verif.FileQuery

/-!
# Helper lemmas for the file-level properties
-/

namespace Ebi

theorem Split.flatten {k : Option Nat} {vs : List B64} {chunks : List (List B64)}
    (h : Split k vs chunks) : chunks.flatten = vs := by
  induction h with
  | nil => rfl
  | cons hne hs ih => rw [List.flatten_cons, ih, first_append_rest]

theorem Split.ne_nil {o : ChunkOption} (hpos : o.Positive) {vs : List B64} {chunks : List (List B64)}
    (h : Split o.recordsPerChunk vs chunks) : ∀ c ∈ chunks, c ≠ [] := by
  induction h with
  | nil => simp
  | cons hne hs ih =>
    intro c hc
    rcases List.mem_cons.1 hc with rfl | hc
    · exact firstPart_ne_nil hpos hne
    · exact ih c hc

theorem Split.eq_nil_iff {k : Option Nat} {vs : List B64} {chunks : List (List B64)}
    (h : Split k vs chunks) : chunks = [] ↔ vs = [] := by
  cases h with
  | nil => simp
  | cons hne hs => simp [hne]

theorem Split.full {vs : List B64} {chunks : List (List B64)} (h : Split none vs chunks)
    (hne : vs ≠ []) : chunks = [vs] := by
  cases h with
  | nil => exact absurd rfl hne
  | cons _ hs =>
    simp only [restPart] at hs
    rw [hs.eq_nil_iff.2 rfl]
    rfl

theorem Split.sizes {c : Nat} (hc : 0 < c) {vs : List B64} {chunks : List (List B64)}
    (h : Split (some c) vs chunks) :
    (∀ i : Nat, i + 1 < chunks.length → (chunks[i]?.map List.length) = some c) ∧
    (∀ (i : Nat) (x : List B64), chunks[i]? = some x → 1 ≤ x.length ∧ x.length ≤ c) ∧
    chunks.length = (vs.length + c - 1) / c := by
  generalize hk : some c = k at h
  induction h with
  | nil =>
    refine ⟨by simp, by simp, ?_⟩
    rw [List.length_nil, List.length_nil, Nat.div_eq_of_lt (by omega)]
  | @cons vs cs hne hs ih =>
    subst hk
    obtain ⟨h1, h2, h3⟩ := ih
    have hl := List.length_pos_iff.2 hne
    simp only [firstPart, restPart] at *
    refine ⟨?_, ?_, ?_⟩
    · intro i hi
      cases i with
      | zero =>
        simp only [List.length_cons] at hi
        have : cs ≠ [] := by intro e; simp [e] at hi
        have hd : vs.drop c ≠ [] := fun e => this (hs.eq_nil_iff.2 e)
        simp only [ne_eq, List.drop_eq_nil_iff] at hd
        simp; omega
      | succ i =>
        simp only [List.length_cons] at hi
        simpa using h1 i (by omega)
    · intro i x hx
      cases i with
      | zero =>
        simp only [List.getElem?_cons_zero, Option.some.injEq] at hx
        subst hx
        rw [List.length_take]; omega
      | succ i => exact h2 i x (by simpa using hx)
    · rw [List.length_cons, h3, List.length_drop]
      by_cases hle : vs.length ≤ c
      · have e1 : (vs.length - c + c - 1) / c = 0 := Nat.div_eq_of_lt (by omega)
        have e2 : vs.length + c - 1 = (vs.length - 1) + c := by omega
        have e3 : (vs.length - 1) / c = 0 := Nat.div_eq_of_lt (by omega)
        rw [e1, e2, Nat.add_div_right _ hc, e3]
      · have e2 : vs.length + c - 1 = (vs.length - c + c - 1) + c := by omega
        rw [e2, Nat.add_div_right _ hc]

/-- Arguments of one run of the encoder. -/
structure Args where
  cfg : Config
  opt : ChunkOption
  version : Nat × Nat × Nat
  times : Times
  elapsed : Duration
  src : Source

namespace Args

def encode (a : Args) (S : Scheme) : Option (Res (List Byte)) :=
  Ebi.encode S a.cfg a.opt a.version a.times a.elapsed a.src

/-- The complete records of the input. -/
def records (a : Args) : List B64 := toF64s a.src.data

def layout (a : Args) (cs : List Chunk) : List Byte :=
  Ebi.layout a.cfg a.opt a.version a.times a.elapsed cs

def metadata (a : Args) (cs : List Chunk) : Metadata :=
  metadataOf a.cfg a.opt a.version a.times a.elapsed cs

/-- The arguments are representable (they are in Rust), the option asks for at least one record per
chunk, and the input only makes short reads. -/
structure Valid (a : Args) : Prop where
  positive : a.opt.Positive
  option : a.opt.WF
  v0 : a.version.1 < 2 ^ 16
  v1 : a.version.2.1 < 2 ^ 16
  v2 : a.version.2.2 < 2 ^ 16
  times : a.times.WF
  elapsed : a.elapsed.WF
  clean : a.src.Clean
  small : a.src.data.length < 2 ^ 64

theorem records_length (a : Args) : a.records.length = a.src.data.length / 8 := toF64s_length _

theorem layout_length (a : Args) (cs : List Chunk) :
    (a.layout cs).length = headerSize + (blobs cs).length +
      (footer0Size + cs.length * chunkFooterSize + a.cfg.serializedSize + footer3Size) := by
  unfold layout Ebi.layout
  rw [List.length_append, List.length_append, footerBytesWith_length,
    directory_dropLast_length, Header.bytes_length _ rfl]
  omega

theorem fits {a : Args} (h : a.Valid) {cs : List Chunk}
    (hs : Split a.opt.recordsPerChunk a.records (cs.map Prod.fst))
    (hl : (a.layout cs).length < 2 ^ 63) :
    Fits a.cfg a.opt a.version a.times a.elapsed cs := by
  rw [layout_length] at hl
  unfold footer0Size chunkFooterSize footer3Size at hl
  have hr : recordCount cs = a.records.length := by
    rw [recordCount, ← hs.flatten, List.flatMap_def]
  have h1 := a.records_length
  have h2 := h.small
  exact ⟨h.option, h.v0, h.v1, h.v2, h.times, h.elapsed, by omega, by omega, by omega⟩

/-- Everything there is to know about an encoded file. -/
theorem opened {a : Args} (h : a.Valid) {S : Scheme} {view : B64 → B64} {Ok : B64 → Prop}
    {maxLen : Nat} (L : S.Law view Ok maxLen) (hok : ∀ v ∈ a.records, Ok v)
    (hlen : a.records.length < maxLen) :
    ∃ cs, a.encode S = some (.ok (a.layout cs)) ∧
      Split a.opt.recordsPerChunk a.records (cs.map Prod.fst) ∧
      (∀ p ∈ cs, S.decode p.1.length p.2 = .ok (p.1.map view) ∧ S.Produces p.1 p.2) ∧
      cs.flatMap Prod.fst = a.records ∧ recordCount cs = a.records.length ∧
      ((a.layout cs).length < 2 ^ 63 → Fits a.cfg a.opt a.version a.times a.elapsed cs ∧
        (a.records ≠ [] → openFile (a.layout cs) = .ok (a.metadata cs))) := by
  obtain ⟨cs, h1, h2, h3⟩ := encode_spec L a.cfg h.positive a.version a.times a.elapsed h.clean hok hlen
  have hfl : cs.flatMap Prod.fst = a.records := by
    rw [List.flatMap_def]; exact h2.flatten
  refine ⟨cs, h1, h2, h3, hfl, by rw [recordCount, hfl], fun hl => ?_⟩
  have hf := a.fits h h2 hl
  refine ⟨hf, fun hne => openFile_layout hf ?_⟩
  intro e
  rw [e] at hfl
  exact hne hfl.symm

end Args

theorem materialize_layout {a : Args} {cs : List Chunk}
    (hf : Fits a.cfg a.opt a.version a.times a.elapsed cs) (S : Scheme) {ops : ChunkOps}
    {view : B64 → B64} (bm : Option Bitmap) (hr : bm = none ∨ recordCount cs < 2 ^ 32)
    (hops : ∀ p ∈ cs, ∀ off, ops.materialize p.1.length p.2 bm off
      = .ok (defaultMaterialize bm off (p.1.map view))) :
    Query.materialize S ops (a.layout cs) (a.metadata cs) bm none
      = .ok (defaultMaterialize bm 0 ((cs.flatMap Prod.fst).map view)) := by
  have h := query_eq S hf bm hr none (A := List B64)
    (fun n bs off out => do
      let vs ← ops.materialize n bs bm off
      .ok (out ++ vs))
    (fun out p => out ++ defaultMaterialize bm p.1 (p.2.1.map view))
    (by
      intro p hp out
      obtain ⟨pre, suf, e, -⟩ := placed_split (visited_subset hp)
      rw [hops p.2 (by rw [e]; simp)]
      rfl) []
  rw [← List.flatMap_eq_foldl, flatMap_visited_none view cs 0 (hr.imp id (fun h => by omega))] at h
  exact h

theorem materialize_layout_chunk {a : Args} {cs : List Chunk}
    (hf : Fits a.cfg a.opt a.version a.times a.elapsed cs) (S : Scheme) {ops : ChunkOps}
    {view : B64 → B64} (bm : Option Bitmap) (hr : bm = none ∨ recordCount cs < 2 ^ 32) (k : Nat)
    (hops : ∀ p ∈ cs, ∀ off, ops.materialize p.1.length p.2 bm off
      = .ok (defaultMaterialize bm off (p.1.map view))) :
    Query.materialize S ops (a.layout cs) (a.metadata cs) bm (some k)
      = .ok (defaultMaterialize bm (recordCount (cs.take k))
          (((cs[k]?.map Prod.fst).getD []).map view)) := by
  have h := query_eq S hf bm hr (some k) (A := List B64)
    (fun n bs off out => do
      let vs ← ops.materialize n bs bm off
      .ok (out ++ vs))
    (fun out p => out ++ defaultMaterialize bm p.1 (p.2.1.map view))
    (by
      intro p hp out
      obtain ⟨pre, suf, e, -⟩ := placed_split (visited_subset hp)
      rw [hops p.2 (by rw [e]; simp)]
      rfl) []
  rw [← List.flatMap_eq_foldl, flatMap_visited_some view cs k (hr.imp id (fun h => by omega))] at h
  rw [Nat.zero_add] at h
  exact h

theorem defaultMaterialize_none (off : Nat) (vs : List B64) : defaultMaterialize none off vs = vs := by
  induction vs generalizing off with
  | nil => rfl
  | cons v vs ih => simp [defaultMaterialize, selected, ih]

theorem ofF64s_toF64s_take (bs : List Byte) : ofF64s (toF64s bs) = bs.take (bs.length / 8 * 8) := by
  induction n : bs.length / 8 generalizing bs with
  | zero => rw [toF64s_short (by omega)]; simp
  | succ k ih =>
    have e : bs = bs.take 8 ++ bs.drop 8 := by simp
    have l8 : (bs.take 8).length = 8 := by simp; omega
    have := ih (bs.drop 8) (by rw [List.length_drop]; omega)
    have h0 : toF64s bs = f64Of (bs.take 8) :: toF64s (bs.drop 8) := by
      rw [← toF64s_append l8, ← e]
    rw [h0, ofF64s_cons, this]
    have h9 : f64Bytes (f64Of (bs.take 8)) = bs.take 8 := f64Bytes_of l8
    rw [h9, ← List.take_add, show 8 + k * 8 = (k + 1) * 8 by omega]

/-! ## Shape of acceptable files -/

theorem readExact_ok {n : Nat} {bs a b : List Byte} (h : readExact n bs = .ok (a, b)) :
    bs = a ++ b ∧ a.length = n := by
  unfold readExact at h
  split at h
  · rename_i p hp
    cases h
    unfold takeExact at hp
    split at hp
    · simp only [Option.some.injEq, Prod.mk.injEq] at hp
      obtain ⟨rfl, rfl⟩ := hp
      simp_all
    · cases hp
  · cases h

theorem cut_ok {n : Nat} {bs a b : List Byte} (h : cut n bs = .ok (a, b)) : bs = a ++ b ∧ a.length = n := by
  unfold cut at h
  split at h
  · rename_i hl
    simp only [Res.ok.injEq, Prod.mk.injEq] at h
    obtain ⟨rfl, rfl⟩ := h
    simp [hl]
  · cases h

/-- A footer is accepted only if the stream holds it entirely. -/
theorem fetchFooter_length {s : SchemeId} {bs : List Byte} {f : Footer} (h : fetchFooter s bs = .ok f) :
    16 + 16 * leNat ((bs.drop 8).take 8) % 2 ^ 64 + 1 + 164 ≤ bs.length ∧
      16 * leNat ((bs.drop 8).take 8) % 2 ^ 64 ≠ 0 := by
  unfold fetchFooter at h
  obtain ⟨⟨b0, r0⟩, h0, h⟩ := Res.bind_eq_ok h
  obtain ⟨e0, l0⟩ := readExact_ok h0
  simp only at h
  have hd : b0.drop 8 = (bs.drop 8).take 8 := by
    have l0' : b0.length = 16 := l0
    rw [e0, List.drop_append_of_le_length (by omega),
      List.take_append_of_le_length (by rw [List.length_drop]; omega),
      List.take_of_length_le (by rw [List.length_drop]; omega)]
  rw [hd] at h
  split at h
  · cases h
  · obtain ⟨⟨b1, r1⟩, h1, h⟩ := Res.bind_eq_ok h
    obtain ⟨e1, l1⟩ := readExact_ok h1
    simp only at h
    split at h
    · cases h
    · rename_i hz
      obtain ⟨⟨b2, r2⟩, h2, h⟩ := Res.bind_eq_ok h
      obtain ⟨e2, l2⟩ := readExact_ok h2
      obtain ⟨⟨b3, r3⟩, h3, h⟩ := Res.bind_eq_ok h
      obtain ⟨e3, l3⟩ := readExact_ok h3
      obtain ⟨cfg, -, h⟩ := Res.bind_eq_ok h
      obtain ⟨⟨b4, r4⟩, h4, h⟩ := Res.bind_eq_ok h
      obtain ⟨e4, l4⟩ := readExact_ok h4
      simp only at e2 e3 e4
      refine ⟨?_, hz⟩
      rw [e0, e1, e2, e3, e4]
      simp only [List.length_append]
      unfold footer0Size at l0
      unfold footer3Size at l4
      unfold chunkFooterSize at l1
      rw [e0, e1, e2, e3, e4] at l1
      generalize 16 * leNat (((b0 ++ (b1 ++ (b2 ++ (b3 ++ (b4 ++ r4))))).drop 8).take 8) % 2 ^ 64 = q at *
      omega

end Ebi
