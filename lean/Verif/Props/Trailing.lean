import Verif.Props.Output
import Verif.Props.Knn
import Verif.Api

/-!
# C52: bytes after the end of a file

The decoder finds everything from the header, so what follows the footer does not matter: a file opens
with the same metadata, and every query gives the same result.
-/

namespace Ebi.Props

theorem readExact_more {n : Nat} {bs x y : List Byte} (h : readExact n bs = .ok (x, y)) (t : List Byte) :
    readExact n (bs ++ t) = .ok (x, y ++ t) := by
  obtain ⟨rfl, h2⟩ := readExact_ok h
  rw [List.append_assoc]
  exact readExact_append x (y ++ t) h2

theorem fetchFooter_more {id : SchemeId} {bs : List Byte} {f : Footer} (h : fetchFooter id bs = .ok f) (t : List Byte) :
    fetchFooter id (bs ++ t) = .ok f := by
  unfold fetchFooter at h ⊢
  obtain ⟨⟨b0, r0⟩, e0, h⟩ := Res.bind_eq_ok h
  rw [readExact_more e0]
  simp only [Res.bind_ok] at h ⊢
  split at h
  · cases h
  · rename_i hs
    rw [if_neg hs]
    obtain ⟨⟨b1, r1⟩, e1, h⟩ := Res.bind_eq_ok h
    rw [readExact_more e1]
    simp only [Res.bind_ok] at h ⊢
    split at h
    · cases h
    · rename_i hz
      rw [if_neg hz]
      obtain ⟨⟨b2, r2⟩, e2, h⟩ := Res.bind_eq_ok h
      rw [readExact_more e2]
      simp only [Res.bind_ok] at h ⊢
      obtain ⟨⟨b3, r3⟩, e3, h⟩ := Res.bind_eq_ok h
      rw [readExact_more e3]
      simp only [Res.bind_ok] at h ⊢
      obtain ⟨cfg, e4, h⟩ := Res.bind_eq_ok h
      rw [e4]
      simp only [Res.bind_ok] at h ⊢
      obtain ⟨⟨b5, r5⟩, e5, h⟩ := Res.bind_eq_ok h
      rw [readExact_more e5]
      simp only [Res.bind_ok] at h ⊢
      exact h

theorem drop_more {bs : List Byte} {n : Nat} (h : bs.drop n ≠ []) (t : List Byte) :
    (bs ++ t).drop n = bs.drop n ++ t := by
  apply List.drop_append_of_le_length
  have : 0 < (bs.drop n).length := List.length_pos_iff.mpr h
  rw [List.length_drop] at this
  omega

/-- Opening does not look past the footer. -/
theorem c52_open {file : List Byte} {m : Metadata} (h : openFile file = .ok m) (t : List Byte) :
    openFile (file ++ t) = .ok m := by
  unfold openFile at h ⊢
  obtain ⟨⟨hb, r⟩, e1, h⟩ := Res.bind_eq_ok h
  rw [readExact_more e1]
  simp only [Res.bind_ok] at h ⊢
  obtain ⟨hd, e2, h⟩ := Res.bind_eq_ok h
  rw [e2]
  simp only [Res.bind_ok] at h ⊢
  obtain ⟨f, e3, h⟩ := Res.bind_eq_ok h
  have hne : file.drop hd.footerOffset ≠ [] := by
    intro e
    rw [e] at e3
    simp [fetchFooter, readExact, takeExact, footer0Size] at e3
  rw [drop_more hne, fetchFooter_more e3]
  exact h

/-- Every announced chunk can be loaded. -/
def Loads (S : Scheme) (file : List Byte) (m : Metadata) : Prop :=
  ∀ i, i < m.footer.chunkFooters.length → ∃ r, loadChunk S file m i = .ok r

theorem loadChunk_more {S : Scheme} {file : List Byte} {m : Metadata} (h : Loads S file m) (t : List Byte) :
    loadChunk S (file ++ t) m = loadChunk S file m := by
  funext i
  by_cases hi : i < m.footer.chunkFooters.length
  · obtain ⟨r, hr⟩ := h i hi
    rw [hr]
    unfold loadChunk at hr ⊢
    obtain ⟨f, e1, hr⟩ := Res.bind_eq_ok hr
    rw [e1]
    simp only [Res.bind_ok]
    obtain ⟨n, e2, hr⟩ := Res.bind_eq_ok hr
    rw [e2]
    simp only [Res.bind_ok]
    obtain ⟨size, e3, hr⟩ := Res.bind_eq_ok hr
    rw [e3]
    simp only [Res.bind_ok]
    split at hr
    · cases hr
    · rename_i hs
      rw [if_neg hs]
      by_cases hp : f.physical ≤ file.length
      · rw [List.drop_append_of_le_length hp]
        unfold takeExact at hr ⊢
        by_cases hl : size ≤ (file.drop f.physical).length
        · rw [if_pos hl] at hr
          rw [if_pos (by rw [List.length_append]; omega), List.take_append_of_le_length hl]
          exact hr
        · rw [if_neg hl] at hr
          simp only at hr
          split at hr <;> cases hr
      · rw [List.drop_of_length_le (by omega)] at hr
        unfold takeExact at hr ⊢
        by_cases hl : size = 0
        · subst hl
          simpa using hr
        · rw [if_neg (by simp; omega)] at hr
          simp only at hr
          split at hr <;> cases hr
  · have : m.chunkFooter i = .panic := by
      unfold Metadata.chunkFooter
      rw [List.getElem?_eq_none (by omega)]
    unfold loadChunk
    rw [this]
    rfl

/-- The decoder of a file with something after it. -/
def padded (d : Decoder) (t : List Byte) : Decoder := { d with file := d.file ++ t }

theorem chunkReader_more {E : Env} {d : Decoder} (h : Loads (E.scheme d.info.footer.config) d.file d.info)
    (t : List Byte) (i : Nat) : (padded d t).chunkReader E i = d.chunkReader E i := by
  unfold Decoder.chunkReader padded
  simp only [loadChunk_more h t]

/-- The queries that go over the chunks one by one. -/
theorem c52_queries {E : Env} {d : Decoder} (h : Loads (E.scheme d.info.footer.config) d.file d.info) (t : List Byte)
    (p : Predicate B64) (bm : Option Bitmap) (cid : Option Nat) :
    (padded d t).materialize E bm cid = d.materialize E bm cid ∧
    (padded d t).filter E p bm cid = d.filter E p bm cid ∧
    (padded d t).filterMaterialize E p bm cid = d.filterMaterialize E p bm cid ∧
    (padded d t).sum E bm cid = d.sum E bm cid ∧
    (padded d t).min E bm cid = d.min E bm cid ∧
    (padded d t).max E bm cid = d.max E bm cid := by
  have e : loadChunk (E.scheme (padded d t).info.footer.config) (padded d t).file (padded d t).info
      = loadChunk (E.scheme d.info.footer.config) d.file d.info := loadChunk_more h t
  refine ⟨?_, ?_, ?_, ?_, ?_, ?_⟩
  · unfold Decoder.materialize Query.materialize; rw [e]; rfl
  · unfold Decoder.filter Query.filter; rw [e]; rfl
  · unfold Decoder.filterMaterialize Query.filterMaterialize; rw [e]; rfl
  · unfold Decoder.sum Query.sum; rw [e]; rfl
  · unfold Decoder.min Query.min; rw [e]; rfl
  · unfold Decoder.max Query.max; rw [e]; rfl

theorem knnLoop_more {E : Env} {d : Decoder} (h : Loads (E.scheme d.info.footer.config) d.file d.info) (t : List Byte)
    (target : List B64) (fuel : Nat) (is : List Nat) (s : KnnState) :
    knnLoop E (padded d t) target fuel is s = knnLoop E d target fuel is s := by
  induction is generalizing s with
  | nil => rfl
  | cons i is ih =>
    unfold knnLoop
    rw [chunkReader_more h]
    split
    · rfl
    · rfl
    · split
      · rfl
      · rfl
      · split
        · rfl
        · rfl
        · rfl
        · exact ih _

theorem matmulLoop_more {E : Env} {d : Decoder} (h : Loads (E.scheme d.info.footer.config) d.file d.info) (t : List Byte)
    (cols : List (List B64)) (dr dc b chunk offset : Nat) (hd : Handle) :
    matmulLoop E (padded d t) cols dr dc b chunk offset hd = matmulLoop E d cols dr dc b chunk offset hd := by
  induction b generalizing chunk offset hd with
  | zero => rfl
  | succ b ih =>
    unfold matmulLoop
    rw [chunkReader_more h]
    simp only [ih]

/-- 1-NN search and matrix products. -/
theorem c52_knn_matmul {E : Env} {d : Decoder} (h : Loads (E.scheme d.info.footer.config) d.file d.info) (t : List Byte)
    (target : List B64) (fuel : Nat) (ts ds : Nat × Nat) :
    (padded d t).knn1 E target fuel = d.knn1 E target fuel ∧
    (padded d t).matmul E target ts ds = d.matmul E target ts ds := by
  constructor
  · unfold Decoder.knn1
    rw [knnLoop_more h]
    rfl
  · unfold Decoder.matmul
    rw [chunkReader_more h]
    simp only [matmulLoop_more h]
    rfl

/-- Decoders with something after each of their files. -/
def paddedAll (ps : List (Decoder × List Byte)) : List Decoder := ps.map fun p => padded p.1 p.2

def AllLoad (E : Env) (ps : List (Decoder × List Byte)) : Prop :=
  ∀ p ∈ ps, Loads (E.scheme p.1.info.footer.config) p.1.file p.1.info

theorem openReaders_more {E : Env} {ps : List (Decoder × List Byte)} (h : AllLoad E ps) (i : Nat) :
    openReaders E i (paddedAll ps) = openReaders E i (ps.map Prod.fst) := by
  induction ps with
  | nil => rfl
  | cons p ps ih =>
    have h1 := ih fun q hq => h q (List.mem_cons_of_mem _ hq)
    unfold paddedAll at h1 ⊢
    simp only [List.map_cons, openReaders]
    rw [chunkReader_more (h p (List.mem_cons_self ..)), h1]

theorem decoderAt_more {E : Env} {ps : List (Decoder × List Byte)} (h : AllLoad E ps) (i : Nat) :
    (decoderAt (paddedAll ps) i = .panic ∧ decoderAt (ps.map Prod.fst) i = .panic) ∨
    ∃ d t, decoderAt (paddedAll ps) i = .ok (padded d t) ∧ decoderAt (ps.map Prod.fst) i = .ok d ∧
      Loads (E.scheme d.info.footer.config) d.file d.info := by
  unfold decoderAt paddedAll
  rw [List.getElem?_map, List.getElem?_map]
  cases hp : ps[i]? with
  | none => exact Or.inl ⟨rfl, rfl⟩
  | some p => exact Or.inr ⟨p.1, p.2, rfl, rfl, h p (List.mem_of_getElem? hp)⟩

theorem dispatch_more {E : Env} {d : Decoder} (h : Loads (E.scheme d.info.footer.config) d.file d.info) (t : List Byte)
    (k : AggKind) (bm : Option Bitmap) : k.dispatch E (padded d t) bm = k.dispatch E d bm := by
  obtain ⟨-, -, -, h1, h2, h3⟩ := c52_queries h t (.ne 0#64) bm none
  cases k <;> simp only [AggKind.dispatch, h1, h2, h3]

theorem aggLoop_more {E : Env} {ps : List (Decoder × List Byte)} (h : AllLoad E ps) (a : Aggregation)
    (bm : Option Bitmap) (is : List Nat) (acc : AggResult) :
    aggLoop E a (paddedAll ps) bm is acc = aggLoop E a (ps.map Prod.fst) bm is acc := by
  induction is generalizing acc with
  | nil => rfl
  | cons i is ih => simp only [aggLoop, openReaders_more h, ih]

theorem multiLoop_more {E : Env} {ps : List (Decoder × List Byte)} (h : AllLoad E ps) (as : List Aggregation)
    (bm : Option Bitmap) (is : List Nat) (rs : List (AggResult × Bool)) :
    multiLoop E as (paddedAll ps) bm is rs = multiLoop E as (ps.map Prod.fst) bm is rs := by
  induction is generalizing rs with
  | nil => rfl
  | cons i is ih => simp only [multiLoop, openReaders_more h, ih]

theorem startAll_more {E : Env} {ps : List (Decoder × List Byte)} (h : AllLoad E ps) (as : List Aggregation)
    (bm : Option Bitmap) : startAll E (paddedAll ps) bm as = startAll E (ps.map Prod.fst) bm as := by
  induction as with
  | nil => rfl
  | cons a as ih =>
    simp only [startAll, ih]
    congr 1
    funext i
    rcases decoderAt_more h i with ⟨h1, h2⟩ | ⟨d, t, h1, h2, h3⟩
    · rw [h1, h2]
    · rw [h1, h2]
      simp only [Res.bind_ok, dispatch_more h3]

/-- Expressions over several files, one at a time or several together. -/
theorem c52_aggregations {E : Env} {ps : List (Decoder × List Byte)} (h : AllLoad E ps) (a : Aggregation)
    (as : List Aggregation) (bm : Option Bitmap) :
    a.compute E (paddedAll ps) bm = a.compute E (ps.map Prod.fst) bm ∧
    Aggregation.computeMultiple E as (paddedAll ps) bm = Aggregation.computeMultiple E as (ps.map Prod.fst) bm := by
  constructor
  · unfold Aggregation.compute
    split
    · rename_i i _
      rcases decoderAt_more h i with ⟨h1, h2⟩ | ⟨d, t, h1, h2, h3⟩
      · rw [h1, h2]
      · rw [h1, h2]
        simp only [Res.bind_ok, dispatch_more h3]
    · rcases decoderAt_more h 0 with ⟨h1, h2⟩ | ⟨d, t, h1, h2, h3⟩
      · rw [h1, h2]; rfl
      · rw [h1, h2]
        simp only [Res.bind_ok, aggLoop_more h]
        rfl
  · unfold Aggregation.computeMultiple
    rw [startAll_more h]
    rcases decoderAt_more h 0 with ⟨h1, h2⟩ | ⟨d, t, h1, h2, h3⟩
    · rw [h1, h2]; rfl
    · rw [h1, h2]
      simp only [Res.bind_ok, multiLoop_more h]
      rfl

/-! ## Complete files -/

/-- The chunks of a written file can all be loaded. -/
theorem written_loads {E : Env} {a : Args} {file : List Byte} {m : Metadata} (h : Written E a file m) :
    m.footer.config = a.cfg ∧ Loads (E.scheme a.cfg) file m := by
  obtain ⟨cs, h1, h2, h3, -⟩ := h.encoded.chunks h.law h.valid h.accepts h.len
  subst h1 h2
  refine ⟨rfl, ?_⟩
  intro i hi
  have hl : i < cs.length := by
    have : (a.metadata cs).footer.chunkFooters.length = cs.length := directory_dropLast_length _ _ _
    omega
  obtain ⟨pre, c, suf, rfl, rfl⟩ : ∃ pre c suf, cs = pre ++ c :: suf ∧ i = pre.length :=
    ⟨cs.take i, cs[i], cs.drop (i + 1), by simp, by simp; omega⟩
  exact ⟨_, loadChunk_layout _ h3⟩

/-- Encoding over an older file, longer or not, without truncating it: if `encode` reports success, the result
opens as the new file would, and the decoder of it is the decoder of the new file with bytes after its end, to
which `c52_queries`, `c52_knn_matmul` and `c52_aggregations` apply. -/
theorem c52_overwritten {E : Env} {a : Args} {file : List Byte} {m : Metadata} (h : Written E a file m)
    {old : List Byte} {ev : List WriteEvent} {k : Output}
    (hk : runEncoder Output.device (E.scheme a.cfg) a ⟨old, 0, ev⟩ = some (.ok (), k)) (precision : Option Nat) :
    openFile k.file = .ok m ∧ (∃ t, (⟨k.file, m, precision⟩ : Decoder) = padded ⟨file, m, precision⟩ t) ∧
      Loads (E.scheme m.footer.config) file m := by
  obtain ⟨file', h1, h2⟩ := c50_success_is_complete hk
  have e := h.encoded.encoded
  rw [h1] at e
  cases e
  obtain ⟨g1, g2⟩ := written_loads h
  rw [h2]
  exact ⟨c52_open h.encoded.opened _, ⟨_, rfl⟩, by rw [g1]; exact g2⟩

/-- A file of six records written over 900 older bytes by a device that first takes five bytes. -/
example : ∃ d k, plainDecoder knnData 4 = some d ∧ Written sampleEnv (plainArgs knnData 4) d.file d.info ∧
    runEncoder Output.device (sampleEnv.scheme (plainArgs knnData 4).cfg) (plainArgs knnData 4)
      ⟨List.replicate 900 7#8, 0, [.accept 5]⟩ = some (.ok (), k) ∧ d.file.length < k.file.length ∧
    Loads (sampleEnv.scheme d.info.footer.config) d.file d.info := by
  have h : (plainDecoder knnData 4).map (fun d => (decide (d.file.length < 900), ()))
      = some (true, ()) := by decide +kernel
  obtain ⟨d, hd, h2⟩ := Option.map_eq_some_iff.1 h
  have h3 : d.file.length < 900 := of_decide_eq_true (congrArg Prod.fst h2)
  have hw := plainDecoder_written hd (by simp [knnData]) (by omega) (by omega) (by simp [knnData]) (by omega)
  obtain ⟨⟨k, hk, hf⟩, -⟩ := c50_short_writes (List.replicate 900 7#8) (ev := [.accept 5]) (by simp [Accepting]) 0
    hw.encoded.encoded
  refine ⟨d, k, hd, hw, hk, ?_, (c52_overwritten hw hk none).2.2⟩
  rw [hf, List.length_append, List.length_drop, List.length_replicate]
  omega

end Ebi.Props
