import Verif.Api
import Verif.FileQueryLemmas

/-!
# What a decoder's chunk readers hold

`Opens E d css`: chunk `i` of the open file `d` holds the values `css[i]`.
-/

namespace Ebi

theorem Handle.number_of_exec {E : Env} {h h' : Handle} {q : ChunkQuery} {v : B64}
    (he : h.exec E q = .ok (.number v, h')) : h.number E q = .ok (v, h') := by
  unfold Handle.number; rw [he]

theorem Handle.values_of_exec {E : Env} {h h' : Handle} {q : ChunkQuery} {vs : List B64}
    (he : h.exec E q = .ok (.values vs, h')) : h.values E q = .ok (vs, h') := by
  unfold Handle.values; rw [he]

/-- The handle's reader holds `vs`. -/
structure Handle.Holds (E : Env) (h : Handle) (off : Nat) (vs : List B64) : Prop where
  gives : AnyReader.Gives E h.reader vs
  records : h.records = vs.length
  off : h.off = off

theorem Handle.Holds.exec {E : Env} {h : Handle} {off : Nat} {vs : List B64} (hh : h.Holds E off vs)
    {q : ChunkQuery} (hq : q.ofValues = true) :
    ∃ h', h.exec E q = .ok (defaultAnswer E.o off vs q, h') ∧ h'.Holds E off vs := by
  obtain ⟨r', h1, h2⟩ := hh.gives.exec h.off hq
  refine ⟨{ h with reader := r' }, ?_, h2, hh.records, hh.off⟩
  unfold Handle.exec
  rw [h1, hh.off]
  rfl

/-- Chunk `i` of the file holds `css[i]`, and there are no others. -/
structure Opens (E : Env) (d : Decoder) (css : List (List B64)) : Prop where
  chunks : d.info.footer.chunks = css.length
  records : d.info.footer.records = css.flatten.length
  nonempty : ∀ c ∈ css, c ≠ []
  reader : ∀ i c, css[i]? = some c →
    ∃ h, d.chunkReader E i = .ok h ∧ h.Holds E (css.take i).flatten.length c

theorem recordCount_eq (cs : List (List B64 × List Byte)) :
    recordCount cs = (cs.map Prod.fst).flatten.length := by
  induction cs with
  | nil => rfl
  | cons p cs ih => simp [recordCount] at ih ⊢; try omega

theorem AnyReader.withPrecision_other {id : SchemeId} (h : id ≠ .buff) {n : Nat} {bs : List Byte} {r : AnyReader}
    (hr : AnyReader.new id n bs = .ok r) (p : Nat) : r.withPrecision p = r := by
  cases id <;> simp only [AnyReader.new] at hr <;>
    first
    | exact absurd rfl h
    | (cases hr; rfl)
    | (obtain ⟨a, -, h2⟩ := Res.map_eq_ok hr; cases h2; rfl)

/-- A fresh reader on bytes the scheme decodes. -/
theorem freshHandle_holds (E : Env) (cfg : Config) (prec : Option Nat) (hp : prec = none ∨ cfg.scheme ≠ .buff)
    {n : Nat} {bs : List Byte} {vs : List B64} (hd : (E.scheme cfg).decode n bs = .ok vs) (hn : vs.length = n)
    (off : Nat) : ∃ h, freshHandle cfg.scheme prec n bs off = .ok h ∧ h.Holds E off vs := by
  rw [E.decode_eq] at hd
  cases hr : AnyReader.new cfg.scheme n bs with
  | err => rw [hr] at hd; cases hd
  | panic => rw [hr] at hd; cases hd
  | ok r =>
    rw [hr] at hd
    obtain ⟨⟨vs', r1⟩, h1, h2⟩ := Res.map_eq_ok (f := Prod.fst) (x := AnyReader.decompress E r) hd
    obtain rfl : vs' = vs := h2
    refine ⟨⟨r, n, off⟩, ?_, AnyReader.Gives.new hr h1, hn.symm, rfl⟩
    unfold freshHandle
    rw [hr]
    rcases hp with rfl | hp
    · rfl
    · cases prec with
      | none => rfl
      | some p => simp only [Res.bind_ok, AnyReader.withPrecision_other hp hr]

theorem AnyReader.new_plain {id : SchemeId} (h1 : id ≠ .buff) (h2 : id ≠ .deltaSprintz) {n : Nat} {bs : List Byte}
    {r : AnyReader} (hr : AnyReader.new id n bs = .ok r) : r.Plain := by
  cases id <;> simp only [AnyReader.new] at hr <;>
    first
    | exact absurd rfl h1
    | exact absurd rfl h2
    | (cases hr; trivial)
    | (obtain ⟨a, -, h3⟩ := Res.map_eq_ok hr; cases h3; trivial)

theorem freshHandle_other {id : SchemeId} (h : id ≠ .buff) (prec : Option Nat) (n : Nat) (bs : List Byte)
    (off : Nat) : freshHandle id prec n bs off = (AnyReader.new id n bs).map fun r => ⟨r, n, off⟩ := by
  unfold freshHandle
  cases hr : AnyReader.new id n bs with
  | err => rfl
  | panic => rfl
  | ok r =>
    cases prec with
    | none => rfl
    | some p => simp only [Res.bind_ok, AnyReader.withPrecision_other h hr, Res.map_ok]

/-- The readers that override no query answer with the trait defaults, whatever the precision. -/
theorem AnyReader.ops_default (E : Env) (cfg : Config) (h1 : cfg.scheme ≠ .buff) (h2 : cfg.scheme ≠ .deltaSprintz)
    (prec : Option Nat) : AnyReader.ops E cfg.scheme prec = defaultOps E.o (E.scheme cfg).decode := by
  have hp := fun n bs r => @AnyReader.new_plain cfg.scheme h1 h2 n bs r
  unfold AnyReader.ops defaultOps
  simp only [ChunkOps.mk.injEq]
  refine ⟨?_, ?_, ?_, ?_, ?_, ?_⟩
  all_goals
    funext n bs
    (repeat (funext _))
    rw [E.decode_eq, freshHandle_other h1]
    cases hr : AnyReader.new cfg.scheme n bs with
    | err => rfl
    | panic => rfl
    | ok r =>
      simp only [Res.map_ok, Res.bind_ok, Res.bind, Handle.values, Handle.bitmap, Handle.number, Handle.exec,
        AnyReader.exec_plain (hp n bs r hr), defaultExec]
      cases AnyReader.decompress E r <;> rfl

theorem EncodedFile.opens {E : Env} {a : Args} {file : List Byte} {m : Metadata}
    (hf : EncodedFile (E.scheme a.cfg) a file m) {view : B64 → B64} {Ok : B64 → Prop} {maxLen : Nat}
    (L : (E.scheme a.cfg).Law view Ok maxLen) (ha : a.Valid) (hok : ∀ v ∈ a.records, Ok v)
    (hlen : a.records.length < maxLen) (prec : Option Nat) (hp : prec = none ∨ a.cfg.scheme ≠ .buff) :
    ∃ cs, Split a.opt.recordsPerChunk a.records cs ∧
      Opens E ⟨file, m, prec⟩ (cs.map fun c => c.map view) := by
  obtain ⟨cs, rfl, rfl, hfit, h2, h3, h4, h5⟩ := hf.chunks L ha hok hlen
  have hne := h2.ne_nil ha.positive
  refine ⟨cs.map Prod.fst, h2, ?_, ?_, ?_, ?_⟩
  · show cs.length = _
    simp
  · show recordCount cs = _
    rw [recordCount_eq, ← List.map_flatten, List.length_map]
  · intro c hc
    obtain ⟨c', h6, rfl⟩ := List.mem_map.1 hc
    have := hne c' h6
    simpa using this
  · intro i c hc
    rw [List.map_map, List.getElem?_map] at hc
    obtain ⟨⟨c', b⟩, h6, rfl⟩ := Option.map_eq_some_iff.1 hc
    obtain ⟨hi, h7⟩ := List.getElem?_eq_some_iff.1 h6
    have hs : cs = cs.take i ++ (c', b) :: cs.drop (i + 1) := by
      rw [← h7, ← List.drop_eq_getElem_cons hi, List.take_append_drop]
    have hil : (cs.take i).length = i := by rw [List.length_take]; omega
    have hl : loadChunk (E.scheme a.cfg) (a.layout cs) (a.metadata cs) i
        = .ok (c'.length, b, recordCount (cs.take i)) := by
      have h8 := hfit
      rw [hs] at h8
      have h9 := loadChunk_layout (E.scheme a.cfg) h8
      rw [← hs, hil] at h9
      exact h9
    have hmem : (c', b) ∈ cs := List.mem_of_getElem? h6
    obtain ⟨h, h8, h9⟩ := freshHandle_holds E a.cfg prec hp (h3 _ hmem).1 (by simp) (recordCount (cs.take i))
    refine ⟨h, ?_, ?_⟩
    · show (loadChunk (E.scheme a.cfg) (a.layout cs) (a.metadata cs) i >>= _) = _
      rw [hl]
      exact h8
    · have e : ((cs.map Prod.fst).map fun c => c.map view).take i
          = ((cs.take i).map Prod.fst).map fun c => c.map view := by
        simp [List.map_take]
      rw [e, ← List.map_flatten, List.length_map, ← recordCount_eq]
      exact h9

end Ebi
