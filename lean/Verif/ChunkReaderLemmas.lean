import Verif.ChunkReader

/-!
# Chunk readers: what the state does between queries
-/

namespace Ebi

theorem Res.map_eq_ok {α β : Type} {f : α → β} {x : Res α} {b : β} (h : x.map f = .ok b) :
    ∃ a, x = .ok a ∧ f a = b := by
  cases x with
  | ok a => exact ⟨a, rfl, by simpa [Res.map] using h⟩
  | err => cases h
  | panic => cases h

@[simp] theorem Res.map_ok {α β : Type} (f : α → β) (a : α) : (Res.ok a).map f = .ok (f a) := rfl
@[simp] theorem Res.map_err {α β : Type} (f : α → β) : (Res.err : Res α).map f = .err := rfl
@[simp] theorem Res.map_panic {α β : Type} (f : α → β) : (Res.panic : Res α).map f = .panic := rfl

theorem Res.map_map {α β γ : Type} (g : β → γ) (f : α → β) (x : Res α) :
    (x.map f).map g = x.map (g ∘ f) := by cases x <;> rfl

/-! ## Decompressing twice -/

theorem Uncompressed.Reader.decompress_idem {r r1 : Uncompressed.Reader} {vs : List B64}
    (h : r.decompress = .ok (vs, r1)) : r1.decompress = .ok (vs, r1) := by
  unfold decompress at h
  split at h
  · rename_i h0; cases h; unfold decompress; rw [h0]
  · split at h
    · cases h
    · cases h; rfl

theorem RunLength.Reader.decompress_idem {r r1 : RunLength.Reader} {vs : List B64}
    (h : r.decompress = .ok (vs, r1)) : r1.decompress = .ok (vs, r1) := by
  unfold decompress at h
  split at h
  · rename_i h0; cases h; unfold decompress; rw [h0]
  · split at h
    · cases h
    · cases h; rfl

theorem XorCodec.Reader.decompress_idem {C : XorCodec} {r r1 : XorCodec.Reader} {vs : List B64}
    (h : XorCodec.Reader.decompress C r = .ok (vs, r1)) : XorCodec.Reader.decompress C r1 = .ok (vs, r1) := by
  unfold decompress at h
  split at h
  · rename_i h0; cases h; unfold decompress; rw [h0]
  · obtain ⟨a, -, h2⟩ := Res.map_eq_ok h
    cases h2; rfl

theorem External.Reader.decompress_idem {dec : Nat → List Byte → Res (List B64)} {r r1 : External.Reader}
    {vs : List B64} (h : r.decompress dec = .ok (vs, r1)) : r1.decompress dec = .ok (vs, r1) := by
  unfold decompress at h
  split at h
  · rename_i h0; cases h; unfold decompress; rw [h0]
  · obtain ⟨a, -, h2⟩ := Res.map_eq_ok h
    cases h2; rfl

theorem Buff.Reader.decompress_ok {o : FloatOps} {r r1 : Buff.Reader} {vs : List B64}
    (h : r.decompress o = .ok (vs, r1)) : r1 = { r with decompressed := some vs } := by
  unfold decompress at h
  split at h
  · rename_i h0; cases h; cases r; simp_all
  · split at h
    · cases h; rfl
    · cases h
    · cases h

theorem Buff.Reader.decompress_idem {o : FloatOps} {r r1 : Buff.Reader} {vs : List B64}
    (h : r.decompress o = .ok (vs, r1)) : r1.decompress o = .ok (vs, r1) := by
  rw [Buff.Reader.decompress_ok h]; rfl

theorem Sprintz.Reader.decompress_idem {o : FloatOps} {r r1 : Sprintz.Reader} {vs : List B64}
    (h : r.decompress o = .ok (vs, r1)) : r1.decompress o = .ok (vs, r1) ∧ r1.decompressed = some vs := by
  unfold decompress at h
  split at h
  · rename_i h0; cases h; unfold decompress; rw [h0]; exact ⟨rfl, rfl⟩
  · split at h
    · cases h
    · split at h
      · cases h
      · cases h; exact ⟨rfl, rfl⟩

namespace AnyReader

variable {E : Env}

theorem decompress_idem {r r1 : AnyReader} {vs : List B64} (h : decompress E r = .ok (vs, r1)) :
    decompress E r1 = .ok (vs, r1) := by
  cases r <;> simp only [decompress] at h <;> obtain ⟨⟨vs', s⟩, h1, h2⟩ := Res.map_eq_ok h <;> cases h2 <;>
    simp only [decompress]
  · rw [Uncompressed.Reader.decompress_idem h1]; rfl
  · rw [RunLength.Reader.decompress_idem h1]; rfl
  · rw [XorCodec.Reader.decompress_idem h1]; rfl
  · rw [Buff.Reader.decompress_idem h1]; rfl
  · rw [XorCodec.Reader.decompress_idem h1]; rfl
  · rw [XorCodec.Reader.decompress_idem h1]; rfl
  · rw [XorCodec.Reader.decompress_idem h1]; rfl
  · rw [XorCodec.Reader.decompress_idem h1]; rfl
  · rw [(Sprintz.Reader.decompress_idem h1).1]; rfl
  · rw [External.Reader.decompress_idem h1]; rfl
  · rw [External.Reader.decompress_idem h1]; rfl
  · rw [External.Reader.decompress_idem h1]; rfl
  · rw [External.Reader.decompress_idem h1]; rfl

/-- Readers that override no query. -/
def Plain : AnyReader → Prop
  | .buff _ => False
  | .deltaSprintz _ => False
  | _ => True

theorem exec_plain {r : AnyReader} (h : Plain r) (off : Nat) (q : ChunkQuery) :
    exec E r off q = defaultExec E.o (decompress E) r off q := by
  cases r <;> first | rfl | exact h.elim

theorem plain_decompress {r r1 : AnyReader} {vs : List B64} (hp : Plain r)
    (h : decompress E r = .ok (vs, r1)) : Plain r1 := by
  cases r <;> simp only [decompress] at h <;> first | exact hp.elim | skip
  all_goals
    obtain ⟨⟨vs', s⟩, h1, h2⟩ := Res.map_eq_ok h
    cases h2
    trivial

/-- Plain readers: any history of queries succeeds once the chunk decodes, and leaves the reader in
one of two states. -/
theorem execAll_plain {r r1 : AnyReader} {vs : List B64} (hp : Plain r)
    (h : decompress E r = .ok (vs, r1)) (off : Nat) (qs : List ChunkQuery) :
    execAll E r off qs = .ok (if qs = [] then r else r1) := by
  have hp1 := plain_decompress hp h
  have h1 := decompress_idem h
  have key : ∀ qs, execAll E r1 off qs = .ok r1 := by
    intro qs
    induction qs with
    | nil => rfl
    | cons q qs ih =>
      rw [execAll, exec_plain hp1, defaultExec, h1]
      exact ih
  cases qs with
  | nil => rfl
  | cons q qs =>
    rw [execAll, exec_plain hp, defaultExec, h]
    simpa using key qs

/-! ## Value queries on every reader -/

/-- materialize, distance and dot product: not answered in situ by any scheme. -/
def _root_.Ebi.ChunkQuery.ofValues : ChunkQuery → Bool
  | .materialize _ | .distanceSquared _ _ | .dotProduct _ _ => true
  | _ => false

/-- The reader gives the values `vs`, and a DeltaSprintz reader that has not decompressed yet stands at
the start of its chunk. -/
def Gives (E : Env) (r : AnyReader) (vs : List B64) : Prop :=
  (∃ r1, decompress E r = .ok (vs, r1)) ∧
  match r with
  | .deltaSprintz s => s.decompressed.isSome = true ∨ s.br.reset = s.br
  | _ => True

theorem Gives.after {r r1 : AnyReader} {vs : List B64} (h : decompress E r = .ok (vs, r1)) : Gives E r1 vs := by
  refine ⟨⟨r1, decompress_idem h⟩, ?_⟩
  cases r <;> simp only [decompress] at h <;> obtain ⟨⟨vs', s⟩, h1, h2⟩ := Res.map_eq_ok h <;> cases h2 <;>
    first | trivial | skip
  left
  simp only
  rw [(Sprintz.Reader.decompress_idem h1).2]
  rfl

theorem Gives.materialize_sprintz {s : Sprintz.Reader} {vs : List B64} (h : Gives E (.deltaSprintz s) vs)
    (off : Nat) (bm : Option Bitmap) : ∃ s', s.materialize E.o bm off = .ok (defaultMaterialize bm off vs, s') ∧
      Gives E (.deltaSprintz s') vs := by
  obtain ⟨⟨r1, h1⟩, h2⟩ := h
  have h5 := Gives.after h1
  simp only [decompress] at h1
  obtain ⟨⟨vs', s'⟩, h3, h4⟩ := Res.map_eq_ok h1
  obtain ⟨rfl, rfl⟩ : vs' = vs ∧ AnyReader.deltaSprintz s' = r1 := by simpa using h4
  simp only at h2
  rcases h2 with h2 | h2
  · obtain ⟨ws, hw⟩ := Option.isSome_iff_exists.1 h2
    have hd : ∀ t : Sprintz.Reader, t.decompressed = some ws → t.decompress E.o = .ok (ws, t) := by
      intro t ht; unfold Sprintz.Reader.decompress; rw [ht]
    have hv := (hd s hw).symm.trans h3
    simp only [Res.ok.injEq, Prod.mk.injEq] at hv
    obtain ⟨rfl, -⟩ := hv
    have h6 := hd { s with br := s.br.reset } hw
    refine ⟨{ s with br := s.br.reset }, ?_, ⟨.deltaSprintz { s with br := s.br.reset }, ?_⟩, Or.inl h2⟩
    · unfold Sprintz.Reader.materialize; rw [h6]
    · simp only [decompress, h6, Res.map_ok]
  · refine ⟨s', ?_, h5⟩
    unfold Sprintz.Reader.materialize
    rw [h2, show ({ s with br := s.br } : Sprintz.Reader) = s from rfl, h3]

theorem Gives.exec {r : AnyReader} {vs : List B64} (h : Gives E r vs) (off : Nat) {q : ChunkQuery}
    (hq : q.ofValues = true) : ∃ r', exec E r off q = .ok (defaultAnswer E.o off vs q, r') ∧ Gives E r' vs := by
  obtain ⟨⟨r1, h1⟩, h2⟩ := id h
  have h5 := Gives.after h1
  cases r
  case deltaSprintz s =>
    simp only [decompress] at h1
    obtain ⟨⟨vs', s'⟩, h3, h4⟩ := Res.map_eq_ok h1
    obtain ⟨rfl, rfl⟩ : vs' = vs ∧ AnyReader.deltaSprintz s' = r1 := by simpa using h4
    cases q <;> first | cases hq | skip
    · rename_i bm
      obtain ⟨s2, h6, h7⟩ := h.materialize_sprintz off bm
      exact ⟨_, by simp only [AnyReader.exec, Sprintz.Reader.exec, h6, Res.map_ok]; rfl, h7⟩
    · exact ⟨_, by simp only [AnyReader.exec, Sprintz.Reader.exec, defaultExec, h3, Res.map_ok], h5⟩
    · exact ⟨_, by simp only [AnyReader.exec, Sprintz.Reader.exec, defaultExec, h3, Res.map_ok], h5⟩
  case buff s =>
    simp only [decompress] at h1
    obtain ⟨⟨vs', s'⟩, h3, h4⟩ := Res.map_eq_ok h1
    obtain ⟨rfl, rfl⟩ : vs' = vs ∧ AnyReader.buff s' = r1 := by simpa using h4
    refine ⟨_, ?_, h5⟩
    cases q <;> first | cases hq | skip
    all_goals simp only [AnyReader.exec, Buff.Reader.exec, defaultExec, h3, Res.map_ok]
  all_goals exact ⟨r1, by rw [exec_plain (by trivial), defaultExec, h1]; rfl, h5⟩

theorem Gives.new {id : SchemeId} {n : Nat} {bs : List Byte} {r r1 : AnyReader} {vs : List B64}
    (h : AnyReader.new id n bs = .ok r) (h1 : decompress E r = .ok (vs, r1)) : Gives E r vs := by
  refine ⟨⟨r1, h1⟩, ?_⟩
  cases id <;> simp only [AnyReader.new] at h <;>
    first
    | (cases h; first | trivial | exact Or.inr rfl)
    | (obtain ⟨a, -, h2⟩ := Res.map_eq_ok h; cases h2; trivial)

end AnyReader
end Ebi
