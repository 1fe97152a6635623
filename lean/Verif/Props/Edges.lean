import Verif.Props.Registry

/-!
# Failures inside a chunk, and sizes announced by the libraries' compressors (C18, C39, C51, C61)
-/

namespace Ebi.Props

open Ebi

/-- The schemes of the libraries announce exactly what they write, in every state; nothing before the first chunk. -/
theorem c18_external (c : External.Comp) :
    c.totalBytesBuffered = c.buffers.length ∧ External.Comp.new.totalBytesBuffered = 0 ∧ c.reset.totalBytesBuffered = 0 := by
  refine ⟨?_, rfl, rfl⟩
  unfold External.Comp.totalBytesBuffered External.Comp.buffers
  cases c.compressed <;> rfl

/-- The compression library of a scheme. -/
def packerOf (E : Env) : Config → Option External.ByteCodec
  | .zstd _ => some E.zstd
  | .gzip _ => some E.gzip
  | .snappy => some E.snappy
  | _ => none

/-- A library that refuses a chunk makes the compressor return an error, and only that does; it never panics. -/
theorem c51_library_refuses (E : Env) (cfg : Config) {k : External.ByteCodec} (hk : packerOf E cfg = some k)
    (c : (E.scheme cfg).Comp) (vs : List B64) :
    (k.enc (ofF64s vs) = none → (E.scheme cfg).compress c vs = .err) ∧
    (k.enc (ofF64s vs) ≠ none → ∃ c', (E.scheme cfg).compress c vs = .ok c') := by
  have key : ∀ c : External.Comp,
      (k.enc (ofF64s vs) = none → c.compressZstd k vs = .err) ∧ (k.enc (ofF64s vs) ≠ none → ∃ c', c.compressZstd k vs = .ok c') := by
    intro c
    unfold External.Comp.compressZstd
    cases k.enc (ofF64s vs) with
    | none => exact ⟨fun _ => rfl, fun h => absurd rfl h⟩
    | some out => exact ⟨(fun h => by cases h), (fun _ => ⟨_, rfl⟩)⟩
  cases cfg <;> cases hk
  · exact key c
  · exact key (External.Comp.reset c)
  · exact key (External.Comp.reset c)

/-- The iterator of the uncompressed reader reads all values or ends with an error, exactly when bytes are missing; what
follows the values does not matter. -/
theorem c61_iterator (n : Nat) (bs : List Byte) :
    (bs.length < 8 * n → (Uncompressed.Reader.new n bs).iter = .err) ∧
    (8 * n ≤ bs.length → (Uncompressed.Reader.new n bs).iter = .ok (toF64s (bs.take (8 * n)))) := by
  have key : ∀ (n : Nat) (bs : List Byte),
      (bs.length < 8 * n → Uncompressed.iterFrom n bs = .err) ∧
      (8 * n ≤ bs.length → ∃ vs t, vs.length = n ∧ bs = ofF64s vs ++ t) := by
    intro n
    induction n with
    | zero => intro bs; exact ⟨fun h => by omega, fun _ => ⟨[], bs, rfl, rfl⟩⟩
    | succ n ih =>
      intro bs
      constructor
      · intro h
        rw [Uncompressed.iterFrom, takeExact]
        by_cases h8 : 8 ≤ bs.length
        · rw [if_pos h8]
          simp only
          rw [(ih (bs.drop 8)).1 (by rw [List.length_drop]; omega)]
          rfl
        · rw [if_neg h8]
      · intro h
        obtain ⟨vs, t, h1, h2⟩ := (ih (bs.drop 8)).2 (by rw [List.length_drop]; omega)
        refine ⟨f64Of (bs.take 8) :: vs, t, by simp [h1], ?_⟩
        have h3 : f64Bytes (f64Of (bs.take 8)) = bs.take 8 := f64Bytes_of (by rw [List.length_take]; omega)
        rw [show ofF64s (f64Of (bs.take 8) :: vs) = f64Bytes (f64Of (bs.take 8)) ++ ofF64s vs from rfl, h3,
          List.append_assoc, ← h2, List.take_append_drop]
  refine ⟨(key n bs).1, fun h => ?_⟩
  obtain ⟨vs, t, rfl, rfl⟩ := (key n bs).2 h
  show Uncompressed.iterFrom vs.length (ofF64s vs ++ t) = _
  rw [Uncompressed.iterFrom_ofF64s, List.take_append_of_le_length (by simp), List.take_of_length_le (by simp), toF64s_ofF64s]

/-- `filter_materialize` of DeltaSprintz fails as decompressing the chunk does and keeps the matching values otherwise. -/
theorem c39_filter_materialize (o : FloatOps) (r : Sprintz.Reader) (p : Predicate B64) (bm : Option Bitmap) (off : Nat) :
    (r.filterMaterialize o p bm off).map Prod.fst =
      (r.decompress o).map fun x => ((x.1.zipIdx off).filter fun q => selected bm q.2 && p.eval f64Cmp q.1).map Prod.fst := by
  unfold Sprintz.Reader.filterMaterialize
  cases r.decompress o with
  | err => rfl
  | panic => rfl
  | ok x => simp only [Res.map_ok, defaultFilterMaterialize_eq]

/-- A short chunk and one with bytes to spare. -/
example : (Uncompressed.Reader.new 2 (List.replicate 15 1#8)).iter = .err ∧
    (Uncompressed.Reader.new 1 (List.replicate 15 1#8)).iter = .ok [0x0101010101010101#64] := by
  decide

/-- A library that refuses. -/
example : packerOf { sampleEnv with snappy := ⟨fun _ => none, fun bs => some bs⟩ } .snappy =
    some ⟨fun _ => none, fun bs => some bs⟩ := rfl

end Ebi.Props
