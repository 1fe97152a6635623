import Verif.Registry

/-!
# C77: what `total_bytes_in` counts

For the compressor of any configuration, with any libraries behind it.
-/

namespace Ebi.Props

open Ebi

/-- The spec: which compressors go on counting over several calls of `compress` although they keep only the last input. -/
def Accumulates : Config → Prop
  | .zstd _ => True
  | .buff _ => True
  | _ => False

instance (cfg : Config) : Decidable (Accumulates cfg) := by
  cases cfg <;> unfold Accumulates <;> infer_instance

/-- A new compressor has counted nothing. -/
theorem c77_new (E : Env) (cfg : Config) : (E.scheme cfg).totalBytesIn (E.scheme cfg).build = 0 := by
  cases cfg <;> rfl

/-- Nor has one that was reset, whatever it did before. -/
theorem c77_reset (E : Env) (cfg : Config) (c : (E.scheme cfg).Comp) :
    (E.scheme cfg).totalBytesIn ((E.scheme cfg).reset c) = 0 := by
  cases cfg <;> rfl

theorem rle_loop_total (vs : List B64) (c : RunLength.Comp) : (c.loop vs).totalBytesIn = c.totalBytesIn := by
  induction vs generalizing c with
  | nil => rfl
  | cons v vs ih =>
    rw [RunLength.Comp.loop, ih]
    unfold RunLength.Comp.step RunLength.Comp.addField
    split <;> rfl

theorem rle_append_total {c c' : RunLength.Comp} {vs : List B64} (h : c.append vs = .ok c') :
    c'.totalBytesIn = c.totalBytesIn + 8 * vs.length := by
  unfold RunLength.Comp.append at h
  split at h
  · cases vs with
    | nil => cases h
    | cons v rest =>
      cases h
      show (RunLength.Comp.loop _ rest).totalBytesIn + _ = _
      rw [rle_loop_total]
  · cases h
    show (RunLength.Comp.loop _ vs).totalBytesIn + _ = _
    rw [rle_loop_total]

theorem zstd_total {k : External.ByteCodec} {c c' : External.Comp} {vs : List B64} (h : c.compressZstd k vs = .ok c') :
    c'.totalBytesIn = c.totalBytesIn + 8 * vs.length := by
  unfold External.Comp.compressZstd at h
  split at h
  · cases h
  · cases h
    rfl

/-- After `compress`, the bytes of the input; Zstd and BUFF add them to those of the calls before. -/
theorem c77_compress (E : Env) (cfg : Config) (c c' : (E.scheme cfg).Comp) (vs : List B64)
    (h : (E.scheme cfg).compress c vs = .ok c') :
    (E.scheme cfg).totalBytesIn c' =
      (if Accumulates cfg then (E.scheme cfg).totalBytesIn c else 0) + 8 * vs.length := by
  have hx : ∀ (C : XorCodec) (c : C.Compressor), (C.compress c vs).totalBytesIn = 0 + 8 * vs.length := by
    intro C c
    rfl
  cases cfg with
  | uncompressed _ => cases h; rfl
  | rle _ =>
    have := rle_append_total (c := RunLength.Comp.reset c) h
    exact this
  | gorilla _ => cases h; exact hx _ _
  | buff s =>
    change Buff.Comp.compress E.log10Scale c vs = .ok c' at h
    show Buff.Comp.totalBytesIn c' = Buff.Comp.totalBytesIn c + _
    unfold Buff.Comp.compress at h
    split at h
    · cases h
    · split at h
      · cases h
        rfl
      · cases h
      · cases h
  | chimp _ => cases h; exact hx _ _
  | chimp128 _ => cases h; exact hx _ _
  | elfOnChimp _ => cases h; exact hx _ _
  | elf _ => cases h; exact hx _ _
  | deltaSprintz _ s =>
    change Sprintz.Comp.compress E.o c vs = .ok c' at h
    show Sprintz.Comp.totalBytesIn c' = 0 + _
    unfold Sprintz.Comp.compress at h
    dsimp only at h
    split at h
    · cases h
      rfl
    · cases h
    · cases h
  | zstd _ => exact zstd_total h
  | gzip _ => exact zstd_total (c := External.Comp.reset c) h
  | snappy => exact zstd_total (c := External.Comp.reset c) h
  | ffiAlp => cases h; rfl

/-- `prepare` never fails and leaves the count alone. -/
theorem c77_prepare (E : Env) (cfg : Config) (c : (E.scheme cfg).Comp) :
    ∃ c', (E.scheme cfg).prepare c = .ok c' ∧ (E.scheme cfg).totalBytesIn c' = (E.scheme cfg).totalBytesIn c := by
  cases cfg with
  | rle _ => exact ⟨_, rfl, RunLength.prepare_totalBytesIn c⟩
  | _ => exact ⟨_, rfl, rfl⟩

/-- A compressor on which the given calls of `compress` succeed one after the other. -/
def compressAll (S : Scheme) (c : S.Comp) : List (List B64) → Res S.Comp
  | [] => .ok c
  | vs :: rest =>
    match S.compress c vs with
    | .ok c => compressAll S c rest
    | .err => .err
    | .panic => .panic

/-- Over a sequence of calls: the bytes of all inputs for Zstd and BUFF, of the last one for the others. -/
theorem c77_sequence (E : Env) (cfg : Config) (inputs : List (List B64)) (last : List B64) (c' : (E.scheme cfg).Comp)
    (h : compressAll (E.scheme cfg) (E.scheme cfg).build (inputs ++ [last]) = .ok c') :
    (E.scheme cfg).totalBytesIn c' =
      8 * (if Accumulates cfg then (inputs ++ [last]).flatten.length else last.length) := by
  have gen : ∀ (inputs : List (List B64)) (c : (E.scheme cfg).Comp),
      compressAll (E.scheme cfg) c (inputs ++ [last]) = .ok c' → (E.scheme cfg).totalBytesIn c' =
        if Accumulates cfg then (E.scheme cfg).totalBytesIn c + 8 * (inputs ++ [last]).flatten.length
        else 8 * last.length := by
    intro inputs
    induction inputs with
    | nil =>
      intro c h
      simp only [List.nil_append, compressAll] at h
      split at h <;> cases h
      rename_i c₁ h₁
      rw [c77_compress E cfg c _ last h₁]
      split <;> simp
    | cons vs rest ih =>
      intro c h
      simp only [List.cons_append, compressAll] at h
      split at h
      · rename_i c₁ h₁
        rw [ih c₁ h, c77_compress E cfg c c₁ vs h₁]
        split
        · simp only [List.cons_append, List.flatten_cons, List.length_append]
          omega
        · rfl
      · cases h
      · cases h
  rw [gen inputs _ h, c77_new]
  split <;> omega

/-- The encoder resets before each chunk, so there all compressors count the input of the chunk. -/
theorem c77_chunk (E : Env) (cfg : Config) (c c' : (E.scheme cfg).Comp) (vs : List B64)
    (h : (E.scheme cfg).compress ((E.scheme cfg).reset c) vs = .ok c') :
    (E.scheme cfg).totalBytesIn c' = 8 * vs.length := by
  rw [c77_compress E cfg _ c' vs h, c77_reset]
  split <;> omega

/-! ## Examples -/

private def twice (S : Scheme) (a b : List B64) : Res Nat := (compressAll S S.build [a, b]).map S.totalBytesIn

example (E : Env) : twice (E.scheme (.rle 0#64)) [1#64, 1#64] [1#64] = .ok 8 := by
  show twice RunLength.scheme [1#64, 1#64] [1#64] = .ok 8
  decide +kernel
example : twice (External.zstdScheme ⟨some, some⟩) [1#64, 1#64] [1#64] = .ok 24 := by decide +kernel
example : twice (External.exactScheme ⟨some, some⟩) [1#64, 1#64] [1#64] = .ok 8 := by decide +kernel

end Ebi.Props
