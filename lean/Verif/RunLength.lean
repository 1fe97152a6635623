import Verif.Bytes

/-!
# Run-length encoding

`ebi/src/compressor/run_length.rs`, `ebi/src/format/run_length.rs` and
`ebi/src/decoder/chunk_reader/run_length.rs`.
-/

namespace Ebi.RunLength

open Ebi

/-- `RunLengthCompressor` (compressor/run_length.rs:25-31). `nFields` is the `u64` in the header,
`prevRun` the `u8` run counter (both as naturals). -/
structure Comp where
  totalBytesIn : Nat
  nFields : Nat
  bytes : List Byte
  prevVal : B64
  prevRun : Nat
deriving DecidableEq

/-- `with_capacity` (39-47); capacity is invisible. -/
def Comp.new : Comp := ⟨0, 0, [], 0#64, 0⟩

/-- One field: run count (1 byte) and value (8 bytes little endian), as in `add_field` (50-51). -/
def fieldBytes (run : Nat) (v : B64) : List Byte := BitVec.ofNat 8 run :: f64Bytes v

/-- `add_field` (49-54). -/
def Comp.addField (c : Comp) (v : B64) (run : Nat) : Comp :=
  { c with bytes := c.bytes ++ fieldBytes run v, nFields := c.nFields + 1 }

/-- Body of the `for value in input` loop (73-86, identically 149-162). `to_le_bytes` equality is
equality of bit patterns. -/
def Comp.step (c : Comp) (v : B64) : Comp :=
  if c.prevVal = v ∧ c.prevRun < 255 then { c with prevRun := c.prevRun + 1 }
  else { c.addField c.prevVal c.prevRun with prevVal := v, prevRun := 1 }

/-- The loop. -/
def Comp.loop (c : Comp) : List B64 → Comp
  | [] => c
  | v :: vs => (c.step v).loop vs

/-- `append_compress` (141-166). `input[0]` panics when nothing is pending and the input is empty. -/
def Comp.append (c : Comp) (input : List B64) : Res Comp :=
  if c.prevRun = 0 then
    match input with
    | [] => .panic
    | v :: rest =>
      let c := { c with prevVal := v, prevRun := 1 }
      let c := c.loop rest
      .ok { c with totalBytesIn := c.totalBytesIn + 8 * input.length }
  else
    let c := c.loop input
    .ok { c with totalBytesIn := c.totalBytesIn + 8 * input.length }

/-- `reset` (128-134): `previous_value` stays. -/
def Comp.reset (c : Comp) : Comp :=
  { c with bytes := [], nFields := 0, prevRun := 0, totalBytesIn := 0 }

/-- `compress` (64-92): `reset` followed by the same body as `append_compress`. -/
def Comp.compress (c : Comp) (input : List B64) : Res Comp := c.reset.append input

/-- `total_bytes_buffered` (98-107). -/
def Comp.totalBytesBuffered (c : Comp) : Nat :=
  8 + c.bytes.length + (if c.prevRun ≠ 0 then 9 else 0)

/-- `prepare` (111-117). `header.to_le()` is the identity on a little-endian machine. -/
def Comp.prepare (c : Comp) : Comp :=
  if c.prevRun ≠ 0 then { c.addField c.prevVal c.prevRun with prevRun := 0 } else c

/-- `buffers` (119-125), concatenated. -/
def Comp.buffers (c : Comp) : List Byte := leBytes 8 c.nFields ++ c.bytes

/-- `bytes.chunks_exact(9).map(..)` (179-183) as (run count, value) pairs. -/
def fieldsOf : List Byte → List (Nat × B64)
  | n :: a :: b :: c :: d :: e :: f :: g :: h :: rest =>
    (n.toNat, f64Of [a, b, c, d, e, f, g, h]) :: fieldsOf rest
  | _ => []

/-- State of the `rewind` loop. -/
structure RewindState where
  remaining : Nat
  fieldsToRewind : Nat
  found : Option (Nat × B64)

/-- The `for` loop of `rewind` (184-200): `fs` are the fields still to visit (newest first). -/
def rewindLoop (remaining fields : Nat) : List (Nat × B64) → RewindState
  | [] => ⟨remaining, fields, none⟩
  | (run, v) :: fs =>
    if run ≤ remaining then rewindLoop (remaining - run) (fields + 1) fs
    else ⟨0, fields + 1, some (run - remaining, v)⟩

/-- `rewind` (170-218). -/
def Comp.rewind (c : Comp) (n : Nat) : Bool × Comp :=
  if c.prevRun = 0 then (false, c)
  else
    let st := rewindLoop n 0 ((c.prevRun, c.prevVal) :: (fieldsOf c.bytes).reverse)
    if st.remaining ≠ 0 then (false, c)
    else
      let c := match st.found with
        | some (run, v) => { c with prevVal := v, prevRun := run }
        | none => { c with prevRun := 0 }
      (true, { c with bytes := c.bytes.take (c.bytes.length - (st.fieldsToRewind - 1) * 9),
                      nFields := c.nFields - (st.fieldsToRewind - 1),
                      totalBytesIn := c.totalBytesIn - n * 8 })

/-- `RunLengthReaderImpl` (decoder/chunk_reader/run_length.rs:17-23). -/
structure Reader where
  numberOfRecords : Nat
  numberOfFields : Nat
  rest : List Byte
  decompressed : Option (List B64)

/-- `RunLengthReader::new` (25-50), given the chunk bytes. -/
def Reader.new (numberOfRecords : Nat) (chunk : List Byte) : Res Reader :=
  match takeExact 8 chunk with
  | none => .err
  | some (h, rest) => .ok ⟨numberOfRecords, leNat h, rest, none⟩

/-- The loop of `decompress` (76-86): `n` fields left; result and remaining bytes. -/
def decodeFields : Nat → List Byte → Option (List B64 × List Byte)
  | 0, bs => some ([], bs)
  | n + 1, bs =>
    match takeExact 9 bs with
    | none => none
    | some (f, rest) =>
      match decodeFields n rest with
      | none => none
      | some (vs, rest') => some (List.replicate (f.headD 0).toNat (f64Of (f.drop 1)) ++ vs, rest')

/-- `decompress` (68-91). -/
def Reader.decompress (r : Reader) : Res (List B64 × Reader) :=
  match r.decompressed with
  | some vs => .ok (vs, r)
  | none =>
    match decodeFields r.numberOfFields r.rest with
    | none => .err
    | some (vs, rest) => .ok (vs, { r with rest := rest, decompressed := some vs })

/-- The iterator `next` (134-157): `left` fields not yet visited, the current run and value, the rest
of the cursor. One unit of `fuel` per value. `current_run -= 1` panics (debug) on a run count of 0 in the file. -/
def iterFrom : Nat → Nat → Nat → B64 → List Byte → Res (List B64)
  | 0, _, _, _, _ => .err
  | fuel + 1, left, run, v, bs =>
    if run = 0 then
      match left with
      | 0 => .ok []
      | left + 1 =>
        match takeExact 9 bs with
        | none => .err
        | some (f, rest) =>
          if (f.headD 0).toNat = 0 then .panic
          else (iterFrom fuel left ((f.headD 0).toNat - 1) (f64Of (f.drop 1)) rest).map
            (f64Of (f.drop 1) :: ·)
    else (iterFrom fuel left (run - 1) v bs).map (v :: ·)

/-! ## Abstraction: the list of runs, newest first -/

abbrev Runs := List (Nat × B64)

/-- Add one value to the newest run, or start a new one. -/
def push (v : B64) : Runs → Runs
  | (n, w) :: fs => if w = v ∧ n < 255 then (n + 1, w) :: fs else (1, v) :: (n, w) :: fs
  | [] => [(1, v)]

/-- Remove the newest value. -/
def pop : Runs → Runs
  | (n, w) :: fs => if n ≤ 1 then fs else (n - 1, w) :: fs
  | [] => []

def popN : Nat → Runs → Runs
  | 0, R => R
  | n + 1, R => popN n (pop R)

/-- All values, oldest first. -/
def expand (R : Runs) : List B64 := R.reverse.flatMap (fun p => List.replicate p.1 p.2)

/-- Run counts fit the byte. -/
def WF (R : Runs) : Prop := ∀ p ∈ R, 1 ≤ p.1 ∧ p.1 ≤ 255

def count (R : Runs) : Nat := (expand R).length

def runsOf (L : List B64) : Runs := L.foldl (fun R v => push v R) []

theorem wf_push {R : Runs} (h : WF R) (v : B64) : WF (push v R) := by
  unfold push
  cases R with
  | nil => intro p hp; simp at hp; subst hp; simp
  | cons p fs =>
    obtain ⟨n, w⟩ := p
    have h1 := h (n, w) (by simp)
    simp only at h1
    simp only
    split
    · intro p hp
      simp at hp
      rcases hp with rfl | hp
      · simp; omega
      · exact h p (by simp [hp])
    · intro p hp
      simp at hp
      rcases hp with rfl | rfl | hp
      · simp
      · simpa using h1
      · exact h p (by simp [hp])

theorem pop_push {R : Runs} (h : WF R) (v : B64) : pop (push v R) = R := by
  unfold push
  cases R with
  | nil => simp [pop]
  | cons p fs =>
    obtain ⟨n, w⟩ := p
    have h1 := h (n, w) (by simp)
    simp only at h1
    simp only
    split
    · simp only [pop]
      rw [if_neg (by omega)]
      simp
    · simp [pop]

theorem push_ne_nil (v : B64) (R : Runs) : push v R ≠ [] := by
  unfold push
  split
  · split <;> simp
  · simp

theorem expand_push (v : B64) (R : Runs) : expand (push v R) = expand R ++ [v] := by
  unfold push
  cases R with
  | nil => simp [expand]
  | cons p fs =>
    obtain ⟨n, w⟩ := p
    simp only
    split
    · rename_i hw
      rw [← hw.1]
      simp [expand, List.replicate_succ']
    · simp [expand]

theorem runsOf_append_singleton (L : List B64) (v : B64) : runsOf (L ++ [v]) = push v (runsOf L) := by
  simp [runsOf]

theorem wf_runsOf (L : List B64) : WF (runsOf L) := by
  suffices h : ∀ R, WF R → WF (L.foldl (fun R v => push v R) R) from
    h [] (by intro p hp; cases hp)
  induction L with
  | nil => exact fun R h => h
  | cons v L ih => exact fun R h => ih _ (wf_push h v)

theorem expand_foldl (L : List B64) (R : Runs) :
    expand (L.foldl (fun R v => push v R) R) = expand R ++ L := by
  induction L generalizing R with
  | nil => simp
  | cons v L ih =>
    rw [List.foldl_cons, ih, expand_push]
    simp

@[simp] theorem expand_runsOf (L : List B64) : expand (runsOf L) = L := by
  rw [runsOf, expand_foldl]
  simp [expand]

theorem runsOf_ne_nil {L : List B64} (h : L ≠ []) : runsOf L ≠ [] := by
  intro h2
  have := expand_runsOf L
  rw [h2] at this
  exact h (by simpa [expand] using this.symm)

theorem popN_runsOf (n : Nat) (L : List B64) (h : n ≤ L.length) :
    popN n (runsOf L) = runsOf (L.take (L.length - n)) := by
  induction n generalizing L with
  | zero => simp [popN]
  | succ n ih =>
    rcases List.eq_nil_or_concat L with rfl | ⟨L', v, hL⟩
    · simp at h
    · rw [List.concat_eq_append] at hL
      subst hL
      simp only [List.length_append, List.length_singleton] at h
      rw [popN, runsOf_append_singleton, pop_push (wf_runsOf L'), ih L' (by omega)]
      congr 1
      rw [List.length_append, List.length_singleton,
        show L'.length + 1 - (n + 1) = L'.length - n by omega,
        List.take_append_of_le_length (by omega)]

theorem popN_nil (n : Nat) : popN n [] = [] := by
  induction n with
  | zero => rfl
  | succ n ih => simpa [popN, pop] using ih

theorem popN_whole (n k : Nat) (w : B64) (fs : Runs) (hk : 1 ≤ k) (h : k ≤ n) :
    popN n ((k, w) :: fs) = popN (n - k) fs := by
  induction k generalizing n with
  | zero => omega
  | succ k ih =>
    obtain ⟨n, rfl⟩ : ∃ m, n = m + 1 := ⟨n - 1, by omega⟩
    rw [popN, pop]
    by_cases hk0 : k = 0
    · subst hk0
      simp
    · rw [if_neg (by omega)]
      have := ih n (by omega) (by omega)
      rw [Nat.add_sub_cancel]
      rw [this]
      congr 1
      omega

theorem popN_part (n k : Nat) (w : B64) (fs : Runs) (h : n < k) :
    popN n ((k, w) :: fs) = (k - n, w) :: fs := by
  induction n generalizing k with
  | zero => rfl
  | succ n ih =>
    rw [popN, pop, if_neg (by omega), ih (k - 1) (by omega)]
    congr 2
    omega

theorem count_cons (k : Nat) (w : B64) (fs : Runs) : count ((k, w) :: fs) = count fs + k := by
  simp [count, expand]

/-- What the rewind loop computes. -/
theorem rewindLoop_spec (R : Runs) (hR : WF R) (n f : Nat) :
    (count R < n → (rewindLoop n f R).remaining ≠ 0) ∧
    (n ≤ count R → (rewindLoop n f R).remaining = 0 ∧
      match (rewindLoop n f R).found with
      | none => popN n R = [] ∧ (rewindLoop n f R).fieldsToRewind = f + R.length
      | some p => 1 ≤ p.1 ∧ p.1 ≤ 255 ∧
        (∃ j, j < R.length ∧ (rewindLoop n f R).fieldsToRewind = f + j + 1 ∧
          popN n R = p :: R.drop (j + 1))) := by
  induction R generalizing n f with
  | nil =>
    refine ⟨?_, ?_⟩
    · simp [count, expand, rewindLoop]
      omega
    · simp only [count, expand, List.reverse_nil, List.flatMap_nil, List.length_nil, rewindLoop,
        popN_nil, Nat.add_zero, and_self, and_true]
      omega
  | cons p fs ih =>
    obtain ⟨k, w⟩ := p
    have hk := hR (k, w) (by simp)
    simp only at hk
    have hfs : WF fs := fun p hp => hR p (by simp [hp])
    rw [count_cons]
    simp only [rewindLoop]
    split
    · rename_i hle
      have := ih hfs (n - k) (f + 1)
      refine ⟨fun h => this.1 (by omega), fun h => ?_⟩
      have h2 := this.2 (by omega)
      refine ⟨h2.1, ?_⟩
      have h3 := h2.2
      rw [popN_whole n k w fs hk.1 hle]
      revert h3
      cases (rewindLoop (n - k) (f + 1) fs).found with
      | none =>
        simp only [List.length_cons]
        rintro ⟨a, b⟩
        exact ⟨a, by omega⟩
      | some q =>
        simp only [List.length_cons]
        rintro ⟨a, b, j, hj, h4, h5⟩
        exact ⟨a, b, j + 1, by omega, by omega, by simpa using h5⟩
    · rename_i hlt
      refine ⟨fun h => by omega, fun _ => ⟨rfl, ?_⟩⟩
      simp only
      refine ⟨by omega, by omega, 0, by simp, by omega, ?_⟩
      rw [popN_part n k w fs (by omega)]
      simp

/-! ## Representation -/

/-- Bytes of completed fields. -/
def encFields (fs : Runs) : List Byte := fs.flatMap (fun p => fieldBytes p.1 p.2)

theorem fieldBytes_length (n : Nat) (v : B64) : (fieldBytes n v).length = 9 := by
  simp [fieldBytes]

@[simp] theorem encFields_length (fs : Runs) : (encFields fs).length = 9 * fs.length := by
  induction fs with
  | nil => rfl
  | cons p fs ih =>
    simp only [encFields, List.flatMap_cons, List.length_append, fieldBytes_length,
      List.length_cons] at ih ⊢
    omega

theorem fieldsOf_append {f : List Byte} (h : f.length = 9) (rest : List Byte) :
    fieldsOf (f ++ rest) = ((f.headD 0).toNat, f64Of (f.drop 1)) :: fieldsOf rest := by
  match f, h with
  | [n, a, b, c, d, e, f, g, i], _ => rfl

theorem fieldsOf_enc (fs : Runs) (h : WF fs) : fieldsOf (encFields fs) = fs := by
  induction fs with
  | nil => rfl
  | cons p fs ih =>
    have hp := h p (by simp)
    rw [encFields, List.flatMap_cons, fieldsOf_append (fieldBytes_length _ _)]
    change _ :: fieldsOf (encFields fs) = _
    rw [ih (fun q hq => h q (by simp [hq]))]
    congr 1
    obtain ⟨n, v⟩ := p
    simp only [fieldBytes, List.headD_cons, List.drop_succ_cons, List.drop_zero, f64Of_bytes]
    congr 1
    simp only [BitVec.toNat_ofNat]
    simp only at hp
    omega

/-- Compressor `c` stores the runs `R`, the newest one pending. -/
def Pend (c : Comp) : Runs → Prop
  | [] => c.prevRun = 0 ∧ c.bytes = [] ∧ c.nFields = 0
  | (n, w) :: fs => c.prevRun = n ∧ c.prevVal = w ∧ c.bytes = encFields fs.reverse ∧
      c.nFields = fs.length

/-- Compressor `c` holds the runs `R` and has counted `t` input bytes. -/
structure Rep (c : Comp) (R : Runs) (t : Nat) : Prop where
  wf : WF R
  total : c.totalBytesIn = t
  pend : Pend c R

theorem encFields_snoc (fs : Runs) (p : Nat × B64) :
    encFields (fs ++ [p]) = encFields fs ++ fieldBytes p.1 p.2 := by
  simp [encFields]

theorem rep_step {c : Comp} {R : Runs} {t : Nat} (h : Rep c R t) (hR : R ≠ []) (v : B64) :
    Rep (c.step v) (push v R) t := by
  obtain ⟨wf, tot, pend⟩ := h
  refine ⟨wf_push wf v, ?_, ?_⟩
  · unfold Comp.step Comp.addField
    split <;> exact tot
  · cases R with
    | nil => exact absurd rfl hR
    | cons p fs =>
      obtain ⟨n, w⟩ := p
      simp only [Pend] at pend
      obtain ⟨h1, h2, h3, h4⟩ := pend
      by_cases hc : w = v ∧ n < 255
      · have e1 : c.step v = { c with prevRun := c.prevRun + 1 } := by
          unfold Comp.step
          rw [if_pos (by rw [h1, h2]; exact hc)]
        have e2 : push v ((n, w) :: fs) = (n + 1, w) :: fs := by
          simp only [push]
          rw [if_pos hc]
        rw [e1, e2]
        exact ⟨by simp [h1], h2, h3, h4⟩
      · have e1 : c.step v = { c.addField c.prevVal c.prevRun with prevVal := v, prevRun := 1 } := by
          unfold Comp.step
          rw [if_neg (by rw [h1, h2]; exact hc)]
        have e2 : push v ((n, w) :: fs) = (1, v) :: (n, w) :: fs := by
          simp only [push]
          rw [if_neg hc]
        rw [e1, e2]
        refine ⟨rfl, rfl, ?_, by simp [Comp.addField, h4]⟩
        rw [List.reverse_cons, encFields_snoc]
        simp only [Comp.addField, h1, h2, h3]

theorem rep_loop {c : Comp} {R : Runs} {t : Nat} (h : Rep c R t) (hR : R ≠ []) (vs : List B64) :
    Rep (c.loop vs) (vs.foldl (fun R v => push v R) R) t := by
  induction vs generalizing c R with
  | nil => exact h
  | cons v vs ih => exact ih (rep_step h hR v) (push_ne_nil v R)

theorem rep_append {c : Comp} {L : List B64} {t : Nat} (h : Rep c (runsOf L) t) (vs : List B64)
    (hne : L ++ vs ≠ []) :
    ∃ c', c.append vs = .ok c' ∧ Rep c' (runsOf (L ++ vs)) (t + 8 * vs.length) := by
  have hfold : runsOf (L ++ vs) = vs.foldl (fun R v => push v R) (runsOf L) := by
    simp [runsOf, List.foldl_append]
  rw [hfold]
  by_cases hL : L = []
  · subst hL
    have hp : c.prevRun = 0 ∧ c.bytes = [] ∧ c.nFields = 0 := h.pend
    cases vs with
    | nil => exact absurd rfl hne
    | cons v vs =>
      refine ⟨_, by rw [Comp.append, if_pos hp.1], ?_⟩
      have h1 : Rep { c with prevVal := v, prevRun := 1 } [(1, v)] t :=
        ⟨by intro p hp; simp at hp; subst hp; simp, h.total, by simp [Pend, hp.2, encFields]⟩
      have h2 := rep_loop h1 (by simp) vs
      exact ⟨h2.wf, by simp [h2.total], h2.pend⟩
  · have hR := runsOf_ne_nil hL
    have hpr : c.prevRun ≠ 0 := by
      have h1 := h.pend
      have h2 := h.wf
      revert h1 h2 hR
      cases runsOf L with
      | nil => intro h; exact absurd rfl h
      | cons p fs =>
        intro _ h1 h2
        have := h2 p (by simp)
        simp only [Pend] at h1
        omega
    refine ⟨_, by rw [Comp.append.eq_def, if_neg hpr], ?_⟩
    have h2 := rep_loop h hR vs
    exact ⟨h2.wf, by simp [h2.total], h2.pend⟩

theorem append_panic {c : Comp} {t : Nat} (h : Rep c (runsOf []) t) : c.append [] = .panic := by
  have hp : c.prevRun = 0 ∧ c.bytes = [] ∧ c.nFields = 0 := h.pend
  simp [Comp.append, hp.1]

theorem rep_new : Rep Comp.new (runsOf []) 0 :=
  ⟨wf_runsOf [], rfl, rfl, rfl, rfl⟩

theorem rep_reset (c : Comp) : Rep c.reset (runsOf []) 0 :=
  ⟨wf_runsOf [], rfl, rfl, rfl, rfl⟩

theorem rep_rewind {c : Comp} {L : List B64} {t : Nat} (h : Rep c (runsOf L) t) (n : Nat) :
    ((c.rewind n).1 = true ↔ (L ≠ [] ∧ n ≤ L.length)) ∧
    ((c.rewind n).1 = true →
      Rep (c.rewind n).2 (runsOf (L.take (L.length - n))) (t - 8 * n)) ∧
    ((c.rewind n).1 = false → (c.rewind n).2 = c) := by
  by_cases hL : L = []
  · subst hL
    have hp : c.prevRun = 0 ∧ c.bytes = [] ∧ c.nFields = 0 := h.pend
    simp [Comp.rewind, hp.1]
  · have hR := runsOf_ne_nil hL
    obtain ⟨wf, tot, pend⟩ := h
    have hexp : count (runsOf L) = L.length := by simp [count]
    have hpop := popN_runsOf n L
    revert wf pend hR hexp hpop
    generalize runsOf L = R
    intro hR wf pend hexp hpop
    cases R with
    | nil => exact absurd rfl hR
    | cons p fs =>
      obtain ⟨k, w⟩ := p
      have hk := wf (k, w) (by simp)
      simp only [Pend] at hk pend
      obtain ⟨h1, h2, h3, h4⟩ := pend
      have hfs : WF fs.reverse := fun p hp => wf p (by simp at hp; simp [hp])
      have hpr : c.prevRun ≠ 0 := by omega
      have hloop : rewindLoop n 0 ((c.prevRun, c.prevVal) :: (fieldsOf c.bytes).reverse)
          = rewindLoop n 0 ((k, w) :: fs) := by
        rw [h1, h2, h3, fieldsOf_enc _ hfs, List.reverse_reverse]
      have spec := rewindLoop_spec ((k, w) :: fs) wf n 0
      rw [hexp] at spec
      by_cases hn : n ≤ L.length
      · have s2 := spec.2 hn
        have hval : (c.rewind n).1 = true := by
          unfold Comp.rewind
          rw [if_neg hpr]
          simp only [hloop, s2.1, ne_eq, not_true_eq_false, if_false]
        refine ⟨by simp [hval, hL, hn], fun _ => ?_, by simp [hval]⟩
        rw [← hpop hn]
        unfold Comp.rewind
        rw [if_neg hpr]
        simp only [hloop, s2.1, ne_eq, not_true_eq_false, if_false]
        have s3 := s2.2
        revert s3
        cases hfound : (rewindLoop n 0 ((k, w) :: fs)).found with
        | none =>
          simp only [List.length_cons]
          rintro ⟨a, b⟩
          rw [a]
          refine ⟨(fun p hp => absurd hp (by simp)), (by simp [tot]; omega), ?_⟩
          simp only [b, h3, h4]
          refine ⟨rfl, ?_, (by simp only; omega)⟩
          simp only [encFields_length, List.length_reverse]
          rw [show 9 * fs.length - (0 + (fs.length + 1) - 1) * 9 = 0 by omega]
          rfl
        | some q =>
          simp only [List.length_cons]
          rintro ⟨a, b, j, hj, hf, hp⟩
          rw [hp]
          refine ⟨?_, (by simp [tot]; omega), ?_⟩
          · intro p hpm
            simp only [List.mem_cons] at hpm
            rcases hpm with rfl | hpm
            · exact ⟨a, b⟩
            · exact wf p (List.mem_of_mem_drop hpm)
          · obtain ⟨q1, q2⟩ := q
            simp only [hf, h3, h4, List.drop_succ_cons]
            refine ⟨rfl, rfl, ?_, by simp⟩
            simp only [encFields_length, List.length_reverse]
            have e1 : fs.reverse = (fs.drop j).reverse ++ (fs.take j).reverse := by
              rw [← List.reverse_append, List.take_append_drop]
            rw [e1]
            have e2 : encFields ((fs.drop j).reverse ++ (fs.take j).reverse)
                = encFields (fs.drop j).reverse ++ encFields (fs.take j).reverse := by
              simp [encFields]
            rw [e2, List.take_append_of_le_length]
            · apply List.take_of_length_le
              simp
              omega
            · simp
              omega
      · have s1 := spec.1 (by omega)
        have hval : c.rewind n = (false, c) := by
          unfold Comp.rewind
          rw [if_neg hpr]
          simp only [hloop, ne_eq, s1, not_false_eq_true, if_true]
        simp [hval, hn]

/-! ## What is written -/

/-- Bytes of a chunk holding the runs `R`. -/
def chunkOf (R : Runs) : List Byte := leBytes 8 R.length ++ encFields R.reverse

theorem rep_buffers {c : Comp} {R : Runs} {t : Nat} (h : Rep c R t) :
    c.prepare.buffers = chunkOf R ∧ c.totalBytesBuffered = (chunkOf R).length := by
  obtain ⟨wf, -, pend⟩ := h
  cases R with
  | nil =>
    simp only [Pend] at pend
    simp [Comp.prepare, Comp.buffers, Comp.totalBytesBuffered, chunkOf, pend, encFields]
  | cons p fs =>
    obtain ⟨n, w⟩ := p
    have hk := wf (n, w) (by simp)
    simp only [Pend] at hk pend
    obtain ⟨h1, h2, h3, h4⟩ := pend
    have : n ≠ 0 := by omega
    constructor
    · simp only [Comp.prepare, h1, ne_eq, this, not_false_eq_true, if_true, Comp.buffers,
        Comp.addField, h2, h3, h4, chunkOf, List.length_cons, List.reverse_cons, encFields_snoc]
    · simp [Comp.totalBytesBuffered, chunkOf, h1, h3, this]
      omega

/-! ## Decoder -/

theorem decodeFields_enc (fs : Runs) (h : WF fs) (t : List Byte) :
    decodeFields fs.length (encFields fs ++ t)
      = some (fs.flatMap (fun p => List.replicate p.1 p.2), t) := by
  induction fs with
  | nil => rfl
  | cons p fs ih =>
    have hp := h p (by simp)
    obtain ⟨n, v⟩ := p
    simp only at hp
    rw [encFields, List.flatMap_cons, List.append_assoc, List.length_cons, decodeFields,
      takeExact_append' _ _ (fieldBytes_length n v)]
    change (match decodeFields fs.length (encFields fs ++ t) with
      | none => none
      | some (vs, rest') => _) = _
    rw [ih (fun q hq => h q (by simp [hq]))]
    simp only [fieldBytes, List.headD_cons, List.drop_succ_cons, List.drop_zero, f64Of_bytes,
      BitVec.toNat_ofNat, List.flatMap_cons]
    rw [Nat.mod_eq_of_lt (by omega)]

theorem iterFrom_run (k n left : Nat) (v : B64) (bs : List Byte) (f : Nat) :
    iterFrom (f + k) left (n + k) v bs = (iterFrom f left n v bs).map (List.replicate k v ++ ·) := by
  induction k with
  | zero => cases iterFrom f left n v bs <;> simp [Res.map]
  | succ k ih =>
    have e : iterFrom (f + (k + 1)) left (n + (k + 1)) v bs
        = (iterFrom (f + k) left (n + k) v bs).map (v :: ·) := by
      rw [← Nat.add_assoc f, iterFrom.eq_def]
      simp
    rw [e, ih]
    cases iterFrom f left n v bs <;> simp [Res.map, List.replicate_succ]

theorem iterFrom_enc (fs : Runs) (h : WF fs) (v : B64) (t : List Byte) (f : Nat)
    (hf : (fs.flatMap (fun p => List.replicate p.1 p.2)).length < f) :
    iterFrom f fs.length 0 v (encFields fs ++ t)
      = .ok (fs.flatMap (fun p => List.replicate p.1 p.2)) := by
  induction fs generalizing v f with
  | nil =>
    obtain ⟨f, rfl⟩ : ∃ g, f = g + 1 := ⟨f - 1, by omega⟩
    simp [iterFrom]
  | cons p fs ih =>
    have hp := h p (by simp)
    obtain ⟨n, w⟩ := p
    simp only at hp
    simp only [List.flatMap_cons, List.length_append, List.length_replicate] at hf
    obtain ⟨g, rfl⟩ : ∃ g, f = g + (n - 1) + 1 := ⟨f - n, by omega⟩
    have hh : ((fieldBytes n w).headD 0).toNat = n := by
      simp [fieldBytes]; omega
    rw [encFields, List.flatMap_cons, List.append_assoc, List.length_cons, iterFrom, if_pos rfl]
    simp only [takeExact_append' _ _ (fieldBytes_length n w), hh]
    rw [if_neg (by omega)]
    have e := iterFrom_run (n - 1) 0 fs.length (f64Of (List.drop 1 (fieldBytes n w)))
      (encFields fs ++ t) g
    rw [Nat.zero_add] at e
    change (iterFrom (g + (n - 1)) fs.length (n - 1) _ (encFields fs ++ t)).map _ = _
    rw [e]
    change ((iterFrom g fs.length 0 _ (encFields fs ++ t)).map _).map _ = _
    rw [ih (fun q hq => h q (by simp [hq])) _ _ (by omega)]
    have e2 : n = (n - 1) + 1 := by omega
    simp only [Res.map, fieldBytes, List.drop_succ_cons, List.drop_zero, f64Of_bytes,
      List.flatMap_cons]
    rw [show List.replicate n w = w :: List.replicate (n - 1) w by
      rw [← List.replicate_succ, ← e2]]
    simp

theorem length_runsOf_le (L : List B64) : (runsOf L).length ≤ L.length := by
  have h1 := wf_runsOf L
  have h2 : (expand (runsOf L)).length = L.length := by simp
  have h3 : ∀ R : Runs, WF R → R.length ≤ count R := by
    intro R
    induction R with
    | nil => simp
    | cons p fs ih =>
      intro h
      have hp := h p (by simp)
      have := ih (fun q hq => h q (by simp [hq]))
      obtain ⟨n, w⟩ := p
      rw [count_cons]
      simp only [List.length_cons] at *
      omega
  have := h3 _ h1
  rw [count, h2] at this
  exact this

theorem reader_new (L : List B64) (n : Nat) (hL : L.length < 2 ^ 64) :
    Reader.new n (chunkOf (runsOf L))
      = .ok ⟨n, (runsOf L).length, encFields (runsOf L).reverse, none⟩ := by
  unfold Reader.new chunkOf
  rw [takeExact_append' _ _ (leBytes_length _ _)]
  simp only [leNat_leBytes]
  have := length_runsOf_le L
  rw [Nat.mod_eq_of_lt (by omega)]

theorem wf_reverse {R : Runs} (h : WF R) : WF R.reverse := fun p hp => h p (by simpa using hp)

theorem decompress_chunk (L : List B64) (n : Nat) :
    (Reader.mk n (runsOf L).length (encFields (runsOf L).reverse) none).decompress
      = .ok (L, ⟨n, (runsOf L).length, [], some L⟩) := by
  have h := decodeFields_enc _ (wf_reverse (wf_runsOf L)) []
  have e : (runsOf L).reverse.flatMap (fun p => List.replicate p.1 p.2) = L := expand_runsOf L
  rw [e, List.append_nil, List.length_reverse] at h
  unfold Reader.decompress
  simp [h]

theorem iter_chunk (L : List B64) (v : B64) (f : Nat) (hf : L.length < f) :
    iterFrom f (runsOf L).length 0 v (encFields (runsOf L).reverse) = .ok L := by
  have e : (runsOf L).reverse.flatMap (fun p => List.replicate p.1 p.2) = L := expand_runsOf L
  have h := iterFrom_enc _ (wf_reverse (wf_runsOf L)) v [] f (by rw [e]; exact hf)
  rwa [e, List.append_nil, List.length_reverse] at h

end Ebi.RunLength
