import Verif.QueryOutput
import Verif.OutputLemmas
import Verif.Props.Knn

/-!
# C53: the output of queries

What `materialize` and `filter_materialize` put on their output when it may fail. The reference is the list
of values of C23–C49 (`Decoder.materialize`, `Decoder.filterMaterialize`).
-/

namespace Ebi.Props

theorem chunkLoop_grows {m : Metadata} {bm : Option Bitmap} {cid : Option Nat} {body : Nat → Res (List B64)}
    {body' : Nat → List B64 → Res (List B64)} (hb : ∀ i out, body' i out = (body i).map (out ++ ·))
    (is : List Nat) {acc out : List B64} (h : chunkLoop m bm cid body' is acc = .ok out) : acc <+: out := by
  induction is generalizing acc with
  | nil => cases h; exact List.prefix_rfl
  | cons i is ih =>
    unfold chunkLoop at h
    split at h
    · obtain ⟨range, -, h⟩ := Res.bind_eq_ok h
      split at h
      · exact ih h
      · obtain ⟨a, ha, h⟩ := Res.bind_eq_ok h
        rw [hb] at ha
        obtain ⟨vs, -, rfl⟩ := Res.map_eq_ok ha
        exact (List.prefix_append acc vs).trans (ih h)
    · exact ih h

section
variable {K : Type} {D : Device K} {At : List Byte → Nat → List Byte → K → Prop} {Good : K → Prop} (L : D.Law At Good)
include L

theorem writeValues_spec {f bs : List Byte} {p : Nat} {k : K} (hp : p ≤ f.length) (h : At f p bs k) (vs : List B64) :
    ∃ j, j ≤ (ofF64s vs).length ∧ At f p (bs ++ (ofF64s vs).take j) (writeValues D vs k).2 ∧
      ((writeValues D vs k).1 = .ok () ∧ j = (ofF64s vs).length ∨ (writeValues D vs k).1 = .err) ∧
      (Good k → (writeValues D vs k).1 = .ok () ∧ Good (writeValues D vs k).2) := by
  have := L.writeParts hp h (vs.map f64Bytes)
  rw [← List.flatMap_def] at this
  exact this

/-- Invariant of the loop. `body'` is the loop body of the query that collects the values. -/
theorem chunkLoopTo_spec {m : Metadata} {bm : Option Bitmap} {cid : Option Nat} {body : Nat → Res (List B64)}
    {body' : Nat → List B64 → Res (List B64)} (hb : ∀ i out, body' i out = (body i).map (out ++ ·))
    {f : List Byte} {p : Nat} (hp : p ≤ f.length) (is : List Nat) {acc : List B64} {k : K}
    (h : At f p (ofF64s acc) k) :
    ((chunkLoopTo D m bm cid body is k).1 = .ok () → ∃ vs, chunkLoop m bm cid body' is acc = .ok vs ∧
      At f p (ofF64s vs) (chunkLoopTo D m bm cid body is k).2) ∧
    (∃ vs j, At f p ((ofF64s vs).take j) (chunkLoopTo D m bm cid body is k).2 ∧
      (∀ out, chunkLoop m bm cid body' is acc = .ok out → vs <+: out) ∧ acc <+: vs) ∧
    (Good k → (chunkLoopTo D m bm cid body is k).1 = (chunkLoop m bm cid body' is acc).map fun _ => ()) := by
  induction is generalizing acc k with
  | nil =>
    refine ⟨fun _ => ⟨acc, rfl, h⟩, ⟨acc, (ofF64s acc).length, by rw [List.take_length]; exact h, ?_, List.prefix_rfl⟩, fun _ => rfl⟩
    intro out e
    cases e
    exact List.prefix_rfl
  | cons i is ih =>
    unfold chunkLoopTo chunkLoop
    by_cases hc : cid.all (· == i) = true
    · rw [if_pos hc, if_pos hc]
      cases hr : m.recordRangeU32 i with
      | ok range =>
        simp only [Res.bind_ok]
        by_cases hd : rangeDisjoint bm range = true
        · rw [if_pos hd, if_pos hd]
          exact ih h
        · rw [if_neg hd, if_neg hd, hb]
          cases hbi : body i with
          | ok vs =>
            simp only [Res.map, Res.bind_ok]
            obtain ⟨j, j1, j2, j3, j4⟩ := writeValues_spec L hp h vs
            generalize writeValues D vs k = r at *
            obtain ⟨r, k1⟩ := r
            simp only at j2 j3 j4
            rcases j3 with ⟨rfl, rfl⟩ | rfl
            · rw [List.take_length, ← ofF64s_append] at j2
              obtain ⟨i1, ⟨ws, jj, i2, i3, i4⟩, i5⟩ := ih j2
              simp only [andThen]
              exact ⟨i1, ⟨ws, jj, i2, i3, (List.prefix_append acc vs).trans i4⟩, fun ha => i5 (j4 ha).2⟩
            · simp only [andThen]
              refine ⟨by simp, ⟨acc ++ vs, (ofF64s acc).length + j, ?_, ?_, List.prefix_append _ _⟩,
                fun ha => absurd (j4 ha).1 (by simp)⟩
              · rw [ofF64s_append, List.take_length_add_append]
                exact j2
              · intro out e
                exact chunkLoop_grows hb is e
          | err =>
            exact ⟨by simp, ⟨acc, _, by rw [List.take_length]; exact h, fun out e => (by cases e), List.prefix_rfl⟩, fun _ => rfl⟩
          | panic =>
            exact ⟨by simp, ⟨acc, _, by rw [List.take_length]; exact h, fun out e => (by cases e), List.prefix_rfl⟩, fun _ => rfl⟩
      | err =>
        exact ⟨by simp, ⟨acc, _, by rw [List.take_length]; exact h, fun out e => (by cases e), List.prefix_rfl⟩, fun _ => rfl⟩
      | panic =>
        exact ⟨by simp, ⟨acc, _, by rw [List.take_length]; exact h, fun out e => (by cases e), List.prefix_rfl⟩, fun _ => rfl⟩
    · rw [if_neg hc, if_neg hc]
      exact ih h

theorem materializeTo_spec {E : Env} {d : Decoder} {bm : Option Bitmap} {cid : Option Nat} {f : List Byte} {p : Nat}
    (hp : p ≤ f.length) {k : K} (h : At f p [] k) :
    ((d.materializeTo D E bm cid k).1 = .ok () → ∃ vs, d.materialize E bm cid = .ok vs ∧
      At f p (ofF64s vs) (d.materializeTo D E bm cid k).2) ∧
    (∃ vs j, At f p ((ofF64s vs).take j) (d.materializeTo D E bm cid k).2 ∧
      ∀ out, d.materialize E bm cid = .ok out → vs <+: out) ∧
    (Good k → (d.materializeTo D E bm cid k).1 = (d.materialize E bm cid).map fun _ => ()) := by
  obtain ⟨h1, ⟨vs, j, h2, h3, -⟩, h4⟩ := chunkLoopTo_spec L (m := d.info) (bm := bm) (cid := cid)
    (body := fun i => do
      let (n, bs, off) ← loadChunk (E.scheme d.info.footer.config) d.file d.info i
      (d.ops E).materialize n bs bm off)
    (body' := fun i out => do
      let (n, bs, off) ← loadChunk (E.scheme d.info.footer.config) d.file d.info i
      let vs ← (d.ops E).materialize n bs bm off
      .ok (out ++ vs)) (fun i out => by
        cases loadChunk (E.scheme d.info.footer.config) d.file d.info i with
        | ok x =>
          simp only [Res.bind_ok]
          cases (d.ops E).materialize x.1 x.2.1 bm x.2.2 <;> rfl
        | err => rfl
        | panic => rfl) hp (Query.handles d.info) (acc := []) h
  exact ⟨h1, ⟨vs, j, h2, h3⟩, h4⟩

theorem filterMaterializeTo_spec {E : Env} {d : Decoder} {q : Predicate B64} {bm : Option Bitmap} {cid : Option Nat}
    {f : List Byte} {p : Nat} (hp : p ≤ f.length) {k : K} (h : At f p [] k) :
    ((d.filterMaterializeTo D E q bm cid k).1 = .ok () → ∃ vs, d.filterMaterialize E q bm cid = .ok vs ∧
      At f p (ofF64s vs) (d.filterMaterializeTo D E q bm cid k).2) ∧
    (∃ vs j, At f p ((ofF64s vs).take j) (d.filterMaterializeTo D E q bm cid k).2 ∧
      ∀ out, d.filterMaterialize E q bm cid = .ok out → vs <+: out) ∧
    (Good k → (d.filterMaterializeTo D E q bm cid k).1 = (d.filterMaterialize E q bm cid).map fun _ => ()) := by
  obtain ⟨h1, ⟨vs, j, h2, h3, -⟩, h4⟩ := chunkLoopTo_spec L (m := d.info) (bm := bm) (cid := cid)
    (body := fun i => do
      let (n, bs, off) ← loadChunk (E.scheme d.info.footer.config) d.file d.info i
      (d.ops E).filterMaterialize n bs q bm off)
    (body' := fun i out => do
      let (n, bs, off) ← loadChunk (E.scheme d.info.footer.config) d.file d.info i
      let vs ← (d.ops E).filterMaterialize n bs q bm off
      .ok (out ++ vs)) (fun i out => by
        cases loadChunk (E.scheme d.info.footer.config) d.file d.info i with
        | ok x =>
          simp only [Res.bind_ok]
          cases (d.ops E).filterMaterialize x.1 x.2.1 q bm x.2.2 <;> rfl
        | err => rfl
        | panic => rfl) hp (Query.handles d.info) (acc := []) h
  exact ⟨h1, ⟨vs, j, h2, h3⟩, h4⟩

end

/-- A writer standing at position `p` of the contents `f`. -/
theorem output_at {f : List Byte} {p : Nat} (hp : p ≤ f.length) (ev : List WriteEvent) : Output.At f p [] ⟨f, p, ev⟩ :=
  ⟨(overwrite_nil hp).symm, rfl⟩

/-- `materialize` from any position of any device: on success exactly the selected values have been written
there, and on failure the bytes of a first part of them (which may end inside a value). -/
theorem c53_materialize {E : Env} {d : Decoder} {bm : Option Bitmap} {cid : Option Nat} {f : List Byte} {p : Nat}
    (hp : p ≤ f.length) (ev : List WriteEvent) :
    ((d.materializeTo Output.device E bm cid ⟨f, p, ev⟩).1 = .ok () → ∃ vs, d.materialize E bm cid = .ok vs ∧
      (d.materializeTo Output.device E bm cid ⟨f, p, ev⟩).2.file = overwrite p (outputBytes vs) f) ∧
    (∃ vs j, (d.materializeTo Output.device E bm cid ⟨f, p, ev⟩).2.file = overwrite p ((outputBytes vs).take j) f ∧
      ∀ out, d.materialize E bm cid = .ok out → vs <+: out) ∧
    (Accepting ev → (d.materializeTo Output.device E bm cid ⟨f, p, ev⟩).1
      = (d.materialize E bm cid).map fun _ => ()) := by
  obtain ⟨h1, ⟨vs, j, h2, h3⟩, h4⟩ := materializeTo_spec Output.law (E := E) (d := d) (bm := bm) (cid := cid) hp (output_at hp ev)
  exact ⟨fun h => let ⟨vs, e1, e2⟩ := h1 h; ⟨vs, e1, e2.file⟩, ⟨vs, j, h2.file, h3⟩, h4⟩

/-- The same for `filter_materialize`. -/
theorem c53_filter_materialize {E : Env} {d : Decoder} {q : Predicate B64} {bm : Option Bitmap} {cid : Option Nat}
    {f : List Byte} {p : Nat} (hp : p ≤ f.length) (ev : List WriteEvent) :
    ((d.filterMaterializeTo Output.device E q bm cid ⟨f, p, ev⟩).1 = .ok () →
      ∃ vs, d.filterMaterialize E q bm cid = .ok vs ∧
        (d.filterMaterializeTo Output.device E q bm cid ⟨f, p, ev⟩).2.file = overwrite p (outputBytes vs) f) ∧
    (∃ vs j, (d.filterMaterializeTo Output.device E q bm cid ⟨f, p, ev⟩).2.file
        = overwrite p ((outputBytes vs).take j) f ∧
      ∀ out, d.filterMaterialize E q bm cid = .ok out → vs <+: out) ∧
    (Accepting ev → (d.filterMaterializeTo Output.device E q bm cid ⟨f, p, ev⟩).1
      = (d.filterMaterialize E q bm cid).map fun _ => ()) := by
  obtain ⟨h1, ⟨vs, j, h2, h3⟩, h4⟩ := filterMaterializeTo_spec Output.law (E := E) (d := d) (q := q) (bm := bm)
    (cid := cid) hp (output_at hp ev)
  exact ⟨fun h => let ⟨vs, e1, e2⟩ := h1 h; ⟨vs, e1, e2.file⟩, ⟨vs, j, h2.file, h3⟩, h4⟩

/-- Through a `BufWriter`: after success of `materialize` *and* of a flush by the caller, the values are on the
device. Missing from the full statement: success of `materialize` alone, which is not enough (below). -/
theorem c53_buffered_partial {E : Env} {d : Decoder} {bm : Option Bitmap} {cid : Option Nat} {f : List Byte} {p : Nat}
    (hp : p ≤ f.length) (ev : List WriteEvent) (capacity : Nat)
    (h : (d.materializeTo Buffered.device E bm cid (.new capacity ⟨f, p, ev⟩)).1 = .ok ())
    (hflush : (d.materializeTo Buffered.device E bm cid (.new capacity ⟨f, p, ev⟩)).2.flush.1 = .ok ()) :
    ∃ vs, d.materialize E bm cid = .ok vs ∧
      (d.materializeTo Buffered.device E bm cid (.new capacity ⟨f, p, ev⟩)).2.flush.2.inner.file
        = overwrite p (outputBytes vs) f := by
  obtain ⟨h1, -, -⟩ := materializeTo_spec Buffered.law (E := E) (d := d) (bm := bm) (cid := cid) hp
    (k := .new capacity ⟨f, p, ev⟩) ⟨0, Nat.le_refl _, output_at hp ev, rfl, Nat.zero_le _⟩
  obtain ⟨vs, e1, e2⟩ := h1 h
  obtain ⟨-, h2, -⟩ := Buffered.law.flush hp e2
  refine ⟨vs, e1, ?_⟩
  rcases h2 with ⟨-, h2, -⟩ | h2
  · exact h2
  · cases h2.symm.trans hflush

/-- Success, values on the device (bytes), and the same once the writer has been dropped. -/
def queryReport (capacity : Nat) (ev : List WriteEvent) : Option (Bool × Nat × Nat) :=
  match plainDecoder knnData 4 with
  | some d =>
    let r := d.materializeTo Buffered.device sampleEnv none none (.new capacity ⟨[], 0, ev⟩)
    some (match r.1 with
      | .ok _ => true
      | _ => false, r.2.inner.file.length, r.2.drop.inner.file.length)
  | none => none

/-- Six values into a buffer of the default size, on a device that is full: `materialize` succeeds, nothing is on
the device, and dropping the writer loses everything without an error. With a device that works they arrive when
the writer is dropped. -/
theorem c53_buffered_lost : queryReport 8192 [.failed] = some (true, 0, 0) ∧
    queryReport 8192 [] = some (true, 0, 48) := by
  decide +kernel

/-- A device that takes 20 bytes and then fails: an error, two values and a half on the device. -/
example : (plainDecoder knnData 4).map (fun d =>
    let r := d.materializeTo Output.device sampleEnv none none ⟨[1#8, 2#8], 2, [.accept 8, .accept 8, .accept 4, .failed]⟩
    (match r.1 with
      | .ok _ => true
      | _ => false, r.2.file.length)) = some (false, 22) := by
  decide +kernel

end Ebi.Props
