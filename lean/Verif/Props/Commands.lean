import Verif.Commands
import Verif.Props.QueryOutput
import Verif.Props.Saving
import Verif.Props.Short
import Verif.Props.Independent

/-!
# C80: the single commands of the experimenter

One command on one file of a directory, in memory or from the file. The reference are the answers of the decoder
(C23–C49) and the directory before the command.
-/

namespace Ebi.Props

open Ebi Saving Commands

/-- The values a command that writes is to write. -/
def commandValues (E : Env) (d : Decoder) (r : Request) : Option (Predicate B64) → Res (List B64)
  | some p => d.filterMaterialize E p r.mask r.chunk
  | none => d.materialize E r.mask r.chunk

/-- The two commands that write values: their predicate, if they have one. -/
def writing : Option (Predicate B64) → Command
  | some p => .filterMaterialize p
  | none => .materialize

/-- The names of their outputs. -/
def writingExtension : Option (Predicate B64) → Name
  | some _ => "filter_materialized".toList
  | none => "materialized".toList

/-! ## Helpers -/

section
variable {K : Type} {D : Device K} {At : List Byte → Nat → List Byte → K → Prop} {Good : K → Prop} (L : D.Law At Good)
include L

theorem chunkLoopTo_good {m : Metadata} {bm : Option Bitmap} {cid : Option Nat} {body : Nat → Res (List B64)}
    {f : List Byte} {p : Nat} (hp : p ≤ f.length) (is : List Nat) {bs : List Byte} {k : K} (h : At f p bs k) (hg : Good k) :
    Good (chunkLoopTo D m bm cid body is k).2 := by
  induction is generalizing bs k with
  | nil => exact hg
  | cons i is ih =>
    unfold chunkLoopTo
    split
    · split
      · split
        · exact ih h hg
        · split
          · rename_i vs hvs
            obtain ⟨j, j1, j2, j3, j4⟩ := writeValues_spec L hp h vs
            generalize writeValues D vs k = r at *
            obtain ⟨r, k1⟩ := r
            obtain ⟨h5, h6⟩ := j4 hg
            simp only at h5 h6 j2
            subst h5
            exact ih j2 h6
          · exact hg
          · exact hg
      · exact hg
      · exact hg
    · exact ih h hg

end

theorem overwrite_empty (bs : List Byte) : overwrite 0 bs [] = bs := by
  have := overwrite_at [] bs []
  simpa using this

theorem new_at (ev : List WriteEvent) : Buffered.At [] 0 [] (.new 8192 ⟨[], 0, ev⟩) :=
  ⟨0, Nat.le_refl _, output_at (Nat.zero_le _) ev, rfl, Nat.zero_le _⟩

theorem queryTo_spec (E : Env) (d : Decoder) (r : Request) (q : Option (Predicate B64)) (ev : List WriteEvent) :
    ((queryTo E (writing q) r d (.new 8192 ⟨[], 0, ev⟩)).1 = .ok () → ∃ vs, commandValues E d r q = .ok vs ∧
      Buffered.At [] 0 (ofF64s vs) (queryTo E (writing q) r d (.new 8192 ⟨[], 0, ev⟩)).2) ∧
    (∃ vs j, Buffered.At [] 0 ((ofF64s vs).take j) (queryTo E (writing q) r d (.new 8192 ⟨[], 0, ev⟩)).2 ∧
      ∀ out, commandValues E d r q = .ok out → vs <+: out) ∧
    (Accepting ev → (queryTo E (writing q) r d (.new 8192 ⟨[], 0, ev⟩)).1 = (commandValues E d r q).map (fun _ => ()) ∧
      Accepting (queryTo E (writing q) r d (.new 8192 ⟨[], 0, ev⟩)).2.inner.events) := by
  have h0 : (0 : Nat) ≤ ([] : List Byte).length := Nat.zero_le _
  cases q with
  | none =>
    obtain ⟨h1, h2, h3⟩ := materializeTo_spec Buffered.law (E := E) (d := d) (bm := r.mask) (cid := r.chunk) h0 (new_at ev)
    exact ⟨h1, h2, fun ha => ⟨h3 ha, chunkLoopTo_good Buffered.law h0 _ (new_at ev) ha⟩⟩
  | some p =>
    obtain ⟨h1, h2, h3⟩ := filterMaterializeTo_spec Buffered.law (E := E) (d := d) (q := p) (bm := r.mask) (cid := r.chunk)
      h0 (new_at ev)
    exact ⟨h1, h2, fun ha => ⟨h3 ha, chunkLoopTo_good Buffered.law h0 _ (new_at ev) ha⟩⟩

theorem flushed_drop {b : Buffered} (h : b.buf = []) : b.drop.inner.file = b.inner.file := by
  unfold Buffered.drop Buffered.flushBuf
  rw [h]
  cases b.inner.events <;> rfl

theorem dropped_disk {bs : List Byte} {b : Buffered} (h : b.At [] 0 bs) : ∃ j, b.drop.inner.file = bs.take j := by
  obtain ⟨j, -, e⟩ := Buffered.law.disk (Buffered.law.drop (Nat.zero_le _) h)
  exact ⟨j, by rw [overwrite_empty] at e; exact e⟩

/-- The output file of a command, for any device. -/
theorem written_spec (E : Env) (d : Decoder) (r : Request) (q : Option (Predicate B64)) (ev : List WriteEvent) :
    let x := Ebi.andThen (queryTo E (writing q) r d (.new 8192 ⟨[], 0, ev⟩)) intoInner
    (∀ len, x.1 = .ok len → ∃ vs, commandValues E d r q = .ok vs ∧ len = 8 * vs.length ∧
      x.2.drop.inner.file = ofF64s vs) ∧
    (∃ vs j, x.2.drop.inner.file = (ofF64s vs).take j ∧ ∀ out, commandValues E d r q = .ok out → vs <+: out) ∧
    (Accepting ev → x.1 = (commandValues E d r q).map fun vs => 8 * vs.length) := by
  obtain ⟨h1, ⟨ws, i, h2, h2'⟩, h3⟩ := queryTo_spec E d r q ev
  generalize queryTo E (writing q) r d (.new 8192 ⟨[], 0, ev⟩) = y at *
  obtain ⟨y, k⟩ := y
  have hbad : y ≠ .ok () → ∃ vs j, k.drop.inner.file = (ofF64s vs).take j ∧
      ∀ out, commandValues E d r q = .ok out → vs <+: out := by
    intro _
    obtain ⟨j, e⟩ := dropped_disk h2
    exact ⟨ws, min j i, by rw [e, List.take_take], h2'⟩
  cases y with
  | err =>
    refine ⟨fun len e => (by cases e), hbad (by simp), fun ha => ?_⟩
    have := (h3 ha).1
    cases hv : commandValues E d r q with
    | ok vs => rw [hv] at this; cases this
    | err => rfl
    | panic => rw [hv] at this; cases this
  | panic =>
    refine ⟨fun len e => (by cases e), hbad (by simp), fun ha => ?_⟩
    have := (h3 ha).1
    cases hv : commandValues E d r q with
    | ok vs => rw [hv] at this; cases this
    | err => rw [hv] at this; cases this
    | panic => rfl
  | ok u =>
    obtain ⟨vs, hv, hat⟩ := h1 rfl
    obtain ⟨g1, -, g3, g4⟩ := Buffered.flushBuf_spec (Nat.zero_le _) hat
    simp only [Ebi.andThen, intoInner]
    generalize k.flushBuf = z at *
    obtain ⟨z, k1⟩ := z
    simp only at g1 g3 g4
    rcases g3 with ⟨rfl, g5, g6⟩ | rfl
    · have hfile : k1.inner.file = ofF64s vs := by rw [g6.file, overwrite_empty]
      simp only [flushed_drop g5, hfile, hv]
      refine ⟨fun len e => ⟨vs, rfl, ?_, rfl⟩, ⟨vs, (ofF64s vs).length, by rw [List.take_length], fun out e => ?_⟩,
        fun _ => by rw [ofF64s_length]; rfl⟩
      · cases e; exact ofF64s_length vs
      · cases e; exact List.prefix_rfl
    · obtain ⟨j, e⟩ := dropped_disk g1
      refine ⟨fun len e => (by cases e), ⟨vs, j, e, fun out e => ?_⟩, fun ha => absurd (g4 (h3 ha).2).1 (by simp)⟩
      rw [hv] at e
      cases e
      exact List.prefix_rfl

theorem onDisk_eq {E : Env} {q : Option (Predicate B64)} {r : Request} {dir : Dir (List Byte)} {n : Name} {file : List Byte}
    {d : Decoder} (hf : dir.get n = some file) (hd : openDecoder file = .ok d) (ev : List WriteEvent) :
    onDisk E (writing q) r dir n ev = writeTo E (writing q) r dir n (withExtension n (writingExtension q)) d ev := by
  unfold onDisk
  rw [hf]
  simp only [hd]
  cases q <;> rfl

theorem inMemory_eq {E : Env} {q : Option (Predicate B64)} {r : Request} {dir : Dir (List Byte)} {n : Name} {file : List Byte}
    {d : Decoder} (hf : dir.get n = some file) (hd : openDecoder file = .ok d) :
    inMemory E (writing q) r dir n = (commandValues E d r q).map fun vs => report d (.bytes (8 * vs.length)) := by
  unfold inMemory
  rw [hf]
  simp only [hd, Res.bind]
  cases q <;> simp only [writing, query, commandValues, Res.map_map, outputBytes, ofF64s_length] <;> rfl

/-! ## The records of a request -/

/-- The records of a request are a set: order and repetition do not matter, and it is a bitmap. -/
theorem c80_records (xs : List Nat) (h : ∀ x ∈ xs, x < 2 ^ 32) :
    Bitmap.WF (fromIter xs) ∧ (∀ x, x ∈ fromIter xs ↔ x ∈ xs) ∧
    ∀ ys : List Nat, (∀ x, x ∈ ys ↔ x ∈ xs) → fromIter ys = fromIter xs := by
  have key : ∀ (xs : List Nat) (b : Bitmap), Bitmap.WF b → (∀ x ∈ xs, x < 2 ^ 32) →
      Bitmap.WF (xs.foldl (fun b x => Bitmap.insert x b) b) ∧
      ∀ x, x ∈ xs.foldl (fun b x => Bitmap.insert x b) b ↔ x ∈ b ∨ x ∈ xs := by
    intro xs
    induction xs with
    | nil => intro b hb _; exact ⟨hb, by simp⟩
    | cons y ys ih =>
      intro b hb hy
      obtain ⟨h1, h2⟩ := ih (Bitmap.insert y b) (Bitmap.insert_wf hb (hy y (by simp))) (fun x hx => hy x (by simp [hx]))
      refine ⟨h1, fun x => ?_⟩
      rw [List.foldl_cons, h2, Bitmap.mem_insert, List.mem_cons]
      constructor
      · rintro ((h | h) | h) <;> simp [h]
      · rintro (h | h | h) <;> simp [h]
  have hn : Bitmap.WF [] := ⟨List.Pairwise.nil, by simp⟩
  obtain ⟨h1, h2⟩ := key xs [] hn h
  refine ⟨h1, fun x => (h2 x).trans (by simp), fun ys hys => ?_⟩
  obtain ⟨h3, h4⟩ := key ys [] hn (fun x hx => h x ((hys x).1 hx))
  exact Bitmap.ext h3 h1 (fun x => (h4 x).trans (Iff.trans (by rw [hys]) (h2 x).symm))

/-! ## In memory and from the file -/

/-- Every command gives the same result in memory and from the file, for any file — damaged ones too —, unless it is told to
write over its input: the device accepts everything here. -/
theorem c80_same (E : Env) (c : Command) (r : Request) (dir : Dir (List Byte)) (n : Name) {ev : List WriteEvent}
    (hev : Accepting ev) (hn : ∀ e, outputExtension c = some e → withExtension n e ≠ n) :
    (onDisk E c r dir n ev).1 = inMemory E c r dir n := by
  cases hf : dir.get n with
  | none => simp only [onDisk, inMemory, hf]
  | some file =>
    cases hd : openDecoder file with
    | err => simp only [onDisk, inMemory, hf, hd, Res.bind]
    | panic => simp only [onDisk, inMemory, hf, hd, Res.bind]
    | ok d =>
      have hw : ∀ q, c = writing q → (onDisk E c r dir n ev).1 = inMemory E c r dir n := by
        rintro q rfl
        rw [onDisk_eq hf hd, inMemory_eq hf hd]
        have hne : ¬ withExtension n (writingExtension q) = n := hn _ (by cases q <;> rfl)
        unfold writeTo
        simp only [if_neg hne]
        rw [(written_spec E d r q ev).2.2 hev, Res.map_map]
        rfl
      cases c with
      | filterMaterialize p => exact hw (some p) rfl
      | materialize => exact hw none rfl
      | filter p => simp only [onDisk, inMemory, hf, hd, Res.bind, outputExtension]
      | max => simp only [onDisk, inMemory, hf, hd, Res.bind, outputExtension]
      | sum => simp only [onDisk, inMemory, hf, hd, Res.bind, outputExtension]

/-- Whatever a command does and however the device fails: no file changes but its output, and the commands that compute one
answer change none. -/
theorem c80_others (E : Env) (c : Command) (r : Request) (dir : Dir (List Byte)) (n m : Name) (ev : List WriteEvent)
    (hm : ∀ e, outputExtension c = some e → m ≠ withExtension n e) :
    (onDisk E c r dir n ev).2.get m = dir.get m := by
  unfold onDisk
  split
  · rfl
  · split
    · rfl
    · rfl
    · split
      · rename_i e he
        show (dir.put _ _).get m = _
        rw [get_put, if_neg (hm e he)]
      · rfl

/-- A command that writes and succeeds, on any device: all values are in its output, the length it reports is theirs, and in
memory it reports the same. A failure of the last write is an error. -/
theorem c80_success (E : Env) (q : Option (Predicate B64)) (r : Request) (dir : Dir (List Byte)) (n : Name)
    (ev : List WriteEvent) (hn : withExtension n (writingExtension q) ≠ n) {x : Report}
    (h : (onDisk E (writing q) r dir n ev).1 = .ok x) :
    ∃ file d vs, dir.get n = some file ∧ openDecoder file = .ok d ∧ commandValues E d r q = .ok vs ∧
      x = report d (.bytes (8 * vs.length)) ∧ inMemory E (writing q) r dir n = .ok x ∧
      (onDisk E (writing q) r dir n ev).2.get (withExtension n (writingExtension q)) = some (outputBytes vs) := by
  cases hf : dir.get n with
  | none => simp only [onDisk, hf, reduceCtorEq] at h
  | some file =>
    cases hd : openDecoder file with
    | err => simp only [onDisk, hf, hd, reduceCtorEq] at h
    | panic => simp only [onDisk, hf, hd, reduceCtorEq] at h
    | ok d =>
      rw [onDisk_eq hf hd] at h ⊢
      unfold writeTo at h ⊢
      simp only [if_neg hn] at h ⊢
      obtain ⟨len, h1, h2⟩ := Res.map_eq_ok h
      obtain ⟨vs, h3, h4, h5⟩ := (written_spec E d r q ev).1 len h1
      subst h4
      refine ⟨file, d, vs, rfl, hd, h3, h2.symm, ?_, ?_⟩
      · rw [inMemory_eq hf hd, h3, Res.map_ok, ← h2]
      · rw [get_put, if_pos rfl, h5]
        rfl

/-- A command that writes and fails leaves a first part of the values in its output. -/
theorem c80_failed (E : Env) (q : Option (Predicate B64)) (r : Request) (dir : Dir (List Byte)) (n : Name)
    (ev : List WriteEvent) (hn : withExtension n (writingExtension q) ≠ n) {file : List Byte} {d : Decoder}
    (hf : dir.get n = some file) (hd : openDecoder file = .ok d) :
    ∃ vs j, (onDisk E (writing q) r dir n ev).2.get (withExtension n (writingExtension q)) = some ((outputBytes vs).take j) ∧
      ∀ out, commandValues E d r q = .ok out → vs <+: out := by
  rw [onDisk_eq hf hd]
  unfold writeTo
  simp only [if_neg hn]
  obtain ⟨vs, j, h1, h2⟩ := (written_spec E d r q ev).2.1
  exact ⟨vs, j, by rw [get_put, if_pos rfl, h1]; rfl, h2⟩

/-! ## What the commands report of a file that was written -/

theorem written_open {E : Env} {a : Args} {file : List Byte} {m : Metadata} (h : Written E a file m) :
    openDecoder file = .ok ⟨file, m, none⟩ := by
  unfold openDecoder
  rw [h.encoded.opened]
  rfl

theorem written_report {E : Env} {a : Args} {file : List Byte} {m : Metadata} (h : Written E a file m) (o : Outcome) :
    report ⟨file, m, none⟩ o = ⟨a.opt, a.cfg, o⟩ := by
  have := c22_file h
  simp only [report, this.2.2.2.1, this.2.2.2.2.2.1]

/-- `materialize`, for every scheme: the configuration is the one the file was written with, and the output has the selected
values. -/
theorem c80_materialize {E : Env} {a : Args} {file : List Byte} {m : Metadata} (h : Written E a file m)
    {dir : Dir (List Byte)} {n : Name} (hf : dir.get n = some file) (xs : Option (List Nat))
    (hx : xs = none ∨ a.records.length < 2 ^ 32) (hn : withExtension n "materialized".toList ≠ n) {ev : List WriteEvent}
    (hev : Accepting ev) :
    ∃ dir', onDisk E .materialize ⟨none, xs⟩ dir n ev = (.ok ⟨a.opt, a.cfg, .bytes
        (8 * (pick (xs.map fromIter) (a.records.map (readBack E a.cfg))).length)⟩, dir') ∧
      dir'.get (withExtension n "materialized".toList) =
        some (outputBytes (pick (xs.map fromIter) (a.records.map (readBack E a.cfg)))) := by
  have hv : commandValues E ⟨file, m, none⟩ ⟨none, xs⟩ none =
      .ok (pick (xs.map fromIter) (a.records.map (readBack E a.cfg))) :=
    c30_every_scheme h none (Or.inl rfl) (xs.map fromIter) (hx.imp (fun e => by rw [e]; rfl) id)
  have h1 : (onDisk E .materialize ⟨none, xs⟩ dir n ev).1 = _ := c80_same E .materialize ⟨none, xs⟩ dir n hev (by
    intro e he
    cases he
    exact hn)
  rw [show Command.materialize = writing none from rfl, inMemory_eq hf (written_open h), hv, Res.map_ok,
    written_report h] at h1
  obtain ⟨f, d, vs, e1, e2, e3, -, -, e6⟩ := c80_success E none ⟨none, xs⟩ dir n ev hn h1
  rw [hf] at e1
  cases e1
  rw [written_open h] at e2
  cases e2
  rw [hv] at e3
  cases e3
  exact ⟨_, Prod.ext h1 rfl, e6⟩

/-- `filter`, then `materialize` on the records it reports, and `filter_materialize`: the two outputs are the same, the
matching values. -/
theorem c80_filter {E : Env} {a : Args} {file : List Byte} {m : Metadata} (h : Written E a file m)
    (h1 : a.cfg.scheme ≠ .buff) (h2 : a.cfg.scheme ≠ .deltaSprintz) {dir : Dir (List Byte)} {n : Name}
    (hf : dir.get n = some file) (p : Predicate B64) (xs : Option (List Nat)) (hr : a.records.length < 2 ^ 32)
    (hn : withExtension n "materialized".toList ≠ n) (hn' : withExtension n "filter_materialized".toList ≠ n)
    {ev ev' : List WriteEvent} (hev : Accepting ev) (hev' : Accepting ev') :
    ∃ b dir1 dir2 rep, inMemory E (.filter p) ⟨none, xs⟩ dir n = .ok ⟨a.opt, a.cfg, .positions b⟩ ∧
      onDisk E .materialize ⟨none, some b⟩ dir n ev = (.ok rep, dir1) ∧
      onDisk E (.filterMaterialize p) ⟨none, xs⟩ dir n ev' = (.ok rep, dir2) ∧
      dir1.get (withExtension n "materialized".toList) = dir2.get (withExtension n "filter_materialized".toList) ∧
      dir2.get (withExtension n "filter_materialized".toList) =
        some (outputBytes ((pick (xs.map fromIter) (a.records.map (readBack E a.cfg))).filter fun v => p.eval f64Cmp v)) := by
  obtain ⟨b, out, r1, r2, r3, r4⟩ := c32_decoder h h1 h2 none p (xs.map fromIter) hr
  obtain ⟨b', r5, r6, -⟩ := c31_decoder_filter h h1 h2 none p (xs.map fromIter) hr
  rw [r1] at r5
  cases r5
  have hb : fromIter b = b := by
    obtain ⟨w1, w2, -⟩ := c80_records b r6.2
    exact Bitmap.ext w1 r6 w2
  have hv1 : commandValues E ⟨file, m, none⟩ ⟨none, some b⟩ none = .ok out := by
    show Decoder.materialize E _ (some (fromIter b)) none = _
    rw [hb]
    exact r3
  have hv2 : commandValues E ⟨file, m, none⟩ ⟨none, xs⟩ (some p) = .ok out := r2
  have s1 : (onDisk E (writing none) ⟨none, some b⟩ dir n ev).1 = _ := c80_same E _ _ dir n hev (by
    intro e he
    cases he
    exact hn)
  have s2 : (onDisk E (writing (some p)) ⟨none, xs⟩ dir n ev').1 = _ := c80_same E _ _ dir n hev' (by
    intro e he
    cases he
    exact hn')
  rw [inMemory_eq hf (written_open h), hv1, Res.map_ok] at s1
  rw [inMemory_eq hf (written_open h), hv2, Res.map_ok] at s2
  obtain ⟨f, d, vs, e1, e2, e3, -, -, e6⟩ := c80_success E none ⟨none, some b⟩ dir n ev hn s1
  rw [hf] at e1
  cases e1
  rw [written_open h] at e2
  cases e2
  rw [hv1] at e3
  cases e3
  obtain ⟨f, d, vs, e1, e2, e3, -, -, e7⟩ := c80_success E (some p) ⟨none, xs⟩ dir n ev' hn' s2
  rw [hf] at e1
  cases e1
  rw [written_open h] at e2
  cases e2
  rw [hv2] at e3
  cases e3
  refine ⟨b, _, _, _, ?_, Prod.ext s1 rfl, Prod.ext s2 rfl, e6.trans e7.symm, by rw [← r4]; exact e7⟩
  unfold inMemory
  rw [hf]
  simp only [written_open h, Res.bind, query]
  rw [show Decoder.filter E ⟨file, m, none⟩ p (Request.mask ⟨none, xs⟩) none = .ok b from r1, Res.map_ok, Res.map_ok,
    written_report h]

/-- The answers of `max`: none of the selected values is greater. -/
theorem c80_max {E : Env} {a : Args} {file : List Byte} {m : Metadata} (h : Written E a file m)
    (h1 : a.cfg.scheme ≠ .buff) (h2 : a.cfg.scheme ≠ .deltaSprintz) (ho : MinMaxLaw E.o) {dir : Dir (List Byte)} {n : Name}
    (hf : dir.get n = some file) (xs : Option (List Nat)) (hr : a.records.length < 2 ^ 32) (ev : List WriteEvent) :
    ∃ v, onDisk E .max ⟨none, xs⟩ dir n ev = (.ok ⟨a.opt, a.cfg, .number v⟩, dir) ∧
      (v = negInf ∨ v ∈ pick (xs.map fromIter) (a.records.map (readBack E a.cfg))) ∧
      ∀ w ∈ pick (xs.map fromIter) (a.records.map (readBack E a.cfg)), isNaN w = false → fle w v = true := by
  obtain ⟨v, v1, -, v3, v4⟩ := c33_decoder_max h h1 h2 none ho (xs.map fromIter) (Or.inr hr)
  refine ⟨v, ?_, v3, v4⟩
  unfold onDisk
  rw [hf]
  simp only [written_open h, outputExtension, query]
  rw [show Decoder.max E ⟨file, m, none⟩ (Request.mask ⟨none, xs⟩) none = .ok v from v1, Res.map_ok, Res.map_ok,
    written_report h]

/-! ## Compressing and materializing -/

theorem fileStem_ne_nil {n : Name} (h : n ≠ []) : fileStem n ≠ [] := by
  unfold fileStem splitName
  split
  · simp
  · exact h

theorem withExtension_twice {n : Name} (h : n ≠ []) {e : Name} (he : '.' ∉ e) (x : Name) :
    withExtension (withExtension n e) x = withExtension n x := by
  have := (c76_extension (fileStem_ne_nil h) he x).2.2
  exact this

/-- `compress` and then `materialize`, both ways of compressing, every scheme: next to the file of doubles there is one with
what the scheme reads back, and it is the same bytes up to the last whole record if the scheme is neither BUFF nor
DeltaSprintz. -/
theorem c80_round_trip {E : Env} {a : Args} {file : List Byte} {m : Metadata} (h : Written E a file m) (mem : Bool)
    {encode : List Byte → List Byte} (henc : encode a.src.data = file) (self : Option (List Byte)) {dir : Dir (List Byte)}
    {n : Name} (hn : n ≠ []) (hx : extension n ≠ some "ebi".toList) (hd : dir.get n = some a.src.data)
    {ev : List WriteEvent} (hev : Accepting ev) :
    ∃ dir1 dir2, compressIn mem encode self dir n = some dir1 ∧
      onDisk E .materialize ⟨none, none⟩ dir1 (compressedName n) ev =
        (.ok ⟨a.opt, a.cfg, .bytes (8 * a.records.length)⟩, dir2) ∧
      dir2.get (withExtension n "materialized".toList) = some (outputBytes (a.records.map (readBack E a.cfg))) ∧
      dir2.get (compressedName n) = some file ∧
      (n ≠ withExtension n "materialized".toList → dir2.get n = some a.src.data) ∧
      (a.cfg.scheme ≠ .buff → a.cfg.scheme ≠ .deltaSprintz →
        dir2.get (withExtension n "materialized".toList) = some (a.src.data.take (a.src.data.length / 8 * 8))) := by
  obtain ⟨dir1, c1, c2, c3⟩ := (c76_compress encode self dir n _ hd).1 hx mem
  rw [henc] at c3
  have ht : withExtension (compressedName n) "materialized".toList = withExtension n "materialized".toList :=
    withExtension_twice hn (by decide) _
  have hne : compressedName n ≠ withExtension n "materialized".toList := by
    intro e
    have := List.append_cancel_left e
    revert this
    decide
  obtain ⟨dir2, m1, m2⟩ := c80_materialize h c3 none (Or.inl rfl) (by rw [ht]; exact hne.symm) hev
  rw [Option.map_none, pick_none] at m1 m2
  rw [List.length_map] at m1
  rw [ht] at m2
  have others : ∀ x, x ≠ withExtension n "materialized".toList → dir2.get x = dir1.get x := by
    intro x hx
    have := c80_others E .materialize ⟨none, none⟩ dir1 (compressedName n) x ev (by
      intro e he
      cases he
      rw [ht]
      exact hx)
    rw [m1] at this
    exact this
  refine ⟨dir1, dir2, c1, m1, m2, by rw [others _ hne, c3], fun hx => by rw [others _ hx, c2], fun h1 h2 => ?_⟩
  rw [m2, readBack_default E h1 h2]
  exact congrArg some (ofF64s_toF64s_take _)

/-! ## Writing over the input -/

theorem loadChunk_empty (S : Scheme) {m : Metadata} (hm : ∀ i size, m.chunkSize i = .ok size → 0 < size) (i : Nat) {x} :
    loadChunk S [] m i ≠ .ok x := by
  intro h
  unfold loadChunk at h
  obtain ⟨f, -, h⟩ := Res.bind_eq_ok h
  obtain ⟨k, -, h⟩ := Res.bind_eq_ok h
  obtain ⟨size, hs, h⟩ := Res.bind_eq_ok h
  have := hm i size hs
  split at h
  · cases h
  · rw [show takeExact size (([] : List Byte).drop f.physical) = none by
      unfold takeExact
      rw [if_neg (by simp; omega)]] at h
    dsimp only at h
    split at h <;> cases h

theorem chunkLoopTo_fails {K : Type} {D : Device K} {m : Metadata} {bm : Option Bitmap} {cid : Option Nat}
    {body : Nat → Res (List B64)} (hb : ∀ i vs, body i ≠ .ok vs) (is : List Nat) (k : K) :
    (chunkLoopTo D m bm cid body is k).2 = k := by
  induction is with
  | nil => rfl
  | cons i is ih =>
    unfold chunkLoopTo
    split
    · split
      · split
        · exact ih
        · split
          · rename_i vs hv
            exact absurd hv (hb i vs)
          · rfl
          · rfl
      · rfl
      · rfl
    · exact ih

/-- The code truncates its input when that has the extension of the output: of any file whose chunks are not empty nothing
is left, and no value is written. -/
theorem c80_input_lost (E : Env) (q : Option (Predicate B64)) (r : Request) (dir : Dir (List Byte)) (n : Name)
    (ev : List WriteEvent) (hn : withExtension n (writingExtension q) = n) {file : List Byte} {d : Decoder}
    (hf : dir.get n = some file) (hd : openDecoder file = .ok d) (hc : ∀ i size, d.info.chunkSize i = .ok size → 0 < size) :
    (onDisk E (writing q) r dir n ev).2.get n = some [] ∧
    ∀ x, (onDisk E (writing q) r dir n ev).1 = .ok x → x = report d (.bytes 0) := by
  have hk : ∀ k, (queryTo E (writing q) r { d with file := [] } k).2 = k := by
    intro k
    cases q with
    | none =>
      refine chunkLoopTo_fails (fun i vs h => ?_) _ k
      obtain ⟨y, hy, -⟩ := Res.bind_eq_ok h
      exact loadChunk_empty _ hc i hy
    | some p =>
      refine chunkLoopTo_fails (fun i vs h => ?_) _ k
      obtain ⟨y, hy, -⟩ := Res.bind_eq_ok h
      exact loadChunk_empty _ hc i hy
  rw [onDisk_eq hf hd]
  unfold writeTo
  simp only [hn, if_true]
  have := hk (.new 8192 ⟨[], 0, ev⟩)
  generalize queryTo E (writing q) r { d with file := [] } (.new 8192 ⟨[], 0, ev⟩) = y at *
  obtain ⟨y, k⟩ := y
  simp only at this
  subst this
  have hfl : (Buffered.new 8192 ⟨[], 0, ev⟩).flushBuf = (.ok (), .new 8192 ⟨[], 0, ev⟩) := by
    cases ev <;> rfl
  have hdr : (Buffered.new 8192 ⟨[], 0, ev⟩).drop.inner.file = [] := flushed_drop rfl
  rw [get_put, if_pos rfl]
  cases y with
  | ok u =>
    simp only [Ebi.andThen, intoInner, hfl]
    refine ⟨congrArg some hdr, fun x hx => ?_⟩
    cases hx
    rfl
  | err => exact ⟨congrArg some hdr, fun x hx => by cases hx⟩
  | panic => exact ⟨congrArg some hdr, fun x hx => by cases hx⟩

/-! ## Where the results go -/

/-- The results of a file go beside its directory, into one named by its stem and the command; a file named without two
directories above it ends the program after the command has run. -/
theorem c80_save_dir (p : Path) (c : Command) :
    (∀ (q : Path) (dir n : Name), p = q ++ [dir, n] → saveDir p c = .ok (q ++ ["result".toList, fileStem n, c.dirName])) ∧
    (p.length < 2 → saveDir p c = .panic) := by
  constructor
  · rintro q dir n rfl
    have h1 : parent (q ++ [dir, n]) = some (q ++ [dir]) := by
      unfold parent
      rw [if_neg (by simp), show q ++ [dir, n] = (q ++ [dir]) ++ [n] by simp, List.dropLast_concat]
    have h2 : parent (q ++ [dir]) = some q := by
      unfold parent
      rw [if_neg (by simp), List.dropLast_concat]
    unfold saveDir
    rw [h1, Option.bind_some, h2]
    simp
  · intro h
    match p, h with
    | [], _ => rfl
    | [x], _ => rfl

/-- Which of the five commands. -/
def commandKind : Command → Nat
  | .filter _ => 0
  | .filterMaterialize _ => 1
  | .materialize => 2
  | .max => 3
  | .sum => 4

theorem kind_of_dirName {c c' : Command} (h : c.dirName = c'.dirName) : commandKind c = commandKind c' := by
  have key : ∀ c : Command, commandKind c =
      if c.dirName.length = 6 then 0 else if c.dirName.length = 18 then 1 else if c.dirName.length = 11 then 2
      else if c.dirName.head? = some 'm' then 3 else 4 := by
    intro c
    cases c <;> rfl
  rw [key c, key c', h]

/-- Two commands share a directory of results only if they are the same command on files of the same stem beside each other
or in directories beside each other. -/
theorem c80_save_shared {p p' s : Path} {c c' : Command} (h : saveDir p c = .ok s) (h' : saveDir p' c' = .ok s) :
    p.dropLast.dropLast = p'.dropLast.dropLast ∧ p.getLast?.map fileStem = p'.getLast?.map fileStem ∧
      commandKind c = commandKind c' := by
  have key : ∀ {p : Path} {c : Command}, saveDir p c = .ok s →
      ∃ n, p.getLast? = some n ∧ s = p.dropLast.dropLast ++ ["result".toList, fileStem n, c.dirName] := by
    intro p c h
    unfold saveDir at h
    split at h
    · rename_i q n hq hn
      cases h
      obtain ⟨t, ht, hq⟩ := Option.bind_eq_some_iff.1 hq
      unfold parent at ht hq
      split at ht
      · cases ht
      · cases ht
        split at hq
        · cases hq
        · cases hq
          exact ⟨n, hn, rfl⟩
    · cases h
  obtain ⟨n, h1, h2⟩ := key h
  obtain ⟨n', h3, h4⟩ := key h'
  rw [h2] at h4
  obtain ⟨h5, h6⟩ := List.append_inj' h4 rfl
  simp only [List.cons.injEq, and_true, true_and] at h6
  exact ⟨h5, by rw [h1, h3, Option.map_some, Option.map_some, h6.1], kind_of_dirName h6.2⟩

/-! ## Witnesses -/

/-- A directory with one file of five values in three chunks. -/
def commandDir : Option (Dir (List Byte)) :=
  (fileDecoder (.gorilla 100#64) queryData 2).map fun d => [("x.ebi".toList, d.file)]

/-- The same file under the name of an output. -/
def commandClash : Option (Dir (List Byte)) :=
  (fileDecoder (.gorilla 100#64) queryData 2).map fun d => [("x.materialized".toList, d.file)]

/-- The hypotheses of `c80_materialize`, `c80_filter` and `c80_max`. -/
example : ∃ d, fileDecoder (.gorilla 100#64) queryData 2 = some d ∧
    Written queryEnv (fileArgs (.gorilla 100#64) queryData 2) d.file d.info ∧
    Dir.get [("x.ebi".toList, d.file)] "x.ebi".toList = some d.file ∧
    withExtension "x.ebi".toList "materialized".toList ≠ "x.ebi".toList ∧
    withExtension "x.ebi".toList "filter_materialized".toList ≠ "x.ebi".toList := by
  have h : (fileDecoder (.gorilla 100#64) queryData 2).map (fun d => (decide (d.file.length < 1000), ())) = some (true, ()) := by
    decide +kernel
  obtain ⟨d, h1, -, h3, -⟩ := sample_written (cfg := .gorilla 100#64) trivial (by
    intro v hv
    simp only [queryData, List.mem_cons, List.not_mem_nil, or_false] at hv
    rcases hv with rfl | rfl | rfl | rfl | rfl <;> (show _ ≠ nanBits; decide)) (by simp [queryData]) (by decide) (by decide)
    (by simp [queryData]) h
  exact ⟨d, h1, h3, rfl, by decide, by decide⟩

/-- `materialize` of records 3, 1, 3, in memory and from the file: 16 bytes. A device that fails when the buffer is written
at the end: an error, nothing in the output. -/
example : commandDir.map (fun dir =>
    ((inMemory queryEnv .materialize ⟨none, some [3, 1, 3]⟩ dir "x.ebi".toList).map fun r => r.outcome,
     (onDisk queryEnv .materialize ⟨none, some [3, 1, 3]⟩ dir "x.ebi".toList []).1.map fun r => r.outcome,
     ((onDisk queryEnv .materialize ⟨none, some [3, 1, 3]⟩ dir "x.ebi".toList []).2.get "x.materialized".toList).map List.length,
     (onDisk queryEnv .materialize ⟨none, some [3, 1, 3]⟩ dir "x.ebi".toList [.failed, .failed]).1.map fun r => r.outcome,
     ((onDisk queryEnv .materialize ⟨none, some [3, 1, 3]⟩ dir "x.ebi".toList [.failed, .failed]).2.get
       "x.materialized".toList).map List.length)) =
    some (.ok (.bytes 16), .ok (.bytes 16), some 16, .err, some 0) := by
  decide +kernel

/-- The hypotheses of `c80_input_lost`: the file `x.materialized` is gone after `materialize`. -/
example : commandClash.map (fun dir =>
    (((dir.get "x.materialized".toList).map List.length).isSome,
     (onDisk queryEnv .materialize ⟨none, none⟩ dir "x.materialized".toList []).1.map fun r => r.outcome,
     (onDisk queryEnv .materialize ⟨none, none⟩ dir "x.materialized".toList []).2.get "x.materialized".toList)) =
    some (true, .err, some []) := by
  decide +kernel

example : ∃ d, fileDecoder (.gorilla 100#64) queryData 2 = some d ∧ ∀ i size, d.info.chunkSize i = .ok size → 0 < size := by
  have h : (fileDecoder (.gorilla 100#64) queryData 2).map (fun d =>
      (d.info.footer.chunkFooters.length, (List.range 3).map fun i => d.info.chunkSize i)) =
      some (3, [.ok 14, .ok 14, .ok 18]) := by
    decide +kernel
  obtain ⟨d, hd, e⟩ := Option.map_eq_some_iff.1 h
  simp only [Prod.mk.injEq] at e
  refine ⟨d, hd, fun i size hs => ?_⟩
  by_cases hi : i < 3
  · have hm := congrArg (fun xs => xs[i]?) e.2
    simp only [List.getElem?_map, List.getElem?_range hi, Option.map_some, hs] at hm
    match i, hi with
    | 0, _ => simp at hm; omega
    | 1, _ => simp at hm; omega
    | 2, _ => simp at hm; omega
  · unfold Metadata.chunkSize Metadata.chunkFooter at hs
    rw [List.getElem?_eq_none (by omega)] at hs
    cases hs

/-- The names of `c80_round_trip`. -/
example : "x.bin".toList ≠ [] ∧ extension "x.bin".toList ≠ some "ebi".toList ∧
    compressedName "x.bin".toList = "x.ebi".toList := by
  decide

/-- The hypotheses of `c80_save_shared`: the results of `bin/x.bin` and `ebi/x.ebi` are in one directory. -/
example : saveDir ["bin".toList, "x.bin".toList] .max = .ok ["result".toList, "x".toList, "max".toList] ∧
    saveDir ["ebi".toList, "x.ebi".toList] .max = .ok ["result".toList, "x".toList, "max".toList] := by
  decide +kernel

end Ebi.Props
