import Verif.Table
import Verif.SoftLemmas

/-!
# C69: the table of results

Every cell of the table should hold the results of one run of its configuration. What it holds instead, exactly.
-/

namespace Ebi.Props

open Ebi Ebi.Table

variable {R : Type}

@[simp] theorem Map.set_same {V : Type} (m : Map V) (k : String) (v : V) : m.set k v k = some v := by simp [Map.set]

theorem Map.set_other {V : Type} (m : Map V) {k x : String} (v : V) (h : x ≠ k) : m.set k v x = m x := by
  simp [Map.set, h]

/-! ### The specification -/

/-- The runs of a list of configurations under one name, in order; `none` for one that was left out. -/
def runsOf (pass : Nat) (key : String) (jobs : List (Job R)) : List (Option (Res (Results R))) :=
  (jobs.filter fun j => j.key == key).map fun j => j.run pass

/-- The results in one cell are those of one run. -/
structure Holds (i : Inner R) (r : Results R) : Prop where
  compress : i.compress = r.compress
  filters : i.filters = addFilters Map.empty r.filters
  materialize : i.materialize = r.materialize
  max : i.max = r.max
  sum : i.sum = r.sum

/-- With distinct names `addFilters` is the list as a map. -/
theorem c69_filters (fs : List (String × Family R)) (h : (fs.map Prod.fst).Nodup) (name : String) :
    addFilters Map.empty fs name = (fs.find? fun f => f.1 == name).map Prod.snd := by
  have gen : ∀ (fs : List (String × Family R)) (m : Map (Family R)), (fs.map Prod.fst).Nodup →
      (∀ f ∈ fs, m f.1 = none) →
      addFilters m fs name = ((fs.find? fun f => f.1 == name).map Prod.snd).or (m name) := by
    intro fs
    induction fs with
    | nil => intro m _ _; simp [addFilters]
    | cons f fs ih =>
      intro m hn hm
      obtain ⟨n, f⟩ := f
      have h0 : m n = none := hm (n, f) (List.mem_cons_self ..)
      rw [List.map_cons, List.nodup_cons] at hn
      rw [addFilters]
      simp only [h0, Option.getD_none, List.nil_append]
      rw [ih _ hn.2]
      · by_cases hx : n = name
        · subst hx
          have : fs.find? (fun f => f.1 == n) = none := by
            rw [List.find?_eq_none]
            intro g hg
            simp only [beq_iff_eq]
            intro hc
            exact hn.1 (List.mem_map.2 ⟨g, hg, hc⟩)
          rw [this, List.find?_cons_of_pos (by simp)]
          simp
        · rw [List.find?_cons_of_neg (by simpa using hx), Map.set_other _ _ (Ne.symm hx)]
      · intro g hg
        have : g.1 ≠ n := fun hc => hn.1 (List.mem_map.2 ⟨g, hg, hc⟩)
        rw [Map.set_other _ _ this]
        exact hm g (List.mem_cons_of_mem _ hg)
  rw [gen fs Map.empty h fun _ _ => rfl]
  simp [Map.empty]

/-! ### One data set -/

/-- A list of configurations on a table, seen at one name. -/
theorem processDataset_other {pass : Nat} {stem key : String} {st st' : Map (Inner R) × Map (Saved R)}
    {jobs : List (Job R)} (h : processDataset pass stem st jobs = .ok st') (hk : ∀ j ∈ jobs, j.key ≠ key) :
    st'.1 key = st.1 key := by
  induction jobs generalizing st with
  | nil => cases h; rfl
  | cons j js ih =>
    rw [processDataset] at h
    unfold processJob at h
    have hj := Ne.symm (hk j (List.mem_cons_self ..))
    have hjs := fun j hj => hk j (List.mem_cons_of_mem _ hj)
    cases hr : j.run pass with
    | none =>
      simp only [hr] at h
      exact (ih h hjs).trans (Map.set_other _ _ hj)
    | some x =>
      cases x with
      | ok r =>
        simp only [hr] at h
        exact (ih h hjs).trans (Map.set_other _ _ hj)
      | err => simp only [hr] at h; cases h
      | panic => simp only [hr] at h; cases h

/-- The saved files of other data sets are left alone, and what is written is never a map. -/
theorem processDataset_saved {pass : Nat} {stem : String} {st st' : Map (Inner R) × Map (Saved R)}
    {jobs : List (Job R)} (h : processDataset pass stem st jobs = .ok st') :
    (∀ x, x ≠ stem → st'.2 x = st.2 x) ∧ (check st.2 stem = none → check st'.2 stem = none) := by
  induction jobs generalizing st with
  | nil => cases h; exact ⟨fun _ _ => rfl, id⟩
  | cons j js ih =>
    rw [processDataset] at h
    unfold processJob at h
    cases hr : j.run pass with
    | none =>
      simp only [hr] at h
      have h2 := ih h
      exact h2
    | some x =>
      cases x with
      | ok r =>
        simp only [hr] at h
        obtain ⟨h1, h2⟩ := ih h
        refine ⟨fun x hx => by rw [h1 x hx]; exact Map.set_other _ _ hx, fun _ => h2 ?_⟩
        simp [check]
      | err => simp only [hr] at h; cases h
      | panic => simp only [hr] at h; cases h

/-- All that was pushed for one name. -/
def pushed (f : Results R → List R) : List (Option (Res (Results R))) → List R
  | [] => []
  | some (.ok r) :: xs => f r ++ pushed f xs
  | _ :: xs => pushed f xs

/-- The last run, if the last was not left out. -/
def lastRun : List (Option (Res (Results R))) → Results R
  | [] => ⟨[], [], [], [], []⟩
  | [some (.ok r)] => r
  | [_] => ⟨[], [], [], [], []⟩
  | _ :: x :: xs => lastRun (x :: xs)

/-- What a name holds after any list of configurations, from any table: of compression, filters and decompression
the last run (nothing when it was left out), of max and sum everything that was ever pushed. -/
theorem c69_history {pass : Nat} {stem key : String} {st st' : Map (Inner R) × Map (Saved R)}
    {jobs : List (Job R)} (h : processDataset pass stem st jobs = .ok st') (hk : runsOf pass key jobs ≠ []) :
    ∃ i, st'.1 key = some i ∧ i.compress = (lastRun (runsOf pass key jobs)).compress ∧
      i.filters = addFilters Map.empty (lastRun (runsOf pass key jobs)).filters ∧
      i.materialize = (lastRun (runsOf pass key jobs)).materialize ∧
      i.max = ((st.1 key).getD .new).max ++ pushed Results.max (runsOf pass key jobs) ∧
      i.sum = ((st.1 key).getD .new).sum ++ pushed Results.sum (runsOf pass key jobs) := by
  induction jobs generalizing st with
  | nil => exact absurd rfl hk
  | cons j js ih =>
    rw [processDataset] at h
    by_cases hj : j.key = key
    · have e : runsOf pass key (j :: js) = j.run pass :: runsOf pass key js := by
        unfold runsOf
        rw [List.filter_cons_of_pos (by simpa using hj)]
        rfl
      rw [e]
      unfold processJob at h
      -- the entry after this configuration
      have step : ∀ (i : Inner R) (sv : Map (Saved R)), processDataset pass stem (st.1.set j.key i, sv) js = .ok st' →
          (i.max = ((st.1 key).getD .new).max ++ pushed Results.max [j.run pass]) →
          (i.sum = ((st.1 key).getD .new).sum ++ pushed Results.sum [j.run pass]) →
          (i.compress = (lastRun [j.run pass]).compress) →
          (i.filters = addFilters Map.empty (lastRun [j.run pass]).filters) →
          (i.materialize = (lastRun [j.run pass]).materialize) →
          ∃ i, st'.1 key = some i ∧ i.compress = (lastRun (j.run pass :: runsOf pass key js)).compress ∧
            i.filters = addFilters Map.empty (lastRun (j.run pass :: runsOf pass key js)).filters ∧
            i.materialize = (lastRun (j.run pass :: runsOf pass key js)).materialize ∧
            i.max = ((st.1 key).getD .new).max ++ pushed Results.max (j.run pass :: runsOf pass key js) ∧
            i.sum = ((st.1 key).getD .new).sum ++ pushed Results.sum (j.run pass :: runsOf pass key js) := by
        intro i sv h h1 h2 h3 h4 h5
        have hp : ∀ f : Results R → List R,
            pushed f [j.run pass] ++ pushed f (runsOf pass key js) = pushed f (j.run pass :: runsOf pass key js) := by
          intro f
          cases j.run pass with
          | none => rfl
          | some x => cases x <;> simp [pushed]
        by_cases hjs : runsOf pass key js = []
        · have hno : ∀ x ∈ js, x.key ≠ key := by
            intro x hx hc
            have : x ∈ js.filter fun j => j.key == key := List.mem_filter.2 ⟨hx, by simpa using hc⟩
            unfold runsOf at hjs
            rw [List.map_eq_nil_iff] at hjs
            rw [hjs] at this
            cases this
          have e1 := processDataset_other h hno
          refine ⟨i, by rw [e1, ← hj]; exact Map.set_same _ _ _, ?_⟩
          rw [hjs]
          exact ⟨h3, h4, h5, h1, h2⟩
        · obtain ⟨i', g1, g2, g3, g4, g5, g6⟩ := ih h hjs
          have e2 : (st.1.set j.key i) key = some i := by rw [← hj]; exact Map.set_same _ _ _
          have el : lastRun (j.run pass :: runsOf pass key js) = lastRun (runsOf pass key js) := by
            cases hr : runsOf pass key js with
            | nil => exact absurd hr hjs
            | cons x xs => rw [lastRun]
          simp only [e2, Option.getD_some] at g5 g6
          rw [el, ← hp, ← hp]
          refine ⟨i', g1, g2, g3, g4, ?_, ?_⟩
          · rw [g5, h1, List.append_assoc]
          · rw [g6, h2, List.append_assoc]
      cases hr : j.run pass with
      | none =>
        simp only [hr] at h step
        refine step _ _ h ?_ ?_ ?_ ?_ ?_ <;> rw [hj] <;> cases st.1 key <;>
          simp [Inner.clear, Inner.new, pushed, lastRun, addFilters]
      | some x =>
        cases x with
        | ok r =>
          simp only [hr] at h step
          refine step _ _ h ?_ ?_ ?_ ?_ ?_ <;> rw [hj] <;> cases st.1 key <;>
            simp [Inner.clear, Inner.new, Inner.add, pushed, lastRun]
        | err => simp only [hr] at h; cases h
        | panic => simp only [hr] at h; cases h
    · have e : runsOf pass key (j :: js) = runsOf pass key js := by
        unfold runsOf
        rw [List.filter_cons_of_neg (by simpa using hj)]
      rw [e] at hk ⊢
      cases hp : processJob pass stem st j with
      | ok s1 =>
        rw [hp] at h
        have e1 : s1.1 key = st.1 key := by
          have : processDataset pass stem st [j] = .ok s1 := by rw [processDataset, hp]; rfl
          exact processDataset_other this fun x hx => by rw [List.mem_singleton.1 hx]; exact hj
        rw [← e1]
        exact ih h hk
      | err => rw [hp] at h; cases h
      | panic => rw [hp] at h; cases h

theorem runsOf_single {pass : Nat} {jobs : List (Job R)} (hd : (jobs.map Job.key).Nodup) {j : Job R} (hj : j ∈ jobs) :
    runsOf pass j.key jobs = [j.run pass] := by
  induction jobs with
  | nil => cases hj
  | cons k ks ih =>
    rw [List.map_cons, List.nodup_cons] at hd
    unfold runsOf at ih ⊢
    rcases List.mem_cons.1 hj with rfl | hj
    · have : ks.filter (fun x => x.key == j.key) = [] := by
        rw [List.filter_eq_nil_iff]
        intro x hx
        simp only [beq_iff_eq]
        intro hc
        exact hd.1 (List.mem_map.2 ⟨x, hx, hc⟩)
      rw [List.filter_cons_of_pos (by simp), this]
      rfl
    · rw [List.filter_cons_of_neg]
      · exact ih hd.2 hj
      · simp only [beq_iff_eq]
        intro hc
        exact hd.1 (hc ▸ List.mem_map.2 ⟨j, hj, rfl⟩)

/-- The claim, for a data set that is done once: one configuration per scheme, nothing in the table before. Missing:
data sets done twice (`c69_twice`) and repeated schemes. -/
theorem c69_once_partial {pass : Nat} {stem : String} {st st' : Map (Inner R) × Map (Saved R)}
    {jobs : List (Job R)} (h : processDataset pass stem st jobs = .ok st') (hd : (jobs.map Job.key).Nodup)
    {j : Job R} (hj : j ∈ jobs) {r : Results R} (hr : j.run pass = some (.ok r)) (hn : st.1 j.key = none) :
    ∃ i, st'.1 j.key = some i ∧ Holds i r := by
  have e := runsOf_single (pass := pass) hd hj
  obtain ⟨i, h1, h2, h3, h4, h5, h6⟩ := c69_history (key := j.key) h (by rw [e]; simp)
  rw [e, hr] at h2 h3 h4 h5 h6
  rw [hn] at h5 h6
  simp only [Option.getD_none, Inner.new, pushed, List.append_nil, List.nil_append] at h5 h6
  exact ⟨i, h1, h2, h3, h4, h5, h6⟩

/-! ### The whole command -/

/-- A stem is never the path of a file in a directory: the data sets to be patched are not left out of the first
loop, as they should be. -/
theorem c69_path (d : Dataset R) (h : d.dir ≠ []) (stem : String) : d.path ≠ [stem] := by
  intro hc
  have := congrArg List.length hc
  have := List.length_pos_iff.2 h
  simp only [Dataset.path, List.length_append, List.length_cons, List.length_nil] at *
  omega

theorem visit_spec {pass : Nat} {jobs : List (Job R)} {st st' : State R} {d : Dataset R}
    (h : visit pass jobs st d = .ok st') :
    (∀ x, x ≠ d.stem → st'.1 x = st.1 x ∧ check st'.2 x = check st.2 x) ∧
    (check st.2 d.stem = none → check st'.2 d.stem = none ∧ ∃ out s s', st'.1 d.stem = some out ∧
      processDataset pass d.stem ((st.1 d.stem).getD Map.empty, s) jobs = .ok (out, s')) := by
  unfold visit at h
  cases hc : check st.2 d.stem with
  | some t =>
    simp only [hc] at h
    injection h with h
    subst h
    exact ⟨fun x hx => ⟨Map.set_other _ _ hx, rfl⟩, fun hf => by cases hf⟩
  | none =>
    simp only [hc] at h
    cases hp : processDataset pass d.stem ((st.1 d.stem).getD Map.empty, st.2) jobs with
    | ok x =>
      obtain ⟨out, saved⟩ := x
      rw [hp] at h
      injection h with h
      subst h
      obtain ⟨h1, h2⟩ := processDataset_saved hp
      simp only at h1 h2
      refine ⟨fun x hx => ⟨Map.set_other _ _ hx, ?_⟩, fun _ => ⟨h2 hc, out, st.2, saved, Map.set_same _ _ _, hp⟩⟩
      show check saved x = check st.2 x
      unfold check
      rw [h1 x hx]
    | err => rw [hp] at h; cases h
    | panic => rw [hp] at h; cases h

/-- A loop over data sets. -/
def walk (pass : Nat) (jobs : Dataset R → List (Job R)) (st : State R) : List (Dataset R) → Res (State R)
  | [] => .ok st
  | d :: ds =>
    if d.skip then walk pass jobs st ds
    else
      match visit pass (jobs d) st d with
      | .ok st => walk pass jobs st ds
      | .err => .err
      | .panic => .panic

theorem walk_spec {pass : Nat} {jobs : Dataset R → List (Job R)} {st st' : State R} {ds : List (Dataset R)}
    (h : walk pass jobs st ds = .ok st') (hn : (ds.map Dataset.stem).Nodup) :
    (∀ x, x ∉ ds.map Dataset.stem → st'.1 x = st.1 x ∧ check st'.2 x = check st.2 x) ∧
    (∀ d ∈ ds, d.skip = false → check st.2 d.stem = none → check st'.2 d.stem = none ∧ ∃ out s s',
      st'.1 d.stem = some out ∧
        processDataset pass d.stem ((st.1 d.stem).getD Map.empty, s) (jobs d) = .ok (out, s')) := by
  induction ds generalizing st with
  | nil =>
    cases h
    exact ⟨fun _ _ => ⟨rfl, rfl⟩, fun d hd => by cases hd⟩
  | cons e es ih =>
    rw [List.map_cons, List.nodup_cons] at hn
    rw [walk] at h
    split at h
    · rename_i hs
      obtain ⟨h1, h2⟩ := ih h hn.2
      refine ⟨fun x hx => h1 x fun hc => hx (List.mem_cons_of_mem _ hc), fun d hd hds hc => ?_⟩
      rcases List.mem_cons.1 hd with rfl | hd
      · rw [hs] at hds; cases hds
      · exact h2 d hd hds hc
    · cases hv : visit pass (jobs e) st e with
      | ok s1 =>
        rw [hv] at h
        obtain ⟨v1, v2⟩ := visit_spec hv
        obtain ⟨h1, h2⟩ := ih h hn.2
        refine ⟨fun x hx => ?_, fun d hd hds hc => ?_⟩
        · obtain ⟨a1, a2⟩ := h1 x fun hc => hx (List.mem_cons_of_mem _ hc)
          obtain ⟨b1, b2⟩ := v1 x fun hc => hx (hc ▸ List.mem_cons_self ..)
          exact ⟨a1.trans b1, a2.trans b2⟩
        · rcases List.mem_cons.1 hd with rfl | hd
          · obtain ⟨a1, a2⟩ := h1 d.stem hn.1
            obtain ⟨c1, out, s, s', c2, c3⟩ := v2 hc
            exact ⟨a2.trans c1, out, s, s', a1.trans c2, c3⟩
          · have hne : d.stem ≠ e.stem := fun hc => hn.1 (hc ▸ List.mem_map.2 ⟨d, hd, rfl⟩)
            obtain ⟨b1, b2⟩ := v1 d.stem hne
            rw [← b1]
            exact h2 d hd hds (b2.trans hc)
      | err => rw [hv] at h; cases h
      | panic => rw [hv] at h; cases h

theorem patchDatasets_eq (st : State R) (ds : List (Dataset R)) :
    patchDatasets st ds = walk 1 Dataset.jobs st ds := by
  induction ds generalizing st with
  | nil => rfl
  | cons d ds ih =>
    rw [patchDatasets, walk]
    split
    · exact ih st
    · cases visit 1 d.jobs st d with
      | ok s => exact ih s
      | err => rfl
      | panic => rfl

/-- The configurations that are done in the first loop. -/
def patchedJobs (patchCompressor : List String) (d : Dataset R) : List (Job R) :=
  d.jobs.filter fun j => patchCompressor.contains j.stem

theorem patchCompressors_eq {P : List (List String)} (hP : ∀ s : String, [s] ∉ P) (C : List String) (st : State R)
    (ds : List (Dataset R)) : patchCompressors P C st ds = walk 0 (patchedJobs C) st ds := by
  induction ds generalizing st with
  | nil => rfl
  | cons d ds ih =>
    rw [patchCompressors, walk]
    split
    · exact ih st
    · rw [if_neg (by simpa using hP d.stem)]
      unfold patchedJobs at ih ⊢
      cases visit 0 (d.jobs.filter fun j => C.contains j.stem) st d with
      | ok s => exact ih s
      | err => rfl
      | panic => rfl

/-- Directories and stems as `read_dir` gives them, and the set of patched data sets walked in some order. -/
structure Listing (datasets order : List (Dataset R)) (patchDataset : List String) : Prop where
  dirs : ∀ d ∈ datasets, d.dir ≠ []
  stems : (datasets.map Dataset.stem).Nodup
  order : order.Perm (datasets.filter fun d => patchDataset.contains d.stem)

theorem allPatch_spec {datasets order : List (Dataset R)} {D C : List String} {st st' : State R}
    (hl : Listing datasets order D) (h : allPatch datasets order D C st = .ok st') {d : Dataset R}
    (hd : d ∈ datasets) (hs : d.skip = false) (hc : check st.2 d.stem = none) :
    ∃ out s s', processDataset 0 d.stem ((st.1 d.stem).getD Map.empty, s) (patchedJobs C d) = .ok (out, s') ∧
      (d.stem ∉ D → st'.1 d.stem = some out) ∧
      (d.stem ∈ D → ∃ out' t t', st'.1 d.stem = some out' ∧
        processDataset 1 d.stem (out, t) d.jobs = .ok (out', t')) := by
  unfold allPatch at h
  simp only at h
  rw [patchCompressors_eq] at h
  · cases hw : walk 0 (patchedJobs C) st datasets with
    | ok s1 =>
      rw [hw] at h
      simp only [patchDatasets_eq] at h
      obtain ⟨-, w2⟩ := walk_spec hw hl.stems
      obtain ⟨c1, out, s, s', c2, c3⟩ := w2 d hd hs hc
      have hn : (order.map Dataset.stem).Nodup := by
        have hp := hl.order.map Dataset.stem
        rw [hp.nodup_iff]
        exact hl.stems.sublist (List.filter_sublist.map _)
      obtain ⟨x1, x2⟩ := walk_spec h hn
      refine ⟨out, s, s', c3, fun hD => ?_, fun hD => ?_⟩
      · refine (x1 d.stem fun hm => ?_).1.trans c2
        obtain ⟨e, he, hes⟩ := List.mem_map.1 hm
        have := (List.mem_filter.1 (hl.order.mem_iff.1 he)).2
        rw [hes] at this
        exact hD (by simpa using this)
      · have hm : d ∈ order := hl.order.mem_iff.2 (List.mem_filter.2 ⟨hd, by simpa using hD⟩)
        obtain ⟨-, out', t, t', y1, y2⟩ := x2 d hm hs c1
        rw [c2, Option.getD_some] at y2
        exact ⟨out', t, t', y1, y2⟩
    | err => rw [hw] at h; cases h
    | panic => rw [hw] at h; cases h
  · intro s hm
    obtain ⟨e, he, hes⟩ := List.mem_map.1 hm
    exact c69_path e (hl.dirs e (List.mem_filter.1 he).1) s hes

theorem patchedJobs_nodup {C : List String} {d : Dataset R} (h : (d.jobs.map Job.key).Nodup) :
    ((patchedJobs C d).map Job.key).Nodup := h.sublist (List.filter_sublist.map _)

theorem patchedJobs_none {C : List String} {d : Dataset R} (h : (d.jobs.map Job.key).Nodup) {j : Job R}
    (hj : j ∈ d.jobs) (hC : j.stem ∉ C) : ∀ k ∈ patchedJobs C d, k.key ≠ j.key := by
  intro k hk he
  obtain ⟨h1, h2⟩ := List.mem_filter.1 hk
  have : k = j := by
    clear hk h2
    generalize d.jobs = js at *
    induction js with
    | nil => cases hj
    | cons x xs ih =>
      rw [List.map_cons, List.nodup_cons] at h
      rcases List.mem_cons.1 hj with e1 | hj' <;> rcases List.mem_cons.1 h1 with e2 | h1'
      · rw [e1, e2]
      · exact absurd (List.mem_map.2 ⟨k, h1', by rw [he, e1]⟩) h.1
      · exact absurd (List.mem_map.2 ⟨j, hj', by rw [← he, e2]⟩) h.1
      · exact ih h.2 hj' h1'
  subst this
  exact hC (by simpa using h2)

/-- What the cells of a patched data set hold at the end, for a configuration that is run in the second loop: max and
sum also of the first loop, and of what was in the table before. -/
theorem c69_patched {datasets order : List (Dataset R)} {D C : List String} {st st' : State R}
    (hl : Listing datasets order D) (h : allPatch datasets order D C st = .ok st') {d : Dataset R}
    (hd : d ∈ datasets) (hs : d.skip = false) (hc : check st.2 d.stem = none) (hD : d.stem ∈ D)
    (hk : (d.jobs.map Job.key).Nodup) {j : Job R} (hj : j ∈ d.jobs) {r : Results R} (hr : j.run 1 = some (.ok r)) :
    ∃ out i, st'.1 d.stem = some out ∧ out j.key = some i ∧ i.compress = r.compress ∧
      i.filters = addFilters Map.empty r.filters ∧ i.materialize = r.materialize ∧
      i.max = ((((st.1 d.stem).getD Map.empty) j.key).getD .new).max ++
        (if j.stem ∈ C then pushed Results.max [j.run 0] else []) ++ r.max ∧
      i.sum = ((((st.1 d.stem).getD Map.empty) j.key).getD .new).sum ++
        (if j.stem ∈ C then pushed Results.sum [j.run 0] else []) ++ r.sum := by
  obtain ⟨o, s, s', h1, -, h3⟩ := allPatch_spec hl h hd hs hc
  obtain ⟨out, t, t', h4, h5⟩ := h3 hD
  have e1 := runsOf_single (pass := 1) hk hj
  obtain ⟨i, g1, g2, g3, g4, g5, g6⟩ := c69_history (key := j.key) h5 (by rw [e1]; simp)
  rw [e1, hr] at g2 g3 g4 g5 g6
  simp only [pushed, List.append_nil] at g5 g6
  refine ⟨out, i, h4, g1, g2, g3, g4, ?_⟩
  by_cases hC : j.stem ∈ C
  · have hj0 : j ∈ patchedJobs C d := List.mem_filter.2 ⟨hj, by simpa using hC⟩
    have e0 := runsOf_single (pass := 0) (patchedJobs_nodup (C := C) hk) hj0
    obtain ⟨i0, f1, -, -, -, f5, f6⟩ := c69_history (key := j.key) h1 (by rw [e0]; simp)
    simp only at f1 f5 f6
    rw [f1, Option.getD_some, f5, e0] at g5
    rw [f1, Option.getD_some, f6, e0] at g6
    rw [if_pos hC, if_pos hC]
    exact ⟨g5, g6⟩
  · have f1 := processDataset_other h1 (patchedJobs_none hk hj hC)
    simp only at f1
    rw [f1] at g5 g6
    rw [if_neg hC, if_neg hC, List.append_nil, List.append_nil]
    exact ⟨g5, g6⟩

/-- The claim for `all`: when no configuration lies in the directory itself and the table is empty, every cell holds
one run. -/
theorem c69_all_partial {datasets order : List (Dataset R)} {D : List String} {st st' : State R}
    (hl : Listing datasets order D) (h : allPatch datasets order D [] st = .ok st') {d : Dataset R}
    (hd : d ∈ datasets) (hs : d.skip = false) (hc : check st.2 d.stem = none) (he : st.1 d.stem = none)
    (hD : d.stem ∈ D) (hk : (d.jobs.map Job.key).Nodup) {j : Job R} (hj : j ∈ d.jobs) {r : Results R}
    (hr : j.run 1 = some (.ok r)) : ∃ out i, st'.1 d.stem = some out ∧ out j.key = some i ∧ Holds i r := by
  obtain ⟨out, i, h1, h2, h3, h4, h5, h6, h7⟩ := c69_patched hl h hd hs hc hD hk hj hr
  rw [he] at h6 h7
  exact ⟨out, i, h1, h2, h3, h4, h5, by simpa [Map.empty, Inner.new] using h6, by simpa [Map.empty, Inner.new] using h7⟩

/-- A data set to be patched and a compressor to be patched, together: max and sum hold two runs, compression one. No
single run of that configuration is what the cell holds. -/
theorem c69_twice {datasets order : List (Dataset R)} {D C : List String} {st st' : State R}
    (hl : Listing datasets order D) (h : allPatch datasets order D C st = .ok st') {d : Dataset R}
    (hd : d ∈ datasets) (hs : d.skip = false) (hc : check st.2 d.stem = none) (he : st.1 d.stem = none)
    (hD : d.stem ∈ D) (hk : (d.jobs.map Job.key).Nodup) {j : Job R} (hj : j ∈ d.jobs) (hC : j.stem ∈ C)
    {r0 r1 : Results R} (hr0 : j.run 0 = some (.ok r0)) (hr1 : j.run 1 = some (.ok r1)) {n : Nat} (hn : 0 < n)
    (hm0 : r0.max.length = n) (hm1 : r1.max.length = n) (hc1 : r1.compress.length = n) :
    ∃ out i, st'.1 d.stem = some out ∧ out j.key = some i ∧ i.compress.length = n ∧ i.max.length = 2 * n ∧
      ∀ r, Holds i r → r ≠ r0 ∧ r ≠ r1 := by
  obtain ⟨out, i, h1, h2, h3, -, -, h6, -⟩ := c69_patched hl h hd hs hc hD hk hj hr1
  rw [he, if_pos hC, hr0] at h6
  have e : i.max.length = 2 * n := by
    rw [h6]
    simp [Map.empty, Inner.new, pushed, hm0, hm1]
    omega
  refine ⟨out, i, h1, h2, by rw [h3, hc1], e, fun r hr => ⟨?_, ?_⟩⟩
  · rintro rfl
    rw [hr.max] at e
    omega
  · rintro rfl
    rw [hr.max] at e
    omega

/-- Patching a compressor of a data set that has results: max and sum are appended to the old ones. -/
theorem c69_again {datasets order : List (Dataset R)} {D C : List String} {st st' : State R}
    (hl : Listing datasets order D) (h : allPatch datasets order D C st = .ok st') {d : Dataset R}
    (hd : d ∈ datasets) (hs : d.skip = false) (hc : check st.2 d.stem = none) (hD : d.stem ∉ D)
    (hk : (d.jobs.map Job.key).Nodup) {j : Job R} (hj : j ∈ d.jobs) (hC : j.stem ∈ C) {r : Results R}
    (hr : j.run 0 = some (.ok r)) {old : Map (Inner R)} {i0 : Inner R} (ho : st.1 d.stem = some old)
    (hi : old j.key = some i0) :
    ∃ out i, st'.1 d.stem = some out ∧ out j.key = some i ∧ i.compress = r.compress ∧
      i.materialize = r.materialize ∧ i.max = i0.max ++ r.max ∧ i.sum = i0.sum ++ r.sum := by
  obtain ⟨out, s, s', h1, h2, -⟩ := allPatch_spec hl h hd hs hc
  have hj0 : j ∈ patchedJobs C d := List.mem_filter.2 ⟨hj, by simpa using hC⟩
  have e0 := runsOf_single (pass := 0) (patchedJobs_nodup (C := C) hk) hj0
  obtain ⟨i, f1, f2, -, f4, f5, f6⟩ := c69_history (key := j.key) h1 (by rw [e0]; simp)
  rw [e0, hr] at f2 f4 f5 f6
  simp only [ho, hi, Option.getD_some, pushed, List.append_nil] at f5 f6
  exact ⟨out, i, h2 hD, f1, f2, f4, f5, f6⟩

/-- Compressors that are not patched keep their cells. -/
theorem c69_kept {datasets order : List (Dataset R)} {D C : List String} {st st' : State R}
    (hl : Listing datasets order D) (h : allPatch datasets order D C st = .ok st') {d : Dataset R}
    (hd : d ∈ datasets) (hs : d.skip = false) (hc : check st.2 d.stem = none) (hD : d.stem ∉ D) {key : String}
    (hk : ∀ j ∈ d.jobs, j.stem ∈ C → j.key ≠ key) :
    ∃ out, st'.1 d.stem = some out ∧ out key = ((st.1 d.stem).getD Map.empty) key := by
  obtain ⟨out, s, s', h1, h2, -⟩ := allPatch_spec hl h hd hs hc
  refine ⟨out, h2 hD, processDataset_other h1 fun j hj => ?_⟩
  obtain ⟨h3, h4⟩ := List.mem_filter.1 hj
  exact hk j h3 (by simpa using h4)

/-- A configuration that is left out has a cell all the same, without any compression run. -/
theorem c69_left_out {datasets order : List (Dataset R)} {D C : List String} {st st' : State R}
    (hl : Listing datasets order D) (h : allPatch datasets order D C st = .ok st') {d : Dataset R}
    (hd : d ∈ datasets) (hs : d.skip = false) (hc : check st.2 d.stem = none) (hD : d.stem ∈ D)
    (hk : (d.jobs.map Job.key).Nodup) {j : Job R} (hj : j ∈ d.jobs) (hr : j.run 1 = none) :
    ∃ out i, st'.1 d.stem = some out ∧ out j.key = some i ∧ i.compress = [] ∧ i.materialize = [] := by
  obtain ⟨o, s, s', h1, -, h3⟩ := allPatch_spec hl h hd hs hc
  obtain ⟨out, t, t', h4, h5⟩ := h3 hD
  have e1 := runsOf_single (pass := 1) hk hj
  obtain ⟨i, g1, g2, g3, g4, g5, g6⟩ := c69_history (key := j.key) h5 (by rw [e1]; simp)
  rw [e1, hr] at g2 g4
  exact ⟨out, i, h4, g1, g2, g4⟩

/-! ### The save directory -/

/-- What is written there is never what is read: whatever the runs, the file of a data set is no map of results, so
an interrupted command starts from the beginning. -/
theorem c69_no_resume (wrapper : R → Json) (family : String → Family R → Json)
    (hw : ∀ r, ∃ fs, wrapper r = .obj fs) (i : Inner R) (names : List String) :
    mayBeTable (toJson wrapper family i names) = false := by
  unfold toJson mayBeTable
  rw [List.all_eq_false]
  refine ⟨("compress", .arr (i.compress.map wrapper)), List.mem_cons_self .., ?_⟩
  cases hc : i.compress with
  | nil => simp [mayBeInner]
  | cons r rs =>
    obtain ⟨fs, hf⟩ := hw r
    match rs with
    | [] => simp [mayBeInner]
    | [_] => simp [mayBeInner]
    | [_, _] => simp [mayBeInner]
    | [_, _, _] => simp [mayBeInner]
    | _ :: _ :: _ :: _ :: _ => simp [mayBeInner, hf, isArr]

/-! ### Averages -/

theorem total_nan {vs : List B64} (h : ∃ v ∈ vs, isNaN v = true) : isNaN (total Soft.ops vs) = true := by
  have add_nan : ∀ a b, isNaN a = true ∨ isNaN b = true → isNaN (Soft.ops.add a b) = true := by
    intro a b hab
    show isNaN (Soft.add a b) = true
    unfold Soft.add
    rw [if_pos (by simpa using hab)]
    decide
  have gen : ∀ (vs : List B64) (acc : B64), (isNaN acc = true ∨ ∃ v ∈ vs, isNaN v = true) →
      isNaN (vs.foldl Soft.ops.add acc) = true := by
    intro vs
    induction vs with
    | nil =>
      rintro acc (h | ⟨v, hv, -⟩)
      · exact h
      · cases hv
    | cons v vs ih =>
      rintro acc (h | ⟨w, hw, hn⟩)
      · exact ih _ (.inl (add_nan _ _ (.inl h)))
      · rcases List.mem_cons.1 hw with rfl | hw
        · exact ih _ (.inl (add_nan _ _ (.inr hn)))
        · exact ih _ (.inr ⟨w, hw, hn⟩)
  exact gen vs _ (.inr h)

theorem div_nan {a b : B64} (h : isNaN a = true) : isNaN (Soft.ops.div a b) = true := by
  show isNaN (Soft.div a b) = true
  unfold Soft.div
  rw [if_pos (by simp [h])]
  decide

/-- One data set without a run, and both averages of the method are NaN, whatever the others are. -/
theorem c69_average_nan (ds : List (List Run)) (h : [] ∈ ds) :
    isNaN (averageRatio Soft.ops ds) = true ∧ isNaN (averageThroughput Soft.ops ds) = true := by
  constructor
  · exact div_nan (total_nan ⟨_, List.mem_map.2 ⟨[], h, rfl⟩, by decide +kernel⟩)
  · exact div_nan (total_nan ⟨_, List.mem_map.2 ⟨[], h, rfl⟩, by decide +kernel⟩)

/-- The average throughput divides by the number of runs once too often: two runs of 16 bytes in 4 ns give 2, not
4. -/
theorem c69_throughput_halved :
    averageThroughput Soft.ops [List.replicate 2 ⟨0, 0x4030000000000000#64, 0x4010000000000000#64⟩] =
      0x4000000000000000#64 ∧
    averageThroughput Soft.ops [List.replicate 1 ⟨0, 0x4030000000000000#64, 0x4010000000000000#64⟩] =
      0x4010000000000000#64 := by decide +kernel

/-! ### A sample: two data sets, one of them patched, two compressors, one of them patched -/

def sampleJob (stem key : String) : Job Nat :=
  ⟨stem, key, fun pass => some (.ok ⟨[10 * pass], [], [10 * pass + 1], [10 * pass + 2], [10 * pass + 3]⟩)⟩

def sampleSets : List (Dataset Nat) :=
  [⟨["data"], "a", false, [sampleJob "gorilla" "Gorilla", sampleJob "rle" "RLE"]⟩,
    ⟨["data"], "b", false, [sampleJob "gorilla" "Gorilla"]⟩]

example : Listing sampleSets [⟨["data"], "a", false, [sampleJob "gorilla" "Gorilla", sampleJob "rle" "RLE"]⟩] ["a"] :=
  ⟨by simp [sampleSets], by decide, List.Perm.refl _⟩

example : ((match allPatch sampleSets [⟨["data"], "a", false, [sampleJob "gorilla" "Gorilla", sampleJob "rle" "RLE"]⟩]
      ["a"] ["gorilla"] (Map.empty, Map.empty) with
    | .ok st => ((st.1 "a").bind fun t => (t "Gorilla").map fun i => (i.compress, i.max))
    | _ => none)) = some ([10], [2, 12]) := by decide

end Ebi.Props
