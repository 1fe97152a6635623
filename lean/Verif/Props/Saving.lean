import Verif.Saving
import Verif.OutputLemmas

/-!
# C76: what the experimenter overwrites and what it keeps
-/

namespace Ebi.Props

open Ebi Ebi.Saving

variable {V : Type}

/-! ### Names -/

theorem lastDot_none {n : Name} (h : '.' ∉ n) : lastDot n = none := by
  induction n with
  | nil => rfl
  | cons c cs ih =>
    rw [List.mem_cons, not_or] at h
    unfold lastDot
    rw [ih h.2]
    exact if_neg fun e => h.1 e.symm

theorem lastDot_append (s : Name) {e : Name} (h : '.' ∉ e) : lastDot (s ++ '.' :: e) = some (s, e) := by
  induction s with
  | nil =>
    show lastDot ('.' :: e) = _
    unfold lastDot
    rw [lastDot_none h]
    rfl
  | cons c cs ih =>
    show lastDot (c :: (cs ++ '.' :: e)) = _
    unfold lastDot
    rw [ih]

/-- A name with a dot that is not in front: stem and extension are around the last dot, and the extension is what
`with_extension` replaces. -/
theorem c76_extension {s e : Name} (hs : s ≠ []) (he : '.' ∉ e) (x : Name) :
    fileStem (s ++ '.' :: e) = s ∧ extension (s ++ '.' :: e) = some e ∧
    withExtension (s ++ '.' :: e) x = s ++ '.' :: x := by
  have h : splitName (s ++ '.' :: e) = (s, some e) := by
    unfold splitName
    rw [lastDot_append s he]
    cases s with
    | nil => exact absurd rfl hs
    | cons c cs => rfl
  simp only [withExtension, fileStem, extension, h, and_self]

/-- A name without a dot has no extension, one is added. -/
theorem c76_no_extension {n : Name} (h : '.' ∉ n) (x : Name) :
    fileStem n = n ∧ extension n = none ∧ withExtension n x = n ++ '.' :: x := by
  simp [withExtension, fileStem, extension, splitName, lastDot_none h]

theorem snoc_split {c : Char} {a b x y : Name} (hx : c ∉ x) (hy : c ∉ y) (h : a ++ c :: x = b ++ c :: y) : a = b ∧ x = y := by
  rcases List.append_eq_append_iff.1 h with ⟨t, rfl, h2⟩ | ⟨t, rfl, h2⟩
  · cases t with
    | nil => simpa using h2
    | cons d t =>
      simp only [List.cons_append, List.cons.injEq] at h2
      exact absurd (h2.2 ▸ List.mem_append_right _ (List.mem_cons_self ..)) hx
  · cases t with
    | nil => simp at h2; exact ⟨by simp, h2.symm⟩
    | cons d t =>
      simp only [List.cons_append, List.cons.injEq] at h2
      exact absurd (h2.2 ▸ List.mem_append_right _ (List.mem_cons_self ..)) hy

/-! ### Directories -/

theorem get_put (d : Dir V) (n m : Name) (v : V) : (d.put n v).get m = if m = n then some v else d.get m := by
  unfold Dir.get Dir.put
  by_cases h : m = n
  · simp [h]
  · rw [if_neg h, List.find?_cons]
    rw [show ((n, v).1 == m) = false from beq_eq_false_iff_ne.2 fun e => h e.symm]
    simp only
    rw [List.find?_filter]
    congr 2
    funext f
    by_cases hf : f.1 = m
    · simp [hf, h]
    · simp [hf]

theorem has_put (d : Dir V) (n m : Name) (v : V) : (d.put n v).has m = (m == n || d.has m) := by
  unfold Dir.has
  rw [get_put]
  by_cases h : m = n <;> simp [h]

theorem has_iff (d : Dir V) (n : Name) : d.has n = true ↔ n ∈ d.map Prod.fst := by
  unfold Dir.has Dir.get
  rw [Option.isSome_map, List.find?_isSome]
  simp only [beq_iff_eq, List.mem_map]

/-! ### Numbers -/

theorem numbered_value (n : Nat) : Nat.ofDigitChars 10 (numbered n) 0 = n := by
  unfold numbered
  rw [Nat.ofDigitChars_append, Nat.ofDigitChars_replicate_zero, Nat.mul_zero, Nat.ofDigitChars_ten_toDigits]

/-- Different numbers have different names. -/
theorem c76_numbered {n m : Nat} {x : Name} (h : numbered n ++ x = numbered m ++ x) : n = m := by
  have := congrArg (fun l => Nat.ofDigitChars 10 l 0) (List.append_cancel_right h)
  simpa only [numbered_value] using this

theorem nextFree_spec {used : Name → Bool} {x : Name} : ∀ {fuel a n : Nat}, nextFree used x fuel a = some n →
    a ≤ n ∧ used (numbered n ++ x) = false ∧ ∀ k, a ≤ k → k < n → used (numbered k ++ x) = true
  | 0, _, _, h => by cases h
  | fuel + 1, a, n, h => by
    unfold nextFree at h
    split at h
    · rename_i hu
      obtain ⟨h1, h2, h3⟩ := nextFree_spec h
      refine ⟨by omega, h2, fun k hk hkn => ?_⟩
      by_cases e : k = a
      · rw [e]; exact hu
      · exact h3 k (by omega) hkn
    · rename_i hu
      cases h
      exact ⟨Nat.le_refl _, by simpa using hu, fun k h1 h2 => by omega⟩

theorem nextFree_none {used : Name → Bool} {x : Name} : ∀ {fuel a : Nat}, nextFree used x fuel a = none →
    ∀ k, a ≤ k → k < a + fuel → used (numbered k ++ x) = true
  | 0, _, _, k, h1, h2 => by omega
  | fuel + 1, a, h, k, h1, h2 => by
    unfold nextFree at h
    split at h
    · rename_i hu
      by_cases e : k = a
      · rw [e]; exact hu
      · exact nextFree_none h k (by omega) (by omega)
    · cases h

/-- The search ends, after at most one try more than there are files, with the least number that is free. -/
theorem c76_free (d : Dir V) (x : Name) (fuel : Nat) (hf : d.length < fuel) :
    ∃ n, nextFree d.has x fuel 0 = some n ∧ d.get (numbered n ++ x) = none ∧
      ∀ k < n, (d.get (numbered k ++ x)).isSome = true := by
  cases h : nextFree d.has x fuel 0 with
  | some n =>
    obtain ⟨-, h2, h3⟩ := nextFree_spec h
    refine ⟨n, rfl, ?_, fun k hk => h3 k (Nat.zero_le _) hk⟩
    unfold Dir.has at h2
    simpa using h2
  | none =>
    have h1 := nextFree_none h
    have hn : ((List.range fuel).map fun k => numbered k ++ x).Nodup := by
      rw [List.Nodup, List.pairwise_map]
      exact List.Pairwise.imp (fun h e => h (c76_numbered e)) (List.nodup_range (n := fuel))
    have hs : ((List.range fuel).map fun k => numbered k ++ x) ⊆ d.map Prod.fst := by
      intro y hy
      obtain ⟨k, hk, rfl⟩ := List.mem_map.1 hy
      exact (has_iff d _).1 (h1 k (Nat.zero_le _) (by have := List.mem_range.1 hk; omega))
    have := hn.length_le_of_subset hs
    simp at this
    omega

/-- Saving a numbered result adds one file and changes none. -/
theorem c76_save (d : Dir V) (v : V) (fuel : Nat) (hf : d.length < fuel) :
    ∃ d' name, saveOutput fuel d v = some d' ∧ d.get name = none ∧ d'.get name = some v ∧
      ∀ m, m ≠ name → d'.get m = d.get m := by
  obtain ⟨n, h1, h2, -⟩ := c76_free d ".json".toList fuel hf
  refine ⟨_, numbered n ++ ".json".toList, by unfold saveOutput; rw [h1]; rfl, h2, by rw [get_put, if_pos rfl], ?_⟩
  intro m hm
  rw [get_put, if_neg hm]

theorem saveOutputs_from {fuel : Nat} : ∀ (vs : List V) (d : Dir V) (a : Nat), d.length + vs.length < fuel →
    (∀ k, d.has (numbered k ++ ".json".toList) = decide (k < a)) →
    ∃ d', saveOutputs fuel d vs = some d' ∧ (∀ i, i < vs.length → d'.get (numbered (a + i) ++ ".json".toList) = vs[i]?) ∧
      ∀ m, d.has m = true → d'.get m = d.get m
  | [], d, a, _, _ => ⟨d, rfl, by simp, fun _ _ => rfl⟩
  | v :: vs, d, a, hf, hd => by
    rw [List.length_cons] at hf
    obtain ⟨n, h1, h2, h3⟩ := c76_free d ".json".toList fuel (by omega)
    have hn : n = a := by
      have g1 : d.has (numbered n ++ ".json".toList) = false := by unfold Dir.has; rw [h2]; rfl
      rw [hd] at g1
      have g2 := of_decide_eq_false g1
      rcases Nat.lt_or_eq_of_le (Nat.le_of_not_lt g2) with g | g
      · have := h3 a g
        change d.has _ = true at this
        rw [hd] at this
        have := of_decide_eq_true this
        omega
      · exact g.symm
    subst hn
    have hlen : (d.put (numbered n ++ ".json".toList) v).length ≤ d.length + 1 := by
      unfold Dir.put
      rw [List.length_cons]
      exact Nat.succ_le_succ (List.length_filter_le ..)
    obtain ⟨d', g1, g2, g3⟩ := saveOutputs_from (fuel := fuel) vs (d.put (numbered n ++ ".json".toList) v) (n + 1)
      (Nat.lt_of_le_of_lt (Nat.add_le_add_right hlen _) (by omega)) (by
      intro k
      rw [has_put, hd]
      by_cases hk : k = n
      · subst hk; simp
      · have : (numbered k ++ ".json".toList == numbered n ++ ".json".toList) = false :=
          beq_eq_false_iff_ne.2 fun e => hk (c76_numbered e)
        rw [this, Bool.false_or]
        simp only [decide_eq_decide]
        omega)
    refine ⟨d', ?_, ?_, ?_⟩
    · unfold saveOutputs saveOutput
      rw [h1]
      exact g1
    · intro i hi
      cases i with
      | zero =>
        rw [Nat.add_zero, g3 _ (by rw [has_put]; simp), get_put, if_pos rfl]
        rfl
      | succ i =>
        rw [show n + (i + 1) = n + 1 + i by omega, g2 i (by simpa using hi)]
        rfl
    · intro m hm
      rw [g3 m (by rw [has_put, hm, Bool.or_true]), get_put, if_neg]
      rintro rfl
      unfold Dir.has at hm
      rw [h2] at hm
      cases hm

/-- Results saved one after the other in an empty directory are numbered from 0 in this order. -/
theorem c76_sequence (vs : List V) (fuel : Nat) (hf : vs.length < fuel) :
    ∃ d, saveOutputs fuel [] vs = some d ∧ ∀ i, i < vs.length → d.get (numbered i ++ ".json".toList) = vs[i]? := by
  obtain ⟨d, h1, h2, -⟩ := saveOutputs_from vs ([] : Dir V) 0 (by simpa using hf) (by intro k; rfl)
  exact ⟨d, h1, fun i hi => by simpa using h2 i hi⟩

/-- A number is chosen before the experiment and used after it: of two runs at the same time that choose one directory the
later one replaces the result of the earlier. -/
theorem c76_race (d : Dir V) (v w : V) :
    (saveEmbedding (saveEmbedding d v) w).get "embedding_result.json".toList = some w ∧
    ∀ m, (saveEmbedding (saveEmbedding d v) w).get m = (saveEmbedding d w).get m := by
  unfold saveEmbedding
  refine ⟨by rw [get_put, if_pos rfl], fun m => ?_⟩
  simp only [get_put]
  split <;> rfl

/-- `save_json_safely` changes no file that is there, also when it says it has saved; it writes exactly when there is none. -/
theorem c76_safely (d : Dir V) (n : Name) (v : V) :
    (∀ m w, d.get m = some w → (saveSafely d n v).1.get m = some w) ∧
    ((saveSafely d n v).2 = true ↔ (d.get n).isSome = true) ∧
    ((saveSafely d n v).2 = false → (saveSafely d n v).1.get n = some v) := by
  unfold saveSafely
  by_cases h : d.has n = true
  · rw [if_pos h]
    exact ⟨fun _ _ h => h, ⟨fun _ => h, fun _ => rfl⟩, by simp⟩
  · rw [if_neg h]
    refine ⟨fun m w hm => ?_, ⟨by simp, fun h' => absurd h' h⟩, fun _ => by rw [get_put, if_pos rfl]⟩
    rw [get_put, if_neg]
    · exact hm
    · rintro rfl
      apply h
      unfold Dir.has
      rw [hm]
      rfl

/-! ### Results of UCR2018 -/

/-- With a precision the names tell data set and precision; without one they tell the data set. -/
theorem c76_ucr_names (a b : Name) (p q : Nat) :
    (ucrName a (some p) = ucrName b (some q) ↔ a = b ∧ p = q) ∧ (ucrName a none = ucrName b none ↔ a = b) := by
  refine ⟨⟨fun h => ?_, by rintro ⟨rfl, rfl⟩; rfl⟩, ⟨fun h => List.append_cancel_right h, by rintro rfl; rfl⟩⟩
  change a ++ '_' :: (Nat.toDigits 10 p ++ ".json".toList) = b ++ '_' :: (Nat.toDigits 10 q ++ ".json".toList) at h
  rw [← List.cons_append, ← List.cons_append, ← List.append_assoc, ← List.append_assoc] at h
  obtain ⟨h1, h2⟩ := snoc_split Nat.underscore_not_in_toDigits Nat.underscore_not_in_toDigits (List.append_cancel_right h)
  refine ⟨h1, ?_⟩
  have := congrArg (fun l => Nat.ofDigitChars 10 l 0) h2
  simpa only [Nat.ofDigitChars_ten_toDigits] using this

/-- The two kinds are in one directory: a data set `A_3` without a precision is replaced by the data set `A` with three
decimals, and only such names meet. -/
theorem c76_ucr_meet (a b : Name) (p : Nat) :
    ucrName a (some p) = ucrName b none ↔ b = a ++ '_' :: Nat.toDigits 10 p := by
  show a ++ '_' :: (Nat.toDigits 10 p ++ ".json".toList) = b ++ ".json".toList ↔ _
  rw [← List.cons_append, ← List.append_assoc]
  exact ⟨fun h => (List.append_cancel_right h).symm, by rintro rfl; rfl⟩

/-! ### Results of data sets -/

theorem saveBinaries_get (rs : List (Name × V)) (d : Dir V) (m : Name) :
    (saveBinaries d rs).get m =
      match rs.reverse.find? fun r => savedName r.1 == m with
      | some r => some r.2
      | none => d.get m := by
  induction rs generalizing d with
  | nil => rfl
  | cons r rs ih =>
    unfold saveBinaries
    rw [ih, List.reverse_cons, List.find?_append, get_put]
    cases rs.reverse.find? fun r => savedName r.1 == m with
    | some r => rfl
    | none =>
      by_cases h : m = savedName r.1
      · simp [h]
      · have : (savedName r.1 == m) = false := beq_eq_false_iff_ne.2 fun e => h e.symm
        simp [h, this]

/-- The saved file of a binary file holds the results of the last one that has the same name; two have the same name when
their stems have the same stem. -/
theorem c76_saved (rs : List (Name × V)) (d : Dir V) (n : Name) :
    (saveBinaries d rs).get (savedName n) =
      match rs.reverse.find? fun r => fileStem (fileStem r.1) == fileStem (fileStem n) with
      | some r => some r.2
      | none => d.get (savedName n) := by
  rw [saveBinaries_get]
  have : (fun r : Name × V => savedName r.1 == savedName n) = fun r => fileStem (fileStem r.1) == fileStem (fileStem n) := by
    funext r
    unfold savedName withExtension
    by_cases h : fileStem (fileStem r.1) = fileStem (fileStem n)
    · simp [h]
    · have : ¬ fileStem (fileStem r.1) ++ '.' :: "json".toList = fileStem (fileStem n) ++ '.' :: "json".toList :=
        fun e => h (List.append_cancel_right e)
      rw [beq_eq_false_iff_ne.2 h, beq_eq_false_iff_ne.2 this]
  rw [this]

/-- Without a dot in the stem the saved file has its name; with one, what follows the last dot is lost: `a.v1.bin` and
`a.v2.bin` share one file. -/
theorem c76_saved_name {s : Name} (hs : s ≠ []) :
    ('.' ∉ s → savedName (s ++ ".bin".toList) = s ++ ".json".toList) ∧
    (∀ e, '.' ∉ e → savedName (s ++ '.' :: (e ++ ".bin".toList)) = s ++ ".json".toList) := by
  have hb : '.' ∉ "bin".toList := by decide
  refine ⟨fun h => ?_, fun e he => ?_⟩
  · have h1 := (c76_extension hs hb []).1
    have h2 := (c76_no_extension h "json".toList).2.2
    unfold savedName
    show withExtension (fileStem (s ++ '.' :: "bin".toList)) _ = _
    rw [h1, h2]
    rfl
  · have h1 := (c76_extension (s := s ++ '.' :: e) (by simp) hb []).1
    have h2 := (c76_extension hs he "json".toList).2.2
    unfold savedName
    have : s ++ '.' :: (e ++ ".bin".toList) = (s ++ '.' :: e) ++ '.' :: "bin".toList := by simp
    rw [this, h1, h2]
    rfl

/-! ### The output of compress -/

/-- Two inputs share an output exactly when they have the same stem; an output is its own input exactly when the
extension is `ebi`. -/
theorem c76_compressed (n m : Name) :
    (compressedName n = compressedName m ↔ fileStem n = fileStem m) ∧
    (compressedName n = n ↔ extension n = some "ebi".toList) := by
  unfold compressedName
  refine ⟨⟨fun h => List.append_cancel_right h, fun h => by unfold withExtension; rw [h]⟩, ?_⟩
  have hs : ∀ n : Name, lastDot n = none ∧ '.' ∉ n ∨ ∃ a b, lastDot n = some (a, b) ∧ n = a ++ '.' :: b ∧ '.' ∉ b := by
    intro n
    induction n with
    | nil => exact Or.inl ⟨rfl, by simp⟩
    | cons c cs ih =>
      unfold lastDot
      rcases ih with ⟨h1, h2⟩ | ⟨a, b, h1, h2, h3⟩
      · rw [h1]
        by_cases hc : c = '.'
        · exact Or.inr ⟨[], cs, by simp [hc], by simp [hc], h2⟩
        · refine Or.inl ⟨by simp [hc], ?_⟩
          rw [List.mem_cons, not_or]
          exact ⟨fun e => hc e.symm, h2⟩
      · rw [h1]
        exact Or.inr ⟨c :: a, b, rfl, by rw [h2]; rfl, h3⟩
  have hlen : ∀ x : Name, x ++ '.' :: "ebi".toList ≠ x := by
    intro x h
    have := congrArg List.length h
    simp at this
  rcases hs n with ⟨h1, h2⟩ | ⟨a, b, h1, h2, h3⟩
  · obtain ⟨-, e2, e3⟩ := c76_no_extension h2 "ebi".toList
    rw [e2, e3]
    simp
  · cases a with
    | nil =>
      have e2 : extension n = none := by simp [extension, splitName, h1]
      have e3 : withExtension n "ebi".toList = n ++ '.' :: "ebi".toList := by simp [withExtension, fileStem, splitName, h1]
      rw [e2, e3]
      simp
    | cons c a =>
      obtain ⟨-, e2, e3⟩ := c76_extension (s := c :: a) (by simp) h3 "ebi".toList
      rw [← h2] at e2 e3
      rw [e2, e3]
      refine ⟨fun h => ?_, fun h => ?_⟩
      · rw [h2] at h
        simp only [List.append_cancel_left_eq, List.cons.injEq] at h
        rw [h.2]
      · cases h
        exact h2.symm

/-- Compressing a file of another extension leaves it as it is and gives the same in memory or not. In memory, the
output always holds the encoding of the input. A file `x.ebi` is lost unless it is compressed in memory: what is there
afterwards does not depend on what it held. -/
theorem c76_compress (encode : V → V) (self : Option V) (d : Dir V) (n : Name) (v : V) (hv : d.get n = some v) :
    (extension n ≠ some "ebi".toList → ∀ b, ∃ d', compressIn b encode self d n = some d' ∧
      d'.get n = some v ∧ d'.get (compressedName n) = some (encode v)) ∧
    (∃ d', compressIn true encode self d n = some d' ∧ d'.get (compressedName n) = some (encode v) ∧
      ∀ m, m ≠ compressedName n → d'.get m = d.get m) ∧
    (extension n = some "ebi".toList → ∀ w d₁ d₂, compressIn false encode self d n = some d₁ →
      compressIn false encode self (d.put n w) n = some d₂ → ∀ m, d₁.get m = d₂.get m) := by
  have hc := (c76_compressed n n).2
  refine ⟨fun h b => ?_, ⟨d.put (compressedName n) (encode v), by unfold compressIn; rw [hv]; rfl,
    by rw [get_put, if_pos rfl], fun m hm => by rw [get_put, if_neg hm]⟩, fun h w d₁ d₂ h1 h2 m => ?_⟩
  · have hne : compressedName n ≠ n := fun e => h (hc.1 e)
    unfold compressIn
    rw [hv]
    simp only [bne_iff_ne.2 hne, Bool.or_true, if_true]
    refine ⟨_, rfl, ?_, by rw [get_put, if_pos rfl]⟩
    rw [get_put, if_neg fun e => hne e.symm, hv]
  · have he : compressedName n = n := hc.2 h
    unfold compressIn at h1 h2
    rw [hv] at h1
    rw [get_put, if_pos rfl] at h2
    simp only [he, bne_self_eq_false, Bool.or_false, Bool.false_eq_true, if_false] at h1 h2
    cases self with
    | none => cases h1
    | some x =>
      cases h1
      cases h2
      simp only [get_put]
      split <;> rfl

/-! ### The device -/

theorem writeDirect_ok {json : List Byte} {ev : List WriteEvent} (h : (writeDirect json ev).1 = .ok ()) :
    (writeDirect json ev).2 = json := by
  obtain ⟨j, -, h2, -, -, h4, -⟩ := writeLoop_spec ev json [] 0 (Nat.le_refl _)
  change (writeLoop ev json [] 0).1 = .ok () at h
  show (writeLoop ev json [] 0).2.2.file = json
  rcases h4 with ⟨-, rfl⟩ | h4
  · rw [h2, List.take_length]
    simp [overwrite]
  · rw [h4] at h; cases h

/-- `save_json_safely` says `Ok` only when the file is complete. `write_output_json` does so from 8 KiB on; below, it says
`Ok` whatever the device does. -/
theorem c76_reported (json : List Byte) (ev : List WriteEvent) :
    ((writeDirect json ev).1 = .ok () → (writeDirect json ev).2 = json) ∧
    (8192 ≤ json.length → (writeBuffered json ev).1 = .ok () → (writeBuffered json ev).2 = json) ∧
    (json.length < 8192 → (writeBuffered json ev).1 = .ok ()) := by
  refine ⟨writeDirect_ok, fun hl h => ?_, fun hl => ?_⟩
  · have e : Buffered.writeAll json (.new 8192 ⟨[], 0, ev⟩) = Buffered.onInner (Output.writeAll json) (.new 8192 ⟨[], 0, ev⟩) := by
      unfold Buffered.writeAll
      rw [if_neg (by simp [Buffered.spare, Buffered.new]; omega)]
      have : (if (Buffered.new 8192 ⟨[], 0, ev⟩).spare < json.length then (Buffered.new 8192 ⟨[], 0, ev⟩).flushBuf
          else (.ok (), Buffered.new 8192 ⟨[], 0, ev⟩)) = (.ok (), Buffered.new 8192 ⟨[], 0, ev⟩) := by
        split
        · simp [Buffered.flushBuf, Buffered.new, writeLoop]
        · rfl
      rw [this]
      simp only [andThen]
      rw [if_pos (by simp [Buffered.new]; omega)]
    unfold writeBuffered at h ⊢
    rw [e] at h ⊢
    have h1 : (writeDirect json ev).1 = .ok () := h
    have h2 := writeDirect_ok h1
    simp only [Buffered.onInner, Buffered.drop, Buffered.flushBuf, Buffered.new, writeLoop]
    exact h2
  · unfold writeBuffered Buffered.writeAll
    rw [if_pos (by simp [Buffered.spare, Buffered.new]; omega)]

/-- A device that fails at once: a result below 8 KiB is reported as saved, and the file is empty. -/
theorem c76_lost (json : List Byte) (ev : List WriteEvent) (hl : json.length < 8192) :
    writeBuffered json (.failed :: ev) = (.ok (), []) := by
  unfold writeBuffered Buffered.writeAll
  rw [if_pos (by simp [Buffered.spare, Buffered.new]; omega)]
  cases json <;> rfl

/-! ### Instances -/

/-- Three results in a directory that has `000.json` and `002.json`: 001, 003, 004. -/
example : (saveOutputs 10 [("000.json".toList, 7), ("002.json".toList, 8)] [1, 2, 3]).map (fun d =>
    [d.get "000.json".toList, d.get "001.json".toList, d.get "002.json".toList, d.get "003.json".toList, d.get "004.json".toList]) =
    some [some 7, some 1, some 8, some 2, some 3] := by decide +kernel
example : numbered 7 = "007".toList ∧ numbered 1234 = "1234".toList := by decide +kernel
example : ([("000.json".toList, 7)] : Dir Nat).length < 2 := by decide
/-- `a.v1.bin` and `a.v2.bin`. -/
example : (saveBinaries ([] : Dir Nat) [("a.v1.bin".toList, 1), ("a.v2.bin".toList, 2)]) = [("a.json".toList, 2)] := by
  decide +kernel
/-- The data set `A_3`, and `A` with three decimals. -/
example : (saveUcr (some 3) (saveUcr none ([] : Dir Nat) [("A_3".toList, 1), ("A".toList, 2)]) [("A".toList, 5)]).get
    "A_3.json".toList = some 5 := by decide +kernel
example : fileStem ".bin".toList = ".bin".toList ∧ extension "x.tar.gz".toList = some "gz".toList := by decide +kernel
/-- Compressing `x.bin` and `x.dat`, and compressing `x.ebi`. -/
example : compressedName "x.bin".toList = compressedName "x.dat".toList ∧
    extension "x.ebi".toList = some "ebi".toList ∧ extension "x.bin".toList ≠ some "ebi".toList := by decide +kernel
example : (compressIn true (· + 1) none [("x.ebi".toList, 5)] "x.ebi".toList) = some [("x.ebi".toList, 6)] ∧
    (compressIn false (· + 1) (some 0) [("x.ebi".toList, 5)] "x.ebi".toList) = some [("x.ebi".toList, 0)] := by decide +kernel
/-- A device that takes two bytes and fails. -/
example : writeDirect [1#8, 2#8, 3#8] [.accept 2, .failed] = (.err, [1#8, 2#8]) ∧
    writeBuffered [1#8, 2#8, 3#8] [.accept 2, .failed] = (.ok (), [1#8, 2#8]) ∧
    writeDirect [1#8, 2#8, 3#8] [.accept 2, .interrupted] = (.ok (), [1#8, 2#8, 3#8]) := by
  refine ⟨?_, ?_, ?_⟩ <;> rfl

end Ebi.Props
