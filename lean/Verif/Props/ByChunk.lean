import Verif.Props.Commands
import Verif.SoftLemmas

/-!
# Asking chunk by chunk (C81)

Every query takes an optional chunk id. The whole answer is the combination of the answers for the single chunks, for any
file, damaged ones too, and a chunk id restricts a query as a bitmask with the records of that chunk does.
-/

namespace Ebi.Props

open Ebi Commands Saving

/-! ## Specification -/

/-- All answers, or the first failure. -/
def inOrder {A : Type} : List (Res A) → Res (List A)
  | [] => .ok []
  | x :: xs => x.bind fun v => (inOrder xs).map (v :: ·)

/-- The answers for chunk 0, 1, … -/
def eachChunk {A : Type} (d : Decoder) (f : Nat → Res A) : Res (List A) :=
  inOrder ((List.range d.info.footer.chunks).map f)

/-! ## The loop -/

section loop

variable {A V : Type} {m : Metadata} {bm : Option Bitmap}

/-- What chunk `i` contributes: nothing if no record of it is selected. -/
def share (m : Metadata) (bm : Option Bitmap) (part : Nat → Res V) (i : Nat) : Res (Option V) :=
  (m.recordRangeU32 i).bind fun r => if rangeDisjoint bm r then .ok none else (part i).map some

def put (g : A → V → A) (a : A) : Option V → A
  | none => a
  | some v => g a v

theorem chunkLoop_share {body : Nat → A → Res A} {part : Nat → Res V} {g : A → V → A}
    (hb : ∀ i a, body i a = (part i).map (g a)) (is : List Nat) (a : A) :
    chunkLoop m bm none body is a = (inOrder (is.map (share m bm part))).map fun os => os.foldl (put g) a := by
  induction is generalizing a with
  | nil => rfl
  | cons i is ih =>
    rw [chunkLoop, if_pos (by simp), List.map_cons, inOrder, share]
    cases m.recordRangeU32 i with
    | err => rfl
    | panic => rfl
    | ok r =>
      simp only [Res.bind_ok, Res.bind]
      cases hd : rangeDisjoint bm r with
      | true =>
        simp only [if_true, ih, Res.map_map]
        rfl
      | false =>
        simp only [Bool.false_eq_true, if_false, hb]
        cases part i with
        | err => rfl
        | panic => rfl
        | ok v =>
          simp only [Res.map_ok, Res.bind_ok, ih, Res.map_map]
          rfl

theorem chunkLoop_only {body : Nat → A → Res A} {part : Nat → Res V} {g : A → V → A}
    (hb : ∀ i a, body i a = (part i).map (g a)) (k n : Nat) (a : A) :
    chunkLoop m bm (some k) body (List.range n) a = if k < n then (share m bm part k).map (put g a) else .ok a := by
  have key : ∀ (is : List Nat) (a : A), is.Nodup →
      chunkLoop m bm (some k) body is a = if k ∈ is then (share m bm part k).map (put g a) else .ok a := by
    intro is
    induction is with
    | nil => intro a _; rfl
    | cons i is ih =>
      intro a hn
      rw [List.nodup_cons] at hn
      rw [chunkLoop]
      by_cases hk : k = i
      · subst hk
        rw [if_pos (by simp), if_pos (by simp), share]
        cases m.recordRangeU32 k with
        | err => rfl
        | panic => rfl
        | ok r =>
          simp only [Res.bind_ok, Res.bind]
          cases hd : rangeDisjoint bm r with
          | true => simp only [if_true, ih a hn.2, if_neg hn.1, Res.map_ok, put]
          | false =>
            simp only [Bool.false_eq_true, if_false, hb]
            cases part k with
            | err => rfl
            | panic => rfl
            | ok v => simp only [Res.map_ok, Res.bind_ok, ih _ hn.2, if_neg hn.1, put]
      · rw [if_neg (by simpa using hk), ih a hn.2]
        simp only [List.mem_cons, hk, false_or]
  rw [key _ _ List.nodup_range]
  simp only [List.mem_range]

theorem inOrder_map {B : Type} (f : A → B) (xs : List (Res A)) :
    inOrder (xs.map fun x => x.map f) = (inOrder xs).map fun vs => vs.map f := by
  induction xs with
  | nil => rfl
  | cons x xs ih =>
    rw [List.map_cons, inOrder, inOrder, ih]
    cases x with
    | err => rfl
    | panic => rfl
    | ok v =>
      simp only [Res.map_ok, Res.bind, Res.map_map]
      rfl

/-- The whole loop from the loops for the single chunks: `h` combines their results. -/
theorem chunkLoop_each {body : Nat → A → Res A} {part : Nat → Res V} {g : A → V → A}
    (hb : ∀ i a, body i a = (part i).map (g a)) {h : A → A → A} {init : A} (Inv : A → Prop) (hi : Inv init)
    (hg : ∀ a v, Inv a → Inv (g a v)) (h0 : ∀ a, Inv a → h a init = a) (h1 : ∀ a v, Inv a → h a (g init v) = g a v)
    (n : Nat) :
    chunkLoop m bm none body (List.range n) init =
      (inOrder ((List.range n).map fun k => chunkLoop m bm (some k) body (List.range n) init)).map fun rs =>
        rs.foldl h init := by
  have e : (List.range n).map (fun k => chunkLoop m bm (some k) body (List.range n) init) =
      ((List.range n).map (share m bm part)).map fun x => x.map (put g init) := by
    rw [List.map_map]
    refine List.map_congr_left fun k hk => ?_
    rw [chunkLoop_only hb, if_pos (List.mem_range.1 hk)]
    rfl
  rw [e, inOrder_map, chunkLoop_share hb, Res.map_map]
  congr 1
  funext os
  have : ∀ (os : List (Option V)) (a : A), Inv a →
      os.foldl (put g) a = (os.map (put g init)).foldl h a := by
    intro os
    induction os with
    | nil => intro a _; rfl
    | cons o os ih =>
      intro a ha
      rw [List.map_cons, List.foldl_cons, List.foldl_cons]
      cases o with
      | none => simp only [put]; rw [h0 a ha]; exact ih a ha
      | some v => simp only [put]; rw [h1 a v ha]; exact ih _ (hg a v ha)
  exact this os init hi

end loop

theorem foldl_append_flatten (xs : List (List B64)) (a : List B64) : xs.foldl (· ++ ·) a = a ++ xs.flatten := by
  induction xs generalizing a with
  | nil => simp
  | cons x xs ih => rw [List.foldl_cons, ih, List.flatten_cons, List.append_assoc]

theorem bind_map_of {P V A : Type} (g : A → V → A) (x : Res P) (f : P → Res V) (a : A) :
    (x >>= fun p => f p >>= fun v => Res.ok (g a v)) = (x.bind f).map (g a) := by
  cases x with
  | err => rfl
  | panic => rfl
  | ok p => show (f p >>= _) = (f p).map _; cases f p <;> rfl

/-! ## Any file -/

/-- `materialize`: the values of the chunks one after the other; it fails as the first chunk that fails. -/
theorem c81_materialize (E : Env) (d : Decoder) (bm : Option Bitmap) :
    d.materialize E bm none = (eachChunk d fun k => d.materialize E bm (some k)).map List.flatten := by
  refine (chunkLoop_each (g := fun (a : List B64) v => a ++ v) (h := (· ++ ·))
    (part := fun i => (loadChunk (E.scheme d.info.footer.config) d.file d.info i).bind fun x =>
      (d.ops E).materialize x.1 x.2.1 bm x.2.2)
    (fun i a => bind_map_of _ _ (fun x : Nat × List Byte × Nat => (d.ops E).materialize x.1 x.2.1 bm x.2.2) a)
    (fun _ => True) trivial (fun _ _ _ => trivial) (fun a _ => List.append_nil a) (fun a v _ => by rw [List.nil_append]) _).trans ?_
  unfold eachChunk
  congr 1
  funext rs
  rw [foldl_append_flatten, List.nil_append]

/-- `filter_materialize`, the same. -/
theorem c81_filter_materialize (E : Env) (d : Decoder) (p : Predicate B64) (bm : Option Bitmap) :
    d.filterMaterialize E p bm none = (eachChunk d fun k => d.filterMaterialize E p bm (some k)).map List.flatten := by
  refine (chunkLoop_each (g := fun (a : List B64) v => a ++ v) (h := (· ++ ·))
    (part := fun i => (loadChunk (E.scheme d.info.footer.config) d.file d.info i).bind fun x =>
      (d.ops E).filterMaterialize x.1 x.2.1 p bm x.2.2)
    (fun i a => bind_map_of _ _ (fun x : Nat × List Byte × Nat => (d.ops E).filterMaterialize x.1 x.2.1 p bm x.2.2) a)
    (fun _ => True) trivial (fun _ _ _ => trivial) (fun a _ => List.append_nil a) (fun a v _ => by rw [List.nil_append]) _).trans ?_
  unfold eachChunk
  congr 1
  funext rs
  rw [foldl_append_flatten, List.nil_append]

theorem union_union_nil {a b : Bitmap} (ha : a.Pairwise (· < ·)) : Bitmap.union a (Bitmap.union [] b) = Bitmap.union a b := by
  refine Bitmap.sorted_ext (Bitmap.union_sorted _ ha) (Bitmap.union_sorted _ ha) fun x => ?_
  simp only [Bitmap.mem_union, List.not_mem_nil, false_or]

/-- `filter`: the union over the chunks. -/
theorem c81_filter (E : Env) (d : Decoder) (p : Predicate B64) (bm : Option Bitmap) :
    d.filter E p bm none = (eachChunk d fun k => d.filter E p bm (some k)).map fun rs => rs.foldl Bitmap.union [] :=
  chunkLoop_each (g := Bitmap.union) (h := Bitmap.union)
    (part := fun i => (loadChunk (E.scheme d.info.footer.config) d.file d.info i).bind fun x =>
      (d.ops E).filter x.1 x.2.1 p bm x.2.2)
    (fun i a => bind_map_of _ _ (fun x : Nat × List Byte × Nat => (d.ops E).filter x.1 x.2.1 p bm x.2.2) a)
    (fun a => a.Pairwise (· < ·)) List.Pairwise.nil (fun a v h => Bitmap.union_sorted v h) (fun a _ => rfl)
    (fun a v h => union_union_nil h) _

theorem negInf_least {v : B64} (hv : isNaN v = false) (h : fle v negInf = true) : v = negInf := by
  simp only [fle, Bool.and_eq_true, decide_eq_true_eq] at h
  simp only [isNaN, decide_eq_false_iff_not] at hv
  have h1 := h.2
  rw [show key negInf = -0x7ff0000000000000 by decide] at h1
  unfold key at h1
  cases hs : sgn v with
  | false => rw [hs] at h1; simp at h1; omega
  | true =>
    rw [hs, if_pos rfl] at h1
    rw [← Soft.mk_sgn_mag v, hs, show mag v = 0x7ff0000000000000 by omega]
    rfl

/-- `max`: the greatest of the answers for the chunks. -/
theorem c81_max (E : Env) (ho : MinMaxLaw E.o) (d : Decoder) (bm : Option Bitmap) :
    d.max E bm none = (eachChunk d fun k => d.max E bm (some k)).map fun rs => rs.foldl E.o.fmax negInf := by
  have n1 : isNaN negInf = false := by decide
  have h0 : ∀ a, isNaN a = false → E.o.fmax a negInf = a := by
    intro a ha
    rcases ho.max a negInf ha n1 with ⟨h, -⟩ | ⟨h, h'⟩
    · exact h
    · rw [h, negInf_least ha h']
  have h2 : ∀ v, isNaN v = false → E.o.fmax negInf v = v := by
    intro v hv
    rcases ho.max negInf v n1 hv with ⟨h, h'⟩ | ⟨h, -⟩
    · rw [h, negInf_least hv h']
    · exact h
  exact chunkLoop_each (g := E.o.fmax) (h := E.o.fmax)
    (part := fun i => (loadChunk (E.scheme d.info.footer.config) d.file d.info i).bind fun x =>
      (d.ops E).max x.1 x.2.1 bm x.2.2)
    (fun i a => bind_map_of _ _ (fun x : Nat × List Byte × Nat => (d.ops E).max x.1 x.2.1 bm x.2.2) a)
    (fun a => isNaN a = false) n1
    (fun a v ha => by
      cases hv : isNaN v with
      | true => rw [(ho.max_nan a v ha hv).1]; exact ha
      | false => rcases ho.max a v ha hv with ⟨h, -⟩ | ⟨h, -⟩ <;> rw [h] <;> assumption)
    h0
    (fun a v ha => by
      cases hv : isNaN v with
      | true => rw [(ho.max_nan negInf v n1 hv).1, (ho.max_nan a v ha hv).1, h0 a ha]
      | false => rw [h2 v hv]) _

theorem posInf_greatest {v : B64} (hv : isNaN v = false) (h : fle posInf v = true) : v = posInf := by
  simp only [fle, Bool.and_eq_true, decide_eq_true_eq] at h
  simp only [isNaN, decide_eq_false_iff_not] at hv
  have h1 := h.2
  rw [show key posInf = 0x7ff0000000000000 by decide] at h1
  unfold key at h1
  cases hs : sgn v with
  | true => rw [hs, if_pos rfl] at h1; omega
  | false =>
    rw [hs, if_neg (by decide)] at h1
    rw [← Soft.mk_sgn_mag v, hs, show mag v = 0x7ff0000000000000 by omega]
    rfl

/-- `min`: the least of the answers for the chunks. -/
theorem c81_min (E : Env) (ho : MinMaxLaw E.o) (d : Decoder) (bm : Option Bitmap) :
    d.min E bm none = (eachChunk d fun k => d.min E bm (some k)).map fun rs => rs.foldl E.o.fmin posInf := by
  have n1 : isNaN posInf = false := by decide
  have h0 : ∀ a, isNaN a = false → E.o.fmin a posInf = a := by
    intro a ha
    rcases ho.min a posInf ha n1 with ⟨h, -⟩ | ⟨h, h'⟩
    · exact h
    · rw [h, posInf_greatest ha h']
  have h2 : ∀ v, isNaN v = false → E.o.fmin posInf v = v := by
    intro v hv
    rcases ho.min posInf v n1 hv with ⟨h, h'⟩ | ⟨h, -⟩
    · rw [h, posInf_greatest hv h']
    · exact h
  exact chunkLoop_each (g := E.o.fmin) (h := E.o.fmin)
    (part := fun i => (loadChunk (E.scheme d.info.footer.config) d.file d.info i).bind fun x =>
      (d.ops E).min x.1 x.2.1 bm x.2.2)
    (fun i a => bind_map_of _ _ (fun x : Nat × List Byte × Nat => (d.ops E).min x.1 x.2.1 bm x.2.2) a)
    (fun a => isNaN a = false) n1
    (fun a v ha => by
      cases hv : isNaN v with
      | true => rw [(ho.min_nan a v ha hv).1]; exact ha
      | false => rcases ho.min a v ha hv with ⟨h, -⟩ | ⟨h, -⟩ <;> rw [h] <;> assumption)
    h0
    (fun a v ha => by
      cases hv : isNaN v with
      | true => rw [(ho.min_nan posInf v n1 hv).1, (ho.min_nan a v ha hv).1, h0 a ha]
      | false => rw [h2 v hv]) _

theorem plain_sgn {a : B64} (ha : Soft.Plain a) (h : exactVal a = 0) : sgn a = false := by
  cases hs : sgn a with
  | false => rfl
  | true =>
    exfalso
    apply ha.1
    rw [← Soft.mk_sgn_mag a, hs, Soft.exactVal_eq_zero.1 h]
    rfl

theorem zero_add_soft {v : B64} (hn : isNaN v = false) (hv : v ≠ 0x8000000000000000#64) : Soft.add 0#64 v = v := by
  unfold Soft.add
  have hz : isNaN 0#64 = false := by decide
  have hzi : isInf 0#64 = false := by decide
  have hze : exactVal 0#64 = 0 := by decide
  have hzs : sgn 0#64 = false := by decide
  rw [hz, hzi, hze, hzs, hn]
  simp only [Bool.or_self, Bool.false_eq_true, if_false, Bool.false_and, Int.zero_add]
  split
  · rfl
  · split
    · rename_i hx
      rw [← Soft.mk_sgn_mag v, plain_sgn ⟨hv, fun h => by rw [hn] at h; cases h⟩ hx, Soft.exactVal_eq_zero.1 hx]
    · rename_i hx
      have hm : mag v ≠ 0 := fun h => hx (Soft.exactVal_eq_zero.2 h)
      have hs : decide (exactVal v < 0) = sgn v := by
        rw [Bool.eq_iff_iff, decide_eq_true_eq]
        exact Soft.exactVal_neg_iff hm
      have hfin : mag v ≤ 0x7ff0000000000000 := by
        simp only [isNaN, decide_eq_false_iff_not] at hn
        omega
      rw [Soft.rnd, Soft.exactVal_natAbs, Soft.roundMag_magVal hfin, hs, Soft.mk_sgn_mag]

theorem add_add_zero {a : B64} (ha : Soft.Plain a) (v : B64) : Soft.add a (Soft.add 0#64 v) = Soft.add a v := by
  cases hn : isNaN v with
  | true =>
    have h1 : Soft.add 0#64 v = Soft.nan := by unfold Soft.add; rw [hn]; simp
    have h2 : isNaN Soft.nan = true := by decide
    rw [h1]
    unfold Soft.add
    rw [hn, h2]
    simp
  | false =>
    by_cases hv : v = 0x8000000000000000#64
    · subst hv
      rw [show Soft.add 0#64 0x8000000000000000#64 = 0#64 by decide, Soft.add_zero ha]
      unfold Soft.add
      have hzi : isInf 0x8000000000000000#64 = false := by decide
      have hze : exactVal 0x8000000000000000#64 = 0 := by decide
      have hzs : sgn 0x8000000000000000#64 = true := by decide
      rw [hn, hzi, hze, hzs, Bool.or_false]
      have e := Soft.add_zero ha
      unfold Soft.add at e
      have hz : isNaN 0#64 = false := by decide
      have hzi' : isInf 0#64 = false := by decide
      have hze' : exactVal 0#64 = 0 := by decide
      have hzs' : sgn 0#64 = false := by decide
      rw [hz, hzi', hze', hzs', Bool.or_false] at e
      simp only [Bool.false_and, Bool.false_eq_true, if_false, Int.add_zero, Bool.and_false, Bool.and_true] at e ⊢
      by_cases hx : exactVal a = 0
      · rw [plain_sgn ha hx]
        simp only [Bool.false_eq_true, if_false]
        exact e.symm
      · simp only [if_neg hx] at e ⊢
        exact e.symm
    · rw [zero_add_soft hn hv]

/-- `sum`, with IEEE addition: the sum of the answers for the chunks, from the first to the last, bit for bit. -/
theorem c81_sum (E : Env) (ho : E.o.add = Soft.add) (d : Decoder) (bm : Option Bitmap) :
    d.sum E bm none = (eachChunk d fun k => d.sum E bm (some k)).map fun rs => rs.foldl E.o.add 0#64 :=
  chunkLoop_each (g := E.o.add) (h := E.o.add)
    (part := fun i => (loadChunk (E.scheme d.info.footer.config) d.file d.info i).bind fun x =>
      (d.ops E).sum x.1 x.2.1 bm x.2.2)
    (fun i a => bind_map_of _ _ (fun x : Nat × List Byte × Nat => (d.ops E).sum x.1 x.2.1 bm x.2.2) a)
    Soft.Plain Soft.plain_zero (fun a v h => by rw [ho]; exact Soft.plain_add h v)
    (fun a h => by rw [ho]; exact Soft.add_zero h) (fun a v h => by rw [ho]; exact add_add_zero h v) _

/-- A chunk the file does not have: no error, the answer over no record. -/
theorem c81_beyond (E : Env) (d : Decoder) (p : Predicate B64) (bm : Option Bitmap) (k : Nat) (hk : d.info.footer.chunks ≤ k) :
    d.materialize E bm (some k) = .ok [] ∧ d.filter E p bm (some k) = .ok [] ∧ d.filterMaterialize E p bm (some k) = .ok [] ∧
    d.sum E bm (some k) = .ok 0#64 ∧ d.min E bm (some k) = .ok posInf ∧ d.max E bm (some k) = .ok negInf := by
  have key : ∀ {A : Type} (body : Nat → A → Res A) (is : List Nat) (a : A), (∀ i ∈ is, i < k) →
      chunkLoop d.info bm (some k) body is a = .ok a := by
    intro A body is
    induction is with
    | nil => intro a _; rfl
    | cons i is ih =>
      intro a h
      rw [chunkLoop, if_neg (by have := h i (by simp); simp; omega)]
      exact ih a fun j hj => h j (by simp [hj])
  have hh : ∀ i ∈ Query.handles d.info, i < k := fun i hi => Nat.lt_of_lt_of_le (List.mem_range.1 hi) hk
  exact ⟨key _ _ _ hh, key _ _ _ hh, key _ _ _ hh, key _ _ _ hh, key _ _ _ hh, key _ _ _ hh⟩

/-! ## A chunk id as a bitmask -/

theorem placed_from {off : Nat} {cs : List Ebi.Chunk} {q : Nat × Ebi.Chunk} (h : q ∈ placed off cs) : off ≤ q.1 := by
  obtain ⟨pre, suf, -, e⟩ := placed_split h
  omega

theorem filter_placed {b : Bitmap} {bm : Option Bitmap} (cs : List Ebi.Chunk) (off k : Nat) {q : Nat × Ebi.Chunk}
    (hq : (placed off cs)[k]? = some q)
    (hb : ∀ x, x ∈ b ↔ q.1 ≤ x ∧ x < q.1 + q.2.1.length ∧ ∀ b0, bm = some b0 → x ∈ b0) (hne : q.2.1 ≠ []) :
    (placed off cs).filter (fun p => !rangeDisjoint (some b) (p.1, p.1 + p.2.1.length)) =
      [q].filter fun p => !rangeDisjoint bm (p.1, p.1 + p.2.1.length) := by
  induction cs generalizing off k with
  | nil => cases hq
  | cons c cs ih =>
    rw [placed] at hq ⊢
    cases k with
    | zero =>
      cases hq
      have htail : (placed (off + c.1.length) cs).filter
          (fun p => !rangeDisjoint (some b) (p.1, p.1 + p.2.1.length)) = [] := by
        rw [List.filter_eq_nil_iff]
        intro p hp
        have h1 := placed_from hp
        simp only [rangeDisjoint, Bool.not_not, List.any_eq_true, decide_eq_true_eq, not_exists, not_and]
        intro x hx h2
        have := (hb x).1 hx
        simp only at this
        omega
      have hhead : rangeDisjoint (some b) (off, off + c.1.length) = rangeDisjoint bm (off, off + c.1.length) := by
        cases bm with
        | none =>
          have hl : 0 < c.1.length := List.length_pos_iff.2 hne
          simp only [rangeDisjoint, Bool.not_eq_false', List.any_eq_true, decide_eq_true_eq]
          exact ⟨off, (hb off).2 ⟨Nat.le_refl _, by simp only; omega, fun _ h => by cases h⟩, Nat.le_refl _, by omega⟩
        | some b0 =>
          simp only [rangeDisjoint]
          congr 1
          rw [Bool.eq_iff_iff, List.any_eq_true, List.any_eq_true]
          constructor
          · rintro ⟨x, hx, h⟩
            exact ⟨x, ((hb x).1 hx).2.2 b0 rfl, h⟩
          · rintro ⟨x, hx, h⟩
            have h' := of_decide_eq_true h
            exact ⟨x, (hb x).2 ⟨h'.1, h'.2, fun b1 e => by cases e; exact hx⟩, h⟩
      rw [List.filter_cons, htail, hhead, List.filter_cons]
      simp
    | succ k =>
      have hq' : (placed (off + c.1.length) cs)[k]? = some q := by simpa using hq
      rw [List.filter_cons, if_neg, ih _ _ hq']
      have h1 := placed_from (List.mem_of_getElem? hq')
      simp only [rangeDisjoint, Bool.not_not, List.any_eq_true, decide_eq_true_eq, not_exists, not_and]
      intro x hx h2
      have := (hb x).1 hx
      omega

theorem visited_as_bitmask {b : Bitmap} {bm : Option Bitmap} {cs : List Ebi.Chunk} {k : Nat} {q : Nat × Ebi.Chunk}
    (hq : (placed 0 cs)[k]? = some q)
    (hb : ∀ x, x ∈ b ↔ q.1 ≤ x ∧ x < q.1 + q.2.1.length ∧ ∀ b0, bm = some b0 → x ∈ b0) (hne : q.2.1 ≠ []) :
    visited bm (some k) 0 0 cs = visited (some b) none 0 0 cs := by
  have h := visited_some bm k 0 0 cs
  rw [Nat.zero_add] at h
  rw [h, hq, visited_none, filter_placed cs 0 k hq hb hne]
  rfl

theorem selected_as_bitmask {b : Bitmap} {bm : Option Bitmap} {lo n x : Nat}
    (hb : ∀ x, x ∈ b ↔ lo ≤ x ∧ x < lo + n ∧ ∀ b0, bm = some b0 → x ∈ b0) (h1 : lo ≤ x) (h2 : x < lo + n)
    (h3 : lo + n ≤ 2 ^ 32) : selected bm x = selected (some b) x := by
  unfold selected
  rw [Nat.mod_eq_of_lt (by omega)]
  cases bm with
  | none =>
    simp only
    exact (List.contains_iff_mem.2 ((hb x).2 ⟨h1, h2, fun _ h => by cases h⟩)).symm
  | some b0 =>
    simp only
    rw [Bool.eq_iff_iff]
    show b0.contains x = true ↔ b.contains x = true
    rw [List.contains_iff_mem, List.contains_iff_mem, hb]
    exact ⟨fun h => ⟨h1, h2, fun _ e => by cases e; exact h⟩, fun h => h.2.2 _ rfl⟩

/-- The queries on a chunk's values depend on what is selected there only. -/
theorem default_congr {bm bm' : Option Bitmap} (vs : List B64) (off : Nat)
    (h : ∀ i, i < vs.length → selected bm (off + i) = selected bm' (off + i)) :
    defaultMaterialize bm off vs = defaultMaterialize bm' off vs ∧
    (∀ p, defaultFilterMaterialize p bm off vs = defaultFilterMaterialize p bm' off vs) ∧
    (∀ p r, defaultFilter p bm r off vs = defaultFilter p bm' r off vs) ∧
    (∀ f acc, defaultFold f bm acc off vs = defaultFold f bm' acc off vs) := by
  induction vs generalizing off with
  | nil => exact ⟨rfl, fun _ => rfl, fun _ _ => rfl, fun _ _ => rfl⟩
  | cons v vs ih =>
    have h0 : selected bm off = selected bm' off := h 0 (by simp)
    obtain ⟨i1, i2, i3, i4⟩ := ih (off + 1) (fun i hi => by
      have := h (i + 1) (by simpa using hi)
      rwa [show off + (i + 1) = off + 1 + i by omega] at this)
    refine ⟨?_, fun p => ?_, fun p r => ?_, fun f acc => ?_⟩
    · simp only [defaultMaterialize, h0, i1]
    · simp only [defaultFilterMaterialize, h0, i2]
    · simp only [defaultFilter, h0, i3]
    · simp only [defaultFold, h0, i4]

theorem foldlM_congr_mem {A B : Type} {f g : A → B → Res A} (xs : List B) (h : ∀ x ∈ xs, ∀ a, f a x = g a x) (a : A) :
    xs.foldlM f a = xs.foldlM g a := by
  induction xs generalizing a with
  | nil => rfl
  | cons x xs ih =>
    rw [List.foldlM_cons, List.foldlM_cons, h x (by simp)]
    congr 1
    funext a
    exact ih (fun y hy => h y (by simp [hy])) a

/-- A chunk id restricts a query as a bitmask with the records of that chunk does: `materialize` for every scheme. -/
theorem c81_as_bitmask {E : Env} {a : Args} {file : List Byte} {m : Metadata} (h : Written E a file m)
    (hr : a.records.length < 2 ^ 32) (k : Nat) (hk : k < m.footer.chunks) :
    ∃ f n, m.footer.chunkFooters[k]? = some f ∧ m.numberOfRecords k = .ok n ∧ ∀ (bm : Option Bitmap) (b : Bitmap),
      (∀ x, x ∈ b ↔ f.logical ≤ x ∧ x < f.logical + n ∧ ∀ b0, bm = some b0 → x ∈ b0) → ∀ prec : Option Nat,
      (prec = none ∨ a.cfg.scheme ≠ .buff →
        Decoder.materialize E ⟨file, m, prec⟩ bm (some k) = Decoder.materialize E ⟨file, m, prec⟩ (some b) none) ∧
      (a.cfg.scheme ≠ .buff → a.cfg.scheme ≠ .deltaSprintz → ∀ p : Predicate B64,
        Decoder.filter E ⟨file, m, prec⟩ p bm (some k) = Decoder.filter E ⟨file, m, prec⟩ p (some b) none ∧
        Decoder.filterMaterialize E ⟨file, m, prec⟩ p bm (some k) =
          Decoder.filterMaterialize E ⟨file, m, prec⟩ p (some b) none ∧
        Decoder.sum E ⟨file, m, prec⟩ bm (some k) = Decoder.sum E ⟨file, m, prec⟩ (some b) none ∧
        Decoder.min E ⟨file, m, prec⟩ bm (some k) = Decoder.min E ⟨file, m, prec⟩ (some b) none ∧
        Decoder.max E ⟨file, m, prec⟩ bm (some k) = Decoder.max E ⟨file, m, prec⟩ (some b) none) := by
  obtain ⟨cs, rfl, rfl, hfit, h2, h3, h4, h5⟩ := h.encoded.chunks h.law h.valid h.accepts h.len
  have hk' : k < cs.length := hk
  have hget : cs[k]? = some cs[k] := List.getElem?_eq_getElem hk'
  have hsplit : cs = cs.take k ++ cs[k] :: cs.drop (k + 1) := by
    rw [← List.drop_eq_getElem_cons hk', List.take_append_drop]
  have hpl := placed_getElem 0 cs k
  rw [hget, Option.map_some, Nat.zero_add] at hpl
  have hi : (cs.take k).length = k := by rw [List.length_take]; omega
  have hne : cs[k].1 ≠ [] := h2.ne_nil h.valid.positive _ (List.mem_map_of_mem (List.getElem_mem hk'))
  have hmem : cs[k] ∈ cs := List.getElem_mem hk'
  generalize cs[k] = c at *
  obtain ⟨c, bs⟩ := c
  have hcnt : recordCount (cs.take k) + c.length ≤ recordCount cs := by
    conv => rhs; rw [hsplit]
    rw [recordCount_append, recordCount_cons]
    omega
  generalize cs.take k = pre at *
  generalize cs.drop (k + 1) = suf at hsplit
  have hst : (a.metadata cs).footer.chunkFooters[k]? = some ⟨headerSize + (blobs pre).length, recordCount pre⟩ := by
    show (Ebi.stored cs)[k]? = _
    rw [hsplit, ← hi]
    exact stored_getElem pre c bs suf
  have hnum : (a.metadata cs).numberOfRecords k = .ok c.length := by
    have hs := (sizes_layout (hsplit ▸ hfit : Fits a.cfg a.opt a.version a.times a.elapsed (pre ++ (c, bs) :: suf))).2
    rw [hsplit, ← hi]
    exact hs
  refine ⟨_, _, hst, hnum, fun bm b hb prec => ?_⟩
  simp only at hb
  have hvis := visited_as_bitmask hpl hb hne
  have hr' : recordCount cs < 2 ^ 32 := by omega
  have hloop : ∀ {A : Type} (op op' : Nat → List Byte → Nat → A → Res A) (x : A),
      (∀ a, op c.length bs (recordCount pre) a = op' c.length bs (recordCount pre) a) →
      chunkLoop (a.metadata cs) bm (some k) (fun i x => do
        let (n, bs, off) ← loadChunk (E.scheme a.cfg) (a.layout cs) (a.metadata cs) i
        op n bs off x) (Query.handles (a.metadata cs)) x =
      chunkLoop (a.metadata cs) (some b) none (fun i x => do
        let (n, bs, off) ← loadChunk (E.scheme a.cfg) (a.layout cs) (a.metadata cs) i
        op' n bs off x) (Query.handles (a.metadata cs)) x := by
    intro A op op' x ho
    have e1 := chunkLoop_walk (cs := cs) (cfg := a.cfg) (opt := a.opt) (version := a.version) (times := a.times)
      (elapsed := a.elapsed) bm (Or.inr hr') (some k)
      (fun i x => do
        let (n, bs, off) ← loadChunk (E.scheme a.cfg) (a.layout cs) (a.metadata cs) i
        op n bs off x) (fun off c a => op c.1.length c.2 off a) (by
          rintro pre ⟨c, b⟩ suf x rfl
          show ((loadChunk (E.scheme a.cfg) (a.layout _) (a.metadata _) _) >>= _) = _
          rw [Args.layout, Args.metadata, loadChunk_layout (E.scheme a.cfg) hfit]
          rfl) x
    have e2 := chunkLoop_walk (cs := cs) (cfg := a.cfg) (opt := a.opt) (version := a.version) (times := a.times)
      (elapsed := a.elapsed) (some b) (Or.inr hr') none
      (fun i x => do
        let (n, bs, off) ← loadChunk (E.scheme a.cfg) (a.layout cs) (a.metadata cs) i
        op' n bs off x) (fun off c a => op' c.1.length c.2 off a) (by
          rintro pre ⟨c, b⟩ suf x rfl
          show ((loadChunk (E.scheme a.cfg) (a.layout _) (a.metadata _) _) >>= _) = _
          rw [Args.layout, Args.metadata, loadChunk_layout (E.scheme a.cfg) hfit]
          rfl) x
    refine e1.trans (Eq.trans ?_ e2.symm)
    rw [walk_eq, walk_eq, ← hvis]
    refine foldlM_congr_mem _ (fun q hq x => ?_) x
    have hv := visited_some bm k 0 0 cs
    rw [Nat.zero_add, hpl] at hv
    rw [hv, List.mem_filter] at hq
    obtain rfl : q = (recordCount pre, c, bs) := by simpa using hq.1
    exact ho x
  have hsel : ∀ i, i < (c.map (readBack E a.cfg)).length →
      selected bm (recordCount pre + i) = selected (some b) (recordCount pre + i) := fun i hi =>
    selected_as_bitmask hb (by omega) (by rw [List.length_map] at hi; omega) (by omega)
  obtain ⟨c1, c2, c3, c4⟩ := default_congr (c.map (readBack E a.cfg)) (recordCount pre) hsel
  have hdec : (E.scheme a.cfg).decode c.length bs = .ok (c.map (readBack E a.cfg)) := (h3 _ hmem).1
  refine ⟨fun hp => ?_, fun g1 g2 p => ?_⟩
  · refine hloop (fun n bs off out => (AnyReader.ops E a.cfg.scheme prec).materialize n bs bm off >>= fun vs => .ok (out ++ vs))
      (fun n bs off out => (AnyReader.ops E a.cfg.scheme prec).materialize n bs (some b) off >>= fun vs => .ok (out ++ vs)) []
      (fun x => ?_)
    obtain ⟨hd, e6, e7⟩ := freshHandle_holds E a.cfg prec hp hdec (by simp) (recordCount pre)
    obtain ⟨_, e8, -⟩ := e7.exec (q := .materialize bm) rfl
    obtain ⟨_, e9, -⟩ := e7.exec (q := .materialize (some b)) rfl
    simp only [AnyReader.ops, e6, Res.bind_ok, Handle.values_of_exec e8, Handle.values_of_exec e9, Res.map_ok, c1]
  · have hops := (decoder_default h g1 g2 prec).1
    unfold Decoder.filter Decoder.filterMaterialize Decoder.sum Decoder.min Decoder.max
    rw [hops]
    refine ⟨?_, ?_, ?_, ?_, ?_⟩
    · exact hloop (fun n bs off r => (defaultOps E.o (E.scheme a.cfg).decode).filter n bs p bm off >>= fun x => .ok (Bitmap.union r x))
        (fun n bs off r => (defaultOps E.o (E.scheme a.cfg).decode).filter n bs p (some b) off >>= fun x => .ok (Bitmap.union r x)) []
        (fun x => by simp only [defaultOps, hdec, Res.map_ok, c3])
    · exact hloop (fun n bs off r => (defaultOps E.o (E.scheme a.cfg).decode).filterMaterialize n bs p bm off >>= fun x => .ok (r ++ x))
        (fun n bs off r => (defaultOps E.o (E.scheme a.cfg).decode).filterMaterialize n bs p (some b) off >>= fun x => .ok (r ++ x)) []
        (fun x => by simp only [defaultOps, hdec, Res.map_ok, c2])
    · exact hloop (fun n bs off r => (defaultOps E.o (E.scheme a.cfg).decode).sum n bs bm off >>= fun x => .ok (E.o.add r x))
        (fun n bs off r => (defaultOps E.o (E.scheme a.cfg).decode).sum n bs (some b) off >>= fun x => .ok (E.o.add r x)) 0#64
        (fun x => by simp only [defaultOps, hdec, Res.map_ok, defaultSum, c4])
    · exact hloop (fun n bs off r => (defaultOps E.o (E.scheme a.cfg).decode).min n bs bm off >>= fun x => .ok (E.o.fmin r x))
        (fun n bs off r => (defaultOps E.o (E.scheme a.cfg).decode).min n bs (some b) off >>= fun x => .ok (E.o.fmin r x)) posInf
        (fun x => by simp only [defaultOps, hdec, Res.map_ok, defaultMin, c4])
    · exact hloop (fun n bs off r => (defaultOps E.o (E.scheme a.cfg).decode).max n bs bm off >>= fun x => .ok (E.o.fmax r x))
        (fun n bs off r => (defaultOps E.o (E.scheme a.cfg).decode).max n bs (some b) off >>= fun x => .ok (E.o.fmax r x)) negInf
        (fun x => by simp only [defaultOps, hdec, Res.map_ok, defaultMax, c4])

/-! ## The commands -/

/-- The commands with a chunk in their request do what they do with the records of that chunk listed. -/
theorem c81_commands {E : Env} {a : Args} {file : List Byte} {m : Metadata} (h : Written E a file m)
    (h1 : a.cfg.scheme ≠ .buff) (h2 : a.cfg.scheme ≠ .deltaSprintz) (hr : a.records.length < 2 ^ 32)
    {dir : Dir (List Byte)} {n : Name} (hf : dir.get n = some file) (k : Nat) (hk : k < m.footer.chunks) :
    ∃ f len, m.footer.chunkFooters[k]? = some f ∧ m.numberOfRecords k = .ok len ∧ ∀ (xs : Option (List Nat)) (ys : List Nat),
      (∀ l, xs = some l → ∀ x ∈ l, x < 2 ^ 32) →
      (∀ x, x ∈ ys ↔ f.logical ≤ x ∧ x < f.logical + len ∧ ∀ l, xs = some l → x ∈ l) → f.logical + len ≤ 2 ^ 32 →
      ∀ c, inMemory E c ⟨some k, xs⟩ dir n = inMemory E c ⟨none, some ys⟩ dir n ∧
        ∀ ev, Accepting ev → (∀ e, outputExtension c = some e → withExtension n e ≠ n) →
          (onDisk E c ⟨some k, xs⟩ dir n ev).1 = (onDisk E c ⟨none, some ys⟩ dir n ev).1 := by
  obtain ⟨f, len, e1, e2, e3⟩ := c81_as_bitmask h hr k hk
  refine ⟨f, len, e1, e2, fun xs ys hx hy hl c => ?_⟩
  have hb : ∀ x, x ∈ fromIter ys ↔ f.logical ≤ x ∧ x < f.logical + len ∧ ∀ b0, xs.map fromIter = some b0 → x ∈ b0 := by
    intro x
    rw [(c80_records ys fun y h => by have := (hy y).1 h; omega).2.1 x, hy x]
    refine and_congr_right fun _ => and_congr_right fun _ => ?_
    cases xs with
    | none => simp
    | some l =>
      simp only [Option.map_some, Option.some.injEq, forall_eq']
      exact ((c80_records l (hx l rfl)).2.1 x).symm
  obtain ⟨g1, g2⟩ := e3 (xs.map fromIter) (fromIter ys) hb none
  have key : inMemory E c ⟨some k, xs⟩ dir n = inMemory E c ⟨none, some ys⟩ dir n := by
    unfold inMemory
    rw [hf]
    simp only [written_open h, Res.bind]
    congr 1
    cases c with
    | filter p => exact congrArg (Res.map Outcome.positions) (g2 h1 h2 p).1
    | filterMaterialize p => exact congrArg (Res.map fun vs => Outcome.bytes (outputBytes vs).length) (g2 h1 h2 p).2.1
    | materialize => exact congrArg (Res.map fun vs => Outcome.bytes (outputBytes vs).length) (g1 (Or.inl rfl))
    | max => exact congrArg (Res.map Outcome.number) (g2 h1 h2 (.eq 0#64)).2.2.2.2
    | sum => exact congrArg (Res.map Outcome.number) (g2 h1 h2 (.eq 0#64)).2.2.1
  exact ⟨key, fun ev hev hn => by rw [c80_same E c _ dir n hev hn, c80_same E c _ dir n hev hn, key]⟩

/-- The answer of `sum`: chunk by chunk, the selected values from the first to the last. -/
theorem c81_command_sum {E : Env} {a : Args} {file : List Byte} {m : Metadata} (h : Written E a file m)
    (h1 : a.cfg.scheme ≠ .buff) (h2 : a.cfg.scheme ≠ .deltaSprintz) {dir : Dir (List Byte)} {n : Name}
    (hf : dir.get n = some file) (xs : Option (List Nat)) (hr : a.records.length < 2 ^ 32) (ev : List WriteEvent) :
    ∃ chunks : List (List B64), chunks.flatten = a.records.map (readBack E a.cfg) ∧ chunks.length = m.footer.chunks ∧
      (∀ (i : Nat) (c : List B64), chunks[i]? = some c → m.numberOfRecords i = .ok c.length) ∧
      onDisk E .sum ⟨none, xs⟩ dir n ev =
        (.ok ⟨a.opt, a.cfg, .number ((partialSums E.o (xs.map fromIter) 0 chunks).foldl E.o.add 0#64)⟩, dir) := by
  obtain ⟨chunks, v1, v2, v3, v4⟩ := c33_decoder_sum h h1 h2 none (xs.map fromIter) (Or.inr hr)
  refine ⟨chunks, v1, v2, v3, ?_⟩
  unfold onDisk
  rw [hf]
  simp only [written_open h, outputExtension, query]
  rw [show Decoder.sum E ⟨file, m, none⟩ (Request.mask ⟨none, xs⟩) none = _ from v4, Res.map_ok, Res.map_ok, written_report h]

/-! ## The hypotheses are met -/

/-- A file of several chunks: the hypotheses of `c81_as_bitmask`, `c81_commands` and `c81_command_sum`, and the laws of
`c81_max`, `c81_min` and `c81_sum`. -/
example : ∃ d, fileDecoder (.gorilla 100#64) queryData 2 = some d ∧
    Written queryEnv (fileArgs (.gorilla 100#64) queryData 2) d.file d.info ∧ 1 < d.info.footer.chunks ∧
    MinMaxLaw queryEnv.o ∧ queryEnv.o.add = Soft.add := by
  have h : (fileDecoder (.gorilla 100#64) queryData 2).map (fun d => (decide (d.file.length < 1000),
      decide (1 < d.info.footer.chunks))) = some (true, true) := by
    decide +kernel
  obtain ⟨d, h1, -, h3, h4⟩ := sample_written (cfg := .gorilla 100#64) trivial (by
    intro v hv
    simp only [queryData, List.mem_cons, List.not_mem_nil, or_false] at hv
    rcases hv with rfl | rfl | rfl | rfl | rfl <;> (show _ ≠ nanBits; decide)) (by simp [queryData]) (by decide) (by decide)
    (by simp [queryData]) h
  exact ⟨d, h1, h3, of_decide_eq_true h4, soft_minMax, rfl⟩

end Ebi.Props
