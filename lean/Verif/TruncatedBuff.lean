import Verif.TruncatedLemmas

/-! # BUFF on a prefix of a chunk -/

namespace Ebi.Buff

open Ebi BitPack

/-- Failed one way or the other, or the same answer. -/
def Below {A : Type} (x y : Res A) : Prop := x = .err ∨ x = .panic ∨ x = y

namespace Below

variable {A B : Type} {x y : Res A}

theorem refl (x : Res A) : Below x x := .inr (.inr rfl)
theorem err (y : Res A) : Below .err y := .inl rfl
theorem panic (y : Res A) : Below .panic y := .inr (.inl rfl)

theorem map (h : Below x y) (f : A → B) : Below (x.map f) (y.map f) := by
  rcases h with rfl | rfl | rfl
  · exact err _
  · exact panic _
  · exact refl _

theorem unwrap (h : Below x y) : Below (unwrap x) (unwrap y) := by
  rcases h with rfl | rfl | rfl
  · exact panic _
  · exact panic _
  · exact refl _

theorem elim (h : Below x y) : x = .err ∨ x = .panic ∨ ∃ v, x = .ok v ∧ y = .ok v := by
  rcases h with h | h | h
  · exact .inl h
  · exact .inr (.inl h)
  · cases x with
    | ok v => exact .inr (.inr ⟨v, rfl, h.symm⟩)
    | err => exact .inl rfl
    | panic => exact .inr (.inl rfl)

end Below

/-- Given `h : Below x y` with `x` and `y` matched on in the goal: go on with the value of both. -/
macro "below " h:term " with " v:Lean.Parser.Tactic.rcasesPatLo : tactic =>
  `(tactic| (
    rcases Below.elim $h with h' | h' | ⟨w, h1, h2⟩
    · rw [h']; first | exact Below.err _ | exact Below.panic _
    · rw [h']; first | exact Below.err _ | exact Below.panic _
    rw [h1, h2]; clear h1 h2; rcases w with $v; try simp only))


variable {a b : List Byte}

theorem readU32_prefix (p : Pos) : readU32 a p = none ∨ readU32 a p = readU32 (a ++ b) p := by
  unfold readU32
  by_cases h : a.length * 8 < p.sumBits + 32
  · left; simp [h]
  · right
    unfold Pos.sumBits at *
    rw [if_neg h, if_neg (by rw [List.length_append]; omega)]
    rw [List.drop_append_of_le_length (by omega), List.take_append_of_le_length (by rw [List.length_drop]; omega)]

theorem readLoop_prefix (f c bits n l o : Nat) : Below (BitPack.readLoop a f c bits n l o) (BitPack.readLoop (a ++ b) f c bits n l o) := by
  induction f generalizing c bits n l o with
  | zero => exact .refl _
  | succ f ih =>
    rw [BitPack.readLoop, BitPack.readLoop]
    cases h : a[c]? with
    | none => exact .panic _
    | some x =>
      have hc : c < a.length := by
        rcases List.getElem?_eq_some_iff.1 h with ⟨hc, _⟩; exact hc
      rw [List.getElem?_append_left hc, h]
      simp only
      split
      · exact .refl _
      · split
        · exact ih _ _ _ _ _
        · exact ih _ _ _ _ _

theorem readBits_prefix (p : Pos) (n : Nat) : Below (readBits a p n) (readBits (a ++ b) p n) := by
  unfold readBits
  by_cases h : a.length * 8 < p.sumBits + n
  · rw [if_pos h]; exact .err _
  · rw [if_neg h, if_neg (by rw [List.length_append]; omega)]
    rcases readLoop_prefix (a := a) (b := b) (n + 2) p.cursor p.bits n 0 0 with h | h | h
    · rw [h]; exact .err _
    · rw [h]; exact .panic _
    · rw [h]; exact .refl _

theorem readByte_prefix (p : Pos) : Below (readByte a p) (readByte (a ++ b) p) := by
  unfold readByte
  cases h : a[p.cursor]? with
  | none => exact .panic _
  | some x =>
    have hc : p.cursor < a.length := by
      rcases List.getElem?_eq_some_iff.1 h with ⟨hc, _⟩; exact hc
    rw [List.getElem?_append_left hc, h]
    exact .refl _

theorem readNByte_prefix (p : Pos) (n : Nat) : Below (readNByte a p n) (readNByte (a ++ b) p n) := by
  unfold readNByte
  by_cases h : a.length < p.cursor + n
  · rw [if_pos h]; exact .panic _
  · rw [if_neg h, if_neg (by rw [List.length_append]; omega), List.drop_append_of_le_length (by omega),
      List.take_append_of_le_length (by rw [List.length_drop]; omega)]
    exact .refl _

theorem skip_prefix (p : Pos) (n : Nat) : skip a p n = none ∨ skip a p n = skip (a ++ b) p n := by
  unfold skip
  by_cases h0 : n = 0
  · simp [h0]
  · by_cases h : a.length * 8 < p.sumBits + n
    · left; simp [h0, h]
    · right
      rw [if_neg h0, if_neg h0, if_neg h, if_neg (by rw [List.length_append]; omega)]

theorem readHeader_prefix : Below (readHeader a) (readHeader (a ++ b)) := by
  unfold readHeader
  simp only [Option.bind_eq_bind, Option.pure_def]
  rcases readU32_prefix (a := a) (b := b) ⟨0, 0⟩ with h | h
  · rw [h]; exact .panic _
  rw [h]
  cases readU32 (a ++ b) ⟨0, 0⟩ with
  | none => exact .panic _
  | some x =>
  simp only [Option.bind_some]
  rcases readU32_prefix (a := a) (b := b) x.2 with h | h
  · rw [h]; exact .panic _
  rw [h]
  cases readU32 (a ++ b) x.2 with
  | none => exact .panic _
  | some x =>
  simp only [Option.bind_some]
  rcases readU32_prefix (a := a) (b := b) x.2 with h | h
  · rw [h]; exact .panic _
  rw [h]
  cases readU32 (a ++ b) x.2 with
  | none => exact .panic _
  | some x =>
  simp only [Option.bind_some]
  rcases readU32_prefix (a := a) (b := b) x.2 with h | h
  · rw [h]; exact .panic _
  rw [h]
  cases readU32 (a ++ b) x.2 with
  | none => exact .panic _
  | some x =>
  simp only [Option.bind_some]
  rcases readU32_prefix (a := a) (b := b) x.2 with h | h
  · rw [h]; exact .panic _
  rw [h]
  exact .refl _


theorem readColumn_prefix (r k : Nat) (p : Pos) : Below (readColumn a r k p) (readColumn (a ++ b) r k p) := by
  induction k generalizing p with
  | zero => exact .refl _
  | succ k ih =>
    rw [readColumn, readColumn]
    below readBits_prefix (a := a) (b := b) p r with ⟨x, p⟩
    below ih p with ⟨xs, p⟩
    exact .refl _

theorem decodeColumns_prefix (n r stop k : Nat) (p : Pos) (fixed : List Nat) :
    Below (decodeColumns a n r stop k p fixed) (decodeColumns (a ++ b) n r stop k p fixed) := by
  induction k generalizing p fixed with
  | zero => exact .refl _
  | succ k ih =>
    rw [decodeColumns, decodeColumns]
    split
    · below readNByte_prefix (a := a) (b := b) p n with ⟨col, p⟩
      exact ih _ _
    · exact .refl _

theorem decodeTo_prefix (o : FloatOps) (stop : Nat → Option Nat) :
    Below (decodeTo o a stop) (decodeTo o (a ++ b) stop) := by
  unfold decodeTo
  below readHeader_prefix (a := a) (b := b) with ⟨h, p⟩
  cases stop h.F with
  | none => exact .refl _
  | some stop =>
    simp only
    split
    · exact .refl _
    · split
      · below readColumn_prefix (a := a) (b := b) h.bits h.n p with ⟨xs, p⟩
        exact .refl _
      · below readNByte_prefix (a := a) (b := b) p h.n with ⟨col, p⟩
        below decodeColumns_prefix (a := a) (b := b) h.n (h.bits % 8) stop (h.bits / 8 - 1) p _ with ⟨fixed, R, p⟩
        split
        · exact .refl _
        · below readColumn_prefix (a := a) (b := b) R h.n p with ⟨xs, p⟩
          exact .refl _

section

variable {A : Type} (off : Nat)

theorem byteLoop_prefix (f : A → Nat → Byte → A) (xs : List Nat) (e : Nat) (p : Pos) (acc : A) :
    Below (byteLoop a off f xs e p acc) (byteLoop (a ++ b) off f xs e p acc) := by
  induction xs generalizing e p acc with
  | nil => exact .refl _
  | cons x xs ih =>
    rw [byteLoop, byteLoop]
    below readByte_prefix (a := a) (b := b) (skipNByte p (x - off - e)) with ⟨c, p⟩
    exact ih _ _ _

theorem tailLoop_prefix (r : Nat) (mul : Nat → Nat → Nat) (f : A → Nat → Nat → A) (xs : List Nat) (e : Nat)
    (p : Pos) (acc : A) : Below (tailLoop a off r mul f xs e p acc) (tailLoop (a ++ b) off r mul f xs e p acc) := by
  induction xs generalizing e p acc with
  | nil => exact .refl _
  | cons x xs ih =>
    rw [tailLoop, tailLoop]
    rcases skip_prefix (a := a) (b := b) p (mul (x - off - e) r) with h | h
    · rw [h]; exact .err _
    rw [h]
    cases skip (a ++ b) p (mul (x - off - e) r) with
    | none => exact .err _
    | some p =>
      simp only
      below readBits_prefix (a := a) (b := b) p r with ⟨s, p⟩
      exact ih _ _ _

theorem tailAll_prefix (r : Nat) (f : A → Nat → Nat → A) (k x : Nat) (p : Pos) (acc : A) :
    Below (tailAll a r f k x p acc) (tailAll (a ++ b) r f k x p acc) := by
  induction k generalizing x p acc with
  | zero => exact .refl _
  | succ k ih =>
    rw [tailAll, tailAll]
    below readBits_prefix (a := a) (b := b) p r with ⟨s, p⟩
    exact ih _ _ _

theorem eqColumn_prefix (n : Nat) (pb : Byte) (p : Pos) (res : Option Bitmap) :
    Below (eqColumn a off n pb p res) (eqColumn (a ++ b) off n pb p res) := by
  cases res with
  | none =>
    unfold eqColumn
    simp only
    below readNByte_prefix (a := a) (b := b) p n with ⟨c, p⟩
    exact .refl _
  | some bm =>
    unfold eqColumn
    simp only
    below byteLoop_prefix (a := a) (b := b) off (eqStep pb) bm 0 p [] with ⟨next, e, p⟩
    exact .refl _

theorem eqColumns_prefix (n r P k : Nat) (p : Pos) (res : Option Bitmap) :
    Below (eqColumns a off n r P k p res) (eqColumns (a ++ b) off n r P k p res) := by
  induction k generalizing p res with
  | zero => exact .refl _
  | succ k ih =>
    rw [eqColumns, eqColumns]
    below eqColumn_prefix (a := a) (b := b) off n (BitVec.ofNat 8 (P / 2 ^ (8 * k + r))) p res with ⟨next, p⟩
    split
    · exact .refl _
    · exact ih _ _

/-- The end of a last column with a bitmask. -/
theorem tailSkip_prefix {B : Type} (p : Pos) (n : Nat) (x : B) :
    Below (match skip a p n with | none => Res.panic | some _ => .ok x)
      (match skip (a ++ b) p n with | none => Res.panic | some _ => .ok x) := by
  rcases skip_prefix (a := a) (b := b) p n with h | h
  · rw [h]; exact .panic _
  · rw [h]; exact .refl _

theorem equalFilter_prefix (pred : B64) (bm : Option Bitmap) :
    Below (equalFilter a pred bm off) (equalFilter (a ++ b) pred bm off) := by
  unfold equalFilter
  below readHeader_prefix (a := a) (b := b) with ⟨h, p⟩
  split
  · exact .refl _
  · split
    · exact .refl _
    · below eqColumns_prefix (a := a) (b := b) off h.n (h.bits % 8) (intoFixed pred h.F - h.base).toNat (h.bits / 8) p bm
        with ⟨_ | _, res, p⟩
      · split
        · cases res with
          | some c =>
            simp only
            below (tailLoop_prefix (a := a) (b := b) off (h.bits % 8) mulU32 _ c 0 p []).unwrap with ⟨next, e, p⟩
            exact tailSkip_prefix _ _ _
          | none => exact (tailAll_prefix _ _ _ _ _ _).unwrap.map _
        · exact .refl _
      · exact .refl _

theorem cmpColumns_prefix (useSimd : Nat → Nat → Bool) (greater : Bool) (n r P k : Nat) (p : Pos)
    (tc : Option Bitmap) (q : Bitmap) :
    Below (cmpColumns useSimd greater a off n r P k p tc q) (cmpColumns useSimd greater (a ++ b) off n r P k p tc q) := by
  induction k generalizing p tc q with
  | zero => exact .refl _
  | succ k ih =>
    rw [cmpColumns, cmpColumns]
    below readNByte_prefix (a := a) (b := b) p n with ⟨c, p⟩
    split
    · split
      · exact .refl _
      · exact ih _ _ _
    · exact .refl _
    · exact .refl _

theorem cmpFilter_prefix (useSimd : Nat → Nat → Bool) (greater inclusive : Bool) (pred : B64) (bm : Option Bitmap) :
    Below (cmpFilter useSimd greater inclusive a pred bm off)
      (cmpFilter useSimd greater inclusive (a ++ b) pred bm off) := by
  unfold cmpFilter
  below readHeader_prefix (a := a) (b := b) with ⟨h, p⟩
  split
  · exact .refl _
  · split
    · exact .refl _
    · split
      · exact .refl _
      · below cmpColumns_prefix (a := a) (b := b) off useSimd greater h.n (h.bits % 8)
          (intoFixed pred h.F - h.base).toNat (h.bits / 8) p bm [] with ⟨_ | _, tc, q, p⟩
        · split
          · cases tc with
            | some c =>
              simp only
              below (tailLoop_prefix (a := a) (b := b) off (h.bits % 8) mulU32 _ c 0 p q).unwrap with ⟨next, e, p⟩
              exact tailSkip_prefix _ _ _
            | none => exact (tailAll_prefix _ _ _ _ _ _).unwrap.map _
          · exact .refl _
        · exact .refl _

theorem bestColumns_prefix (isMin flipTail : Bool) (n r k : Nat) (p : Pos) (tc : Bitmap) :
    Below (bestColumns isMin flipTail a off n r k p tc) (bestColumns isMin flipTail (a ++ b) off n r k p tc) := by
  induction k generalizing p tc with
  | zero =>
    rw [bestColumns, bestColumns]
    split
    · exact (tailLoop_prefix _ _ _ _ _ _ _ _).map _
    · exact .refl _
  | succ k ih =>
    rw [bestColumns, bestColumns]
    below readNByte_prefix (a := a) (b := b) p n with ⟨c, p⟩
    split
    · exact ih _ _
    · exact .refl _
    · exact .refl _

theorem readRecord_prefix (n r idx k : Nat) (p : Pos) (d : Nat) :
    Below (readRecord a n r idx k p d) (readRecord (a ++ b) n r idx k p d) := by
  induction k generalizing p d with
  | zero =>
    rw [readRecord, readRecord]
    split
    · rcases skip_prefix (a := a) (b := b) p (idx * r) with h | h
      · rw [h]; exact .err _
      rw [h]
      cases skip (a ++ b) p (idx * r) with
      | none => exact .err _
      | some p =>
        simp only
        below readBits_prefix (a := a) (b := b) p r with ⟨s, p⟩
        exact .refl _
    · exact .refl _
  | succ k ih =>
    rw [readRecord, readRecord]
    below readByte_prefix (a := a) (b := b) (skipNByte p idx) with ⟨c, p⟩
    exact ih _ _

theorem finishBest_prefix (o : FloatOps) (h : Header) (tc : Bitmap) :
    Below (finishBest o a h off tc) (finishBest o (a ++ b) h off tc) := by
  cases tc with
  | nil => exact .refl _
  | cons x tc =>
    unfold finishBest
    simp only
    below readRecord_prefix (a := a) (b := b) h.n (h.bits % 8) (x - off) (h.bits / 8) ⟨20, 0⟩ 0 with d
    exact .refl _

theorem bestWithBitmask_prefix (o : FloatOps) (isMin : Bool) (bm : Bitmap) :
    Below (bestWithBitmask o isMin a bm off) (bestWithBitmask o isMin (a ++ b) bm off) := by
  unfold bestWithBitmask
  below readHeader_prefix (a := a) (b := b) with ⟨h, p⟩
  split
  · exact .refl _
  · below bestColumns_prefix (a := a) (b := b) off isMin true h.n (h.bits % 8) (h.bits / 8) p bm with tc
    exact finishBest_prefix _ _ _ _

theorem maxWithoutBitmask_prefix (o : FloatOps) : Below (maxWithoutBitmask o a off) (maxWithoutBitmask o (a ++ b) off) := by
  unfold maxWithoutBitmask
  below readHeader_prefix (a := a) (b := b) with ⟨h, p⟩
  split
  · exact .refl _
  · split
    · below readNByte_prefix (a := a) (b := b) p h.n with ⟨c, p⟩
      below bestColumns_prefix (a := a) (b := b) off false false h.n (h.bits % 8) (h.bits / 8 - 1) p _ with tc
      exact finishBest_prefix _ _ _ _
    · below tailAll_prefix (a := a) (b := b) h.bits (bestStep false) h.n off p (bestInit false) with ⟨first, p⟩
      exact finishBest_prefix _ _ _ _

theorem minWithoutBitmask_prefix (o : FloatOps) : Below (minWithoutBitmask o a) (minWithoutBitmask o (a ++ b)) := by
  unfold minWithoutBitmask
  simp only [Option.bind_eq_bind, Option.pure_def]
  rcases readU32_prefix (a := a) (b := b) ⟨0, 0⟩ with h | h
  · rw [h]; exact .err _
  rw [h]
  cases readU32 (a ++ b) ⟨0, 0⟩ with
  | none => exact .err _
  | some x =>
  simp only [Option.bind_some]
  rcases readU32_prefix (a := a) (b := b) x.2 with h | h
  · rw [h]; exact .err _
  rw [h]
  cases readU32 (a ++ b) x.2 with
  | none => exact .err _
  | some x =>
  simp only [Option.bind_some]
  rcases readU32_prefix (a := a) (b := b) (skipNByte x.2 8) with h | h
  · rw [h]; exact .err _
  rw [h]
  exact .refl _

theorem sumColumns_prefix (n r : Nat) (bm : Option Bitmap) (k : Nat) (p : Pos) (s : Nat) :
    Below (sumColumns a off n r bm k p s) (sumColumns (a ++ b) off n r bm k p s) := by
  induction k generalizing p s with
  | zero => exact .refl _
  | succ k ih =>
    rw [sumColumns, sumColumns]
    below readNByte_prefix (a := a) (b := b) p n with ⟨c, p⟩
    split
    · exact ih _ _
    · exact .refl _
    · exact .refl _

theorem sumTail_prefix (r n : Nat) (bm : Option Bitmap) (p : Pos) :
    Below (sumTail a off r n bm p) (sumTail (a ++ b) off r n bm p) := by
  cases bm with
  | none => exact (tailAll_prefix _ _ _ _ _ _).map _
  | some bm => exact (tailLoop_prefix _ _ _ _ _ _ _ _).map _

theorem sumWithBitmask_prefix (o : FloatOps) (bm : Option Bitmap) :
    Below (sumWithBitmask o a bm off) (sumWithBitmask o (a ++ b) bm off) := by
  unfold sumWithBitmask
  below readHeader_prefix (a := a) (b := b) with ⟨h, p⟩
  split
  · exact .refl _
  · below sumColumns_prefix (a := a) (b := b) off h.n (h.bits % 8) bm (h.bits / 8) p 0 with ⟨s, p⟩
    have ht : Below (if h.bits % 8 ≠ 0 then (sumTail a off (h.bits % 8) h.n bm p).map (fun t => (s + t) % 2 ^ 64)
        else .ok s) (if h.bits % 8 ≠ 0 then (sumTail (a ++ b) off (h.bits % 8) h.n bm p).map (fun t => (s + t) % 2 ^ 64)
        else .ok s) := by
      split
      · exact (sumTail_prefix off _ _ _ _).map _
      · exact .refl _
    below ht with t
    exact .refl _

end

/-! ## The reader -/

theorem Reader.decompress_prefix (o : FloatOps) (n : Nat) (prec : Option Nat) :
    Below ((Reader.decompress o ⟨n, a, prec, none⟩).map Prod.fst)
      ((Reader.decompress o ⟨n, a ++ b, prec, none⟩).map Prod.fst) := by
  unfold Reader.decompress
  cases prec with
  | none =>
    have h : Below (decode o a) (decode o (a ++ b)) := decodeTo_prefix o _
    simp only
    below h with vs
    exact .refl _
  | some p =>
    have h : Below (decodeWithPrecision o a p) (decodeWithPrecision o (a ++ b) p) := decodeTo_prefix o _
    simp only
    below h with vs
    exact .refl _

theorem boundFilter_prefix (useSimd : Nat → Nat → Bool) (greater : Bool) (bm : Option Bitmap) (off : Nat)
    (v : RangeValue B64) :
    Below (boundFilter useSimd greater a bm off v) (boundFilter useSimd greater (a ++ b) bm off v) := by
  cases v with
  | none => exact .refl _
  | inclusive v => exact (cmpFilter_prefix _ _ _ _ _ _).map _
  | exclusive v => exact (cmpFilter_prefix _ _ _ _ _ _).map _

theorem Reader.filter_prefix (useSimd : Nat → Nat → Bool) (n : Nat) (prec : Option Nat) (p : Predicate B64)
    (bm : Option Bitmap) (off : Nat) :
    Below (Reader.filter useSimd ⟨n, a, prec, none⟩ p bm off) (Reader.filter useSimd ⟨n, a ++ b, prec, none⟩ p bm off) := by
  unfold Reader.filter Reader.restrict
  simp only
  cases p with
  | eq v => exact equalFilter_prefix _ _ _
  | ne v => exact (equalFilter_prefix _ _ _).map _
  | range g =>
    simp only
    below boundFilter_prefix (a := a) (b := b) useSimd true _ _ g.start with l
    below boundFilter_prefix (a := a) (b := b) useSimd false _ _ g.stop with u
    exact .refl _

/-- Every query on the first bytes of a chunk fails or answers as on the whole chunk. -/
theorem Reader.exec_prefix (o : FloatOps) (useSimd : Nat → Nat → Bool) (off : Nat) (q : ChunkQuery) (n : Nat)
    (prec : Option Nat) :
    Below ((Reader.exec o useSimd ⟨n, a, prec, none⟩ off q).map Prod.fst)
      ((Reader.exec o useSimd ⟨n, a ++ b, prec, none⟩ off q).map Prod.fst) := by
  have hd : ∀ f : List B64 → Answer, Below
      (((Reader.decompress o ⟨n, a, prec, none⟩).map fun p => (f p.1, p.2)).map Prod.fst)
      (((Reader.decompress o ⟨n, a ++ b, prec, none⟩).map fun p => (f p.1, p.2)).map Prod.fst) := by
    intro f
    have h := (Reader.decompress_prefix (a := a) (b := b) o n prec).map f
    cases h1 : Reader.decompress o ⟨n, a, prec, none⟩ <;> cases h2 : Reader.decompress o ⟨n, a ++ b, prec, none⟩ <;>
      rw [h1, h2] at h <;> exact h
  have hm : ∀ {A : Type} {f : A → Answer} {x y : Res A}, Below x y →
      Below ((x.map fun v => (f v, (⟨n, a, prec, none⟩ : Reader))).map Prod.fst)
        ((y.map fun v => (f v, (⟨n, a ++ b, prec, none⟩ : Reader))).map Prod.fst) := by
    intro A f x y h
    have h' := h.map f
    cases x <;> cases y <;> exact h'
  cases q with
  | materialize bm => exact hd (fun vs => defaultAnswer o off vs (.materialize bm))
  | filter p bm => exact hm (Reader.filter_prefix _ _ _ _ _ _)
  | filterMaterialize p bm =>
    unfold Reader.exec Reader.filterMaterialize
    simp only
    below Reader.filter_prefix (a := a) (b := b) useSimd n prec p bm off with _
    rename_i sel
    have h := hd fun vs => .values (defaultMaterialize (some sel) off vs)
    cases h1 : Reader.decompress o ⟨n, a, prec, none⟩ <;> cases h2 : Reader.decompress o ⟨n, a ++ b, prec, none⟩ <;>
      rw [h1, h2] at h <;> exact h
  | sum bm => exact hm (sumWithBitmask_prefix _ _ _)
  | min bm =>
    refine hm ?_
    unfold Reader.min Reader.restrict
    simp only
    split
    · split
      · exact .refl _
      · exact bestWithBitmask_prefix _ _ _ _
    · exact minWithoutBitmask_prefix _
  | max bm =>
    refine hm ?_
    unfold Reader.max Reader.restrict
    simp only
    split
    · split
      · exact .refl _
      · exact bestWithBitmask_prefix _ _ _ _
    · exact maxWithoutBitmask_prefix _ _
  | distanceSquared i t => exact hd (fun vs => defaultAnswer o off vs (.distanceSquared i t))
  | dotProduct i t => exact hd (fun vs => defaultAnswer o off vs (.dotProduct i t))

/-! ## How much of the chunk the plain decoder needs -/

theorem readColumn_needs {buff : List Byte} {r : Nat} (hr : 0 < r) (hr8 : r ≤ 8) (k : Nat) {p q : Pos} {xs : List Nat}
    (hp : p.bits ≤ 8) (hl : p.sumBits ≤ 8 * buff.length) (h : readColumn buff r k p = .ok (xs, q)) :
    p.sumBits + r * k ≤ 8 * buff.length := by
  induction k generalizing p q xs with
  | zero => simpa using hl
  | succ k ih =>
    rw [readColumn] at h
    by_cases hs : buff.length * 8 < p.sumBits + r
    · have : readBits buff p r = .err := by unfold readBits; rw [if_pos hs]
      rw [this] at h
      cases h
    · obtain ⟨p', e, hb, hsum⟩ := readBits_spec hp hr hr8 (by omega : p.sumBits + r ≤ 8 * buff.length)
      rw [e] at h
      simp only at h
      cases hc : readColumn buff r k p' with
      | ok z =>
        obtain ⟨ys, q'⟩ := z
        have := ih hb (by omega) hc
        rw [Nat.mul_succ]
        omega
      | err => rw [hc] at h; cases h
      | panic => rw [hc] at h; cases h

theorem decodeColumns_needs {buff : List Byte} {n r : Nat} (k : Nat) {p q : Pos} {fixed out : List Nat} {R : Nat}
    (hl : p.cursor ≤ buff.length) (h : decodeColumns buff n r 0 k p fixed = .ok (out, R, q)) :
    R = r ∧ q.cursor = p.cursor + n * k ∧ q.bits = p.bits ∧ q.cursor ≤ buff.length := by
  induction k generalizing p fixed with
  | zero =>
    cases h
    exact ⟨rfl, rfl, rfl, hl⟩
  | succ k ih =>
    rw [decodeColumns, if_pos (by omega)] at h
    by_cases hs : buff.length < p.cursor + n
    · have : readNByte buff p n = .panic := by unfold readNByte; rw [if_pos hs]
      rw [this] at h
      cases h
    · have : readNByte buff p n = .ok ((buff.drop p.cursor).take n, { p with cursor := p.cursor + n }) := by
        unfold readNByte; rw [if_neg hs]
      rw [this] at h
      obtain ⟨h1, h2, h3, h4⟩ := ih (by simp only; omega) h
      refine ⟨h1, ?_, h3, h4⟩
      rw [h2, Nat.mul_succ]
      simp only
      omega

theorem readU32_needs {buff : List Byte} {p q : Pos} {x : Nat} (h : readU32 buff p = some (x, q)) :
    q.bits = p.bits ∧ q.cursor = p.cursor + 4 ∧ q.sumBits ≤ 8 * buff.length := by
  unfold readU32 at h
  split at h
  · cases h
  · cases h
    refine ⟨rfl, rfl, ?_⟩
    simp only [Pos.sumBits] at *
    omega

theorem readHeader_needs {buff : List Byte} {p : Pos} {h : Header} (hh : readHeader buff = .ok (h, p)) :
    p.bits = 0 ∧ p.cursor = 20 ∧ 20 ≤ buff.length := by
  unfold readHeader at hh
  simp only [Option.bind_eq_bind, Option.pure_def] at hh
  cases e1 : readU32 buff ⟨0, 0⟩ with
  | none => rw [e1] at hh; cases hh
  | some x1 =>
  rw [e1] at hh; simp only [Option.bind_some] at hh
  cases e2 : readU32 buff x1.2 with
  | none => rw [e2] at hh; cases hh
  | some x2 =>
  rw [e2] at hh; simp only [Option.bind_some] at hh
  cases e3 : readU32 buff x2.2 with
  | none => rw [e3] at hh; cases hh
  | some x3 =>
  rw [e3] at hh; simp only [Option.bind_some] at hh
  cases e4 : readU32 buff x3.2 with
  | none => rw [e4] at hh; cases hh
  | some x4 =>
  rw [e4] at hh; simp only [Option.bind_some] at hh
  cases e5 : readU32 buff x4.2 with
  | none => rw [e5] at hh; cases hh
  | some x5 =>
  rw [e5] at hh; simp only [Option.bind_some] at hh
  obtain ⟨a1, b1, -⟩ := readU32_needs (q := x1.2) (x := x1.1) e1
  obtain ⟨a2, b2, -⟩ := readU32_needs (q := x2.2) (x := x2.1) e2
  obtain ⟨a3, b3, -⟩ := readU32_needs (q := x3.2) (x := x3.1) e3
  obtain ⟨a4, b4, -⟩ := readU32_needs (q := x4.2) (x := x4.1) e4
  obtain ⟨a5, b5, c5⟩ := readU32_needs (q := x5.2) (x := x5.1) e5
  injection hh with hh
  have hp : x5.2 = p := congrArg Prod.snd hh
  subst hp
  simp only [Pos.sumBits] at c5
  simp only at a1 b1
  omega

/-- The plain decoder needs the header and every bit of every record. -/
theorem decode_needs (o : FloatOps) {buff : List Byte} {h : Header} {p : Pos} {vs : List B64}
    (hh : readHeader buff = .ok (h, p)) (hd : decode o buff = .ok vs) : 160 + h.n * h.bits ≤ 8 * buff.length := by
  obtain ⟨hp, hc, hl⟩ := readHeader_needs hh
  unfold decode decodeTo at hd
  rw [hh] at hd
  simp only at hd
  split at hd
  · rename_i h0
    rw [h0]
    omega
  · rename_i h0
    split at hd
    · cases e : readColumn buff h.bits h.n p with
      | ok z =>
        obtain ⟨xs, q⟩ := z
        have := readColumn_needs (by omega) (by omega) h.n (by omega) (by simp only [Pos.sumBits]; omega) e
        simp only [Pos.sumBits] at this
        rw [Nat.mul_comm h.n]
        omega
      | err => rw [e] at hd; cases hd
      | panic => rw [e] at hd; cases hd
    · rename_i h8
      by_cases hs : buff.length < p.cursor + h.n
      · have : readNByte buff p h.n = .panic := by unfold readNByte; rw [if_pos hs]
        rw [this] at hd
        cases hd
      have e1 : readNByte buff p h.n = .ok ((buff.drop p.cursor).take h.n, { p with cursor := p.cursor + h.n }) := by
        unfold readNByte; rw [if_neg hs]
      rw [e1] at hd
      simp only at hd
      have hbits : h.n * h.bits = 8 * (h.n + h.n * (h.bits / 8 - 1)) + h.bits % 8 * h.n := by
        have hk : h.bits = 8 * (1 + (h.bits / 8 - 1)) + h.bits % 8 := by omega
        generalize h.bits / 8 - 1 = k at hk
        generalize h.bits % 8 = r at hk
        rw [hk]
        simp only [Nat.mul_add, Nat.mul_one, Nat.mul_comm r, Nat.mul_left_comm _ 8]
        omega
      split at hd
      · rename_i fixed R q e2
        obtain ⟨h1, h2, h3, h4⟩ := decodeColumns_needs _ (by simp only; omega) e2
        simp only at h2 h3
        subst h1
        split at hd
        · rename_i h5
          have : h.bits % 8 * h.n = 0 := by
            rcases h5 with h5 | h5
            · rw [h5, Nat.zero_mul]
            · rw [Nat.le_zero.1 h5, Nat.zero_mul]
          omega
        · rename_i h5
          cases e : readColumn buff (h.bits % 8) h.n q with
          | ok z =>
            obtain ⟨xs, q'⟩ := z
            have := readColumn_needs (by omega) (by omega) h.n (by omega) (by simp only [Pos.sumBits]; omega) e
            simp only [Pos.sumBits] at this
            omega
          | err => rw [e] at hd; cases hd
          | panic => rw [e] at hd; cases hd
      · cases hd

theorem decode_ne_err (o : FloatOps) (buff : List Byte) : decode o buff ≠ .err := by
  have h1 : readHeader buff ≠ .err := by
    unfold readHeader
    split <;> simp
  unfold decode decodeTo
  split
  · simp only
    split
    · simp
    · split
      · split <;> simp
      · split
        · split
          · split
            · simp
            · split <;> simp
          · simp
        · simp
  · contradiction
  · simp

theorem layout_length (base : BitVec 64) (F bits : Nat) (ds : List Nat) :
    (layout base F bits ds).length = 20 + (ds.length * bits + 7) / 8 := by
  have : ds.length * bits = 8 * (bits / 8 * ds.length) + bits % 8 * ds.length := by
    rw [← Nat.mul_assoc, ← Nat.add_mul, Nat.mul_comm]
    congr 1
    omega
  simp only [layout, List.length_append, header_length, columns_length, tailBytes, leBytes_length]
  omega

/-- The plain decoder on a shorter piece of a chunk. -/
theorem Stored.decode_cut {buff : List Byte} {base : BitVec 64} {F bits : Nat} {ds : List Nat}
    (h : Stored buff base F bits ds) (o : FloatOps) {m : Nat} (hm : m < buff.length) :
    decode o (buff.take m) = .panic := by
  rcases e : decode o (buff.take m) with vs | _ | _
  · exfalso
    have hh := readHeader_prefix (a := buff.take m) (b := buff.drop m)
    rw [List.take_append_drop, h.header] at hh
    rcases hh with hh | hh | hh
    · unfold Buff.decode Buff.decodeTo at e; rw [hh] at e; cases e
    · unfold Buff.decode Buff.decodeTo at e; rw [hh] at e; cases e
    · have h1 := decode_needs o hh e
      have h2 := layout_length base F bits ds
      rw [← h.eq] at h2
      rw [List.length_take] at h1
      simp only at h1
      omega
  · exact absurd e (decode_ne_err o _)
  · rfl

end Ebi.Buff
