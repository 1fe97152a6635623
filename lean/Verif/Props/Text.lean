import Verif.Props.Decimal

/-!
# C64, C65: any text

What lines, fields and numbers are in texts that are not written by ourselves: either kind of line end, a last line
without one, blanks around fields, empty fields, fields that are no numbers.
-/

namespace Ebi.Props

open Ebi Ebi.Decimal

/-- A line with its end, `\r\n` or `\n`. -/
def endLine (l : List Char) (cr : Bool) : List Char := l ++ (if cr then ['\r', '\n'] else ['\n'])

theorem dropCr_cr (l : List Char) : dropCr (l ++ ['\r']) = l := by
  unfold dropCr
  rw [List.reverse_append]
  simp

theorem dropCr_no {l : List Char} (h : l.getLast? ≠ some '\r') : dropCr l = l := by
  unfold dropCr
  split
  · rename_i t ht
    apply absurd _ h
    rw [← List.head?_reverse, ht]
    rfl
  · rfl

/-- Lines: the ends are taken off, a rest without an end is a line of its own unless it is empty. -/
theorem c64_lines (ls : List (List Char × Bool)) (rest : List Char) (h : ∀ x ∈ ls, '\n' ∉ x.1)
    (hcr : ∀ x ∈ ls, x.2 = false → x.1.getLast? ≠ some '\r') (hr : '\n' ∉ rest) :
    lines (ls.flatMap (fun x => endLine x.1 x.2) ++ rest) = ls.map Prod.fst ++ (if rest = [] then [] else [rest]) := by
  have h1 : splitOn '\n' (ls.flatMap (fun x => endLine x.1 x.2) ++ rest) =
      ls.map (fun x => if x.2 then x.1 ++ ['\r'] else x.1) ++ [rest] := by
    clear hcr
    induction ls with
    | nil => exact splitOn_last hr
    | cons x xs ih =>
      have e : List.flatMap (fun x => endLine x.1 x.2) (x :: xs) ++ rest =
          (if x.2 then x.1 ++ ['\r'] else x.1) ++ '\n' :: (xs.flatMap (fun x => endLine x.1 x.2) ++ rest) := by
        rw [List.flatMap_cons]
        unfold endLine
        cases x.2 <;> simp
      rw [e, splitOn_append, ih fun y hy => h y (List.mem_cons_of_mem _ hy)]
      · rfl
      · have := h x (List.mem_cons_self ..)
        cases x.2 <;> simp [this]
  unfold lines
  rw [h1, List.reverse_append]
  simp only [List.reverse_cons, List.reverse_nil, List.nil_append, List.singleton_append, List.reverse_reverse,
    List.map_map]
  congr 1
  apply List.map_congr_left
  intro x hx
  cases hx2 : x.2 with
  | true => simp only [Function.comp, hx2, if_true]; exact dropCr_cr _
  | false => simp only [Function.comp, hx2, Bool.false_eq_true, if_false]; exact dropCr_no (hcr x hx hx2)

/-- Trimming: blanks on both sides go, nothing else does. -/
theorem c64_trim (a s b : List Char) (ha : ∀ c ∈ a, isSpace c = true) (hb : ∀ c ∈ b, isSpace c = true)
    (h1 : ∀ c, s.head? = some c → isSpace c = false) (h2 : ∀ c, s.getLast? = some c → isSpace c = false) :
    trim (a ++ s ++ b) = s := by
  have dw : ∀ (a t : List Char), (∀ c ∈ a, isSpace c = true) → (a ++ t).dropWhile isSpace = t.dropWhile isSpace := by
    intro a t ha
    induction a with
    | nil => rfl
    | cons x xs ih =>
      rw [List.cons_append, List.dropWhile_cons_of_pos (ha x (List.mem_cons_self ..)),
        ih fun y hy => ha y (List.mem_cons_of_mem _ hy)]
  have hb' : b.dropWhile isSpace = [] := by
    have := dw b [] hb
    simpa using this
  unfold trim
  rw [List.append_assoc, dw a _ ha]
  cases s with
  | nil => rw [List.nil_append, hb']; rfl
  | cons x xs =>
    rw [List.cons_append, List.dropWhile_cons_of_neg (by rw [h1 x rfl]; decide), ← List.cons_append,
      List.reverse_append, dw b.reverse _ (fun c hc => hb c (List.mem_reverse.1 hc))]
    cases hr : (x :: xs).reverse with
    | nil => simp at hr
    | cons y ys =>
      have hl : (x :: xs).getLast? = some y := by rw [← List.head?_reverse, hr]; rfl
      rw [List.dropWhile_cons_of_neg (by rw [h2 y hl]; decide), ← hr, List.reverse_reverse]

/-- Fields of a line: what is between the separators, without the empty ones, trimmed. -/
theorem c64_fields {sep : Char} (fs : List (List Char)) (h : ∀ x ∈ fs, sep ∉ x) :
    fields sep (joinFields sep fs) = (fs.filter fun x => x != []).map trim := by
  unfold fields
  cases fs with
  | nil => rfl
  | cons x xs => rw [splitOn_join x xs h]

/-- The conversion answers all fields in order when each is a number, and an error otherwise: nothing is skipped. -/
theorem c65_all_numbers (text : List Char) :
    (∀ vs, csv2bin text = .ok vs ↔ (allFields ',' text).map parseF64 = vs.map some) ∧
    (csv2bin text = .err ↔ ∃ f ∈ allFields ',' text, parseF64 f = none) := by
  have gen : ∀ fs : List (List Char), (∀ vs, parseAll fs = some vs ↔ fs.map parseF64 = vs.map some) ∧
      (parseAll fs = none ↔ ∃ f ∈ fs, parseF64 f = none) := by
    intro fs
    induction fs with
    | nil =>
      refine ⟨fun vs => ?_, ?_⟩
      · cases vs <;> simp [parseAll]
      · simp [parseAll]
    | cons f fs ih =>
      rw [parseAll]
      obtain ⟨i1, i2⟩ := ih
      cases hf : parseF64 f with
      | none =>
        refine ⟨fun vs => ?_, ?_⟩
        · cases vs <;> simp [hf]
        · simp [hf]
      | some v =>
        cases ha : parseAll fs with
        | none =>
          refine ⟨fun vs => ?_, ?_⟩
          · simp only [reduceCtorEq, false_iff]
            intro hc
            obtain ⟨g, hg, hn⟩ := i2.1 ha
            have : none ∈ vs.map some := by
              rw [← hc]
              exact List.mem_map.2 ⟨g, List.mem_cons_of_mem _ hg, hn⟩
            simp at this
          · simp only [true_iff]
            obtain ⟨g, hg, hn⟩ := i2.1 ha
            exact ⟨g, List.mem_cons_of_mem _ hg, hn⟩
        | some ws =>
          have hw := (i1 ws).1 ha
          refine ⟨fun vs => ?_, ?_⟩
          · simp only [List.map_cons, hf, hw, Option.some.injEq]
            rw [← List.map_cons (f := some), List.map_inj_right (fun _ _ h => Option.some.inj h)]
          · simp only [reduceCtorEq, false_iff]
            rintro ⟨g, hg, hn⟩
            rcases List.mem_cons.1 hg with rfl | hg
            · rw [hf] at hn; cases hn
            · have : none ∈ ws.map some := by
                rw [← hw]
                exact List.mem_map.2 ⟨g, hg, hn⟩
              simp at this
  obtain ⟨g1, g2⟩ := gen (allFields ',' text)
  unfold csv2bin
  cases hp : parseAll (allFields ',' text) with
  | none =>
    refine ⟨fun vs => ?_, ?_⟩
    · rw [← g1, hp]
      simp
    · rw [← g2, hp]
      simp
  | some ws =>
    refine ⟨fun vs => ?_, ?_⟩
    · rw [← g1, hp]
      simp
    · rw [← g2, hp]
      simp

/-- A text as people write it: a line ended with `\r\n`, blanks, an empty field, no end after the last line. -/
example : allFields ',' ("1.5 ,, 2\r\n3".toList) = ["1.5".toList, "2".toList, "3".toList] ∧
    csv2bin "1.5 ,, 2\r\n3".toList =
      .ok [0x3ff8000000000000#64, 0x4000000000000000#64, 0x4008000000000000#64] ∧
    csv2bin "1.5,x,2\n".toList = .err := by decide +kernel

example : '\n' ∉ "1.5 ,, 2".toList ∧ "1.5 ,, 2".toList.getLast? ≠ some '\r' := by decide

end Ebi.Props
