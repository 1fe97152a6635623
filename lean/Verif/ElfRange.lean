import Verif.ElfSig

/-!
# Elf: `Carries` for `±0`, `±inf` and `1e-6 ≤ |v| < 1e9`
-/

namespace Ebi.Elf

open Ebi Ebi.Soft

attribute [local irreducible] roundMag magVal U

theorem key_ne_zero {v : B64} (h : mag v ≠ 0) : key v ≠ 0 := by
  unfold key
  split <;> omega

theorem plan_finite (lg : B64 → B64) (last : Int) {v : B64} (h0 : mag v ≠ 0)
    (hfin : mag v < 0x7ff0000000000000) : plan lg last v =
    if (alphaBetaStar lg v last).2 < 16 then
      if 4 < eraseBits (alphaBetaStar lg v last).1 (mag v / 2 ^ 52) then
        if ~~~(BitVec.allOnes 64 <<< (eraseBits (alphaBetaStar lg v last).1 (mag v / 2 ^ 52) % 64).toNat) &&& v
            ≠ 0#64 then
          .erase (alphaBetaStar lg v last).2
            ((BitVec.allOnes 64 <<< (eraseBits (alphaBetaStar lg v last).1 (mag v / 2 ^ 52) % 64).toNat) &&& v)
        else .raw v
      else .raw v
    else .raw v := by
  have h1 : feq v 0#64 = false := by
    unfold feq
    have : key 0#64 = 0 := by decide
    rw [this]
    simp [key_ne_zero h0]
  have h2 : isInf v = false := by unfold isInf; simp; omega
  have h3 : isNaN v = false := by unfold isNaN; simp; omega
  have h4 : v.toNat / 2 ^ 52 % 2 ^ 11 = mag v / 2 ^ 52 := by unfold mag; omega
  unfold plan
  simp only [h1, h2, h3, h4, Bool.or_self, Bool.false_eq_true, if_false]

theorem alphaBetaStar_eq (lg : B64 → B64) (v : B64) (last : Int) {sp : Int} {flag : Bool}
    (h : getSpFlag lg (abs v) = (sp, flag)) :
    alphaBetaStar lg v last = (asU32 (sigCount (abs v) sp last - sp - 1),
      if flag then 0 else sigCount (abs v) sp last) := by
  unfold alphaBetaStar
  simp only [h]

theorem plan_congr {lg lg' : B64 → B64} (v : B64) (last : Int)
    (h : getSpFlag lg (abs v) = getSpFlag lg' (abs v)) : plan lg last v = plan lg' last v := by
  have : alphaBetaStar lg v last = alphaBetaStar lg' v last := by
    unfold alphaBetaStar
    simp only [h]
  unfold plan
  rw [this]

/-- Rounding up recovers the value, once `sp` is the same for the erased value. -/
theorem recover_eq (lg : B64 → B64) {s : Bool} {m m' : Nat} {sp : Int} {a D : Nat} (ha : a ≤ 20)
    (hfin' : m' < 0x7ff0000000000000) (hm : m = roundMag (D * U) (10 ^ a)) (hD : D < 2 ^ 48)
    (hlt : magVal m' * 10 ^ a < D * U) (hge : D * U ≤ magVal m' * 10 ^ a + 1000 * 2 ^ 1064)
    (hsp' : getSp lg (mk false m') = sp) (hb : 1 ≤ sp + a + 1) :
    recover lg (sp + a + 1) (mk s m') = mk s m := by
  have hW : U = 1024 * 2 ^ 1064 := by
    rw [← U_eq, show (1074 : Nat) = 10 + 1064 from rfl, Nat.pow_add]
  -- rounding up
  obtain ⟨hup, hupfin⟩ := roundup_core hD (by rw [U_eq]; exact hlt) (by rw [U_eq]; exact hge)
  rw [U_eq] at hup
  have habs : abs (mk s m') = mk false m' := by unfold abs; rw [mag_mk _ (by omega)]
  have hpos : 0 < m' := by
    rw [← magVal_pos]
    rcases Nat.eq_zero_or_pos (magVal m') with h | h
    · exfalso
      rw [h, Nat.zero_mul] at hlt hge
      rw [hW] at hge hlt
      have hWpos : 0 < 2 ^ 1064 := Nat.two_pow_pos _
      have hD1 : 1 ≤ D := by
        rcases Nat.eq_zero_or_pos D with h0 | h0
        · subst h0; rw [Nat.zero_mul] at hlt; omega
        · exact h0
      have := Nat.mul_le_mul_right (1024 * 2 ^ 1064) hD1
      generalize D * (1024 * 2 ^ 1064) = x at *
      generalize 2 ^ 1064 = w at *
      omega
    · exact h
  have hDU := exact_U (A := D) (s := 0) (by omega) (by decide)
  rw [Nat.pow_zero, Nat.mul_one] at hDU
  have hfinal : div (mk s (roundMag (D * U) 1)) (p10 a) = mk s m := by
    rw [div_p10 hDU.2 (by omega), hDU.1, ← hm]
  have hT : mul (mk s m') (p10 a) = mk s (roundMag (magVal m' * 10 ^ a) 1) := mul_p10 hfin' (by omega)
  have g1 : mag (mk s (roundMag (magVal m' * 10 ^ a) 1)) = roundMag (magVal m' * 10 ^ a) 1 :=
    mag_mk _ (by omega)
  have g2 : sgn (mk s (roundMag (magVal m' * 10 ^ a) 1)) = s := sgn_mk _ (by omega)
  have g3 : isFinite (mk s (roundMag (magVal m' * 10 ^ a) 1)) = true := by
    unfold isFinite; rw [g1]; simpa using hupfin
  have hsign : flt (mk s m') 0#64 = s := by
    unfold flt
    have hk0 : key 0#64 = 0 := by decide
    have hn0 : isNaN 0#64 = false := by decide
    rw [isNaN_mk (by omega), hk0, hn0]
    unfold key
    rw [sgn_mk _ (by omega), mag_mk _ (by omega)]
    cases s
    · simp
    · simp; omega
  unfold recover
  simp only [habs, hsp']
  rw [if_neg (by omega), show sp + (a : Int) + 1 - sp - 1 = (a : Int) by omega, asU32_nat (by omega)]
  unfold roundUp
  simp only [hsign, hT]
  cases s
  · simp only [Bool.false_eq_true, if_false]
    unfold ceil
    simp only [g3, g2, if_true, Bool.false_eq_true, if_false, absVal, g1, U_eq, hup]
    exact hfinal
  · simp only [if_true]
    unfold floor
    simp only [g3, g2, if_true, absVal, g1, U_eq, hup]
    exact hfinal

/-- Everything the erased branch needs, on magnitudes. -/
theorem erase_recover (lg : B64 → B64) {s : Bool} {m : Nat} {sp : Int} {a D : Nat}
    (hfin : m < 0x7ff0000000000000) (hlo : 0x3eb0c6f7a0b5ed8d ≤ m)
    (hs : Sp m sp) (hsp : -6 ≤ sp) (hflag : ¬ (sp < 0 ∧ m = roundMag U (10 ^ (-sp).toNat)))
    (hm : m = roundMag (D * U) (10 ^ a)) (hb : sp + a + 1 < 16) :
    1023 ≤ fAlpha a + m / 2 ^ 52 ∧ fAlpha a ≤ 67 ∧
    (fAlpha a + m / 2 ^ 52 + 4 < 1075 → m % 2 ^ (1075 - fAlpha a - m / 2 ^ 52) ≠ 0 →
      1 ≤ sp + a + 1 ∧ m - m % 2 ^ (1075 - fAlpha a - m / 2 ^ 52) < 0x7ff0000000000000 ∧
      recover lg (sp + a + 1) (mk s (m - m % 2 ^ (1075 - fAlpha a - m / 2 ^ 52))) = mk s m) := by
  have ha : a ≤ 20 := by omega
  have hE : 1 ≤ m / 2 ^ 52 := by omega
  obtain ⟨hc1, hc2⟩ := erase_core ha (by rw [U_eq]; exact hm) hfin hE (by omega)
  have hF := (fTable_le ha).1
  have hA : 0 < 10 ^ a := Nat.pow_pos (by decide)
  refine ⟨hc1, hF, fun her hne => ?_⟩
  obtain ⟨ha1, hD, hV, hlt, hge, hE'⟩ := hc2 her hne
  rw [U_eq] at hlt hge
  have hGU : 2 ^ (1074 - fAlpha a) * 2 ^ fAlpha a = U := by
    rw [← U_eq, ← Nat.pow_add]; congr 1; omega
  generalize hF' : fAlpha a = F at *
  generalize hm' : m - m % 2 ^ (1075 - F - m / 2 ^ 52) = m' at *
  have hle : m' ≤ m := by omega
  have hfin' : m' < 0x7ff0000000000000 := by omega
  have hW : U = 1024 * 2 ^ 1064 := by
    rw [← U_eq, show (1074 : Nat) = 10 + 1064 from rfl, Nat.pow_add]
  -- the erased value has the same `sp`
  have hsp' : Sp m' sp ∧ 1 ≤ sp + a + 1 := by
    rcases hs with ⟨i, rfl, hi, h3, h4⟩ | ⟨k, rfl, hk1, hk, h3, h4⟩
    · refine ⟨Or.inl ⟨i, rfl, hi, ?_, Nat.lt_of_le_of_lt (magVal_mono hle) h4⟩, by omega⟩
      have hdvd : 10 ^ i * U = 10 ^ i * 2 ^ F * 2 ^ (1074 - F) := by
        rw [← hGU]; ac_rfl
      rw [hdvd] at h3 ⊢
      have hdm := Nat.div_add_mod (magVal m) (2 ^ (1074 - F))
      have h5 : 10 ^ i * 2 ^ F ≤ magVal m / 2 ^ (1074 - F) :=
        (Nat.le_div_iff_mul_le (Nat.two_pow_pos _)).2 h3
      have h6 := Nat.mul_le_mul_right (2 ^ (1074 - F)) h5
      rw [Nat.mul_comm (2 ^ (1074 - F))] at hdm
      rw [hV]
      generalize magVal m / 2 ^ (1074 - F) * 2 ^ (1074 - F) = x at *
      generalize magVal m % 2 ^ (1074 - F) = y at *
      omega
    · have hak : k ≤ a := by
        rcases Nat.lt_or_ge a k with h | h
        · exfalso
          have h5 : roundMag U (10 ^ (k - 1)) ≤ m := by
            rw [hm]
            refine roundMag_mono_cross (Nat.pow_pos (by decide)) hA ?_
            have hD1 : 1 ≤ D := by
              rcases Nat.eq_zero_or_pos D with h0 | h0
              · subst h0; rw [Nat.zero_mul] at hlt; omega
              · exact h0
            calc U * 10 ^ a ≤ U * 10 ^ (k - 1) :=
                  Nat.mul_le_mul_left _ (Nat.pow_le_pow_right (by decide) (by omega))
              _ ≤ D * U * 10 ^ (k - 1) :=
                  Nat.mul_le_mul_right _ (Nat.le_mul_of_pos_left _ hD1)
          omega
        · exact h
      have hnf : m ≠ roundMag U (10 ^ k) := by
        intro h
        apply hflag
        refine ⟨by omega, ?_⟩
        rw [h]
        congr 2
        omega
      have hsplit : 10 ^ a = 10 ^ k * 10 ^ (a - k) := by rw [← Nat.pow_add]; congr 1; omega
      have hDk : 10 ^ (a - k) + 1 ≤ D := by
        rcases Nat.lt_or_ge (10 ^ (a - k)) D with h | h
        · exact h
        · exfalso
          have h5 : m ≤ roundMag U (10 ^ k) := by
            rw [hm]
            refine roundMag_mono_cross hA (Nat.pow_pos (by decide)) ?_
            calc D * U * 10 ^ k ≤ 10 ^ (a - k) * U * 10 ^ k :=
                  Nat.mul_le_mul_right _ (Nat.mul_le_mul_right _ h)
              _ = U * 10 ^ a := by rw [hsplit]; ac_rfl
          omega
      have hVk : U ≤ magVal m' * 10 ^ k := by
        have h5 : 10 ^ (a - k) * U ≤ magVal m' * 10 ^ a := by
          have h6 := Nat.mul_le_mul_right U hDk
          rw [Nat.add_mul, Nat.one_mul] at h6
          have hWpos : 0 < 2 ^ 1064 := Nat.two_pow_pos _
          generalize 10 ^ (a - k) * U = x at *
          generalize D * U = y at *
          generalize magVal m' * 10 ^ a = z at *
          rw [hW] at h6
          generalize 2 ^ 1064 = w at *
          omega
        rw [hsplit, ← Nat.mul_assoc, Nat.mul_comm] at h5
        exact Nat.le_of_mul_le_mul_right h5 (Nat.pow_pos (by decide))
      refine ⟨Or.inr ⟨k, rfl, hk1, hk, ?_, by omega⟩, by omega⟩
      have h6 := roundMag_mono_cross (Nat.pow_pos (n := k) (by decide : 0 < 10)) (Nat.pow_pos (n := k) (by decide : 0 < 10))
        (Nat.mul_le_mul_right (10 ^ k) hVk)
      rw [roundMag_magVal_mul (Nat.pow_pos (by decide)) (Nat.le_of_lt hfin')] at h6
      exact h6
  refine ⟨hsp'.2, hfin', recover_eq lg ha hfin' hm hD hlt hge (getSp_eq lg (by omega) hsp'.1).1 hsp'.2⟩

theorem asI32_small {x : Nat} (h : x < 2 ^ 31) : asI32 x = x := by
  unfold asI32; rw [if_pos h]

theorem ne_nan_of_fin {s : Bool} {m : Nat} (h : m < 0x7ff0000000000000) : mk s m ≠ nanBits := by
  intro hc
  have := congrArg mag hc
  rw [mag_mk _ (by omega)] at this
  have h2 : mag nanBits = 0x7ff8000000000000 := by decide
  omega

/-! ## The powers of ten below one: a finite table -/

/-- `Good`, decided, with a fixed stand-in for `log10` (which is not consulted here). -/
def goodB (v : B64) : Plan → Bool
  | .raw v' => decide (v' = v)
  | .erase beta v' => decide (0 ≤ beta) && decide (beta < 16) && decide (v' ≠ nanBits) &&
      decide (recover (fun x => x) beta v' = v) &&
      decide (0x3e7ad7f29abcaf48 ≤ mag v' ∧ mag v' < 0x3ff0000000000000)

/-- All the cases `v = ±10^-k` (`1 ≤ k ≤ 6`) and reachable states. -/
def flagCase (s : Bool) (k : Nat) (last : Int) : Bool :=
  goodB (mk s (roundMag U (10 ^ k))) (plan (fun x => x) last (mk s (roundMag U (10 ^ k))))

theorem flagCase_all : ∀ (s : Bool) (k : Fin 6) (l : Fin 17),
    flagCase s (k.1 + 1) (if l.1 = 16 then i32Max else (l.1 : Int)) = true := by decide +kernel

theorem getSp_congr {lg lg' : B64 → B64} {m : Nat} {sp : Int} (hm : m ≤ 0x7ff0000000000000) (h : Sp m sp) :
    getSp lg (mk false m) = getSp lg' (mk false m) ∧ getSpFlag lg (mk false m) = getSpFlag lg' (mk false m) := by
  obtain ⟨h1, h2⟩ := getSp_eq lg hm h
  obtain ⟨h3, h4⟩ := getSp_eq lg' hm h
  exact ⟨h1.trans h3.symm, h2.trans h4.symm⟩

theorem n10_seven : roundMag U (10 ^ 7) = 0x3e7ad7f29abcaf48 := by decide +kernel
theorem n10_zero : roundMag U (10 ^ 0) = 0x3ff0000000000000 := by decide +kernel

theorem flag_index (f : Bool → Nat → Int → Bool)
    (h : ∀ (s : Bool) (k : Fin 6) (l : Fin 17),
      f s (k.1 + 1) (if l.1 = 16 then i32Max else (l.1 : Int)) = true)
    (s : Bool) {k : Nat} {last : Int} (h1 : 1 ≤ k) (h6 : k ≤ 6) (hl : LastOk last) : f s k last = true := by
  rcases hl with hl | ⟨hl0, hl16⟩
  · have := h s ⟨k - 1, by omega⟩ ⟨16, by decide⟩
    simp only [if_true, Nat.sub_add_cancel h1] at this
    rw [hl]; exact this
  · have := h s ⟨k - 1, by omega⟩ ⟨last.toNat, by omega⟩
    simp only [Nat.sub_add_cancel h1] at this
    rw [if_neg (by omega), Int.toNat_of_nonneg hl0] at this
    exact this

theorem good_of_goodB (lg : B64 → B64) {v : B64} (hv : v ≠ nanBits) {p : Plan} (h : goodB v p = true) :
    Good lg (· ≠ nanBits) v p := by
  cases p with
  | raw v' =>
    simp only [goodB, decide_eq_true_eq] at h
    exact ⟨h, hv⟩
  | erase beta v' =>
    simp only [goodB, Bool.and_eq_true, decide_eq_true_eq] at h
    obtain ⟨⟨⟨⟨c1, c2⟩, c3⟩, c4⟩, c5, c6⟩ := h
    refine ⟨c1, c2, c3, ?_⟩
    rw [← c4]
    obtain ⟨k', k1, k2, k3, k4⟩ := exists_below (m := mag v') (by rw [n10_zero]; exact c6) 7
      (by rw [n10_seven]; exact c5)
    have hsp' : Sp (mag v') (-(k' : Int)) := Or.inr ⟨k', rfl, k1, by omega, k3, k4⟩
    have hg : getSp lg (abs v') = getSp (fun x => x) (abs v') :=
      (getSp_congr (lg := lg) (lg' := fun x => x) (by omega) hsp').1
    unfold recover
    rw [hg]

theorem n10_step {k : Nat} (h1 : 1 ≤ k) (h6 : k ≤ 6) : roundMag U (10 ^ k) < roundMag U (10 ^ (k - 1)) := by
  have : ∀ k : Fin 6, roundMag U (10 ^ (k.1 + 1)) < roundMag U (10 ^ k.1) := by decide +kernel
  have := this ⟨k - 1, by omega⟩
  simp only [Nat.sub_add_cancel h1] at this
  exact this

theorem plan_flag (lg : B64 → B64) (s : Bool) {k : Nat} (h1 : 1 ≤ k) (h6 : k ≤ 6) (last : Int) :
    plan lg last (mk s (roundMag U (10 ^ k))) = plan (fun x => x) last (mk s (roundMag U (10 ^ k))) ∧
    mk s (roundMag U (10 ^ k)) ≠ nanBits := by
  have hhi := n10_step h1 h6
  have hone : roundMag U (10 ^ (k - 1)) ≤ roundMag U (10 ^ 0) := n10_anti (by omega)
  rw [n10_zero] at hone
  have hsp : Sp (roundMag U (10 ^ k)) (-(k : Int)) := Or.inr ⟨k, rfl, h1, by omega, Nat.le_refl _, hhi⟩
  generalize roundMag U (10 ^ k) = m at *
  have habs : abs (mk s m) = mk false m := by unfold abs; rw [mag_mk _ (by omega)]
  constructor
  · apply plan_congr
    rw [habs]
    exact (getSp_congr (lg := lg) (lg' := fun x => x) (by omega) hsp).2
  · exact ne_nan_of_fin (by omega)

theorem carries_flag (lg : B64 → B64) (s : Bool) {k : Nat} (h1 : 1 ≤ k) (h6 : k ≤ 6) :
    Carries lg (· ≠ nanBits) (mk s (roundMag U (10 ^ k))) := by
  intro last hl
  have hcase : flagCase s k last = true := flag_index flagCase flagCase_all s h1 h6 hl
  obtain ⟨hp, hn⟩ := plan_flag lg s h1 h6 last
  rw [hp]
  exact good_of_goodB lg hn hcase

theorem eraseBits_eq {a e : Nat} (h1 : 1023 ≤ fAlpha a + e) (h2 : fAlpha a ≤ 67) (h3 : e < 2048) :
    eraseBits a e = 1075 - (fAlpha a : Int) - (e : Int) := by
  unfold eraseBits
  generalize fAlpha a = F at *
  have h4 : (F + e + (2 ^ 32 - 1023)) % 2 ^ 32 = F + e - 1023 := by omega
  rw [h4, asI32_small (by omega)]
  omega

/-- Every value with `1e-6 ≤ |v| < 1e9` (as doubles) survives. -/
theorem carries_range (lg : B64 → B64) {v : B64} (hlo : 0x3eb0c6f7a0b5ed8d ≤ mag v)
    (hhi : mag v < 0x41cdcd6500000000) : Carries lg (· ≠ nanBits) v := by
  obtain ⟨sp, hs, hsp1, hsp2⟩ := exists_sp hlo hhi
  have hv : mk (sgn v) (mag v) = v := mk_sgn_mag v
  by_cases hflag : sp < 0 ∧ mag v = roundMag U (10 ^ (-sp).toNat)
  · have := carries_flag lg (sgn v) (k := (-sp).toNat) (by omega) (by omega)
    rw [← hflag.2, hv] at this
    exact this
  intro last hl
  have hfin : mag v < 0x7ff0000000000000 := by omega
  have hEb : mag v / 2 ^ 52 < 2048 := by omega
  have habs : abs v = mk false (mag v) := rfl
  have hab : alphaBetaStar lg v last = (asU32 (sigCount (mk false (mag v)) sp last - sp - 1),
      sigCount (mk false (mag v)) sp last) := by
    have hg := (getSp_eq lg (m := mag v) (by omega) hs).2
    rw [decide_eq_false hflag, ← habs] at hg
    have he := alphaBetaStar_eq lg v last hg
    rw [if_neg Bool.false_ne_true, habs] at he
    exact he
  have hraw : v ≠ nanBits := by rw [← hv]; exact ne_nan_of_fin hfin
  rw [plan_finite lg last (by omega) hfin, hab]
  simp only
  have hspec := sigCount_spec hfin hlo hs hsp1 hsp2 hl
  generalize sigCount (mk false (mag v)) sp last = cnt at *
  rcases hspec with h17 | ⟨a, D, hcnt, ha, hm⟩
  · rw [h17, if_neg (show ¬ (17 : Int) < 16 by decide)]
    exact ⟨rfl, hraw⟩
  · rw [hcnt, show sp + (a : Int) + 1 - sp - 1 = (a : Int) by omega, asU32_nat (by omega)]
    by_cases hb : sp + (a : Int) + 1 < 16
    · rw [if_pos hb]
      have hk := erase_recover lg (s := sgn v) hfin hlo hs hsp1 hflag hm hb
      have k1 := hk.1
      have k2 := hk.2.1
      have k3 := hk.2.2
      have her : eraseBits a (mag v / 2 ^ 52) = 1075 - (fAlpha a : Int) - (mag v / 2 ^ 52 : Nat) := by
        exact eraseBits_eq k1 k2 hEb
      rw [her]
      by_cases h4 : (4 : Int) < 1075 - (fAlpha a : Int) - (mag v / 2 ^ 52 : Nat)
      · rw [if_pos h4]
        have hk : ((1075 - (fAlpha a : Int) - (mag v / 2 ^ 52 : Nat)) % 64).toNat
            = 1075 - fAlpha a - mag v / 2 ^ 52 := by omega
        rw [hk]
        obtain ⟨q1, q2⟩ := mask_mk (s := sgn v) (m := mag v) (k := 1075 - fAlpha a - mag v / 2 ^ 52)
          (by omega) (by omega)
        rw [hv] at q1 q2
        by_cases hne : mag v % 2 ^ (1075 - fAlpha a - mag v / 2 ^ 52) ≠ 0
        · rw [if_pos (q2.2 hne), q1]
          obtain ⟨r1, r2, r3⟩ := k3 (by omega) hne
          exact ⟨by omega, hb, ne_nan_of_fin r2, by rw [r3, hv]⟩
        · rw [if_neg (fun hc => hne (q2.1 hc))]
          exact ⟨rfl, hraw⟩
      · rw [if_neg h4]
        exact ⟨rfl, hraw⟩
    · rw [if_neg hb]
      exact ⟨rfl, hraw⟩

/-- Signed zeros and infinities are passed through. -/
theorem carries_special (lg : B64 → B64) {v : B64} (h : mag v = 0 ∨ mag v = 0x7ff0000000000000) :
    Carries lg (· ≠ nanBits) v := by
  intro last _
  have h1 : (feq v 0#64 || isInf v) = true := by
    rcases h with h | h
    · have hk : key v = 0 := by unfold key; rw [h]; split <;> rfl
      have hn : isNaN v = false := by unfold isNaN; rw [h]; rfl
      have : feq v 0#64 = true := by
        unfold feq
        rw [hk, hn]
        decide
      rw [this]; rfl
    · have : isInf v = true := by unfold isInf; rw [h]; rfl
      rw [this]; simp
  have hp : plan lg last v = .raw v := by
    unfold plan
    rw [if_pos h1]
  rw [hp]
  refine ⟨rfl, fun hc => ?_⟩
  rw [hc] at h
  revert h
  decide

end Ebi.Elf
