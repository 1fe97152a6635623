import Verif.ElfWrap
import Verif.SoftDiv

/-!
# Elf: the values it carries

Proof that every value with `1e-6 ≤ |v| < 1e9` survives erasing and recovering, from every reachable
`last_beta_star`. `U = 2^1074` units make up `1.0`.
-/

namespace Ebi.Elf

open Ebi Ebi.Soft

attribute [local irreducible] roundMag magVal

/-! ## Magnitudes -/

theorem magVal_normal {m : Nat} (hE : 1 ≤ m / 2 ^ 52) :
    magVal m = (2 ^ 52 + m % 2 ^ 52) * 2 ^ (m / 2 ^ 52 - 1) := by
  unfold magVal
  rw [if_neg (by omega)]

theorem magVal_bounds {m : Nat} (hE : 1 ≤ m / 2 ^ 52) :
    2 ^ (51 + m / 2 ^ 52) ≤ magVal m ∧ magVal m < 2 ^ (52 + m / 2 ^ 52) := by
  rw [magVal_normal hE]
  have hf : m % 2 ^ 52 < 2 ^ 52 := Nat.mod_lt _ (by decide)
  generalize m / 2 ^ 52 = E at *
  generalize m % 2 ^ 52 = f at *
  have hp : 0 < 2 ^ (E - 1) := Nat.two_pow_pos _
  constructor
  · rw [show 51 + E = 52 + (E - 1) by omega, Nat.pow_add]
    exact Nat.mul_le_mul_right _ (by omega)
  · rw [show 52 + E = 53 + (E - 1) by omega, Nat.pow_add]
    exact Nat.mul_lt_mul_of_pos_right (by omega) hp

theorem mod_pow_of_mod {m er : Nat} (her : er ≤ 52) : m % 2 ^ er = m % 2 ^ 52 % 2 ^ er := by
  rw [Nat.mod_mod_of_dvd]
  exact Nat.pow_dvd_pow 2 her

/-- Clearing the low `er` bits of a normal magnitude subtracts a known amount. -/
theorem magVal_erase {m er : Nat} (hE : 1 ≤ m / 2 ^ 52) (her : er ≤ 52) :
    magVal (m - m % 2 ^ er) + m % 2 ^ er * 2 ^ (m / 2 ^ 52 - 1) = magVal m ∧
    magVal m % 2 ^ (er + (m / 2 ^ 52 - 1)) = m % 2 ^ er * 2 ^ (m / 2 ^ 52 - 1) ∧
    (m - m % 2 ^ er) / 2 ^ 52 = m / 2 ^ 52 := by
  have hmod := mod_pow_of_mod (m := m) her
  have hf : m % 2 ^ 52 < 2 ^ 52 := Nat.mod_lt _ (by decide)
  have hd := Nat.div_add_mod m (2 ^ 52)
  have hle : m % 2 ^ 52 % 2 ^ er ≤ m % 2 ^ 52 := Nat.mod_le _ _
  have h1 : (m - m % 2 ^ er) / 2 ^ 52 = m / 2 ^ 52 := by
    rw [hmod]
    generalize m % 2 ^ 52 % 2 ^ er = x at *
    omega
  have h2 : (m - m % 2 ^ er) % 2 ^ 52 = m % 2 ^ 52 - m % 2 ^ er := by
    rw [hmod]
    generalize m % 2 ^ 52 % 2 ^ er = x at *
    omega
  refine ⟨?_, ?_, h1⟩
  · rw [magVal_normal (by rw [h1]; exact hE), magVal_normal hE, h1, h2, ← Nat.add_mul]
    congr 1
    rw [hmod]
    omega
  · rw [magVal_normal hE, Nat.pow_add, Nat.mul_mod_mul_right]
    congr 1
    rw [hmod, Nat.add_mod, Nat.mod_eq_zero_of_dvd (Nat.pow_dvd_pow 2 her), Nat.zero_add, Nat.mod_mod]

/-- Half-ulp bound in terms of the exponent of the result. -/
theorem round_err {n d m : Nat} (hd : 0 < d) (hm : m = roundMag n d) (hfin : m < 0x7ff0000000000000)
    (hE : 1 ≤ m / 2 ^ 52) :
    2 * n ≤ 2 * (magVal m * d) + d * 2 ^ (m / 2 ^ 52 - 1) ∧
    2 * (magVal m * d) ≤ 2 * n + d * 2 ^ (m / 2 ^ 52 - 1) := by
  obtain ⟨e, q, h1, h2, h3, h4, -, -⟩ := roundMag_spec hd (hm ▸ hfin)
  rw [← hm] at h1
  have hb := (magVal_bounds hE).2
  have he : e ≤ m / 2 ^ 52 - 1 := by
    rcases h4 with h4 | ⟨-, h4⟩
    · omega
    · have : 2 ^ (52 + e) ≤ magVal m := by
        rw [h1, Nat.pow_add]; exact Nat.mul_le_mul_right _ h4
      have := (Nat.pow_lt_pow_iff_right (by decide : 1 < 2)).1 (Nat.lt_of_le_of_lt this hb)
      omega
  have hle : d * 2 ^ e ≤ d * 2 ^ (m / 2 ^ 52 - 1) :=
    Nat.mul_le_mul_left _ (Nat.pow_le_pow_right (by decide) he)
  have e1 : q * (d * 2 ^ e) = magVal m * d := by rw [h1]; ac_rfl
  have e2 : (2 * q + 1) * (d * 2 ^ e) = 2 * (magVal m * d) + d * 2 ^ e := by
    rw [Nat.add_mul, Nat.mul_assoc, e1, Nat.one_mul]
  have e3 : 2 * q * (d * 2 ^ e) = 2 * (magVal m * d) := by rw [Nat.mul_assoc, e1]
  rw [e2] at h2
  rw [e3] at h3
  generalize d * 2 ^ (m / 2 ^ 52 - 1) = x at *
  generalize d * 2 ^ e = y at *
  generalize magVal m * d = z at *
  omega

theorem pow_exact {s : Nat} (hs : s < 2098) :
    magVal (roundMag (2 ^ s) 1) = 2 ^ s ∧ roundMag (2 ^ s) 1 < 0x7ff0000000000000 := by
  have := Buff.roundMag_exact (by decide : 1 < 2 ^ 53) (s := s)
    (by rw [Nat.one_mul]; exact Nat.pow_lt_pow_right (by decide) hs)
  rwa [Nat.one_mul] at this

theorem le_magVal_of_round {n d s m : Nat} (hd : 0 < d) (hs : s < 2098) (hm : m = roundMag n d)
    (h : 2 ^ s * d ≤ n) : 2 ^ s ≤ magVal m := by
  have h1 : roundMag (2 ^ s) 1 ≤ m := by
    rw [hm]; exact roundMag_mono_cross (by decide) hd (by rw [Nat.mul_one]; exact h)
  have := magVal_mono h1
  rwa [(pow_exact hs).1] at this

/-! ## The table `F` -/

theorem fTable_le {a : Nat} (h : a ≤ 20) : fAlpha a ≤ 67 ∧ 10 ^ a ≤ 2 ^ fAlpha a ∧
    (1 ≤ a → 1024 * 10 ^ a ≤ 1000 * 2 ^ fAlpha a) ∧ (a = 0 → fAlpha a = 0) := by
  have : ∀ a : Fin 21, fAlpha a.1 ≤ 67 ∧ 10 ^ a.1 ≤ 2 ^ fAlpha a.1 ∧
    (1 ≤ a.1 → 1024 * 10 ^ a.1 ≤ 1000 * 2 ^ fAlpha a.1) ∧ (a.1 = 0 → fAlpha a.1 = 0) := by decide +kernel
  exact this ⟨a, by omega⟩

/-! ## Erasing -/

/-- Facts about a value `m = round(D / 10^a)` whose low `er` bits are erased. -/
theorem erase_core {m a D : Nat} (ha : a ≤ 20) (hm : m = roundMag (D * 2 ^ 1074) (10 ^ a))
    (hfin : m < 0x7ff0000000000000) (hE : 1 ≤ m / 2 ^ 52) (hpos : 0 < m)
    : 1023 ≤ fAlpha a + m / 2 ^ 52 ∧
      (fAlpha a + m / 2 ^ 52 + 4 < 1075 → m % 2 ^ (1075 - fAlpha a - m / 2 ^ 52) ≠ 0 →
        let m' := m - m % 2 ^ (1075 - fAlpha a - m / 2 ^ 52)
        1 ≤ a ∧ D < 2 ^ 48 ∧
        magVal m' = magVal m - magVal m % 2 ^ (1074 - fAlpha a) ∧
        magVal m' * 10 ^ a < D * 2 ^ 1074 ∧ D * 2 ^ 1074 ≤ magVal m' * 10 ^ a + 1000 * 2 ^ 1064 ∧
        m' / 2 ^ 52 = m / 2 ^ 52) := by
  obtain ⟨hF, hP, hP', h0⟩ := fTable_le ha
  generalize hFd : fAlpha a = F at *
  have hA : 0 < 10 ^ a := Nat.pow_pos (by decide)
  have hb := magVal_bounds hE
  have hD : 1 ≤ D := by
    rcases Nat.eq_zero_or_pos D with h | h
    · subst h
      rw [Nat.zero_mul] at hm
      have h2 : roundMag 0 (10 ^ a) = 0 := by
        unfold roundMag divRne
        simp
      omega
    · exact h
  have hGP : 2 ^ (1074 - F) * 2 ^ F = 2 ^ 1074 := by rw [← Nat.pow_add]; congr 1; omega
  have hlow : ∀ k, 2 ^ k ≤ D → k ≤ 48 → 2 ^ (1074 - F + k) ≤ magVal m := by
    intro k hk hk'
    refine le_magVal_of_round hA (by omega) hm ?_
    calc 2 ^ (1074 - F + k) * 10 ^ a ≤ 2 ^ (1074 - F + k) * 2 ^ F := Nat.mul_le_mul_left _ hP
      _ = 2 ^ k * 2 ^ 1074 := by rw [← hGP, Nat.pow_add]; ac_rfl
      _ ≤ D * 2 ^ 1074 := Nat.mul_le_mul_right _ hk
  have hlog : ∀ s, 2 ^ s ≤ magVal m → s < 52 + m / 2 ^ 52 := fun s hs =>
    (Nat.pow_lt_pow_iff_right (by decide : 1 < 2)).1 (Nat.lt_of_le_of_lt hs hb.2)
  refine ⟨?_, ?_⟩
  · have := hlog _ (hlow 0 hD (by decide))
    omega
  intro her hne
  have hE1023 : 1023 ≤ F + m / 2 ^ 52 := by
    have := hlog _ (hlow 0 hD (by decide))
    omega
  have hD48 : D < 2 ^ 48 := by
    rcases Nat.lt_or_ge D (2 ^ 48) with h | h
    · exact h
    · have := hlog _ (hlow 48 h (by decide))
      omega
  obtain ⟨k1, k2, k3⟩ := magVal_erase (er := 1075 - F - m / 2 ^ 52) hE (by omega)
  rw [show 1075 - F - m / 2 ^ 52 + (m / 2 ^ 52 - 1) = 1074 - F by omega] at k2
  have hu : 0 < 2 ^ (m / 2 ^ 52 - 1) := Nat.two_pow_pos _
  have hdu : 2 ^ (m / 2 ^ 52 - 1) ≤ m % 2 ^ (1075 - F - m / 2 ^ 52) * 2 ^ (m / 2 ^ 52 - 1) :=
    Nat.le_mul_of_pos_left _ (by omega)
  have hdG : m % 2 ^ (1075 - F - m / 2 ^ 52) * 2 ^ (m / 2 ^ 52 - 1) + 2 ^ (m / 2 ^ 52 - 1) ≤ 2 ^ (1074 - F) := by
    rw [← Nat.succ_mul, show 1074 - F = (1075 - F - m / 2 ^ 52) + (m / 2 ^ 52 - 1) by omega, Nat.pow_add]
    exact Nat.mul_le_mul_right _ (Nat.succ_le_of_lt (Nat.mod_lt _ (Nat.two_pow_pos _)))
  obtain ⟨r1, r2⟩ := round_err hA hm hfin hE
  have ha1 : 1 ≤ a := by
    rcases Nat.eq_zero_or_pos a with h | h
    · exfalso
      have hF0 := h0 h
      subst h
      rw [Nat.pow_zero] at hm
      have hx := Buff.roundMag_exact (A := D) (s := 1074) (by omega)
        (Nat.lt_of_lt_of_le (Nat.mul_lt_mul_of_pos_right hD48 (Nat.two_pow_pos _))
          (by rw [← Nat.pow_add]; exact Nat.pow_le_pow_right (by decide) (by decide)))
      rw [← hm] at hx
      rw [hx.1, hF0, Nat.sub_zero, Nat.mul_mod_left, ← hF0] at k2
      have := Nat.mul_pos (Nat.pos_of_ne_zero hne) hu
      omega
    · exact h
  have hP'' := hP' ha1
  refine ⟨ha1, hD48, ?_, ?_, ?_, k3⟩
  · rw [k2]; omega
  all_goals
    have hG1 : 1024 * (2 ^ (1074 - F) * 10 ^ a) ≤ 1000 * 2 ^ 1074 := by
      rw [← hGP]
      calc 1024 * (2 ^ (1074 - F) * 10 ^ a) = 2 ^ (1074 - F) * (1024 * 10 ^ a) := by ac_rfl
        _ ≤ 2 ^ (1074 - F) * (1000 * 2 ^ F) := Nat.mul_le_mul_left _ hP''
        _ = _ := by ac_rfl
    have hU : (2 : Nat) ^ 1074 = 1024 * 2 ^ 1064 := by
      rw [show (1074 : Nat) = 10 + 1064 from rfl, Nat.pow_add]
    have hDU : D * 2 ^ 1074 = D * (1024 * 2 ^ 1064) := by rw [hU]
    have q1 := Nat.mul_le_mul_right (10 ^ a) hdu
    have q2 := Nat.mul_le_mul_right (10 ^ a) hdG
    have q3 := congrArg (· * 10 ^ a) k1
    have q4 : 0 < 10 ^ a * 2 ^ (m / 2 ^ 52 - 1) := Nat.mul_pos hA hu
    rw [Nat.add_mul] at q2 q3
    rw [Nat.mul_comm (10 ^ a)] at r1 r2 q4
    generalize magVal (m - m % 2 ^ (1075 - F - m / 2 ^ 52)) * 10 ^ a = V' at *
    generalize m % 2 ^ (1075 - F - m / 2 ^ 52) * 2 ^ (m / 2 ^ 52 - 1) * 10 ^ a = dA at *
    generalize 2 ^ (m / 2 ^ 52 - 1) * 10 ^ a = uA at *
    generalize 2 ^ (1074 - F) * 10 ^ a = GA at *
    generalize magVal m * 10 ^ a = VA at *
    rw [hU] at hG1
    generalize D * 2 ^ 1074 = DU at *
    generalize 2 ^ 1064 = W at *
    omega

/-- The scaled erased value rounds up to `D`. -/
theorem roundup_core {n D : Nat} (hD : D < 2 ^ 48) (h1 : n < D * 2 ^ 1074)
    (h2 : D * 2 ^ 1074 ≤ n + 1000 * 2 ^ 1064) :
    (magVal (roundMag n 1) + (2 ^ 1074 - 1)) / 2 ^ 1074 = D ∧ roundMag n 1 < 0x7ff0000000000000 := by
  have hx := Buff.roundMag_exact (A := D) (s := 1074) (by omega)
    (Nat.lt_of_lt_of_le (Nat.mul_lt_mul_of_pos_right hD (Nat.two_pow_pos _))
      (by rw [← Nat.pow_add]; exact Nat.pow_le_pow_right (by decide) (by decide)))
  have hmono := roundMag_mono (d := 1) (Nat.le_of_lt h1)
  have hfin : roundMag n 1 < 0x7ff0000000000000 := Nat.lt_of_le_of_lt hmono hx.2
  have hT : magVal (roundMag n 1) ≤ D * 2 ^ 1074 := by
    rw [← hx.1]; exact magVal_mono hmono
  obtain ⟨e, q, k1, k2, -, k4, -, -⟩ := roundMag_spec (by decide : 0 < 1) hfin
  have he : 2 ^ e ≤ 2 ^ 1069 := by
    refine Nat.pow_le_pow_right (by decide) ?_
    rcases k4 with k4 | ⟨k4, -⟩
    · omega
    · rw [Nat.mul_one] at k4
      have h3 : D * 2 ^ 1074 ≤ 2 ^ (48 + 1074) := by
        rw [Nat.pow_add]; exact Nat.mul_le_mul_right _ (Nat.le_of_lt hD)
      have := (Nat.pow_lt_pow_iff_right (by decide : 1 < 2)).1
        (Nat.lt_of_lt_of_le (Nat.lt_of_le_of_lt k4 h1) h3)
      omega
  have e2 : (2 * q + 1) * (1 * 2 ^ e) = 2 * magVal (roundMag n 1) + 2 ^ e := by
    rw [k1, Nat.add_mul, Nat.mul_assoc, Nat.one_mul, Nat.one_mul]
  rw [e2] at k2
  refine ⟨?_, hfin⟩
  have hU : (2 : Nat) ^ 1074 = 1024 * 2 ^ 1064 := by
    rw [show (1074 : Nat) = 10 + 1064 from rfl, Nat.pow_add]
  have hU2 : (2 : Nat) ^ 1069 = 32 * 2 ^ 1064 := by
    rw [show (1069 : Nat) = 5 + 1064 from rfl, Nat.pow_add]
  have hW : 0 < (2 : Nat) ^ 1064 := Nat.two_pow_pos _
  generalize magVal (roundMag n 1) = T at *
  rw [hU2] at he
  rw [hU] at h1 h2 hT ⊢
  generalize (2 : Nat) ^ 1064 = W at *
  generalize (2 : Nat) ^ e = y at *
  have hD0 : 1 ≤ D := by
    rcases Nat.eq_zero_or_pos D with h | h
    · subst h; omega
    · exact h
  obtain ⟨D', rfl⟩ : ∃ D', D = D' + 1 := ⟨D - 1, by omega⟩
  rw [Nat.succ_mul] at h1 h2 hT
  rw [Nat.div_eq_iff (by omega)]
  rw [Nat.succ_mul]
  generalize D' * (1024 * W) = z at *
  omega

end Ebi.Elf
