import Verif.Model.Gmw
import Verif.Spec.Gmw
import Verif.Lemmas.PyM
import Mathlib.Tactic.Linarith
import Mathlib.Tactic.FieldSimp
import Mathlib.Tactic.Ring

/-!
# Closed forms of the Morse wavelets
-/
namespace Ssq

open Spec (morse)

theorem npExp_core (a β c w : ℝ) (hβ : 0 < β) :
    npExp ((a : EReal) + (β : EReal) * npLog w - (c : EReal)) =
      if w = 0 then 0 else Real.exp (a + β * Real.log w - c) := by
  unfold npLog
  split_ifs with h
  · rw [EReal.coe_mul_bot_of_pos hβ, EReal.add_bot, sub_eq_add_neg, EReal.bot_add]
    simp [npExp]
  · have : ((a : EReal) + (β : EReal) * ((Real.log w : ℝ) : EReal) - (c : EReal)) =
        ((a + β * Real.log w - c : ℝ) : EReal) := by
      rw [EReal.coe_sub, EReal.coe_add, EReal.coe_mul]
    rw [this]
    simp only [npExp, EReal.coe_ne_bot, if_false, EReal.toReal_coe]

theorem npExp_core' (β c w : ℝ) (hβ : 0 < β) :
    npExp ((β : EReal) * npLog w - (c : EReal)) =
      if w = 0 then 0 else Real.exp (β * Real.log w - c) := by
  have h := npExp_core 0 β c w hβ
  rw [EReal.coe_zero, zero_add] at h
  rw [h]
  simp

/-- For a positive frequency, `e^{a + β log w - w^γ} = e^a w^β e^{-w^γ}`. -/
theorem exp_core (a γ β w : ℝ) (hw : 0 < w) :
    Real.exp (a + β * Real.log w - w ^ γ) = Real.exp a * morse γ β w := by
  unfold Spec.morse
  rw [if_pos hw, Real.rpow_def_of_pos hw β, ← Real.exp_add, ← Real.exp_add]
  congr 1
  ring

theorem morse_of_nonpos (γ β w : ℝ) (hw : w ≤ 0) : morse γ β w = 0 := by
  unfold Spec.morse; rw [if_neg (not_lt.2 hw)]

theorem morse_pos (γ β w : ℝ) (hw : 0 < w) : 0 < morse γ β w := by
  unfold Spec.morse; rw [if_pos hw]; positivity

theorem morse_nonneg (γ β w : ℝ) : 0 ≤ morse γ β w := by
  rcases le_or_gt w 0 with h | h
  · rw [morse_of_nonpos _ _ _ h]
  · exact (morse_pos _ _ _ h).le

theorem morsefreq_pos {γ β : ℝ} (hγ : 0 < γ) (hβ : 0 < β) : 0 < morsefreq γ β := by
  unfold morsefreq; positivity

theorem morsefreq_rpow {γ β : ℝ} (hγ : 0 < γ) (hβ : 0 < β) : morsefreq γ β ^ γ = β / γ := by
  unfold morsefreq
  rw [← Real.rpow_mul (by positivity), one_div, inv_mul_cancel₀ hγ.ne', Real.rpow_one]

theorem log_morsefreq {γ β : ℝ} (hγ : 0 < γ) (hβ : 0 < β) :
    Real.log (morsefreq γ β) = Real.log (β / γ) / γ := by
  unfold morsefreq
  rw [Real.log_rpow (by positivity)]
  ring

/-- `w^β e^{-w^γ}` at the peak frequency is the inverse of the code's leading factor. -/
theorem exp_peak {γ β : ℝ} (hγ : 0 < γ) (hβ : 0 < β) :
    Real.exp (-β * Real.log (morsefreq γ β) + morsefreq γ β ^ γ) = (morse γ β (morsefreq γ β))⁻¹ := by
  have hw := morsefreq_pos hγ hβ
  unfold Spec.morse
  rw [if_pos hw, Real.rpow_def_of_pos hw β, ← Real.exp_add, ← Real.exp_neg]
  congr 1
  ring

/-- The kernel common to the bandpass wavelets. -/
theorem bandpass_core {γ β : ℝ} (hγ : 0 < γ) (hβ : 0 < β) (w : ℝ) :
    npExp (((-β * Real.log (morsefreq γ β) + morsefreq γ β ^ γ : ℝ) : EReal) + (β : EReal) * npLog (w * nonneg01 w)
      - (((w * nonneg01 w) ^ γ : ℝ) : EReal)) * nonneg01 w = morse γ β w / morse γ β (morsefreq γ β) := by
  rw [npExp_core _ _ _ _ hβ]
  unfold nonneg01
  rcases lt_trichotomy w 0 with h | h | h
  · rw [if_neg (not_le.2 h), morse_of_nonpos _ _ _ h.le]; simp
  · subst h; simp [morse_of_nonpos]
  · rw [if_pos h.le, mul_one, mul_one, if_neg h.ne', exp_core _ _ _ _ h, exp_peak hγ hβ]
    ring

/-- The kernel common to the higher-order energy wavelets. -/
theorem energy_core {β : ℝ} (γ : ℝ) (hβ : 0 < β) (w : ℝ) :
    npExp ((β : EReal) * npLog (w * nonneg01 w) - (((w * nonneg01 w) ^ γ : ℝ) : EReal)) * nonneg01 w = morse γ β w := by
  rw [npExp_core' _ _ _ hβ]
  unfold nonneg01
  rcases lt_trichotomy w 0 with h | h | h
  · rw [if_neg (not_le.2 h), morse_of_nonpos _ _ _ h.le]; simp
  · subst h; simp [morse_of_nonpos]
  · rw [if_pos h.le, mul_one, mul_one, if_neg h.ne']
    have := exp_core 0 γ β w h
    rw [zero_add, Real.exp_zero, one_mul] at this
    exact this

theorem gmwL1Fn_eq {γ β : ℝ} (hγ : 0 < γ) (hβ : 0 < β) (w : ℝ) :
    gmwL1Fn γ β (morsefreq γ β) (Real.log (morsefreq γ β)) w = 2 * (morse γ β w / morse γ β (morsefreq γ β)) := by
  unfold gmwL1Fn
  simp only
  rw [mul_assoc, bandpass_core hγ hβ]

theorem gmwL2Fn_eq {β : ℝ} (γ : ℝ) (r R w : ℝ) (hβ : 0 < β) :
    gmwL2Fn γ β r R w = Real.sqrt (2 * Real.pi * γ * 2 ^ r / R) * morse γ β w := by
  unfold gmwL2Fn nonneg01
  simp only
  rcases lt_trichotomy w 0 with h | h | h
  · rw [if_neg (not_le.2 h), morse_of_nonpos _ _ _ h.le]; simp
  · subst h; simp [morse_of_nonpos, Real.zero_rpow hβ.ne']
  · rw [if_pos h.le]; unfold Spec.morse; rw [if_pos h]; simp [mul_assoc]

/-- The polynomial factor at a non-negative frequency. -/
theorem poly_core (γ : ℝ) (kc : List ℝ) (w x : ℝ) :
    gmwPoly γ kc (w * nonneg01 w) * x * nonneg01 w = gmwPoly γ kc w * (x * nonneg01 w) := by
  unfold nonneg01
  split_ifs <;> simp [mul_assoc]

theorem gmwL1kFn_eq {γ β : ℝ} (hγ : 0 < γ) (hβ : 0 < β) (kc : List ℝ) (w : ℝ) :
    gmwL1kFn γ β (morsefreq γ β) kc w = gmwPoly γ kc w * (morse γ β w / morse γ β (morsefreq γ β)) := by
  unfold gmwL1kFn
  simp only
  rw [poly_core, bandpass_core hγ hβ]

theorem gmwL2kFn_eq {β : ℝ} (γ : ℝ) (hβ : 0 < β) (kc : List ℝ) (w : ℝ) :
    gmwL2kFn γ β kc w = gmwPoly γ kc w * morse γ β w := by
  unfold gmwL2kFn
  simp only
  rw [poly_core, energy_core γ hβ]

/-! ## gamma function -/

theorem exp_gammaln {x : ℝ} (hx : 0 < x) : Real.exp (gammaln x) = Real.Gamma x := by
  unfold gammaln
  rw [abs_of_pos (Real.Gamma_pos_of_pos hx), Real.exp_log (Real.Gamma_pos_of_pos hx)]

theorem exp_gammaln_sub {x y : ℝ} (hx : 0 < x) (hy : 0 < y) :
    Real.exp (gammaln x - gammaln y) = Real.Gamma x / Real.Gamma y := by
  rw [Real.exp_sub, exp_gammaln hx, exp_gammaln hy]

/-- The Laguerre constants as quotients of gamma values. -/
theorem laguerreConst_eq {c : ℝ} (hc : -1 < c) {k m : ℕ} (hm : m ≤ k) :
    laguerreConst k c m = (-1) ^ m * Real.Gamma (k + c + 1) /
      (Real.Gamma (c + m + 1) * ((k - m).factorial : ℝ) * (m.factorial : ℝ)) := by
  unfold laguerreConst
  have hk : (0 : ℝ) ≤ k := Nat.cast_nonneg k
  have hm0 : (0 : ℝ) ≤ m := Nat.cast_nonneg m
  have hmk : (m : ℝ) ≤ k := Nat.cast_le.2 hm
  rw [Real.exp_sub, exp_gammaln_sub (by linarith) (by linarith), exp_gammaln (by linarith), ← Nat.cast_sub hm,
    Real.Gamma_nat_eq_factorial, Real.Gamma_nat_eq_factorial]
  rw [mul_div_assoc', div_div, mul_div_assoc', div_div, mul_assoc (Real.Gamma (c + m + 1))]

/-- The coefficient of `x^m` in `L_k^{(c)}`, zero beyond `k`. -/
noncomputable def lagCoef (c : ℝ) (k m : ℕ) : ℝ :=
  if m ≤ k then (-1) ^ m * Real.Gamma (k + c + 1) /
    (Real.Gamma (c + m + 1) * ((k - m).factorial : ℝ) * (m.factorial : ℝ)) else 0

theorem lagCoef_zero (c : ℝ) (hc : -1 < c) : lagCoef c 0 0 = 1 := by
  have := Real.Gamma_pos_of_pos (show 0 < c + 1 by linarith)
  simp [lagCoef, this.ne']

theorem lagCoef_one_zero (c : ℝ) (hc : -1 < c) : lagCoef c 1 0 = 1 + c := by
  have := Real.Gamma_pos_of_pos (show 0 < c + 1 by linarith)
  have h : Real.Gamma (1 + c + 1) = (c + 1) * Real.Gamma (c + 1) := by
    rw [show 1 + c + 1 = (c + 1) + 1 by ring, Real.Gamma_add_one (by linarith)]
  simp only [lagCoef, Nat.cast_zero, Nat.cast_one, add_zero, h]
  simp
  field_simp
  ring

theorem lagCoef_one_one (c : ℝ) (hc : -1 < c) : lagCoef c 1 1 = -1 := by
  have := Real.Gamma_pos_of_pos (show 0 < 1 + c + 1 by linarith)
  simp only [lagCoef, Nat.cast_one, le_refl, if_true, add_comm c 1]
  simp
  field_simp

theorem Gamma_one (c : ℝ) (hc : -1 < c) (n : ℕ) :
    Real.Gamma (((n + 1 : ℕ) : ℝ) + c + 1) = (n + c + 1) * Real.Gamma (n + c + 1) := by
  have hn : (0 : ℝ) ≤ n := Nat.cast_nonneg n
  rw [← Real.Gamma_add_one (by linarith)]; push_cast; ring_nf

theorem Gamma_two (c : ℝ) (hc : -1 < c) (n : ℕ) :
    Real.Gamma (((n + 2 : ℕ) : ℝ) + c + 1) = (n + c + 2) * ((n + c + 1) * Real.Gamma (n + c + 1)) := by
  rw [Gamma_one c hc (n + 1), Gamma_one c hc n]
  push_cast
  ring

theorem fact_one (n : ℕ) : ((n + 1).factorial : ℝ) = (n + 1) * (n.factorial : ℝ) := by
  rw [Nat.factorial_succ]; push_cast; ring

theorem fact_two (n : ℕ) : ((n + 2).factorial : ℝ) = (n + 2) * ((n + 1) * (n.factorial : ℝ)) := by
  rw [fact_one (n + 1), fact_one]; push_cast; ring

/-- Coefficients of the three-term recurrence. -/
theorem lagCoef_rec_zero (c : ℝ) (hc : -1 < c) (n : ℕ) :
    (n + 2) * lagCoef c (n + 2) 0 = (2 * n + 3 + c) * lagCoef c (n + 1) 0 - (n + 1 + c) * lagCoef c n 0 := by
  have hn : (0 : ℝ) ≤ n := Nat.cast_nonneg n
  have h0 := (Real.Gamma_pos_of_pos (show 0 < c + 1 by linarith)).ne'
  have h1 := (Real.Gamma_pos_of_pos (show 0 < n + c + 1 by linarith)).ne'
  have hf : (n.factorial : ℝ) ≠ 0 := Nat.cast_ne_zero.2 (Nat.factorial_ne_zero n)
  simp only [lagCoef, Nat.zero_le, if_true, Nat.cast_zero, add_zero, Nat.sub_zero, pow_zero, one_mul, Nat.factorial_zero,
    Nat.cast_one, mul_one, Gamma_one c hc, Gamma_two c hc, fact_one, fact_two]
  have hn1 : (n : ℝ) + 1 ≠ 0 := by linarith
  have hn2 : (n : ℝ) + 2 ≠ 0 := by linarith
  push_cast
  field_simp
  ring

theorem lagCoef_rec_succ (c : ℝ) (hc : -1 < c) (n j : ℕ) :
    (n + 2) * lagCoef c (n + 2) (j + 1) = (2 * n + 3 + c) * lagCoef c (n + 1) (j + 1) - lagCoef c (n + 1) j
      - (n + 1 + c) * lagCoef c n (j + 1) := by
  have hn : (0 : ℝ) ≤ n := Nat.cast_nonneg n
  have hj : (0 : ℝ) ≤ j := Nat.cast_nonneg j
  have h1 := (Real.Gamma_pos_of_pos (show 0 < n + c + 1 by linarith)).ne'
  have hG := (Real.Gamma_pos_of_pos (show 0 < j + c + 1 by linarith)).ne'
  have hf : (j.factorial : ℝ) ≠ 0 := Nat.cast_ne_zero.2 (Nat.factorial_ne_zero j)
  have hj1 : (j : ℝ) + 1 ≠ 0 := by linarith
  have hj2 : (j : ℝ) + 2 ≠ 0 := by linarith
  have hjc : (j : ℝ) + c + 1 ≠ 0 := by linarith
  have hjc2 : (j : ℝ) + c + 2 ≠ 0 := by linarith
  have comm : ∀ m : ℕ, c + (m : ℝ) + 1 = (m : ℝ) + c + 1 := fun m => by ring
  rcases le_or_gt (j + 1) n with h | h
  · obtain ⟨d, rfl⟩ := Nat.exists_eq_add_of_le h
    have hd : (d.factorial : ℝ) ≠ 0 := Nat.cast_ne_zero.2 (Nat.factorial_ne_zero d)
    have hd0 : (0 : ℝ) ≤ d := Nat.cast_nonneg d
    have hd1 : (d : ℝ) + 1 ≠ 0 := by linarith
    have hd2 : (d : ℝ) + 2 ≠ 0 := by linarith
    have s1 : j + 1 + d + 2 - (j + 1) = d + 2 := by omega
    have s2 : j + 1 + d + 1 - (j + 1) = d + 1 := by omega
    have s3 : j + 1 + d + 1 - j = d + 2 := by omega
    have s4 : j + 1 + d - (j + 1) = d := by omega
    simp only [lagCoef, comm, s1, s2, s3, s4, if_pos (show j + 1 ≤ j + 1 + d + 2 by omega),
      if_pos (show j + 1 ≤ j + 1 + d + 1 by omega), if_pos (show j ≤ j + 1 + d + 1 by omega),
      if_pos (show j + 1 ≤ j + 1 + d by omega), Gamma_two c hc (j + 1 + d), Gamma_one c hc (j + 1 + d), Gamma_one c hc j,
      fact_one d, fact_two d, fact_one j]
    generalize Real.Gamma (((j + 1 + d : ℕ) : ℝ) + c + 1) = G at *
    push_cast
    field_simp
    ring
  · rcases Nat.lt_or_ge n j with h' | h'
    · rcases Nat.lt_or_ge (n + 1) j with h'' | h''
      · simp only [lagCoef, if_neg (show ¬ j + 1 ≤ n + 2 by omega), if_neg (show ¬ j + 1 ≤ n + 1 by omega),
          if_neg (show ¬ j ≤ n + 1 by omega), if_neg (show ¬ j + 1 ≤ n by omega)]
        ring
      · obtain rfl : j = n + 1 := by omega
        simp only [lagCoef, comm, if_pos (le_refl (n + 1 + 1)), if_pos (le_refl (n + 1)), show n + 1 + 1 = n + 2 from rfl,
          le_refl, if_true, if_neg (show ¬ n + 2 ≤ n + 1 by omega), if_neg (show ¬ n + 2 ≤ n by omega), Nat.sub_self,
          Nat.factorial_zero]
        have g1 := (Real.Gamma_pos_of_pos (show 0 < ((n + 1 : ℕ) : ℝ) + c + 1 by push_cast; linarith)).ne'
        have g2 := (Real.Gamma_pos_of_pos (show 0 < ((n + 2 : ℕ) : ℝ) + c + 1 by push_cast; linarith)).ne'
        have f1 : (((n + 1).factorial : ℕ) : ℝ) ≠ 0 := Nat.cast_ne_zero.2 (Nat.factorial_ne_zero _)
        have f2 : (((n + 2).factorial : ℕ) : ℝ) = (n + 2) * (((n + 1).factorial : ℕ) : ℝ) := by
          rw [fact_one (n + 1)]; push_cast; ring
        have hn2 : (n : ℝ) + 2 ≠ 0 := by linarith
        rw [f2]
        push_cast at *
        field_simp
        ring
    · obtain rfl : j = n := by omega
      simp only [lagCoef, comm, if_pos (show j + 1 ≤ j + 2 by omega), if_pos (le_refl (j + 1)),
        if_pos (show j ≤ j + 1 by omega), if_neg (show ¬ j + 1 ≤ j by omega), show j + 2 - (j + 1) = 1 by omega,
        Nat.sub_self, show j + 1 - j = 1 by omega, Nat.factorial_one, Nat.factorial_zero,
        Gamma_two c hc j, Gamma_one c hc j, fact_one j]
      push_cast
      field_simp
      ring

/-- The polynomial with the coefficients `lagCoef`. -/
noncomputable def lagPoly (c x : ℝ) (k : ℕ) : ℝ := ∑ m ∈ Finset.range (k + 1), lagCoef c k m * x ^ m

theorem lagPoly_eq (c x : ℝ) (k K : ℕ) (h : k ≤ K) : lagPoly c x k = ∑ m ∈ Finset.range (K + 1), lagCoef c k m * x ^ m := by
  unfold lagPoly
  refine Finset.sum_subset (Finset.range_subset_range.2 (by omega)) fun m _ hm => ?_
  rw [lagCoef, if_neg (by rw [Finset.mem_range] at hm; omega), zero_mul]

/-- The closed form satisfies the three-term recurrence. -/
theorem lagPoly_laguerre (c x : ℝ) (hc : -1 < c) : ∀ k, lagPoly c x k = Spec.laguerre c x k
  | 0 => by simp [lagPoly, lagCoef_zero c hc, Spec.laguerre]
  | 1 => by
    simp only [lagPoly, Finset.sum_range_succ, Finset.sum_range_zero, lagCoef_one_zero c hc, lagCoef_one_one c hc,
      Spec.laguerre]
    ring
  | n + 2 => by
    rw [Spec.laguerre, ← lagPoly_laguerre c x hc (n + 1), ← lagPoly_laguerre c x hc n]
    have hn2 : (n : ℝ) + 2 ≠ 0 := by positivity
    rw [eq_div_iff hn2, mul_comm, sub_mul]
    rw [lagPoly_eq c x n (n + 2) (by omega), lagPoly]
    have hx : x * lagPoly c x (n + 1) = ∑ m ∈ Finset.range (n + 2), lagCoef c (n + 1) m * x ^ (m + 1) := by
      rw [lagPoly, Finset.mul_sum]
      exact Finset.sum_congr rfl fun m _ => by ring
    rw [hx, lagPoly_eq c x (n + 1) (n + 2) (by omega)]
    rw [Finset.sum_range_succ' _ (n + 2), Finset.sum_range_succ' (fun m => lagCoef c (n + 1) m * x ^ m) (n + 2),
      Finset.sum_range_succ' (fun m => lagCoef c n m * x ^ m) (n + 2)]
    have key : ∀ m ∈ Finset.range (n + 2), (n + 2) * (lagCoef c (n + 2) (m + 1) * x ^ (m + 1)) =
        (2 * n + 3 + c) * (lagCoef c (n + 1) (m + 1) * x ^ (m + 1)) - lagCoef c (n + 1) m * x ^ (m + 1)
          - (n + 1 + c) * (lagCoef c n (m + 1) * x ^ (m + 1)) := fun m _ => by
      rw [← mul_assoc, lagCoef_rec_succ c hc]; ring
    rw [mul_add, Finset.mul_sum, Finset.sum_congr rfl key, Finset.sum_sub_distrib, Finset.sum_sub_distrib,
      ← Finset.mul_sum, ← Finset.mul_sum]
    have k0 := lagCoef_rec_zero c hc n
    linear_combination k0

theorem laguerreConst_lagCoef {c : ℝ} (hc : -1 < c) {k m : ℕ} (hm : m ≤ k) : laguerreConst k c m = lagCoef c k m := by
  rw [laguerreConst_eq hc hm, lagCoef, if_pos hm]

theorem sum_range_list (f : ℕ → ℝ) (n : ℕ) : ((List.range n).map f).sum = ∑ m ∈ Finset.range n, f m := by
  induction n with
  | zero => simp
  | succ n ih => rw [List.range_succ, Finset.sum_range_succ]; simp [ih]

theorem gmwKConstants_getD (γ β : ℝ) (k : ℕ) (norm : GmwNorm) {m : ℕ} (hm : m < k + 1) :
    (gmwKConstants γ β k norm).getD m 0 =
      laguerreConst k ((2 * β + 1) / γ - 1) m * gmwCoeff γ β k norm * (if norm = .bandpass then 2 else 1) := by
  unfold gmwKConstants
  rw [List.getD_eq_getElem?_getD, List.getElem?_map, List.getElem?_range hm]
  rfl

/-- The polynomial factor is the normalised Laguerre polynomial. -/
theorem gmwPoly_eq (γ β : ℝ) (hγ : 0 < γ) (hβ : 0 < β) (k : ℕ) (norm : GmwNorm) (w : ℝ) :
    gmwPoly γ (gmwKConstants γ β k norm) w = gmwCoeff γ β k norm * (if norm = .bandpass then 2 else 1) *
      Spec.laguerre ((2 * β + 1) / γ - 1) (2 * w ^ γ) k := by
  have hc : -1 < (2 * β + 1) / γ - 1 := by
    have : 0 < (2 * β + 1) / γ := by positivity
    linarith
  unfold gmwPoly
  rw [sum_range_list, ← lagPoly_laguerre _ _ hc, lagPoly, Finset.mul_sum]
  have hl : (gmwKConstants γ β k norm).length = k + 1 := by simp [gmwKConstants]
  rw [hl]
  refine Finset.sum_congr rfl fun m hm => ?_
  have hm' := Finset.mem_range.1 hm
  rw [gmwKConstants_getD _ _ _ _ hm', laguerreConst_lagCoef hc (by omega)]
  ring

theorem gmwCoeff_zero_bandpass (γ β : ℝ) : gmwCoeff γ β 0 .bandpass = 1 := by
  simp only [gmwCoeff, Nat.cast_zero, zero_add]
  have : gammaln 1 = 0 := by simp [gammaln]
  rw [this]
  simp

theorem gmwCoeff_energy {γ β : ℝ} (hγ : 0 < γ) (hβ : 0 < β) (k : ℕ) :
    gmwCoeff γ β k .energy =
      Real.sqrt (2 * Real.pi * γ * 2 ^ ((2 * β + 1) / γ) * ((k.factorial : ℝ) / Real.Gamma (k + (2 * β + 1) / γ))) := by
  have : 0 < (2 * β + 1) / γ := by positivity
  have hk : (0 : ℝ) ≤ k := Nat.cast_nonneg k
  simp only [gmwCoeff]
  rw [exp_gammaln_sub (by linarith) (by linarith), Real.Gamma_nat_eq_factorial]

theorem gmwCoeff_bandpass {γ β : ℝ} (hγ : 0 < γ) (hβ : 0 < β) (k : ℕ) :
    gmwCoeff γ β k .bandpass =
      Real.sqrt (Real.Gamma ((2 * β + 1) / γ) * (k.factorial : ℝ) / Real.Gamma (k + (2 * β + 1) / γ)) := by
  have : 0 < (2 * β + 1) / γ := by positivity
  have hk : (0 : ℝ) ≤ k := Nat.cast_nonneg k
  simp only [gmwCoeff]
  rw [Real.exp_sub, Real.exp_add, exp_gammaln (by linarith), exp_gammaln (by linarith), exp_gammaln (by linarith),
    Real.Gamma_nat_eq_factorial]

/-! ## What `gmw` returns -/

/-- Closed form of the wavelet of order `k`. -/
noncomputable def gmwClosed (γ β : ℝ) (norm : GmwNorm) (k : ℕ) (w : ℝ) : ℝ :=
  match norm with
  | .bandpass => 2 * gmwCoeff γ β k .bandpass * Spec.laguerre ((2 * β + 1) / γ - 1) (2 * w ^ γ) k *
      (morse γ β w / morse γ β (morsefreq γ β))
  | .energy => gmwCoeff γ β k .energy * Spec.laguerre ((2 * β + 1) / γ - 1) (2 * w ^ γ) k * morse γ β w

theorem gmwCheck_false (γ β : ℝ) : gmwCheck false (some γ) (some β) = .ok () ↔ 0 < γ ∧ 0 < β := by
  unfold gmwCheck gmwCheck.checkBeta
  by_cases h1 : γ ≤ 0
  · simp [h1]
  · rcases lt_trichotomy β 0 with h | h | h
    · simp [h1, h, h.le]
    · simp [h1, h]
    · simp [h1, h, not_lt.2 h.le, h.ne', not_le.1 h1]

theorem gmwL1k_eq {γ β : ℝ} (hγ : 0 < γ) (hβ : 0 < β) (k : ℕ) (c : Bool) :
    gmwL1k γ β k c = .ok fun w => gmwClosed γ β .bandpass k (gmwArg c (morsefreq γ β) w) := by
  unfold gmwL1k
  rw [(gmwCheck_false γ β).2 ⟨hγ, hβ⟩, ok_bind]
  simp only [gmwL1kFn_eq hγ hβ, gmwPoly_eq γ β hγ hβ, if_true]
  congr 1
  funext w
  simp only [gmwClosed]
  ring

theorem gmwL2k_eq {γ β : ℝ} (hγ : 0 < γ) (hβ : 0 < β) (k : ℕ) (c : Bool) :
    gmwL2k γ β k c = .ok fun w => gmwClosed γ β .energy k (gmwArg c (morsefreq γ β) w) := by
  unfold gmwL2k
  rw [(gmwCheck_false γ β).2 ⟨hγ, hβ⟩, ok_bind]
  simp only [gmwL2kFn_eq γ hβ, gmwPoly_eq γ β hγ hβ]
  congr 1
  funext w
  simp [gmwClosed]

theorem gmwL1_eq {γ β : ℝ} (hγ : 0 < γ) (hβ : 0 < β) (c : Bool) :
    gmwL1 γ β c = .ok fun w => gmwClosed γ β .bandpass 0 (gmwArg c (morsefreq γ β) w) := by
  unfold gmwL1
  rw [(gmwCheck_false γ β).2 ⟨hγ, hβ⟩, ok_bind]
  simp only [gmwL1Fn_eq hγ hβ]
  congr 1
  funext w
  simp [gmwClosed, gmwCoeff_zero_bandpass, Spec.laguerre]

theorem gmwL2_eq {γ β : ℝ} (hγ : 0 < γ) (hβ : 0 < β) (c : Bool) :
    gmwL2 γ β c = .ok fun w => gmwClosed γ β .energy 0 (gmwArg c (morsefreq γ β) w) := by
  unfold gmwL2
  rw [(gmwCheck_false γ β).2 ⟨hγ, hβ⟩, ok_bind]
  simp only [gmwL2Fn_eq γ _ _ _ hβ]
  congr 1
  funext w
  simp only [gmwClosed, gmwCoeff_energy hγ hβ, Spec.laguerre]
  simp [div_eq_mul_inv, mul_assoc]

theorem gmwDispatch_eq {γ β : ℝ} (hγ : 0 < γ) (hβ : 0 < β) (norm : GmwNorm) (k : ℕ) (c : Bool) :
    gmwDispatch γ β norm k c = .ok fun w => gmwClosed γ β norm k (gmwArg c (morsefreq γ β) w) := by
  unfold gmwDispatch
  split_ifs with h
  · subst h; cases norm
    · exact gmwL1_eq hγ hβ c
    · exact gmwL2_eq hγ hβ c
  · cases norm
    · exact gmwL1k_eq hγ hβ k c
    · exact gmwL2k_eq hγ hβ k c

/-- A successful `gmw` has positive parameters and returns the closed form. -/
theorem gmw_ok {γ β : Option ℝ} {norm : NormArg} {order : OrderArg} {c : Option Bool} {f32 : Bool} {f : ℝ → ℝ}
    (h : gmw γ β norm order c f32 = .ok f) :
    0 < γ.getD 3 ∧ 0 < β.getD 60 ∧ ∃ n k, gmwNormOf norm = .ok n ∧ gmwCheckOrder order = .ok () ∧ gmwOrder order = .ok k ∧
      ¬ (n = .energy ∧ f32 = true) ∧
      f = fun w => gmwClosed (γ.getD 3) (β.getD 60) n k (gmwArg (c.getD false) (morsefreq (γ.getD 3) (β.getD 60)) w) := by
  unfold gmw at h
  obtain ⟨_, _, h⟩ := bind_ok h
  obtain ⟨n, hn, h⟩ := bind_ok h
  obtain ⟨⟨⟩, ho, h⟩ := bind_ok h
  split_ifs at h with he
  obtain ⟨⟨⟩, hc, h⟩ := bind_ok h
  obtain ⟨k, hk, h⟩ := bind_ok h
  obtain ⟨hγ, hβ⟩ := (gmwCheck_false _ _).1 hc
  rw [gmwDispatch_eq hγ hβ] at h
  exact ⟨hγ, hβ, n, k, hn, ho, hk, he, (Except.ok.inj h).symm⟩

theorem gmwCheck_true (γ β : Option ℝ) (hγ : 0 < γ.getD 3) (hβ : 0 < β.getD 60) : gmwCheck true γ β = .ok () := by
  unfold gmwCheck gmwCheck.checkBeta
  rcases γ with _ | γ <;> rcases β with _ | β <;> simp at hγ hβ <;> simp [not_le.2, not_lt.2, *, hγ, hβ, le_of_lt]

/-- `gmw` succeeds on positive parameters. -/
theorem gmw_eq {γ β : Option ℝ} {norm : NormArg} {order : OrderArg} (c : Option Bool) {f32 : Bool} {n : GmwNorm} {k : ℕ}
    (hγ : 0 < γ.getD 3) (hβ : 0 < β.getD 60) (hn : gmwNormOf norm = .ok n) (ho : gmwCheckOrder order = .ok ())
    (hk : gmwOrder order = .ok k) (he : ¬ (n = .energy ∧ f32 = true)) :
    gmw γ β norm order c f32 = .ok fun w =>
      gmwClosed (γ.getD 3) (β.getD 60) n k (gmwArg (c.getD false) (morsefreq (γ.getD 3) (β.getD 60)) w) := by
  unfold gmw
  rw [gmwCheck_true _ _ hγ hβ, ok_bind, hn, ok_bind, ho, ok_bind, if_neg he, (gmwCheck_false _ _).2 ⟨hγ, hβ⟩, ok_bind,
    hk, ok_bind, gmwDispatch_eq hγ hβ]

theorem gmwClosed_nonpos (γ β : ℝ) (norm : GmwNorm) (k : ℕ) {w : ℝ} (hw : w ≤ 0) : gmwClosed γ β norm k w = 0 := by
  cases norm <;> simp [gmwClosed, morse_of_nonpos _ _ _ hw]

end Ssq
