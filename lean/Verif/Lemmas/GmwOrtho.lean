import Verif.Lemmas.Gmw
import Mathlib.MeasureTheory.Integral.Gamma
import Mathlib.Analysis.SpecialFunctions.Gaussian.GaussianIntegral
import Mathlib.Algebra.Group.ForwardDiff
import Mathlib.RingTheory.Polynomial.Pochhammer
import Mathlib.Algebra.Polynomial.Degree.Lemmas
import Mathlib.Algebra.Polynomial.Monic

/-!
# Orthogonality of the Laguerre factors
-/
namespace Ssq

open MeasureTheory Set Spec

theorem ascPochhammer_Gamma (x : ℝ) (hx : 0 < x) (i : ℕ) :
    (ascPochhammer ℝ i).eval x * Real.Gamma x = Real.Gamma (x + i) := by
  induction i with
  | zero => simp
  | succ i ih =>
    have hi : (0 : ℝ) ≤ i := Nat.cast_nonneg i
    rw [ascPochhammer_succ_eval, mul_right_comm, ih, Nat.cast_succ, ← add_assoc, Real.Gamma_add_one (by linarith)]
    ring

/-- Alternating binomial sums of a rising factorial. -/
theorem alt_sum_asc (r : ℝ) (k i : ℕ) (hi : i ≤ k) :
    ∑ m ∈ Finset.range (k + 1), (-1 : ℝ) ^ (k - m) * (k.choose m : ℝ) * (ascPochhammer ℝ i).eval (r + m) =
      if i = k then (k.factorial : ℝ) else 0 := by
  have h := fwdDiff_iter_eq_sum_shift (M := ℝ) (G := ℝ) (h := 1) (ascPochhammer ℝ i).eval k r
  have e : ∑ m ∈ Finset.range (k + 1), (-1 : ℝ) ^ (k - m) * (k.choose m : ℝ) * (ascPochhammer ℝ i).eval (r + m) =
      (fwdDiff (1 : ℝ))^[k] (ascPochhammer ℝ i).eval r := by
    rw [h]
    refine Finset.sum_congr rfl fun m _ => ?_
    rw [zsmul_eq_mul]
    push_cast
    simp
  rw [e]
  split_ifs with hk
  · subst hk
    have := Polynomial.fwdDiff_iter_degree_eq_factorial (ascPochhammer ℝ i)
    rw [ascPochhammer_natDegree] at this
    rw [this, (monic_ascPochhammer ℝ i).leadingCoeff]
    simp
  · rw [Polynomial.fwdDiff_iter_eq_zero_of_degree_lt (by rw [ascPochhammer_natDegree]; omega)]
    rfl

/-- `Σ_m a_m Γ(r + m + i)` for the coefficients of `L_k^{(r-1)}`. -/
theorem lagCoef_moment (r : ℝ) (hr : 0 < r) (k i : ℕ) (hi : i ≤ k) :
    ∑ m ∈ Finset.range (k + 1), lagCoef (r - 1) k m * Real.Gamma (r + m + i) =
      if i = k then (-1) ^ k * Real.Gamma (k + r) else 0 := by
  have hG := (Real.Gamma_pos_of_pos (show 0 < k + r by positivity)).ne'
  have hf : (k.factorial : ℝ) ≠ 0 := Nat.cast_ne_zero.2 (Nat.factorial_ne_zero k)
  have e : ∀ m ∈ Finset.range (k + 1), lagCoef (r - 1) k m * Real.Gamma (r + m + i) =
      ((-1) ^ k * Real.Gamma (k + r) / (k.factorial : ℝ)) *
        ((-1 : ℝ) ^ (k - m) * (k.choose m : ℝ) * (ascPochhammer ℝ i).eval (r + m)) := fun m hm => by
    have hmk : m ≤ k := by rw [Finset.mem_range] at hm; omega
    have hrm : 0 < r + m := by positivity
    have hGm := (Real.Gamma_pos_of_pos hrm).ne'
    rw [← ascPochhammer_Gamma _ hrm, lagCoef, if_pos hmk, Nat.cast_choose ℝ hmk]
    have a1 : (k : ℝ) + (r - 1) + 1 = k + r := by ring
    have a2 : r - 1 + (m : ℝ) + 1 = r + m := by ring
    have hs : (-1 : ℝ) ^ k * (-1) ^ (k - m) = (-1) ^ m := by
      rw [← pow_add]
      have : k + (k - m) = 2 * (k - m) + m := by omega
      rw [this, pow_add, pow_mul]; simp
    rw [a1, a2, ← hs]
    have h1 : (((k - m).factorial : ℕ) : ℝ) ≠ 0 := Nat.cast_ne_zero.2 (Nat.factorial_ne_zero _)
    have h2 : ((m.factorial : ℕ) : ℝ) ≠ 0 := Nat.cast_ne_zero.2 (Nat.factorial_ne_zero _)
    field_simp
  rw [Finset.sum_congr rfl e, ← Finset.mul_sum, alt_sum_asc r k i hi]
  split_ifs
  · field_simp
  · ring

/-- `Σ_i Σ_m a_i b_m Γ(r + m + i)` for `L_j` and `L_k`. -/
theorem lagCoef_double (r : ℝ) (hr : 0 < r) (j k : ℕ) (hjk : j ≤ k) :
    ∑ i ∈ Finset.range (j + 1), ∑ m ∈ Finset.range (k + 1),
      lagCoef (r - 1) j i * (lagCoef (r - 1) k m * Real.Gamma (r + m + i)) =
      if j = k then Real.Gamma (k + r) / (k.factorial : ℝ) else 0 := by
  have e : ∀ i ∈ Finset.range (j + 1), ∑ m ∈ Finset.range (k + 1),
      lagCoef (r - 1) j i * (lagCoef (r - 1) k m * Real.Gamma (r + m + i)) =
      lagCoef (r - 1) j i * if i = k then (-1) ^ k * Real.Gamma (k + r) else 0 := fun i hi => by
    rw [← Finset.mul_sum, lagCoef_moment r hr k i (by rw [Finset.mem_range] at hi; omega)]
  rw [Finset.sum_congr rfl e]
  split_ifs with h
  · subst h
    rw [Finset.sum_range_succ, Finset.sum_eq_zero fun i hi => ?_, zero_add, if_pos rfl, lagCoef, if_pos le_rfl]
    · have a1 : (j : ℝ) + (r - 1) + 1 = j + r := by ring
      have a2 : r - 1 + (j : ℝ) + 1 = j + r := by ring
      have hG := (Real.Gamma_pos_of_pos (show 0 < j + r by positivity)).ne'
      have h2 : ((j.factorial : ℕ) : ℝ) ≠ 0 := Nat.cast_ne_zero.2 (Nat.factorial_ne_zero _)
      rw [a1, a2, Nat.sub_self]
      have hs : (-1 : ℝ) ^ j * (-1) ^ j = 1 := by rw [← mul_pow]; simp
      simp only [Nat.factorial_zero, Nat.cast_one, mul_one]
      field_simp
      linear_combination hs
    · rw [if_neg (by rw [Finset.mem_range] at hi; omega), mul_zero]
  · exact Finset.sum_eq_zero fun i hi => by rw [if_neg (by rw [Finset.mem_range] at hi; omega), mul_zero]

/-- The integrand of a moment of the squared Morse function. -/
theorem morse_sq_mul {γ β : ℝ} (w : ℝ) (hw : w ∈ Ioi (0 : ℝ)) (n : ℕ) :
    morse γ β w ^ 2 * (2 * w ^ γ) ^ n = 2 ^ n * (w ^ (2 * β + γ * n) * Real.exp (-2 * w ^ γ)) := by
  have hw : 0 < w := hw
  unfold Spec.morse
  rw [if_pos hw, mul_pow, mul_pow, ← Real.rpow_natCast (w ^ γ), ← Real.rpow_mul hw.le, Real.rpow_add hw,
    ← Real.exp_nat_mul, ← Real.rpow_natCast (w ^ β) 2, ← Real.rpow_mul hw.le]
  push_cast
  rw [mul_comm β 2, show (2 : ℝ) * -w ^ γ = -2 * w ^ γ by ring]
  ring

theorem morse_sq_integrable {γ β : ℝ} (hγ : 0 < γ) (hβ : 0 < β) (n : ℕ) :
    IntegrableOn (fun w => morse γ β w ^ 2 * (2 * w ^ γ) ^ n) (Ioi 0) := by
  have hq : -1 < 2 * β + γ * n := by
    have : 0 ≤ γ * (n : ℝ) := by positivity
    linarith
  have h := (integrableOn_rpow_mul_exp_neg_mul_rpow (p := γ) (b := 2) hq hγ two_pos).const_mul ((2 : ℝ) ^ n)
  exact IntegrableOn.congr_fun h (fun w hw => (morse_sq_mul w hw n).symm) measurableSet_Ioi

theorem morse_sq_integral {γ β : ℝ} (hγ : 0 < γ) (hβ : 0 < β) (n : ℕ) :
    ∫ w in Ioi 0, morse γ β w ^ 2 * (2 * w ^ γ) ^ n =
      1 / (γ * 2 ^ ((2 * β + 1) / γ)) * Real.Gamma ((2 * β + 1) / γ + n) := by
  have hq : -1 < 2 * β + γ * n := by
    have : 0 ≤ γ * (n : ℝ) := by positivity
    linarith
  rw [setIntegral_congr_fun measurableSet_Ioi (fun w hw => morse_sq_mul w hw n), integral_const_mul,
    integral_rpow_mul_exp_neg_mul_rpow hγ hq two_pos]
  have e1 : (2 * β + γ * n + 1) / γ = (2 * β + 1) / γ + n := by field_simp; ring
  rw [neg_div, e1, Real.rpow_neg two_pos.le, Real.rpow_add two_pos, Real.rpow_natCast]
  have : (2 : ℝ) ^ n ≠ 0 := by positivity
  field_simp

/-- Products of Laguerre factors against the squared Morse function. -/
theorem laguerre_ortho {γ β : ℝ} (hγ : 0 < γ) (hβ : 0 < β) (j k : ℕ) (hjk : j ≤ k) :
    ∫ w in Ioi 0, morse γ β w ^ 2 * (Spec.laguerre ((2 * β + 1) / γ - 1) (2 * w ^ γ) j *
        Spec.laguerre ((2 * β + 1) / γ - 1) (2 * w ^ γ) k) =
      if j = k then 1 / (γ * 2 ^ ((2 * β + 1) / γ)) * (Real.Gamma (k + (2 * β + 1) / γ) / (k.factorial : ℝ)) else 0 := by
  have hr : 0 < (2 * β + 1) / γ := by positivity
  have hc : -1 < (2 * β + 1) / γ - 1 := by linarith
  set r := (2 * β + 1) / γ with hrdef
  have e : ∀ w : ℝ, morse γ β w ^ 2 * (Spec.laguerre (r - 1) (2 * w ^ γ) j * Spec.laguerre (r - 1) (2 * w ^ γ) k) =
      ∑ i ∈ Finset.range (j + 1), ∑ m ∈ Finset.range (k + 1),
        (lagCoef (r - 1) j i * lagCoef (r - 1) k m) * (morse γ β w ^ 2 * (2 * w ^ γ) ^ (m + i)) := fun w => by
    rw [← lagPoly_laguerre _ _ hc, ← lagPoly_laguerre _ _ hc, lagPoly, lagPoly, Finset.sum_mul_sum, Finset.mul_sum]
    refine Finset.sum_congr rfl fun i _ => ?_
    rw [Finset.mul_sum]
    refine Finset.sum_congr rfl fun m _ => ?_
    rw [pow_add]; ring
  simp_rw [e]
  rw [integral_finset_sum _ fun i _ => integrable_finset_sum _ fun m _ => (morse_sq_integrable hγ hβ _).const_mul _]
  have e2 : ∀ i ∈ Finset.range (j + 1),
      ∫ w in Ioi 0, ∑ m ∈ Finset.range (k + 1),
        (lagCoef (r - 1) j i * lagCoef (r - 1) k m) * (morse γ β w ^ 2 * (2 * w ^ γ) ^ (m + i)) =
      ∑ m ∈ Finset.range (k + 1), 1 / (γ * 2 ^ r) *
        (lagCoef (r - 1) j i * (lagCoef (r - 1) k m * Real.Gamma (r + m + i))) := fun i _ => by
    rw [integral_finset_sum _ fun m _ => (morse_sq_integrable hγ hβ _).const_mul _]
    refine Finset.sum_congr rfl fun m _ => ?_
    rw [integral_const_mul, morse_sq_integral hγ hβ, ← hrdef]
    push_cast
    rw [← add_assoc]
    ring
  rw [Finset.sum_congr rfl e2]
  simp_rw [← Finset.mul_sum]
  have := lagCoef_double r hr j k hjk
  simp_rw [← Finset.mul_sum] at this
  rw [this]
  split_ifs <;> simp

end Ssq
