import Verif.Lemmas.WindowRes
import Mathlib.Analysis.Real.Sqrt

/-!
# The root of the sum of squared magnitudes
-/
namespace Ssq
open Finset

namespace Spec

/-- `sqrt(sum(abs(f[:n])**2))`. -/
noncomputable def l2 (n : ℕ) (f : ℕ → ℂ) : ℝ := Real.sqrt (∑ i ∈ range n, ‖f i‖ ^ 2)

end Spec
open Spec

theorem l2_nonneg (n : ℕ) (f : ℕ → ℂ) : 0 ≤ l2 n f := Real.sqrt_nonneg _

theorem l2_sq (n : ℕ) (f : ℕ → ℂ) : l2 n f ^ 2 = ∑ i ∈ range n, ‖f i‖ ^ 2 :=
  Real.sq_sqrt (sum_nonneg fun _ _ => sq_nonneg _)

theorem l2_congr {n : ℕ} {f g : ℕ → ℂ} (h : ∀ i < n, f i = g i) : l2 n f = l2 n g := by
  unfold l2
  congr 1
  exact sum_congr rfl fun i hi => by rw [h i (mem_range.1 hi)]

theorem l2_mono {n : ℕ} {f g : ℕ → ℂ} (h : ∀ i < n, ‖f i‖ ≤ ‖g i‖) : l2 n f ≤ l2 n g :=
  Real.sqrt_le_sqrt (sum_le_sum fun i hi => pow_le_pow_left₀ (norm_nonneg _) (h i (mem_range.1 hi)) 2)

theorem l2_add (n : ℕ) (f g : ℕ → ℂ) : l2 n (fun i => f i + g i) ≤ l2 n f + l2 n g := by
  refine Real.sqrt_le_iff.2 ⟨add_nonneg (l2_nonneg _ _) (l2_nonneg _ _), ?_⟩
  have hcs := Real.sum_mul_le_sqrt_mul_sqrt (range n) (fun i => ‖f i‖) (fun i => ‖g i‖)
  have h1 : ∑ i ∈ range n, ‖f i + g i‖ ^ 2 ≤ ∑ i ∈ range n, (‖f i‖ ^ 2 + 2 * (‖f i‖ * ‖g i‖) + ‖g i‖ ^ 2) := by
    refine sum_le_sum fun i _ => ?_
    have := pow_le_pow_left₀ (norm_nonneg _) (norm_add_le (f i) (g i)) 2
    nlinarith
  rw [sum_add_distrib, sum_add_distrib, ← mul_sum] at h1
  have e1 := l2_sq n f
  have e2 := l2_sq n g
  change _ ≤ l2 n f * l2 n g at hcs
  nlinarith

theorem l2_smul (n : ℕ) (c : ℝ) (hc : 0 ≤ c) (f : ℕ → ℂ) : l2 n (fun i => (c : ℂ) * f i) = c * l2 n f := by
  unfold l2
  rw [← Real.sqrt_sq hc, ← Real.sqrt_mul (sq_nonneg c), mul_sum, Real.sqrt_sq hc]
  congr 1
  refine sum_congr rfl fun i _ => ?_
  rw [norm_mul, mul_pow, Complex.norm_real, Real.norm_eq_abs, sq_abs]

/-- Bounded factors. -/
theorem l2_le_mul {n : ℕ} {f g : ℕ → ℂ} {c : ℝ} (hc : 0 ≤ c) (h : ∀ i < n, ‖f i‖ ≤ c * ‖g i‖) : l2 n f ≤ c * l2 n g := by
  rw [← l2_smul n c hc]
  refine l2_mono fun i hi => ?_
  rw [norm_mul, Complex.norm_real, Real.norm_eq_abs, abs_of_nonneg hc]
  exact h i hi

theorem l2_sub_le (n : ℕ) (f g : ℕ → ℂ) : l2 n f ≤ l2 n g + l2 n (fun i => f i - g i) := by
  have := l2_add n g (fun i => f i - g i)
  simpa using this

theorem l2_triangle (n : ℕ) (f g h : ℕ → ℂ) : l2 n (fun i => f i - h i) ≤ l2 n (fun i => f i - g i) + l2 n (fun i => g i - h i) := by
  have := l2_add n (fun i => f i - g i) (fun i => g i - h i)
  simpa using this

theorem le_l2 {n i : ℕ} (hi : i < n) (f : ℕ → ℂ) : ‖f i‖ ≤ l2 n f := by
  refine Real.le_sqrt_of_sq_le ?_
  exact single_le_sum (f := fun i => ‖f i‖ ^ 2) (fun _ _ => sq_nonneg _) (mem_range.2 hi)

/-- Parseval's identity. -/
theorem l2_dft (n : ℕ) (f : ℕ → ℂ) : l2 n (dft n f) = Real.sqrt n * l2 n f := by
  unfold l2
  rw [dft_parseval, Real.sqrt_mul (Nat.cast_nonneg n)]

/-- Parseval's identity for the inverse transform. -/
theorem l2_idft {n : ℕ} (hn : 0 < n) (F : ℕ → ℂ) : l2 n F = Real.sqrt n * l2 n (idft n F) := by
  rw [← l2_dft]
  exact l2_congr fun k hk => (dft_idft F hk).symm

end Ssq
