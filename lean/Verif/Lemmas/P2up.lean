import Verif.Model.Common
import Verif.Lemmas.Round
import Mathlib.NumberTheory.Padics.PadicVal.Basic
import Mathlib.Analysis.SpecialFunctions.Pow.Real

/-! Integer characterisation of the rounded base-2 logarithm. -/
namespace Ssq

theorem sq_ne_two_sq {a b : ℕ} (hb : b ≠ 0) : a ^ 2 ≠ 2 * b ^ 2 := by
  intro h
  have ha : a ≠ 0 := by rintro rfl; simp at h; exact hb h
  have : Fact (Nat.Prime 2) := ⟨Nat.prime_two⟩
  have h1 := congrArg (padicValNat 2) h
  rw [padicValNat.pow, padicValNat.mul (by norm_num) (pow_ne_zero 2 hb),
    padicValNat.pow, padicValNat.self (by norm_num)] at h1
  omega

theorem rhe_log_nonneg {n : ℕ} (hn : 1 ≤ n) : 0 ≤ roundHalfEven (Real.logb 2 n) := by
  have h0 : (0:ℝ) ≤ Real.logb 2 n := Real.logb_nonneg (by norm_num) (by exact_mod_cast hn)
  have := rhe_mono h0
  simpa using this.trans' (by have := rhe_intCast (K := ℝ) 0; simp at this; omega)

theorem rhe_log_bounds {n : ℕ} (hn : 1 ≤ n) :
    let r := (roundHalfEven (Real.logb 2 n)).toNat
    (2 ^ r) ^ 2 < 2 * n ^ 2 ∧ n ^ 2 < 2 * (2 ^ r) ^ 2 := by
  intro r
  have hr : ((r : ℕ) : ℤ) = roundHalfEven (Real.logb 2 n) := Int.toNat_of_nonneg (rhe_log_nonneg hn)
  have hpos : (0:ℝ) < n := by exact_mod_cast hn
  have h1 := rhe_le (Real.logb 2 (n:ℝ))
  have h2 := le_rhe (Real.logb 2 (n:ℝ))
  rw [← hr] at h1 h2
  push_cast at h1 h2
  have e1 : (2:ℝ) ^ (2 * (r:ℝ) - 1) ≤ (n:ℝ) ^ (2:ℝ) := by
    have : (2:ℝ) * r - 1 ≤ Real.logb 2 ((n:ℝ) ^ (2:ℝ)) := by
      rw [Real.logb_rpow_eq_mul_logb_of_pos hpos]; linarith
    exact (Real.le_logb_iff_rpow_le (by norm_num) (by positivity)).mp this
  have e2 : (n:ℝ) ^ (2:ℝ) ≤ (2:ℝ) ^ (2 * (r:ℝ) + 1) := by
    have : Real.logb 2 ((n:ℝ) ^ (2:ℝ)) ≤ (2:ℝ) * r + 1 := by
      rw [Real.logb_rpow_eq_mul_logb_of_pos hpos]; linarith
    exact (Real.logb_le_iff_le_rpow (by norm_num) (by positivity)).mp this
  rw [Real.rpow_sub (by norm_num), Real.rpow_one] at e1
  rw [Real.rpow_add (by norm_num), Real.rpow_one] at e2
  have e3 : (2:ℝ) ^ (2 * (r:ℝ)) = ((2 ^ r) ^ 2 : ℕ) := by
    rw [mul_comm, Real.rpow_mul (by norm_num)]
    push_cast
    simp
  rw [e3] at e1 e2
  have e4 : (n:ℝ) ^ (2:ℝ) = ((n ^ 2 : ℕ) : ℝ) := by push_cast; simp
  rw [e4] at e1 e2
  have f1 : (2 ^ r) ^ 2 ≤ 2 * n ^ 2 := by
    have : (((2 ^ r) ^ 2 : ℕ) : ℝ) ≤ ((2 * n ^ 2 : ℕ) : ℝ) := by
      rw [Nat.cast_mul 2]; push_cast at *; linarith
    exact_mod_cast this
  have f2 : n ^ 2 ≤ 2 * (2 ^ r) ^ 2 := by
    have : ((n ^ 2 : ℕ) : ℝ) ≤ ((2 * (2 ^ r) ^ 2 : ℕ) : ℝ) := by
      rw [Nat.cast_mul 2]; push_cast at *; linarith
    exact_mod_cast this
  have g1 := sq_ne_two_sq (a := 2 ^ r) (b := n) (by omega)
  have g2 := sq_ne_two_sq (a := n) (b := 2 ^ r) (by positivity)
  omega

end Ssq
