import Mathlib.Analysis.SpecialFunctions.Gamma.Basic
import Mathlib.Analysis.SpecialFunctions.Pow.Real

/-!
# What the Morse wavelets should be

Stated from the literature (Olhede & Walden 2002), without the code's formulas.
-/
namespace Ssq.Spec

/-- The Morse function `w^β e^{-w^γ}`, zero for `w ≤ 0`. -/
noncomputable def morse (γ β w : ℝ) : ℝ := if 0 < w then w ^ β * Real.exp (-w ^ γ) else 0

/-- Generalized Laguerre polynomials `L_n^{(c)}(x)`, by their three-term recurrence. -/
noncomputable def laguerre (c x : ℝ) : ℕ → ℝ
  | 0 => 1
  | 1 => 1 + c - x
  | n + 2 => ((2 * n + 3 + c - x) * laguerre c x (n + 1) - (n + 1 + c) * laguerre c x n) / (n + 2)

end Ssq.Spec
