import Mathlib.Analysis.SpecialFunctions.Complex.Circle

/-!
# Specification of the short-time Fourier transform

Written from the documentation of `stft` / `istft`, independently of the model.
-/
namespace Ssq.Spec
open Finset Complex

/-- STFT coefficient at frequency bin `k` and hop `j`, for window taps `w 0 … w (m-1)` and a signal
`E` extended to all integers: tap `r` multiplies sample `j*hop + r - m/2`, so the centre tap `m/2`
multiplies sample `j*hop`. In the modulated variant the phase is measured from the centre tap,
otherwise from the first tap. -/
noncomputable def stft (m hop : ℕ) (w : ℕ → ℝ) (E : ℤ → ℝ) (modulated : Bool) (k j : ℕ) : ℂ :=
  ∑ r ∈ range m, ((w r * E ((j : ℤ) * hop + r - (m / 2 : ℕ)) : ℝ) : ℂ)
    * exp (-(2 * Real.pi * I * k * ((r : ℂ) - (if modulated then ((m / 2 : ℕ) : ℂ) else 0)) / m))

/-- Sum of the window powers over the hops that cover padded position `p`. -/
noncomputable def winNorm (m hop cols e : ℕ) (w : ℕ → ℝ) (p : ℕ) : ℝ :=
  ∑ j ∈ range cols, if j * hop ≤ p ∧ p < j * hop + m then w (p - j * hop) ^ (e + 1) else 0

end Ssq.Spec
