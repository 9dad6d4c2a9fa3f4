import Mathlib.Analysis.SpecialFunctions.Complex.Circle
import Mathlib.Analysis.SpecialFunctions.Trigonometric.Basic
import Mathlib.Algebra.BigOperators.Intervals

/-!
# The discrete Fourier transforms the package calls

`scipy.fft`, `pyfftw`, `numpy.fft` and `torch.fft` (through `ssqueezepy/utils/fft_utils.py:40-233`)
are modelled by the exact transforms they document. This is part of the trusted base.
-/
namespace Ssq
open Finset Complex

/-- Twiddle factor `exp(2πi·m/n)`. (ssqueezepy/utils/fft_utils.py:156-208.) -/
noncomputable def tw (n : ℕ) (m : ℤ) : ℂ := exp (2 * Real.pi * I * m / n)

/-- `fft(f)[k] = Σ_j f[j]·exp(-2πi·jk/n)`. (ssqueezepy/utils/fft_utils.py:156-167.) -/
noncomputable def dft (n : ℕ) (f : ℕ → ℂ) (k : ℕ) : ℂ := ∑ j ∈ range n, f j * tw n (-(j * k))

/-- `ifft(F)[j] = (1/n)·Σ_k F[k]·exp(2πi·jk/n)`. (ssqueezepy/utils/fft_utils.py:182-194.) -/
noncomputable def idft (n : ℕ) (F : ℕ → ℂ) (j : ℕ) : ℂ :=
  (∑ k ∈ range n, F k * tw n (j * k)) / n

/-- `fft` of a 1D array. (ssqueezepy/utils/fft_utils.py:156-167.) -/
noncomputable def fftL (l : List ℂ) : List ℂ :=
  (List.range l.length).map (dft l.length fun j => l.getD j 0)

/-- `ifft` of a 1D array. (ssqueezepy/utils/fft_utils.py:182-194.) -/
noncomputable def ifftL (l : List ℂ) : List ℂ :=
  (List.range l.length).map (idft l.length fun j => l.getD j 0)

/-- `rfft` of a real 1D array: bins `0 … n/2` of the DFT (numpy documentation). (ssqueezepy/utils/fft_utils.py:169-180.) -/
noncomputable def rfftL (l : List ℝ) : List ℂ :=
  (List.range (l.length / 2 + 1)).map (dft l.length fun j => ((l.getD j 0 : ℝ) : ℂ))

/-- `irfft(S, n)` (complex-to-real): bins `0 … n/2` are used, missing ones are zero, surplus ones
are dropped, and the imaginary parts of bin 0 and (for even `n`) bin `n/2` are ignored
(numpy/FFTW documentation). (ssqueezepy/utils/fft_utils.py:196-208.) -/
noncomputable def irfftL (n : ℕ) (S : List ℂ) : List ℝ :=
  (List.range n).map fun j : ℕ =>
    ((S.getD 0 0).re + (∑ k ∈ Icc 1 ((n - 1) / 2), 2 * (S.getD k 0 * tw n (j * k)).re)
      + (if n % 2 = 0 then (S.getD (n / 2) 0 * tw n (j * (n / 2 : ℕ))).re else 0)) / n

/-- `np.fft.fftshift` of a 1D array: `y[j] = x[(j - n//2) mod n]`. (ssqueezepy/utils/fft_utils.py:210-214.) -/
def fftshiftL {α : Type} (l : List α) : List α := l.rotate (l.length - l.length / 2)

/-- `np.fft.ifftshift` of a 1D array: `y[j] = x[(j + n//2) mod n]`. (ssqueezepy/utils/fft_utils.py:216-220.) -/
def ifftshiftL {α : Type} (l : List α) : List α := l.rotate (l.length / 2)

end Ssq
