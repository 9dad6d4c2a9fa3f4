import Verif.Model.Py
import Verif.Model.Resolution

/-!
# Width and area of windows (`ssqueezepy/utils/stft_utils.py`)

Real windows in exact arithmetic. A quotient with denominator zero, which numpy makes NaN, is zero here; `np.sqrt` of a negative number, also NaN, is
zero here.
-/
namespace Ssq

/-- `np.arange(-N/2, N/2, step=1)` — ssqueezepy/utils/stft_utils.py:204, 227: `N` values. -/
noncomputable def windowT (N : ℕ) : List ℝ := (List.range N).map fun k : ℕ => -(N : ℝ) / 2 + k

/-- `ws = fftshift(_xifn(1, N))` — ssqueezepy/utils/stft_utils.py:205, 230; `fftshift` is numpy's. -/
noncomputable def windowWs (N : ℕ) : List ℝ := fftshiftL (xifn 1 N)

/-- `np.abs(window)**2` — ssqueezepy/utils/stft_utils.py:208, 228. -/
def windowPow (window : List ℝ) : List ℝ := window.map fun x => |x| ^ 2

/-- `np.abs(fftshift(fft(window)))**2` — ssqueezepy/utils/stft_utils.py:207, 209, 231. -/
noncomputable def windowPowW (window : List ℝ) : List ℝ :=
  (fftshiftL (fftL (window.map fun x : ℝ => (x : ℂ)))).map fun z => ‖z‖ ^ 2

/-- The time area `at` — ssqueezepy/utils/stft_utils.py:227-228. -/
noncomputable def areaT (window : List ℝ) : ℝ := trapzX (windowPow window) (windowT window.length)

/-- The frequency area `aw` — ssqueezepy/utils/stft_utils.py:230-232. -/
noncomputable def areaW (window : List ℝ) : ℝ := trapzX (windowPowW window) (windowWs window.length)

/-- `window_area(window, time, frequency)` — ssqueezepy/utils/stft_utils.py:218-239: the values returned, in order. -/
noncomputable def windowArea (window : List ℝ) (time frequency : Bool) : Py (List ℝ) :=
  if time = false ∧ frequency = false then .error .valueError
  else if time = true ∧ frequency = true then .ok [areaT window, areaW window]
  else if time = true then .ok [areaT window]
  else .ok [areaW window]

/-- `var_w` — ssqueezepy/utils/stft_utils.py:211. -/
noncomputable def varW (window : List ℝ) : ℝ :=
  trapzX (List.zipWith (fun w p => w ^ 2 * p) (windowWs window.length) (windowPowW window)) (windowWs window.length) / areaW window

/-- `var_t` — ssqueezepy/utils/stft_utils.py:212. -/
noncomputable def varT (window : List ℝ) : ℝ :=
  trapzX (List.zipWith (fun t p => t ^ 2 * p) (windowT window.length) (windowPow window)) (windowT window.length) / areaT window

open Classical in
/-- `window_resolution(window)` — ssqueezepy/utils/stft_utils.py:194-216: `std_w, std_t, harea`. `min` of an empty array is a `ValueError`. -/
noncomputable def windowResolution (window : List ℝ) : Py (ℝ × ℝ × ℝ) :=
  if window = [] then .error .valueError
  else if ∃ x ∈ window, x < 0 then .error .assertionError
  else
    let stdW := Real.sqrt (varW window)
    let stdT := Real.sqrt (varT window)
    .ok (stdW, stdT, stdW * stdT)

end Ssq
