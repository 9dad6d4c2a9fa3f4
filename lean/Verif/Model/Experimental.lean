import Verif.Model.Common
import Verif.Model.Squeeze
import Verif.Model.Scales
import Verif.Model.FindClosest

/-!
# `ssqueezepy/experimental.py`
-/
namespace Ssq

/-- The repair of one peak index — ssqueezepy/experimental.py:128-135. (`np.any(...)` guards the loop, which changes nothing otherwise.) -/
def fixPeak (Npad nPsis i ix : ℕ) : ℕ :=
  if ix > Npad / 2 ∨ ix = 0 then
    if i > nPsis / 2 then 1 else Npad / 2
  else ix

/-- `scale_to_freq` after the wavelets are evaluated: `psis` are the wavelets' values, one list per scale —
ssqueezepy/experimental.py:120-142. `min` of no values is a `ValueError`. -/
noncomputable def scaleToFreqCore (psis : List (List ℝ)) (Npad : ℕ) (fs : ℝ) : Py (List ℝ) :=
  let idxs := psis.zipIdx.map fun p => fixPeak Npad psis.length p.2 (argmaxL p.1)
  let freqs : List ℝ := idxs.map fun ix : ℕ => (ix : ℝ) / Npad
  if freqs = [] then .error .valueError
  else if ¬ 0 ≤ freqs.getD (argminL freqs) 0 then .error .assertionError
  else if ¬ freqs.getD (argmaxL freqs) 0 ≤ 1 / 2 then .error .assertionError
  else .ok (freqs.map (· * fs))

/-- `scale_to_freq(scales, wavelet, N, fs, padtype)` — ssqueezepy/experimental.py:85-142. `psi N s`: the wavelet's `N` values at scale `s`. -/
noncomputable def scaleToFreq (psi : ℕ → ℝ → List ℝ) (scales : List ℝ) (N : ℕ) (fs : ℝ) (padded : Bool) : Py (List ℝ) :=
  let Npad := if padded then (p2up N).1 else N
  scaleToFreqCore (scales.map (psi Npad)) Npad fs

/-- `np.logspace(log(a), log(b), n, base=base)` with `log` to the same base — ssqueezepy/experimental.py:50-54, 67, 80. -/
noncomputable def logspace (base a b : ℝ) (n : ℕ) : List ℝ :=
  (linspace (Real.log a / Real.log base) (Real.log b / Real.log base) n).map fun e => base ^ e

/-- `freq_to_scale(freqs, wavelet, N, fs, n_search_scales, kind, base)` — ssqueezepy/experimental.py:15-82. `bounds`: the
`cwt_scalebounds` of the wavelet; `cf s`: `center_frequency(wavelet, s, N, kind)`. `max` of no values and `argmin` of no search scales are
`ValueError`s. -/
noncomputable def freqToScale (cf : ℝ → ℝ) (bounds : ℝ × ℝ) (freqs : List ℝ) (fs : ℝ) (nSearch : Option ℕ) (base : ℝ) : Py (List ℝ) :=
  let fr := freqs.map (· / fs)
  if fr = [] then .error .valueError
  else
  let fmax := fr.getD (argmaxL fr) 0
  let fmin := fr.getD (argminL fr) 0
  if ¬ 0 ≤ fmin then .error .assertionError
  else if ¬ fmax ≤ 1 / 2 then .error .assertionError
  else if fmax ≠ fr.getD (fr.length - 1) 0 then .error .assertionError
  else if fmin ≠ fr.getD 0 0 then .error .assertionError
  else
  let n := nSearch.getD (10 * fr.length)
  let search := logspace base bounds.1 bounds.2 n
  let fSearch := search.map fun s => min (max (cf s) 0) Real.pi / (2 * Real.pi)
  if search = [] then .error .valueError
  else
  let smax := search.getD (argminL (fSearch.map fun f => |f - fmin|)) 0
  let smin := search.getD (argminL (fSearch.map fun f => |f - fmax|)) 0
  .ok (logspace base smax smin fr.length)

end Ssq
