import Verif.Model.Scales
import Mathlib.Analysis.SpecialFunctions.Pow.Real
import Mathlib.Analysis.SpecialFunctions.Trigonometric.Basic
import Mathlib.Analysis.SpecialFunctions.Sqrt

/-!
# Chirps and amplitude modulators (`ssqueezepy/_test_signals.py`)

Exact real arithmetic. `none` stands for a non-finite result (numpy divides by zero with a warning only). A division of Python
numbers by zero raises.
-/
namespace Ssq

/-- Phase and angular frequency at one time. (ssqueezepy/_test_signals.py:199-208.) -/
structure ChirpPt where
  phi : ℝ
  w : ℝ

/-- `_lchirp_fn` — ssqueezepy/_test_signals.py:199-208. -/
noncomputable def lchirpFn (tmin tmax fmin fmax t : ℝ) : Py (Option ChirpPt) :=
  if tmin - tmax = 0 then .error .zeroDivisionError
  else
    let a := (fmin - fmax) / (tmin - tmax)
    let b := (fmin * tmax - fmax * tmin) / (tmax - tmin)
    let phi := a / 2 * (t ^ 2 - tmin ^ 2) + b * (t - tmin)
    let w := a * t + b
    .ok (some ⟨phi * (2 * Real.pi), w * (2 * Real.pi)⟩)

/-- `_echirp_fn` — ssqueezepy/_test_signals.py:219-228, for `fmin, fmax > 0` (otherwise complex or zero powers; not modelled: `none`). -/
noncomputable def echirpFn (tmin tmax fmin fmax t : ℝ) : Py (Option ChirpPt) :=
  if fmin ≤ 0 ∨ fmax ≤ 0 then .ok none
  else if tmax - tmin = 0 ∨ tmax = 0 then .error .zeroDivisionError
  else
    let a := (fmin ^ tmax / fmax ^ tmin) ^ (1 / (tmax - tmin))
    let b := fmax ^ (1 / tmax) * (1 / a) ^ (1 / tmax)
    if Real.log b = 0 then .ok none
    else
      let phi := a / Real.log b * (b ^ t - b ^ tmin)
      let w := a * b ^ t
      .ok (some ⟨phi * (2 * Real.pi), w * (2 * Real.pi)⟩)

/-- `_echirp_pc_fn` — ssqueezepy/_test_signals.py:241-251. -/
noncomputable def echirpPcFn (tmin tmax fmin fmax t : ℝ) : Py (Option ChirpPt) :=
  if Real.exp tmax - Real.exp tmin = 0 then .ok none
  else
    let A := (fmax - fmin) / (Real.exp tmax - Real.exp tmin)
    let B := (fmin * Real.exp tmax - fmax * Real.exp tmin) / (Real.exp tmax - Real.exp tmin)
    let phi := A * (Real.exp t - Real.exp tmin) + B * (t - tmin)
    let w := A * Real.exp t + B
    .ok (some ⟨phi * (2 * Real.pi), w * (2 * Real.pi)⟩)

/-- `_hchirp_fn` — ssqueezepy/_test_signals.py:266-282. -/
noncomputable def hchirpFn (tmin tmax fmin fmax t : ℝ) : Py (Option ChirpPt) :=
  let a := fmin
  let b := fmax
  let c := tmin
  let d := tmax
  let AN := 2 * Real.sqrt (a ^ 3 * b ^ 3 * (c - d) ^ 4) + a ^ 2 * b * (c - d) ^ 2 + a * b ^ 2 * (c - d) ^ 2
  let AD := (a - b) ^ 2
  let BN := Real.sqrt (a ^ 3 * b ^ 3 * (c - d) ^ 4) + a ^ 2 * b * c * (c - d) + a * b ^ 2 * d * (d - c)
  let BD := a * b * (a - b) * (c - d)
  if a * b < 0 ∨ AD = 0 ∨ BD = 0 then .ok none
  else
    let A := AN / AD
    let B := BN / BD
    if B - t = 0 ∨ tmin - B = 0 then .ok none
    else
      let phi := A * (1 / (B - t) + 1 / (tmin - B))
      let w := A / (B - t) ^ 2
      .ok (some ⟨phi * (2 * Real.pi), w * (2 * Real.pi)⟩)

/-- `am_sine`, at one time: `sine(N, f, phi)` is `sin(2*pi*f*t + phi)` — ssqueezepy/_test_signals.py:156-163, 356-361. -/
noncomputable def amSine (f amin amax phi t : ℝ) : ℝ :=
  amin + (amax - amin) * ((Real.sin (2 * Real.pi * f * t + phi) + 1) / 2)

/-- `am_cosine` — ssqueezepy/_test_signals.py:165-172, 363-368. -/
noncomputable def amCosine (f amin amax phi t : ℝ) : ℝ :=
  amin + (amax - amin) * ((Real.cos (2 * Real.pi * f * t + phi) + 1) / 2)

/-- `am_exp` — ssqueezepy/_test_signals.py:370-376. -/
noncomputable def amExp (tmin tmax amin amax t : ℝ) : Py (Option ℝ) := do
  let p ← echirpFn tmin tmax amin amax t
  return p.map fun q => q.w / (2 * Real.pi)

/-- `np.linspace(a, b, n, endpoint)` — used by `_t`, ssqueezepy/_test_signals.py:980-981 (`n = 1` gives `[a]`). -/
noncomputable def tVec (a b : ℝ) (n : ℕ) (endpoint : Bool) : List ℝ :=
  (List.range n).map fun k : ℕ => a + k * ((b - a) / (if endpoint then (n - 1 : ℕ) else n : ℕ))

/-- `am_gauss`: the whole vector — ssqueezepy/_test_signals.py:378-383. -/
noncomputable def amGauss (n : ℕ) (amin amax : ℝ) : List ℝ :=
  let t := tVec (-1) 1 n false
  let mean := t.sum / t.length
  t.map fun s => amin + (amax - amin) * Real.exp (-((s - mean) ^ 2 * 5))

/-- `_est_N_nonalias(f_fn, tmin, tmax, ...)` — ssqueezepy/_test_signals.py:647-664; `w` is the angular frequency `f_fn`. -/
noncomputable def estN (w : ℝ → ℝ) (tmin tmax : ℝ) : ℤ :=
  let fmaxFn := rowMax ((tVec tmin tmax 50000 true).map w)
  pyInt ((⌈1 + fmaxFn * (tmax - tmin) / Real.pi⌉ : ℤ) : ℝ)

end Ssq
