import Verif.Model.Psifn
import Verif.Model.WindowRes
import Verif.Model.Squeeze
import Verif.Model.Toolkit

/-!
# `time_resolution` and the discrete peak of `center_frequency` — ssqueezepy/wavelets.py

Exact arithmetic. A quotient with denominator zero, which numpy makes NaN, is zero here, except where it decides a branch.
-/
namespace Ssq

/-- `_peak_wc` — ssqueezepy/wavelets.py:714-717: `w[np.argmax(apsih2)]`. -/
noncomputable def peakWc (f : WFn) (scale : ℝ) (N : ℕ) : ℝ :=
  (shiftedXi N).getD (argmaxL (apsih2 f scale (shiftedXi N))) 0

/-- `np.abs(wavelet.psifn(scale=scale, N=Nt))**2` — ssqueezepy/wavelets.py:882; also lines 909-913, which sample and transform alike. -/
noncomputable def psi2 (f : WFn) (scale : ℝ) (Nt : ℕ) : List ℝ := ((psifn f Nt [scale]).getD 0 []).map Complex.normSq

/-- `apsi2.max() / apsi2[:max(10, Nt//100)].mean() > min_decay` — ssqueezepy/wavelets.py:884. A zero mean gives infinity, or NaN if the maximum is zero, too. -/
def Decayed (a : List ℝ) (minDecay : ℝ) : Prop :=
  ∃ mx, maxL a = some mx ∧
    let m := meanL (a.take (max 10 (a.length / 100)))
    if m = 0 then 0 < mx else minDecay < mx / m

open Classical in
/-- The loop of `_make_integration_t` — ssqueezepy/wavelets.py:878-891: the multiple of `N` found. `_xifn` of no samples divides by zero. -/
noncomputable def integrationMult (f : WFn) (scale : ℝ) (N : ℕ) (minDecay : ℝ) (maxMult minMult : ℕ) : Py ℕ :=
  let mults := (List.range (maxMult + 1 - minMult)).map fun i => minMult + i
  if mults ≠ [] ∧ minMult * N = 0 then .error .zeroDivisionError
  else match mults.find? fun mult => decide (Decayed (psi2 f scale (mult * N)) minDecay) with
    | some mult => .ok mult
    | none => .error .exception

/-- `var_t` for the time span of `Nt` samples, `t = np.arange(-Nt/2, Nt/2)` — ssqueezepy/wavelets.py:895, 914-915. -/
noncomputable def varTime (f : WFn) (scale : ℝ) (Nt : ℕ) : ℝ :=
  trapzX (List.zipWith (fun t p => t ^ 2 * p) (windowT Nt) (psi2 f scale Nt)) (windowT Nt) / trapzX (psi2 f scale Nt) (windowT Nt)

/-- `time_resolution(wavelet, scale, N, min_decay, max_mult, min_mult, force_int, nondim)` — ssqueezepy/wavelets.py:813-928. `find_maximum(wavelet.fn)` is the
parameter `peakCt`. -/
noncomputable def timeResolution (f : WFn) (peakCt scale : ℝ) (N : ℕ) (minDecay : ℝ) (maxMult minMult : ℕ) (forceInt nondim : Bool) : Py ℝ :=
  let useFormula : Prop := (scale < 4 ∨ scale > (N : ℝ) / 5) ∧ forceInt = false
  open Classical in
  let s := if useFormula then 4 / Real.pi * peakCt else scale
  (integrationMult f s N minDecay maxMult minMult).bind fun mult =>
    let std := Real.sqrt (varTime f s (mult * N))
    let std := open Classical in if useFormula then std * (scale / s) else std
    .ok (if nondim then std * peakWc f scale N else std)

end Ssq
