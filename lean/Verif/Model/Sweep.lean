import Verif.Model.Harea
import Verif.Model.Scales

/-!
# Sweeps of resolutions over scales — ssqueezepy/visuals.py:331-417

The arrays returned with `get=True`; plots are not modelled. Each scale is passed on as an array of one element, which is broadcast like a number. The wavelet is an instance with function `f`, peak `peakCt` (`find_maximum(wavelet.fn)`) and scale routines `sw`.
-/
namespace Ssq

/-- Keyword arguments of `sweep_std_t`; `extra` are names other than these. (ssqueezepy/visuals.py:331-345.) -/
structure SweepTKw where
  minDecay : Option ℝ := none
  maxMult : Option ℕ := none
  minMult : Option ℕ := none
  nondim : Option Bool := none
  forceInt : Option Bool := none
  extra : List String := []

/-- Keyword arguments of `sweep_std_w`; `extra` are names other than these. (ssqueezepy/visuals.py:362-374.) -/
structure SweepWKw where
  nondim : Option Bool := none
  forceInt : Option Bool := none
  extra : List String := []

/-- `sweep_std_t(wavelet, N, scales, get=True, **kw)` — ssqueezepy/visuals.py:331-359. -/
noncomputable def sweepStdT (f : WFn) (peakCt : ℝ) (sw : ScaleWavelet) (N : ℕ) (scales : ScalesArg) (kw : SweepTKw) : Py (List ℝ) :=
  if kw.extra ≠ [] then .error .valueError
  else (processScales scales N (some sw) none true 4).bind fun sc =>
    sc.1.mapM fun s => timeResolution f peakCt s N (kw.minDecay.getD 1) (kw.maxMult.getD 2) (kw.minMult.getD 2) (kw.forceInt.getD true) (kw.nondim.getD false)

/-- `sweep_std_w(wavelet, N, scales, get=True, **kw)` — ssqueezepy/visuals.py:362-388. -/
noncomputable def sweepStdW (f : WFn) (peakCt : ℝ) (sw : ScaleWavelet) (N : ℕ) (scales : ScalesArg) (kw : SweepWKw) : Py (List ℝ) :=
  if kw.extra ≠ [] then .error .valueError
  else (processScales scales N (some sw) none true 4).bind fun sc =>
    .ok (sc.1.map fun s => freqResolutionFull f peakCt s N (kw.forceInt.getD true) (kw.nondim.getD false))

/-- `sweep_harea(wavelet, N, scales, get=True, kw_w=kw_w, kw_t=kw_t)` — ssqueezepy/visuals.py:391-417: both sweeps are given the processed scales, a float64 array with
one column. -/
noncomputable def sweepHarea (f : WFn) (peakCt : ℝ) (sw : ScaleWavelet) (N : ℕ) (scales : ScalesArg) (kwW : Option SweepWKw) (kwT : Option SweepTKw) :
    Py (List ℝ × List ℝ × List ℝ) :=
  (processScales scales N (some sw) none true 4).bind fun sc =>
    (sweepStdW f peakCt sw N (.arr [sc.1.length, 1] .f64 sc.1) (kwW.getD {})).bind fun ws =>
      (sweepStdT f peakCt sw N (.arr [sc.1.length, 1] .f64 sc.1) (kwT.getD {})).bind fun ts => .ok (List.zipWith (· * ·) ws ts, ws, ts)

end Ssq
