import Verif.Model.TimeRes

/-!
# Nondimensional resolutions and the Heisenberg area — ssqueezepy/wavelets.py
-/
namespace Ssq

/-- `freq_resolution(wavelet, scale, N, nondim, force_int)` — ssqueezepy/wavelets.py:749-810. Neither call of `center_frequency` (lines 795, 806) is given `N`, which is
then 1024; its `force_int` has no effect (`C86_ignored`). -/
noncomputable def freqResolutionFull (f : WFn) (peakCt scale : ℝ) (N : ℕ) (forceInt nondim : Bool) : ℝ :=
  let useFormula : Prop := (scale < 4 ∨ scale > (N : ℝ) / 5) ∧ forceInt = false
  open Classical in
  let s := if useFormula then 4 / Real.pi * peakCt else scale
  let std := freqResolution f peakCt s N
  let std := open Classical in if useFormula then std * (s / scale) else std
  if nondim then std / peakWc f scale 1024 else std

/-- `wavelet.scalec_ct` — ssqueezepy/wavelets.py:236-242. -/
noncomputable def scalecCt (peakCt : ℝ) : ℝ := 4 / Real.pi * peakCt

/-- `wavelet.std_t`, `wavelet.std_t_d` — ssqueezepy/wavelets.py:244-251, 275-281, as computed for the current `N`; the other arguments of `time_resolution` have their
defaults (lines 813-814). -/
noncomputable def stdT (f : WFn) (peakCt : ℝ) (N : ℕ) (nondim : Bool) : Py ℝ :=
  timeResolution f peakCt (scalecCt peakCt) N 1000 2 2 true nondim

/-- `wavelet.std_w`, `wavelet.std_w_d` — ssqueezepy/wavelets.py:253-259, 283-289. -/
noncomputable def stdW (f : WFn) (peakCt : ℝ) (N : ℕ) (nondim : Bool) : ℝ := freqResolutionFull f peakCt (scalecCt peakCt) N true nondim

/-- `wavelet.std_f`, `wavelet.std_f_d` — ssqueezepy/wavelets.py:261-264, 291-294. -/
noncomputable def stdF (f : WFn) (peakCt : ℝ) (N : ℕ) (nondim : Bool) : ℝ := stdW f peakCt N nondim / (2 * Real.pi)

/-- The Heisenberg area: `wavelet.harea` (line 271-273) and what `wavelet.info(nondim=True)` prints for `nondim`; what `wavelet.info(nondim=False)` prints otherwise —
ssqueezepy/wavelets.py:311-324. -/
noncomputable def harea (f : WFn) (peakCt : ℝ) (N : ℕ) (nondim : Bool) : Py ℝ :=
  (stdT f peakCt N nondim).bind fun t => .ok (t * stdW f peakCt N nondim)

end Ssq
