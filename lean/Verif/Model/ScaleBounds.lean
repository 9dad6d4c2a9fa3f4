import Verif.Model.Search
import Verif.Model.Xifn

/-!
# Scale bounds (`ssqueezepy/utils/cwt_utils.py`)

The searches behind `cwt_scalebounds`. `fn` is `wavelet.fn`, real-valued and applied entry by entry, in exact arithmetic. `fuel` bounds
the passes of the `while True` loops; `none` means that one of them is still running.
-/
namespace Ssq

/-- Sequencing of computations that may still be running. (ssqueezepy/utils/cwt_utils.py:412-457.) -/
def andThen {α β : Type} (a : Option (Py α)) (f : α → Option (Py β)) : Option (Py β) :=
  match a with
  | none => none
  | some (.error e) => some (.error e)
  | some (.ok x) => f x

/-- `find_maximum(wavelet.fn)` with the defaults `step_size=1e-3, steps_per_search=1e4, step_start=0, step_limit=1000, min_value=-1` —
ssqueezepy/algos.py:625-626. -/
noncomputable def findPeak (fn : ℝ → ℝ) (fuel : ℕ) : Option (Py (ℝ × ℝ)) :=
  findMaximum fn (1 / 1000) 10000 0 1000 (-1) fuel

/-- `find_first_occurrence(wavelet.fn, value, step_start=, step_limit=)` with the defaults `step_size=1e-3, steps_per_search=1e4` —
ssqueezepy/algos.py:665-666. -/
noncomputable def findValue (fn : ℝ → ℝ) (value stepStart stepLimit : ℝ) (fuel : ℕ) : Option (Py (ℝ × ℝ)) :=
  findFirstOccurrence fn value (1 / 1000) 10000 stepStart stepLimit fuel

open Classical in
/-- `find_min_scale(wavelet, cutoff)` — ssqueezepy/utils/cwt_utils.py:412-432. -/
noncomputable def findMinScale (fn : ℝ → ℝ) (cutoff : ℝ) (fuel : ℕ) : Option (Py ℝ) :=
  andThen (findPeak fn fuel) fun (wPeak, peak) =>
    let (stepStart, stepLimit) := if 0 < cutoff then (wPeak, 10 * wPeak) else (0, wPeak)
    andThen (findValue fn (|cutoff| * peak) stepStart stepLimit fuel) fun (wCutoff, _) =>
      some (.ok (wCutoff / Real.pi))

open Classical in
/-- `np.where(p(l))[0]` — the indices of the entries that satisfy a condition. (ssqueezepy/utils/cwt_utils.py:452.) -/
noncomputable def whereIdx (l : List ℝ) (p : ℝ → Prop) : List ℕ :=
  (List.range l.length).filter fun i => decide (p (l.getD i 0))

/-- `find_max_scale(wavelet, N, bin_loc, bin_amp)` — ssqueezepy/utils/cwt_utils.py:435-456; `center_frequency(wavelet, kind='peak-ct')` is the
argument of the maximum, ssqueezepy/wavelets.py:719-725, 744-745. `[-1]` of an empty selection and `xi[bin_loc]` out of range raise `IndexError`.
`bin_loc ≥ 1` is meant: for `bin_loc = 0` the code divides by `xi[0] = 0`. `N = 0` divides by zero in `_xifn`. -/
noncomputable def findMaxScale (fn : ℝ → ℝ) (N : ℕ) (binLoc : ℕ) (binAmp : ℝ) (fuel : ℕ) : Option (Py ℝ) :=
  andThen (findPeak fn fuel) fun (wc, _) =>
    if N = 0 then some (.error .zeroDivisionError) else
    let scalec := 4 / Real.pi * wc
    let xi := xifn scalec N
    let psih := (xi.map fn).take (N / 2 + 1)
    let midx := argmaxL psih
    match (whereIdx (psih.take midx) fun p => p < rowMax psih * binAmp).getLast? with
    | none => some (.error .indexError)
    | some i =>
      if binLoc < N then some (.ok (scalec * (xi.getD i 0 / xi.getD binLoc 0))) else some (.error .indexError)

/-- `np.arange(a, b, step)` for a positive step: `ceil((b - a) / step)` values. (ssqueezepy/utils/cwt_utils.py:673.) -/
noncomputable def arangeStep (a b step : ℝ) : List ℝ :=
  (List.range ⌈(b - a) / step⌉₊).map fun k : ℕ => a + k * step

/-- `np.diff(n_divs % 1)` — ssqueezepy/utils/cwt_utils.py:683. -/
noncomputable def diffMod1 (l : List ℝ) : List ℝ :=
  (List.range (l.length - 1)).map fun i : ℕ => Int.fract (l.getD (i + 1) 0) - Int.fract (l.getD i 0)

open Classical in
/-- `find_max_scale_alt(wavelet, N, min_cutoff, max_cutoff)` — ssqueezepy/utils/cwt_utils.py:630-692. The bare `except` around
`np.where(...)[0][0]` turns an empty selection into `Exception`. `1/N` with `N = 0` divides by zero. -/
noncomputable def findMaxScaleAlt (fn : ℝ → ℝ) (N : ℕ) (minCutoff maxCutoff : ℝ) (fuel : ℕ) : Option (Py ℝ) :=
  if maxCutoff ≤ 0 ∨ minCutoff ≤ 0 then some (.error .valueError)
  else if maxCutoff ≤ minCutoff then some (.error .valueError)
  else
    andThen (findPeak fn fuel) fun (wPeak, peak) =>
    andThen (findValue fn (minCutoff * peak) 0 wPeak fuel) fun (wCutoff, _) =>
      if N = 0 then some (.error .zeroDivisionError) else
      let wLtp := (arangeStep wCutoff wPeak (1 / N)).dropLast
      let divSize := wLtp.map fun w => (wPeak - w) * 2
      let nDivs := wLtp.map fun w => w / ((wPeak - w) * 2)
      match (whereIdx (diffMod1 nDivs) fun d => d < -(4 / 5)).head? with
      | none => some (.error .exception)
      | some idx => some (.ok (divSize.getD (idx + 1) 0 / (Real.pi / ((N : ℝ) / 2))))

end Ssq
