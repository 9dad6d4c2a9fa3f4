import Verif.Model.Scales

/-!
# `find_downsampling_scale` with all its arguments
-/
namespace Ssq

/-- The `method` argument — ssqueezepy/utils/cwt_utils.py:512-523. -/
inductive DensityMethod | any | all | sum
deriving DecidableEq

/-- `assert_is_one_of(method, 'method', ('any', 'all', 'sum'))` — ssqueezepy/utils/cwt_utils.py:537. -/
def densityMethod (s : String) : Py DensityMethod :=
  if s = "any" then .ok .any else if s = "all" then .ok .all else if s = "sum" then .ok .sum else .error .valueError

/-- `check_group`, given the distances of the peaks from the joint peak — ssqueezepy/utils/cwt_utils.py:508-524. The maximum of no
distances does not occur: every sampled wavelet has a peak. -/
noncomputable def checkGroup (m : DensityMethod) (tol : ℝ) (dist : List ℝ) : Bool :=
  match m with
  | .any => decide (rowMax dist < tol)
  | .all => !(dist.all fun d => decide (tol < d))
  | .sum => decide (dist.sum < tol)

open Classical in
/-- `np.abs(psihs_peaks[1] - joint_peak)` — ssqueezepy/utils/cwt_utils.py:510, 564-565: `np.where(psihs == max)` lists every maximal entry of every row,
`[1]` are their columns. -/
noncomputable def peakDistances (rows : List (List ℝ)) : List ℝ :=
  let peaks : List ℕ := rows.flatMap fun r => (List.range r.length).filter fun c => decide (r.getD c 0 = rowMax r)
  let cols := (rows.head?.getD []).length
  let prod : List ℝ := (List.range cols).map fun c : ℕ => (rows.map fun r => r.getD c 0).prod
  peaks.map fun p : ℕ => |(p : ℝ) - (argmaxL prod : ℕ)|

open Classical in
/-- One iteration of the loop: whether it ends here — ssqueezepy/utils/cwt_utils.py:557-569. -/
noncomputable def groupDense (m : DensityMethod) (span : ℕ) (tol nonzeroTh nonzeroTol : ℝ) (rows : List (List ℝ)) : Bool :=
  let nonzeros : ℕ := (rows.map fun r => r.countP fun x => decide (nonzeroTh * rowMax r < x)).sum
  if (nonzeros : ℝ) / span > nonzeroTol then false else checkGroup m tol (peakDistances rows)

/-- `find_downsampling_scale(wavelet, scales, span, tol, method, nonzero_th, nonzero_tol)` given the samples `Psih` of the wavelets, or the array passed in their place —
ssqueezepy/utils/cwt_utils.py:459-580. Real samples, `span ≥ 1`, `viz=viz_last=False` (they only plot and print). The maximum of a row without
entries is a `ValueError`, met in the first iteration. -/
noncomputable def findDownsamplingAll (Psih : List (List ℝ)) (nScales span : ℕ) (tol : ℝ) (method : String) (nonzeroTh nonzeroTol : ℝ) : Py (Option ℕ) := do
  let m ← densityMethod method
  if Psih.length ≠ nScales then .error .valueError
  else
    let half := Psih.map fun r => r.take (r.length / 2)
    if 0 < half.length - span - 1 ∧ half.head? = some [] then .error .valueError
    else findDownsamplingScale (fun i => groupDense m span tol nonzeroTh nonzeroTol ((half.drop i).take span)) half.length span

end Ssq
