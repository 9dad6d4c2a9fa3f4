import Verif.Model.Ridge

/-!
# Ridge tracking with rounding — ssqueezepy/ridge_extraction.py

The forward and the backward pass with arbitrary addition and subtraction in place of the exact ones of `Model/Ridge.lean`. The costs and the penalties are real matrices (finite
floats); overflow and NaN are not modelled here.
-/
namespace Ssq

/-- `np.amin` of a row without NaN. (ssqueezepy/ridge_extraction.py:174, 182.) -/
noncomputable def flMin (l : List ℝ) : ℝ := l.min?.getD 0

/-- One iteration of the loop over `idx_freq`, with rounding: the row sum `penalized_energy[:, idx_time - 1] + penalty_matrix[idx_freq, :]` and the `+=` are one floating-point
addition each — ssqueezepy/ridge_extraction.py:173-176, 181-184. -/
noncomputable def flFwStep (add : ℝ → ℝ → ℝ) (nF : ℕ) (P : ℕ → ℕ → ℝ) (t : ℕ) (pe : ℕ → ℕ → ℝ) (f : ℕ) : ℕ → ℕ → ℝ :=
  fun f' t' =>
    if f' = f ∧ t' = t then add (pe f t) (flMin ((List.range nF).map fun g : ℕ => add (pe g (t - 1)) (P f g)))
    else pe f' t'

/-- `__accumulated_penalty_energy_fw` / `_fwp` with rounding — ssqueezepy/ridge_extraction.py:170-184. -/
noncomputable def flFw (add : ℝ → ℝ → ℝ) (nF nT : ℕ) (P : ℕ → ℕ → ℝ) (sched : ℕ → List ℕ) (pe : ℕ → ℕ → ℝ) : ℕ → ℕ → ℝ :=
  (List.range (nT - 1)).foldl (fun pe k => (sched (k + 1)).foldl (flFwStep add nF P (k + 1)) pe) pe

/-- The initial ridge — ssqueezepy/ridge_extraction.py:164-165; see `ridgeInit`. -/
noncomputable def flInit (nF nT : ℕ) (pe : ℕ → ℕ → ℝ) : ℕ → ℕ :=
  fun t => nfArgmin ((List.range nF).map fun f : ℕ => some (pe f t)) % nT

open Classical in
/-- One iteration of the loop over `idx_freq` of the backward pass, with rounding — ssqueezepy/ridge_extraction.py:213-217, 228-232. -/
noncomputable def flBwStep (add sub : ℝ → ℝ → ℝ) (P : ℕ → ℕ → ℝ) (eps : ℝ) (pe : ℕ → ℕ → ℝ) (t : ℕ) (val : ℝ) (r : ℕ → ℕ) (f : ℕ) : ℕ → ℕ :=
  if |sub val (add (pe f t) (P (r (t + 1)) f))| < eps then Function.update r t f else r

/-- One time step of the backward pass, with rounding — ssqueezepy/ridge_extraction.py:207-232. -/
noncomputable def flBwTime (add sub : ℝ → ℝ → ℝ) (P : ℕ → ℕ → ℝ) (eps : ℝ) (e pe : ℕ → ℕ → ℝ) (order : List ℕ) (t : ℕ) (r : ℕ → ℕ) : ℕ → ℕ :=
  order.foldl (flBwStep add sub P eps pe t (sub (pe (r (t + 1)) (t + 1)) (e (r (t + 1)) (t + 1)))) r

/-- `__accumulated_penalty_energy_bw` / `_bwp` with rounding — ssqueezepy/ridge_extraction.py:207-232: times `nT - 2, …, 0`. -/
noncomputable def flBw (add sub : ℝ → ℝ → ℝ) (nT : ℕ) (P : ℕ → ℕ → ℝ) (eps : ℝ) (e pe : ℕ → ℕ → ℝ) (sched : ℕ → List ℕ) (r : ℕ → ℕ) : ℕ → ℕ :=
  (List.range (nT - 1)).foldl (fun r k => flBwTime add sub P eps e pe (sched (nT - 2 - k)) (nT - 2 - k) r) r

/-- `fw_bw_ridge_tracking` with rounding — ssqueezepy/ridge_extraction.py:92-111, for the costs `e`, the penalties `P` and the orders `fw`, `bw` of the iterations. -/
noncomputable def ridgeTrackFl (add sub : ℝ → ℝ → ℝ) (nF nT : ℕ) (P : ℕ → ℕ → ℝ) (eps : ℝ) (e : ℕ → ℕ → ℝ) (fw bw : ℕ → List ℕ) : ℕ → ℕ :=
  let pe := flFw add nF nT P fw e
  flBw add sub nT P eps e pe bw (flInit nF nT pe)

end Ssq
