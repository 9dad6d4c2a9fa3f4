import Verif.Model.Search
import Verif.Model.Resolution
import Mathlib.Analysis.SpecialFunctions.Pow.Real

/-!
# Admissibility constants (`ssqueezepy/utils/cwt_utils.py`)

`integrate_analytic`, `adm_ssq` and `adm_cwt` for real-valued functions, applied entry by entry, in exact arithmetic.
-/
namespace Ssq

/-- `np.linspace(mxlim, .1, N, endpoint=False)[::-1]` — ssqueezepy/utils/cwt_utils.py:591. -/
noncomputable def mainMesh (mxlim : ℝ) (N : ℕ) : List ℝ :=
  ((List.range N).map fun k : ℕ => mxlim + k * ((1 / 10 - mxlim) / N)).reverse

/-- `_est_arr(mxlim, N)` — ssqueezepy/utils/cwt_utils.py:590-597: values, mesh, index from which on they are neglected. -/
noncomputable def estArr (f : ℝ → ℝ) (mxlim : ℝ) (N : ℕ) : Py (List ℝ × List ℝ × ℕ) :=
  let t := mainMesh mxlim N
  let arr := t.map f
  let maxIdx := argmaxL arr
  (minNeglectIdx ((arr.drop maxIdx).map fun x => |x|) (1 / 10 ^ 15)).bind fun i => .ok (arr, t, i + maxIdx)

/-- `np.logspace(-15, -1, 1000)` — ssqueezepy/utils/cwt_utils.py:620. -/
noncomputable def nearMesh : List ℝ := (List.range 1000).map fun k : ℕ => (10 : ℝ) ^ (-15 + (k : ℝ) * (14 / 999))

/-- `_integrate_near_zero()` — ssqueezepy/utils/cwt_utils.py:615-622. -/
noncomputable def integrateNearZero (f : ℝ → ℝ) : ℝ := trapzX (nearMesh.map f) nearMesh

open Classical in
/-- The loop of `_find_convergent_array()` with its `else` — ssqueezepy/utils/cwt_utils.py:599-613, over the remaining pairs `(m, mxlim)`; `last` is what
the last pass computed. Result: values and mesh up to the neglected part, and whether the warning "Integrated only from 1e-15 to 0.1 in logspace" is due
(`nowarn=False`). -/
noncomputable def convergentLoop (f : ℝ → ℝ) (intNz : ℝ) : List (ℕ × ℝ) → Option (List ℝ × List ℝ × ℕ) → Py ((List ℝ × List ℝ) × Bool)
  | [], none => .error .unboundLocalError
  | [], some (arr, t, i) =>
    if intNz < 1 / 10 ^ 5 then .error .exception else .ok ((arr.take i, t.take i), true)
  | (m, mxlim) :: rest, _ =>
    (estArr f mxlim (10000 * m)).bind fun r =>
      if 1000 * m < r.2.1.length - r.2.2 ∧ 1 / 10 ^ 5 < (r.1.map fun x => |x|).sum then .ok ((r.1.take r.2.2, r.2.1.take r.2.2), false)
      else convergentLoop f intNz rest (some r)

/-- `integrate_analytic(int_fn)` — ssqueezepy/utils/cwt_utils.py:583-627, with the flag of `convergentLoop`. -/
noncomputable def integrateAnalytic (f : ℝ → ℝ) : Py (ℝ × Bool) :=
  let intNz := integrateNearZero f
  (convergentLoop f intNz [(1, 1), (1, 20), (4, 80), (8, 160)] none).bind fun r =>
    .ok (trapzX r.1.1 r.1.2 + intNz, r.2)

/-- `adm_ssq(wavelet)` for a real-valued wavelet — ssqueezepy/utils/cwt_utils.py:28-47. -/
noncomputable def admSsq (fn : ℝ → ℝ) : Py ℝ := (integrateAnalytic fun w => fn w / w).map Prod.fst

/-- `adm_cwt(wavelet)` for a real-valued wavelet — ssqueezepy/utils/cwt_utils.py:50-63. -/
noncomputable def admCwt (fn : ℝ → ℝ) : Py ℝ := (integrateAnalytic fun w => fn w * fn w / w).map Prod.fst

end Ssq
