import Verif.Model.Py
import Mathlib.Analysis.SpecialFunctions.Log.Basic
import Mathlib.Analysis.SpecialFunctions.Sqrt
import Mathlib.Analysis.SpecialFunctions.Pow.Complex
import Mathlib.Analysis.SpecialFunctions.Trigonometric.Basic

/-!
# Statistics and signals of `ssqueezepy/toolkit.py` and `ssqueezepy/utils/common.py`

Exact arithmetic. A 2D array is the list of its rows, all of the same length.
-/
namespace Ssq

/-- `np.mean(x)` of a 1D array. Simplification: 0, not NaN, for an empty array. (ssqueezepy/toolkit.py:41.) -/
noncomputable def meanL (x : List ℝ) : ℝ := x.sum / x.length

/-- `np.mean(data, 0)` of a 2D array with rows of length `n`. (ssqueezepy/utils/common.py:299.) -/
noncomputable def meanCols (n : ℕ) (data : List (List ℝ)) : List ℝ := (List.range n).map fun j => meanL (data.map fun r => r.getD j 0)

/-- `np.mean(data, 1)` of a 2D array. (ssqueezepy/utils/common.py:299.) -/
noncomputable def meanRows (data : List (List ℝ)) : List ℝ := data.map meanL

/-- `data - v` by numpy's rules for a 2D array with rows of length `n` and a 1D array `v`: `v` is aligned with the rows, an extent of 1 is repeated. (ssqueezepy/utils/common.py:299.) -/
def subRow (n : ℕ) (data : List (List ℝ)) (v : List ℝ) : Py (List (List ℝ)) :=
  if v.length = n then .ok (data.map fun r => List.zipWith (· - ·) r v)
  else if v.length = 1 then .ok (data.map fun r => r.map fun x => x - v.getD 0 0)
  else if n = 1 then .ok (data.map fun r => v.map fun y => r.getD 0 0 - y)
  else .error .valueError

/-- `np.abs(x)` of a 2D array. (ssqueezepy/utils/common.py:299; ssqueezepy/toolkit.py:46.) -/
def absRows (x : List (List ℝ)) : List (List ℝ) := x.map fun r => r.map fun y => |y|

/-- `mad(data, axis)` — ssqueezepy/utils/common.py:299-301, `np.mean(np.abs(data - np.mean(data, axis)), axis)`, for a 2D array with rows of length `n`.
A scalar result is a list of one number. -/
noncomputable def mad (n : ℕ) (data : List (List ℝ)) : Option ℕ → Py (List ℝ)
  | none => .ok [meanL ((data.map fun r => r.map fun x => |x - meanL data.flatten|).flatten)]
  | some 0 => (subRow n data (meanCols n data)).bind fun d => .ok (meanCols n (absRows d))
  | some 1 => (subRow n data (meanRows data)).bind fun d => .ok (meanRows (absRows d))
  | some _ => .error .valueError

/-- `est_riskshrink_thresh(Wx, nv)` — ssqueezepy/utils/common.py:248-279, for a 2D array with rows of length `N` and `nv ≥ 0`. -/
noncomputable def estRiskshrinkThresh (N : ℕ) (Wx : List (List ℂ)) (nv : ℕ) : Py ℝ :=
  let fine := (Wx.take nv).map fun r => r.map fun z : ℂ => ‖z‖
  (mad N fine none).bind fun m => .ok (14826 / 10000 * Real.sqrt (2 * Real.log N) * m.getD 0 0)

open Classical in
/-- `find_closest_parallel_is_faster` — ssqueezepy/utils/common.py:282-297. `timeit` is the time the runs of `find_closest(a, v, parallel=·)` took. -/
noncomputable def findClosestParallelIsFaster (timeit : Bool → ℝ) : Bool :=
  let t0 := timeit false
  let t1 := timeit true
  decide (t1 > t0)

/-- `x - xrec` for 1D arrays by numpy's rules. (ssqueezepy/toolkit.py:41.) -/
def subL {α : Type} [Sub α] [Zero α] (x y : List α) : Py (List α) :=
  if x.length = y.length then .ok (List.zipWith (· - ·) x y)
  else if y.length = 1 then .ok (x.map fun a => a - y.getD 0 0)
  else if x.length = 1 then .ok (y.map fun b => x.getD 0 0 - b)
  else .error .valueError

/-- `mad_rms(x, xrec)` — ssqueezepy/toolkit.py:38-41, for real 1D arrays. Simplification: 0 where numpy has NaN or infinity (division by zero). -/
noncomputable def madRms (x xrec : List ℝ) : Py ℝ :=
  (subL x xrec).bind fun d => .ok (meanL (d.map fun y => |y|) / Real.sqrt (meanL (x.map fun y => y ^ 2)))

/-- `mad_rms(x, xrec)` — ssqueezepy/toolkit.py:38-41, for complex 1D arrays: `x**2` is the complex square and `np.sqrt` the principal complex root. -/
noncomputable def madRmsC (x xrec : List ℂ) : Py ℂ :=
  (subL x xrec).bind fun d => .ok ((meanL (d.map fun y => ‖y‖) : ℂ) / ((x.map fun y => y ^ 2).sum / x.length) ^ (1 / 2 : ℂ))

/-- `np.max` of a 1D array of numbers, none for an empty one. (ssqueezepy/toolkit.py:46.) -/
noncomputable def maxL : List ℝ → Option ℝ
  | [] => none
  | a :: l => some (l.foldl max a)

/-- Row-major indices of an array of `m` rows of length `n`. (ssqueezepy/toolkit.py:46.) -/
def indices2 (m n : ℕ) : List (ℕ × ℕ) := (List.range m).flatMap fun i => (List.range n).map fun j => (i, j)

open Classical in
/-- `where_amax(x)` — ssqueezepy/toolkit.py:44-46, for a 2D array with rows of length `n`. The pair of index arrays returned by `np.where` is given as the list
of its index pairs, in row-major order. `max` of an empty array is a `ValueError`. -/
noncomputable def whereAmax (n : ℕ) (x : List (List ℂ)) : Py (List (ℕ × ℕ)) :=
  match maxL ((x.map fun r => r.map fun z : ℂ => ‖z‖).flatten) with
  | none => .error .valueError
  | some mx => .ok ((indices2 x.length n).filter fun p => decide (‖(x.getD p.1 []).getD p.2 0‖ = mx))

/-- `_t(min, max, N, endpoint)`, that is `np.linspace` — ssqueezepy/toolkit.py:25-26. With one sample and `endpoint=True` the step is not used. -/
noncomputable def toolT (lo hi : ℝ) (N : ℕ) (endpoint : Bool) : List ℝ :=
  let div := if endpoint then N - 1 else N
  (List.range N).map fun k : ℕ => lo + k * ((hi - lo) / div)

/-- The body shared by `cos_f` and `sin_f`, with the function as an argument. `np.concatenate` of no arrays is a `ValueError`. (ssqueezepy/toolkit.py:27-36.) -/
noncomputable def toneF (g : ℝ → ℝ) (freqs : List ℝ) (N : ℕ) (phi : ℝ) (endpoint : Bool) : Py (List ℝ) :=
  if freqs = [] then .error .valueError
  else .ok ((freqs.zipIdx.map fun p => (toolT p.2 (p.2 + 1) N endpoint).map fun t => g (2 * Real.pi * p.1 * (t + phi))).flatten)

/-- `cos_f` — ssqueezepy/toolkit.py:28-31. -/
noncomputable def cosF := toneF Real.cos

/-- `sin_f` — ssqueezepy/toolkit.py:33-36. -/
noncomputable def sinF := toneF Real.sin

end Ssq
