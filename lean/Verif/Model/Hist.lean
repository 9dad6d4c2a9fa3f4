import Verif.Model.Py
import Mathlib.Analysis.Real.Sqrt

/-!
# Statistics of a histogram — ssqueezepy/visuals.py:903-925
-/
namespace Ssq

/-- `x.mean()`, exactly. (ssqueezepy/visuals.py:922.) -/
noncomputable def histMean (x : List ℝ) : ℝ := x.sum / x.length

/-- `x.std()`, exactly: the root of the mean square deviation. (ssqueezepy/visuals.py:922.) -/
noncomputable def histStd (x : List ℝ) : ℝ := Real.sqrt (histMean (x.map fun a => (a - histMean x) ^ 2))

/-- `hist(x, stats=True)`: mean, std, min, max — ssqueezepy/visuals.py:903-925. `x` are the values of the array in order, which may have any shape; the plot is not
modelled. The minimum of an empty array is a ValueError. -/
noncomputable def histStats : List ℝ → Py (ℝ × ℝ × ℝ × ℝ)
  | [] => .error .valueError
  | a :: x => .ok (histMean (a :: x), histStd (a :: x), x.foldl min a, x.foldl max a)

end Ssq
