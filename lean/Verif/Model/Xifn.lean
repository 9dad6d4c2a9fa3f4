import Mathlib.Analysis.SpecialFunctions.Trigonometric.Basic

/-!
# Model of `_xifn` (ssqueezepy/wavelets.py:473-484)
-/
namespace Ssq

/-- `for i in idxs: l[i] = f(i)`. (ssqueezepy/wavelets.py:474-484.) -/
def writeLoop {β : Type} (f : ℕ → β) (idxs : List ℕ) (l : List β) : List β :=
  idxs.foldl (fun l i => l.set i (f i)) l

/-- `_xifn(scale, N)` — ssqueezepy/wavelets.py:474-484: zeros, then two write loops over `range(N//2 + 1)` and
`range(N//2 + 1, N)`. Exact reals instead of `dtype`. Only meaningful for `N ≥ 1` (the code divides
by `N`). -/
noncomputable def xifn (scale : ℝ) (N : ℕ) : List ℝ :=
  let h : ℝ := scale * (2 * Real.pi) / N
  let xi := List.replicate N (0 : ℝ)
  let xi := writeLoop (fun i => (i : ℝ) * h) (List.range (N / 2 + 1)) xi
  writeLoop (fun i => (((i : ℤ) - (N : ℤ) : ℤ) : ℝ) * h)
    (List.range' (N / 2 + 1) (N - (N / 2 + 1))) xi

end Ssq
