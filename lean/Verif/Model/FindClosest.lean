import Verif.Model.Squeeze
import Mathlib.Data.List.Sort

/-!
# `find_closest` and its variants — ssqueezepy/algos.py:254-449

Element values are exact reals; a matrix is a function of row and column.
-/
namespace Ssq

/-- What `v.argsort()` may return: a permutation of the indices that sorts `v` (numpy's default
sort is not stable, so equal values may come in any order). (ssqueezepy/algos.py:334.) -/
def IsArgsort (v : List ℝ) (sidx : List ℕ) : Prop :=
  sidx.Perm (List.range v.length) ∧ (sidx.map fun i => v.getD i 0).Pairwise (· ≤ ·)

/-- `np.searchsorted(vs, a)` (side 'left') on a sorted `vs`: first index with `a <= vs[i]`, or
`len(vs)`. (ssqueezepy/algos.py:336.) -/
noncomputable def searchsorted (vs : List ℝ) (a : ℝ) : ℕ := vs.findIdx fun y => decide (a ≤ y)

/-- `find_closest_smart` for one element of `a` — ssqueezepy/algos.py:330-344. `sidx` is the result of
`v.argsort()`. An empty `v` makes `v_s[idx]` raise `IndexError`. -/
noncomputable def findClosestSmart (sidx : List ℕ) (v : List ℝ) (a : ℝ) : Py ℕ :=
  let vs := sidx.map fun i => v.getD i 0
  if v = [] then .error .indexError else
  let idx := searchsorted vs a
  let idx := if idx = v.length then v.length - 1 else idx
  let idx0 := idx - 1
  let m : Prop := |a - vs.getD idx 0| ≥ |vs.getD idx0 0 - a| ∧ idx ≠ 0
  open Classical in
  let idx := if m then idx - 1 else idx
  .ok (sidx.getD idx 0)

open Classical in
/-- `np.argmin` of a non-empty list: first index of a minimal element. (ssqueezepy/algos.py:326.) -/
noncomputable def argminL (l : List ℝ) : ℕ := l.findIdx fun x => decide (∀ y ∈ l, x ≤ y)

/-- `find_closest_brute` for one element — ssqueezepy/algos.py:320-327. -/
noncomputable def findClosestBrute (v : List ℝ) (a : ℝ) : Py ℕ :=
  if v = [] then .error .valueError else .ok (argminL (v.map fun y => |a - y|))

/-- `find_closest_lin` for a matrix of `R` rows — ssqueezepy/algos.py:430-449. `omax` is computed from
`len(out)`, the number of *rows of `a`*. `dv = 0` is a division by zero (numba raises
`ZeroDivisionError`); here it is only modelled for `dv ≠ 0`. -/
noncomputable def findClosestLin (R : ℕ) (a : ℕ → ℕ → ℝ) (v : List ℝ) : Py (ℕ → ℕ → ℤ) :=
  match v with
  | v0 :: v1 :: _ =>
    if v1 - v0 = 0 then .error .zeroDivisionError else
    .ok fun i j => min (roundHalfEven (max ((a i j - v0) / (v1 - v0)) 0)) ((R : ℤ) - 1)
  | _ => .error .indexError

/-- `find_closest_log` for a matrix of `R` rows of finite values — ssqueezepy/algos.py:376-427.
`omax` is again `R - 1`. The index formulas are those of the two-pass squeezing kernels. (Infinite
elements, skipped by one of the four kernels only, are not modelled.) -/
noncomputable def findClosestLog (th : ℝ) (R : ℕ) (a : ℕ → ℕ → ℝ) (v : List ℝ) :
    Py (ℕ → ℕ → ℤ) := do
  let p ← paramsFindClosestLog th v
  return fun i j => binTwoPass p ((R : ℤ) - 1) (a i j)

/-- `find_closest` — ssqueezepy/algos.py:254-317. `parallel`, `smart` are `none` for `None`. -/
noncomputable def findClosest (th : ℝ) (sidx : List ℕ) (R : ℕ) (a : ℕ → ℕ → ℝ) (v : List ℝ)
    (logscale : Bool) (parallel smart : Option Bool) : Py (ℕ → ℕ → Py ℤ) :=
  let smart := if smart = none ∧ parallel = none then some true else smart
  if smart = some true then
    if logscale then
      .ok fun i j => do
        let k ← findClosestSmart sidx (v.map (Real.logb 2)) (Real.logb 2 (a i j)); return (k : ℤ)
    else .ok fun i j => do let k ← findClosestSmart sidx v (a i j); return (k : ℤ)
  else if logscale then do
    let o ← findClosestLog th R a v
    return fun i j => .ok (o i j)
  else do
    let o ← findClosestLin R a v
    return fun i j => .ok (o i j)

end Ssq
