import Verif.Model.Squeeze
import Mathlib.Algebra.BigOperators.Group.Finset.Basic

/-! Specifications for the squeezing properties. -/
namespace Ssq.Spec

/-- Entry `k` of the grid `v` is at minimal distance from `w`. -/
def Nearest (v : List ℝ) (w : ℝ) (k : ℕ) : Prop :=
  ∃ h : k < v.length, ∀ i, ∀ hi : i < v.length, |w - v[k]| ≤ |w - v[i]|

/-- Entry `k` of the grid `v` is at minimal distance from `w` in log-frequency. -/
def NearestLog (v : List ℝ) (w : ℝ) (k : ℕ) : Prop :=
  ∃ h : k < v.length, ∀ i, ∀ hi : i < v.length,
    |Real.logb 2 w - Real.logb 2 v[k]| ≤ |Real.logb 2 w - Real.logb 2 v[i]|

/-- Which of two equally near rows `k` (chosen) and `i` wins: the even one on the CPU (`np.round`
rounds half to even), the larger one on the GPU (C `round`). -/
def TieRule (d : Device) (k i : ℤ) : Prop :=
  match d with
  | .cpu => k % 2 = 0
  | .gpu => i < k

/-- `v` is the uniform grid `a, a + d, a + 2d, …`. -/
def Uniform (v : List ℝ) (a d : ℝ) : Prop := ∀ i, ∀ h : i < v.length, v[i] = a + i * d

/-- `v` is positive and geometric: its base-2 logarithms are `a, a + d, a + 2d, …`. -/
def Geometric (v : List ℝ) (a d : ℝ) : Prop :=
  ∀ i, ∀ h : i < v.length, 0 < v[i] ∧ Real.logb 2 v[i] = a + i * d

/-- `v` is positive, and its base-2 logarithms go in steps of `d0` up to index `p` and in steps of
`d1` from there; `p` is an interior index. -/
def TwoSegment (v : List ℝ) (p : ℕ) (a d0 d1 : ℝ) : Prop :=
  1 ≤ p ∧ p + 1 < v.length ∧ ∀ i, ∀ h : i < v.length, 0 < v[i] ∧
    Real.logb 2 v[i] = if i ≤ p then a + i * d0 else a + p * d0 + ((i : ℝ) - p) * d1

/-- Reassigned energy: row `r` of column `j` collects `Wx[i,j] * const[i]` from every cell `i` with a
finite phase whose destination row is `r`. -/
noncomputable def squeezed (M : ℕ) (Wx : ℕ → ℕ → ℂ) (const : ℕ → ℝ) (w : ℕ → ℕ → Phase)
    (row : ℝ → ℕ) (r j : ℕ) : ℂ :=
  ∑ i ∈ Finset.range M,
    match w i j with
    | .inf => 0
    | .fin x => if row x = r then Wx i j * (const i : ℂ) else 0

/-- Destination row with or without `flipud`. -/
def flip (flipud : Bool) (M : ℕ) (k : ℕ) : ℕ := if flipud then M - 1 - k else k

end Ssq.Spec
