import Verif.Model.Xifn
import Verif.Model.Py

/-!
# The frequencies of a `Wavelet`: `wavelet.N`, `wavelet.xi`, `wavelet.xifn` — ssqueezepy/wavelets.py
-/
namespace Ssq

/-- The attributes `_N` and `_xi` of a `Wavelet`. (ssqueezepy/wavelets.py:54-60, 163-178.) -/
structure XiSt where
  N : ℤ
  xi : List ℝ

/-- `_xifn(scale=1, N)` for any integer — ssqueezepy/wavelets.py:473-484: `np.zeros` refuses negative lengths, and line 479 divides by `N`. -/
noncomputable def xifnInt (N : ℤ) : Py (List ℝ) :=
  if N < 0 then .error .valueError
  else if N = 0 then .error .zeroDivisionError
  else .ok (xifn 1 N.toNat)

/-- `wavelet.N = value` — ssqueezepy/wavelets.py:167-172: `_N` is stored first. -/
noncomputable def setN (s : XiSt) (v : ℤ) : XiSt × Py Unit :=
  let s1 := { s with N := v }
  match xifnInt v with
  | .ok xi => ({ s1 with xi := xi }, .ok ())
  | .error e => (s1, .error e)

/-- `Wavelet(wavelet, N=N)` as to these attributes — ssqueezepy/wavelets.py:54-59: no object if the assignment raises. -/
noncomputable def initN (N : ℤ) : Py XiSt :=
  match setN ⟨N, []⟩ N with
  | (s, .ok ()) => .ok s
  | (_, .error e) => .error e

/-- A program that assigns `wavelet.N` again and again, and catches the exceptions. (ssqueezepy/wavelets.py:168-172.) -/
noncomputable def setNs (s : XiSt) (h : List ℤ) : XiSt := h.foldl (fun s v => (setN s v).1) s

/-- The argument `scale` of `wavelet.xifn` and `wavelet(scale=…)`: `None`, a number, and arrays with 0, 1 and 2 dimensions. `arr2 m rows` has `m` columns. (ssqueezepy/wavelets.py:111-133.) -/
inductive XScale
  | none
  | num (s : ℝ)
  | arr0 (s : ℝ)
  | arr1 (l : List ℝ)
  | arr2 (m : ℕ) (rows : List (List ℝ))

/-- A 1D or 2D array of frequencies. (ssqueezepy/wavelets.py:474-484.) -/
inductive XiOut
  | d1 (l : List ℝ)
  | d2 (rows : List (List ℝ))

/-- `row * xi` for one row by broadcasting along the last dimension. (ssqueezepy/wavelets.py:474-484.) -/
noncomputable def bcast (row xi : List ℝ) : Py (List ℝ) :=
  if row.length = xi.length then .ok (List.zipWith (· * ·) row xi)
  else match row, xi with
    | [s], _ => .ok (xi.map fun x => s * x)
    | _, [x] => .ok (row.map fun s => s * x)
    | _, _ => .error .valueError

/-- `wavelet.xifn(scale)` — ssqueezepy/wavelets.py:112-133, given `xi`: `self.xi`, or `_xifn(1, N)` if `N` is passed. `len` of an array without dimensions is a
TypeError. -/
noncomputable def waveletXifn (scale : XScale) (xi : List ℝ) : Py XiOut :=
  match scale with
  | .none => .ok (.d1 (xi.map fun x => 1 * x))
  | .num s => .ok (.d1 (xi.map fun x => s * x))
  | .arr0 _ => .error .typeError
  | .arr1 l =>
    if 1 < l.length then .ok (.d2 (l.map fun s => xi.map fun x => s * x))
    else (bcast l xi).map .d1
  | .arr2 m rows =>
    if 1 < rows.length ∧ m ≠ 1 then .error .valueError
    else if rows = [] then
      if m = 1 ∨ xi.length = 1 ∨ m = xi.length then .ok (.d2 []) else .error .valueError
    else (rows.mapM fun row => bcast row xi).map .d2

end Ssq
