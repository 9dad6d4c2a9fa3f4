import Verif.Model.Py
import Mathlib.Analysis.Complex.Basic

/-!
# Component inversion — ssqueezepy/_ssq_cwt.py:313-417

`Tx` is a function of row and column with `M` rows and `N` columns.
-/
namespace Ssq
open Finset

/-- An integer array `cc` or `cw` of one or two dimensions (time × component). `astype('int32')` is not
modelled: entries are integers already. (ssqueezepy/_ssq_cwt.py:406-417.) -/
inductive CurveArg
  | oneD (n : ℕ) (v : ℕ → ℤ)
  | twoD (rows cols : ℕ) (v : ℕ → ℕ → ℤ)

/-- The array after `reshape(-1, 1)` of 1D input. (ssqueezepy/_ssq_cwt.py:411-414.) -/
structure Curves where
  rows : ℕ
  cols : ℕ
  v : ℕ → ℕ → ℤ

/-- `if cc.ndim == 1: cc = cc.reshape(-1, 1)` — ssqueezepy/_ssq_cwt.py:411-414. -/
def CurveArg.reshape : CurveArg → Curves
  | .oneD n v => ⟨n, 1, fun t _ => v t⟩
  | .twoD r c v => ⟨r, c, v⟩

/-- `_process_component_inversion_args` — ssqueezepy/_ssq_cwt.py:406-417. `none` = full inversion. With
only one of the two given, `None.ndim` raises `AttributeError`. -/
def processComponentArgs : Option CurveArg → Option CurveArg → Py (Option (Curves × Curves))
  | none, none => .ok none
  | some cc, some cw => .ok (some (cc.reshape, cw.reshape))
  | _, _ => .error .attributeError

/-- `np.clip(x, 0, M)`. (ssqueezepy/_ssq_cwt.py:389-390.) -/
def clip (M : ℕ) (x : ℤ) : ℤ := min (max x 0) M

/-- `(lower_cc[m], upper_cc[m])` for curve position `c` and half-width `w` —
ssqueezepy/_ssq_cwt.py:389-395. -/
def bandBounds (M : ℕ) (c w : ℤ) : ℤ × ℤ :=
  if c = -1 then (1, 0) else (clip M (c - w), clip M (c + w))

/-- Whether row `r` of an `M`-row array is selected by `slice(lower, upper + 1)` (both bounds are
non-negative) — ssqueezepy/_ssq_cwt.py:397. -/
def inSlice (b : ℤ × ℤ) (r : ℕ) : Prop := b.1 ≤ r ∧ (r : ℤ) < b.2 + 1

instance (b : ℤ × ℤ) (r : ℕ) : Decidable (inSlice b r) := by unfold inSlice; infer_instance

/-- `A.real.sum(axis=0)` for `M` rows. (ssqueezepy/_ssq_cwt.py:397-400.) -/
noncomputable def realColSum (M N : ℕ) (A : ℕ → ℕ → ℂ) : List ℝ :=
  (List.range N).map fun m : ℕ => ∑ r ∈ range M, (A r m).re

/-- One component: the masked transform and the updated remainder — ssqueezepy/_ssq_cwt.py:387-399. -/
def maskStep (M : ℕ) (Tx rem : ℕ → ℕ → ℂ) (cc cw : Curves) (n : ℕ) :
    (ℕ → ℕ → ℂ) × (ℕ → ℕ → ℂ) :=
  (fun r m => if inSlice (bandBounds M (cc.v m n) (cw.v m n)) r then Tx r m else 0,
   fun r m => if inSlice (bandBounds M (cc.v m n) (cw.v m n)) r then 0 else rem r m)

/-- The loop over components — ssqueezepy/_ssq_cwt.py:386-400: signals extracted so far and the
remainder. -/
noncomputable def maskLoop (M N : ℕ) (Tx : ℕ → ℕ → ℂ) (cc cw : Curves) (K : ℕ) :
    List (List ℝ) × (ℕ → ℕ → ℂ) :=
  (List.range K).foldl (fun (s : List (List ℝ) × (ℕ → ℕ → ℂ)) n =>
    let p := maskStep M Tx s.2 cc cw n
    (s.1 ++ [realColSum M N p.1], p.2)) ([], Tx)

/-- `_invert_components` — ssqueezepy/_ssq_cwt.py:381-403. Curves must have one entry per column of `Tx`
(other shapes raise, except for numpy's broadcasting of a length-1 axis, which is not modelled). No
component at all leaves `n` unbound. -/
noncomputable def invertComponents (M N : ℕ) (Tx : ℕ → ℕ → ℂ) (cc cw : Curves) :
    Py (List (List ℝ)) :=
  if cc.cols = 0 then .error .unboundLocalError
  else if cw.cols < cc.cols then .error .indexError
  else if cc.rows ≠ N ∨ cw.rows ≠ N then .error .valueError
  else
    let s := maskLoop M N Tx cc cw cc.cols
    .ok (s.1 ++ [realColSum M N s.2])

/-- Result of an inversion: one signal, or one per component followed by the remainder. (ssqueezepy/_ssq_cwt.py:368-378.) -/
inductive Inverse
  | full (x : List ℝ)
  | comps (xs : List (List ℝ))

/-- `x *= s`. (ssqueezepy/_ssq_cwt.py:374-378.) -/
noncomputable def Inverse.scale (s : ℝ) : Inverse → Inverse
  | .full x => .full (x.map (· * s))
  | .comps xs => .comps (xs.map fun x => x.map (· * s))

/-- `Tx.real.sum(axis=0)` or `_invert_components(Tx, cc, cw)` — ssqueezepy/_ssq_cwt.py:368-372,
ssqueezepy/_ssq_stft.py:191-195. -/
noncomputable def invertTx (M N : ℕ) (Tx : ℕ → ℕ → ℂ) : Option (Curves × Curves) → Py Inverse
  | none => .ok (.full (realColSum M N Tx))
  | some (cc, cw) => do
    let xs ← invertComponents M N Tx cc cw
    .ok (.comps xs)

/-- `issq_cwt(Tx, wavelet, cc, cw)` — ssqueezepy/_ssq_cwt.py:313-378. `css` is the number
`adm_ssq(wavelet)`; it is assumed nonzero wherever values are concerned. -/
noncomputable def issqCwt (M N : ℕ) (Tx : ℕ → ℕ → ℂ) (css : ℝ) (cc cw : Option CurveArg) :
    Py Inverse := do
  let c ← processComponentArgs cc cw
  let x ← invertTx M N Tx c
  .ok (x.scale (2 / css))

end Ssq
