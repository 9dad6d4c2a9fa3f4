import Verif.Model.Py
import Mathlib.Data.Real.Basic
import Mathlib.Logic.Function.Basic

/-!
# In-place replacers (`ssqueezepy/algos.py`)

Arrays are views of a shared memory, so that overlapping views and in-place effects are represented.
-/
namespace Ssq

/-- IEEE values: finite, infinite or NaN. Real arrays only; for complex ones `np.isinf`/`np.isnan` look at both parts. (ssqueezepy/algos.py:509-550.) -/
inductive FVal
  | fin (x : ℝ)
  | pinf
  | ninf
  | nan

/-- `np.isinf`. (ssqueezepy/algos.py:513, 522.) -/
def FVal.isInf : FVal → Prop
  | .pinf => True
  | .ninf => True
  | _ => False

/-- `np.isnan`. (ssqueezepy/algos.py:513, 531.) -/
def FVal.isNan : FVal → Prop
  | .nan => True
  | _ => False

/-- IEEE `==`. (ssqueezepy/algos.py:536-543.) -/
def FVal.eqv : FVal → FVal → Prop
  | .fin a, .fin b => a = b
  | .pinf, .pinf => True
  | .ninf, .ninf => True
  | _, _ => False

/-- IEEE `<`. (ssqueezepy/algos.py:546-550.) -/
def FVal.lt : FVal → FVal → Prop
  | .fin a, .fin b => a < b
  | .fin _, .pinf => True
  | .ninf, .fin _ => True
  | .ninf, .pinf => True
  | _, _ => False

/-- `abs`. (ssqueezepy/algos.py:546-550.) -/
noncomputable def FVal.abs : FVal → FVal
  | .fin a => .fin |a|
  | .pinf => .pinf
  | .ninf => .pinf
  | .nan => .nan

/-- A numpy array: its shape, and where in memory each entry lives (base pointer and strides). (ssqueezepy/algos.py:452-466.) -/
structure NdView where
  shape : List ℕ
  addr : List ℕ → ℕ

/-- The valid multi-indices of a shape. (ssqueezepy/algos.py:509-550.) -/
def InShape : List ℕ → List ℕ → Prop
  | [], [] => True
  | s :: ss, i :: is => i < s ∧ InShape ss is
  | _, _ => False

/-- `np.expand_dims(x, -1)`: a view of the same memory. (ssqueezepy/algos.py:460, 462.) -/
def NdView.expand (x : NdView) : NdView := ⟨x.shape ++ [1], fun p => x.addr p.dropLast⟩

/-- `x.squeeze(axis=-1)`: a view of the same memory. (ssqueezepy/algos.py:473, 480, 487, 495.) -/
def NdView.squeezeLast (x : NdView) : NdView := ⟨x.shape.dropLast, fun p => x.addr (p ++ [0])⟩

/-- `while x.ndim < 3: x = np.expand_dims(x, -1)` — ssqueezepy/algos.py:459-462. -/
def NdView.to3 (x : NdView) : NdView :=
  (List.range (3 - x.shape.length)).foldl (fun v _ => v.expand) x

/-- `while x.ndim > xndim: x = x.squeeze(axis=-1)` — ssqueezepy/algos.py:472-473. -/
def NdView.downTo (x : NdView) (n : ℕ) : NdView :=
  (List.range (x.shape.length - n)).foldl (fun v _ => v.squeezeLast) x

/-- What may be passed: an array, something else that has `ndim` (e.g. a tensor), something without it (e.g. a list), or `None`. (ssqueezepy/algos.py:452-466.) -/
inductive RArg
  | arr (v : NdView)
  | other
  | noNdim
  | none

/-- `_process_replace_fn_args` — ssqueezepy/algos.py:452-466. `x.ndim` is read before the type check. -/
def replaceArgs (x ref : RArg) : Py (NdView × NdView × ℕ) :=
  let ref := match ref with | .none => x | r => r
  match x with
  | .noNdim => .error .attributeError
  | .none => .error .attributeError
  | .other => .error .typeError
  | .arr v => match ref with
    | .arr r =>
      if 3 < v.to3.shape.length ∨ 3 < r.to3.shape.length then .error .valueError
      else .ok (v.to3, r.to3, v.shape.length)
    | _ => .error .typeError

/-- The loop nest's index sequence `for i ... for j ... for k ...` — ssqueezepy/algos.py:509-511. -/
def idx3 : List ℕ → List (List ℕ)
  | [a, b, c] => (List.range a).flatMap fun i => (List.range b).flatMap fun j => (List.range c).map fun k => [i, j, k]
  | _ => []

open Classical in
/-- `if sel(ref[p]): x[p] = replacement`. (Compiled without bounds checks: a `ref` smaller than `x` is read wherever its strides
lead.) (ssqueezepy/algos.py:509-550.) -/
noncomputable def replaceStep (sel : FVal → Prop) (rep : FVal) (x ref : NdView) (m : ℕ → FVal) (p : List ℕ) : ℕ → FVal :=
  if sel (m (ref.addr p)) then Function.update m (x.addr p) rep else m

/-- The kernels `_replace_at_*` — ssqueezepy/algos.py:507-544 — over a given index sequence. -/
noncomputable def replaceLoop (sel : FVal → Prop) (rep : FVal) (x ref : NdView) (m : ℕ → FVal) (ps : List (List ℕ)) : ℕ → FVal :=
  ps.foldl (replaceStep sel rep x ref) m

/-- The common shape of `replace_at_inf_or_nan`, `replace_at_inf`, `replace_at_nan`, `replace_at_value`: returned view and new
memory — ssqueezepy/algos.py:469-496. -/
noncomputable def replaceAt (sel : FVal → Prop) (rep : FVal) (m : ℕ → FVal) (x ref : RArg) : Py (NdView × (ℕ → FVal)) := do
  let (v, r, n) ← replaceArgs x ref
  return (v.downTo n, replaceLoop sel rep v r m (idx3 v.shape))

/-- `replace_at_inf_or_nan` — ssqueezepy/algos.py:469-474, 507-514. -/
noncomputable def replaceAtInfOrNan (rep : FVal) (m : ℕ → FVal) (x ref : RArg) : Py (NdView × (ℕ → FVal)) :=
  replaceAt (fun v => v.isInf ∨ v.isNan) rep m x ref

/-- `replace_at_inf` — ssqueezepy/algos.py:476-481, 516-523. -/
noncomputable def replaceAtInf (rep : FVal) (m : ℕ → FVal) (x ref : RArg) : Py (NdView × (ℕ → FVal)) :=
  replaceAt FVal.isInf rep m x ref

/-- `replace_at_nan` — ssqueezepy/algos.py:483-488, 525-532. -/
noncomputable def replaceAtNan (rep : FVal) (m : ℕ → FVal) (x ref : RArg) : Py (NdView × (ℕ → FVal)) :=
  replaceAt FVal.isNan rep m x ref

/-- `replace_at_value` — ssqueezepy/algos.py:490-496, 534-541. -/
noncomputable def replaceAtValue (value rep : FVal) (m : ℕ → FVal) (x ref : RArg) : Py (NdView × (ℕ → FVal)) :=
  replaceAt (fun v => v.eqv value) rep m x ref

/-- `replace_under_abs` on the CPU: 2D arrays, changed in place, nothing returned — ssqueezepy/algos.py:498-504, 544-557. `order`: the
order in which the cells are visited (row-major in the serial kernel, any in the parallel one, each cell's load and store
being one step since no two cells share memory). Without `ref`, or with anything that is not 2D, compilation fails. -/
noncomputable def replaceUnderAbs (value rep : FVal) (m : ℕ → FVal) (x ref : RArg) (order : List (List ℕ)) : Py (ℕ → FVal) :=
  match x, ref with
  | .arr v, .arr r =>
    if v.shape.length = 2 ∧ r.shape.length = 2 then
      .ok (replaceLoop (fun u => u.abs.lt value) rep v r m order)
    else .error .exception
  | _, _ => .error .exception

/-- `zero_denormals(x)` — ssqueezepy/algos.py:593-613: the kernel runs over `x.ravel()`, which is a view of `x` when `x` is contiguous
and a copy otherwise. `order` as above. -/
noncomputable def zeroDenormalsAt (tiny : ℝ) (contiguous : Bool) (m : ℕ → FVal) (x : NdView) (order : List (List ℕ)) : ℕ → FVal :=
  if contiguous then replaceLoop (fun u => u.lt (.fin tiny) ∧ (FVal.fin (-tiny)).lt u) (.fin 0) x x m order
  else m

end Ssq
