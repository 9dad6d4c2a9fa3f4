import Verif.Model.Cwt
import Verif.Model.Replace

/-!
# Time-domain wavelets (`Wavelet.psifn`), and the NaN checks of `cwt`
-/
namespace Ssq
open Complex

/-- `(-1)**S.arange(psih.shape[-1])` — ssqueezepy/wavelets.py:104. -/
noncomputable def psifnSigns (N : ℕ) : List ℂ := (List.range N).map fun k => (-1) ^ k

/-- `Wavelet.psifn(scale=scales, N=N)` — ssqueezepy/wavelets.py:98-110: `ifft(psih * pn, axis=-1)` with `psih` sampled with the Nyquist bin halved. One row
per scale. -/
noncomputable def psifn (f : WFn) (N : ℕ) (scales : List ℝ) : List (List ℂ) :=
  (psihCall f N scales).map fun psih => ifftL (List.zipWith (fun a b : ℂ => a * b) psih (psifnSigns psih.length))

/-! ## NaN checks -/

/-- The indices of an array, in the order of `ravel`. (ssqueezepy/_cwt.py:213.) -/
def ndIndices : List ℕ → List (List ℕ)
  | [] => [[]]
  | s :: ss => (List.range s).flatMap fun i => (ndIndices ss).map (i :: ·)

open Classical in
/-- One step of numpy's `max`: NaN propagates. (ssqueezepy/_cwt.py:213.) -/
noncomputable def npMaxStep (a b : FVal) : FVal := if a.isNan then a else if b.isNan then b else if a.lt b then b else a

open Classical in
/-- One step of numpy's `min`: NaN propagates. (ssqueezepy/_cwt.py:213.) -/
noncomputable def npMinStep (a b : FVal) : FVal := if a.isNan then a else if b.isNan then b else if b.lt a then b else a

/-- `x.max()`: an empty array is a ValueError. (ssqueezepy/_cwt.py:213.) -/
noncomputable def npMax : List FVal → Py FVal
  | [] => .error .valueError
  | a :: l => .ok (l.foldl npMaxStep a)

/-- `x.min()`. (ssqueezepy/_cwt.py:213.) -/
noncomputable def npMin : List FVal → Py FVal
  | [] => .error .valueError
  | a :: l => .ok (l.foldl npMinStep a)

open Classical in
/-- The beginning of `_process_args` of `cwt` — ssqueezepy/_cwt.py:202-216: memory after the checks. `.other` is a torch tensor of 1 or 2 dimensions. -/
noncomputable def cwtNanChecks (nanChecks : Option Bool) (x : RArg) (m : ℕ → FVal) : Py (ℕ → FVal) :=
  match x with
  | .noNdim => .error .typeError
  | .none => .error .typeError
  | .other => if nanChecks = some true then .error .valueError else .ok m
  | .arr v =>
    if v.shape.length ≠ 1 ∧ v.shape.length ≠ 2 then .error .valueError
    else if nanChecks.getD true then
      (npMax ((ndIndices v.shape).map fun p => m (v.addr p))).bind fun mx =>
      if mx.isNan ∨ mx.isInf then (replaceAtInfOrNan (.fin 0) m x .none).map (·.2)
      else (npMin ((ndIndices v.shape).map fun p => m (v.addr p))).bind fun mn =>
        if mn.isInf then (replaceAtInfOrNan (.fin 0) m x .none).map (·.2) else .ok m
    else .ok m

/-- What `cwt(x, order=order, nan_checks=nan_checks)` does to memory: for an order other than 0 the inner calls of `cwt` are made without `nan_checks` —
ssqueezepy/_cwt.py:238-244. -/
noncomputable def cwtChecks (order0 : Bool) (nanChecks : Option Bool) (x : RArg) (m : ℕ → FVal) : Py (ℕ → FVal) :=
  cwtNanChecks (if order0 then nanChecks else none) x m

end Ssq
