import Verif.Model.Py
import Verif.Model.Squeeze

/-!
# Phase transforms by finite differences: `phase_cwt_num` and `phase_cwt(difftype='phase')` — ssqueezepy/_ssq_cwt.py

Exact reals. A transform is a list of rows; every function below works on one row.
-/
namespace Ssq
open Complex

/-- `difforder=1`: `hstack([Wx[:, 1:] - Wx[:, :-1], Wx[:, :1] - Wx[:, -1:]]) / dt` — ssqueezepy/_ssq_cwt.py:555-558. -/
noncomputable def numDiff1 (dt : ℝ) (r : List ℂ) : List ℂ :=
  (List.zipWith (fun a b : ℂ => a - b) (pyFrom r 1) (pyUpto r (-1)) ++
    List.zipWith (fun a b : ℂ => a - b) (pyUpto r 1) (pyFrom r (-1))).map fun z : ℂ => z / (dt : ℂ)

/-- `Wxr = hstack([Wx[:, -2:], Wx, Wx[:, :2]])` — ssqueezepy/_ssq_cwt.py:551-553. -/
def wrapTwo (r : List ℂ) : List ℂ := pyFrom r (-2) ++ r ++ pyUpto r 2

/-- `difforder=2`: `(-Wxr[:, 4:] + 4*Wxr[:, 3:-1] - 3*Wxr[:, 2:-2]) / (2*dt)` — ssqueezepy/_ssq_cwt.py:559-562. -/
noncomputable def numDiff2 (dt : ℝ) (r : List ℂ) : List ℂ :=
  let q := wrapTwo r
  (List.zipWith (fun a b : ℂ => a - 3 * b)
    (List.zipWith (fun a b : ℂ => -a + 4 * b) (pyFrom q 4) (pySlice q (some 3) (some (-1))))
    (pySlice q (some 2) (some (-2)))).map fun z : ℂ => z / (2 * (dt : ℂ))

/-- `difforder=4`: `(-Wxr[:, 4:] + 8*Wxr[:, 3:-1] - 8*Wxr[:, 1:-3] + Wxr[:, 0:-4]) / (12*dt)` — ssqueezepy/_ssq_cwt.py:563-569. -/
noncomputable def numDiff4 (dt : ℝ) (r : List ℂ) : List ℂ :=
  let q := wrapTwo r
  (List.zipWith (fun a b : ℂ => a + b)
    (List.zipWith (fun a b : ℂ => a - b * 8)
      (List.zipWith (fun a b : ℂ => -a + b * 8) (pyFrom q 4) (pySlice q (some 3) (some (-1))))
      (pySlice q (some 1) (some (-3))))
    (pySlice q (some 0) (some (-4)))).map fun z : ℂ => z / (12 * (dt : ℂ))

/-- `gamma or 10 * eps` — ssqueezepy/_ssq_cwt.py:584. -/
noncomputable def numGamma (eps : ℝ) (gamma : Option ℝ) : ℝ :=
  match gamma with
  | none => 10 * eps
  | some g => if g = 0 then 10 * eps else g

open Classical in
/-- `phase_cwt_num(Wx, dt, difforder, gamma)`, one row — ssqueezepy/_ssq_cwt.py:512-588. `eps` is the machine epsilon of the dtype of
`Wx`. With a negative `gamma` a zero of `Wx` gives NaN, which the model does not represent. -/
noncomputable def phaseCwtNum (eps dt : ℝ) (difforder : ℤ) (gamma : Option ℝ) (r : List ℂ) : Py (List Phase) :=
  if difforder ≠ 1 ∧ difforder ≠ 2 ∧ difforder ≠ 4 then .error .valueError
  else
    let d := if difforder = 1 then numDiff1 dt r else if difforder = 2 then numDiff2 dt r else numDiff4 dt r
    .ok (List.zipWith (fun (z W : ℂ) =>
      if ‖W‖ < numGamma eps gamma then Phase.inf else Phase.fin |(-I * z / W).re / (2 * Real.pi)|) d r)

/-! ## `difftype='phase'` -/

/-- `ddmod - dd` of `np.unwrap` for one difference `dd`: the multiple of `2π` that takes it to `[-π, π]`, or 0 if `|dd| < π` (numpy
documentation and source; trusted base). (ssqueezepy/_ssq_cwt.py:502.) -/
noncomputable def unwrapStep (dd : ℝ) : ℝ :=
  let m := dd + Real.pi - 2 * Real.pi * ⌊(dd + Real.pi) / (2 * Real.pi)⌋ - Real.pi
  let m := if m = -Real.pi ∧ 0 < dd then Real.pi else m
  if |dd| < Real.pi then 0 else m - dd

/-- `np.unwrap(p)`: the corrections accumulate. (ssqueezepy/_ssq_cwt.py:502.) -/
noncomputable def unwrap : List ℝ → List ℝ
  | [] => []
  | p :: ps => p :: go p 0 ps
where
  /-- The rest, given the previous phase and the correction so far. -/
  go (prev corr : ℝ) : List ℝ → List ℝ
  | [] => []
  | p :: ps => (p + (corr + unwrapStep (p - prev))) :: go p (corr + unwrapStep (p - prev)) ps

open Classical in
/-- `phase_cwt(Wx, None, 'phase', gamma)`, one row — ssqueezepy/_ssq_cwt.py:500-505. For an empty row `u[-1]` raises. -/
noncomputable def phaseCwtPhase (gamma : ℝ) (r : List ℂ) : Py (List Phase) :=
  let u := unwrap (r.map fun z : ℂ => Complex.arg z)
  match u with
  | [] => .error .indexError
  | u0 :: us =>
    let d := List.zipWith (fun a b : ℝ => a - b) us u ++ [u.getLastD 0 - u0]
    .ok (List.zipWith (fun (x : ℝ) (W : ℂ) => if ‖W‖ < gamma then Phase.inf else Phase.fin |x / (2 * Real.pi)|) d r)

/-- `_process_input` of `phase_cwt` — ssqueezepy/_ssq_cwt.py:478-509: other difference types than 'trig' need numpy input and one
thread. -/
def phaseCwtCheck (difftype : String) (tensor parallel : Bool) : Py Unit :=
  if difftype ≠ "trig" then
    if tensor then .error .valueError else if parallel then .error .valueError
    else if difftype ≠ "phase" then .error .valueError else .ok ()
  else .ok ()

end Ssq
