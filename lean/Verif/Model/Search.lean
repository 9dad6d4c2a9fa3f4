import Verif.Model.Squeeze
import Verif.Model.FindClosest
import Verif.Model.Scales

/-!
# Search helpers (`ssqueezepy/algos.py`)

The `while True` loops are run for a given number of iterations; `none` means that they are still running. `fn` is applied entry by
entry, in exact arithmetic.
-/
namespace Ssq

open Classical in
/-- The loop `for i, x in enumerate(arr): if x < th: return i` followed by `return i`; `last` is the current value of `i` (unassigned
before the first pass) — ssqueezepy/algos.py:619-622. -/
noncomputable def minNeglectLoop (th : ℝ) : List ℝ → ℕ → Option ℕ → Py ℕ
  | [], _, none => .error .unboundLocalError
  | [], _, some i => .ok i
  | x :: xs, i, _ => if x < th then .ok i else minNeglectLoop th xs (i + 1) (some i)

/-- `_min_neglect_idx(arr, th)` — ssqueezepy/algos.py:616-622. -/
noncomputable def minNeglectIdx (arr : List ℝ) (th : ℝ) : Py ℕ := minNeglectLoop th arr 0 none

/-- The block of inputs number `idx`: `np.linspace(start, start + increment, n, endpoint=False)` with `start = step_start + increment * idx` —
ssqueezepy/algos.py:641-643, 682-684. -/
noncomputable def searchInputs (stepStart : ℝ) (inc : ℤ) (n : ℕ) (idx : ℕ) : List ℝ :=
  (List.range n).map fun k : ℕ => stepStart + inc * idx + k * ((inc : ℝ) / n)

/-- `int(steps_per_search * step_size)` — ssqueezepy/algos.py:635, 673. -/
noncomputable def searchIncrement (n : ℕ) (stepSize : ℝ) : ℤ := pyInt (n * stepSize)

/-- One pass of the loop of `find_maximum` — ssqueezepy/algos.py:640-661. The state: `search_idx`, `largest_max`, `input_value` (if
assigned). Result: go on with a new state, or finish. -/
noncomputable def findMaxStep (fn : ℝ → ℝ) (stepStart : ℝ) (inc : ℤ) (n : ℕ) (stepLimit : ℝ)
    (st : ℕ × ℝ × Option ℝ) : (ℕ × ℝ × Option ℝ) ⊕ Py (ℝ × ℝ) :=
  let xs := searchInputs stepStart inc n st.1
  let out := xs.map fun x => |fn x|
  let mx := rowMax out
  if mx < st.2.1 then
    .inr (match st.2.2 with
      | none => .error .unboundLocalError
      | some v => .ok (v, st.2.1))
  else
    let st' := if st.2.1 < mx then (st.1 + 1, mx, some (xs.getD (argmaxL out) 0)) else (st.1 + 1, st.2.1, st.2.2)
    if stepLimit < rowMax xs then .inr (.error .valueError) else .inl st'

/-- The `while True` loop, `fuel` passes of it. (ssqueezepy/algos.py:640-661.) -/
noncomputable def findMaxLoop (fn : ℝ → ℝ) (stepStart : ℝ) (inc : ℤ) (n : ℕ) (stepLimit : ℝ) :
    ℕ → ℕ × ℝ × Option ℝ → Option (Py (ℝ × ℝ))
  | 0, _ => none
  | fuel + 1, st =>
    match findMaxStep fn stepStart inc n stepLimit st with
    | .inl st' => findMaxLoop fn stepStart inc n stepLimit fuel st'
    | .inr r => some r

/-- `find_maximum(fn, step_size, steps_per_search, step_start, step_limit, min_value)` — ssqueezepy/algos.py:625-662. With no steps,
`output_values.max()` fails. -/
noncomputable def findMaximum (fn : ℝ → ℝ) (stepSize : ℝ) (n : ℕ) (stepStart stepLimit minValue : ℝ) (fuel : ℕ) :
    Option (Py (ℝ × ℝ)) :=
  if n = 0 then some (.error .valueError)
  else findMaxLoop fn stepStart (searchIncrement n stepSize) n stepLimit fuel (0, minValue, none)

/-- `np.abs(np.diff(out)).max()` — ssqueezepy/algos.py:690. -/
noncomputable def maxStepDiff (out : List ℝ) : ℝ := rowMax ((out.zipWith (fun a b => |b - a|) out.tail))

/-- One pass of the loop of `find_first_occurrence` — ssqueezepy/algos.py:681-699. -/
noncomputable def findOccStep (fn : ℝ → ℝ) (value stepStart : ℝ) (inc : ℤ) (n : ℕ) (stepLimit : ℝ) (idx : ℕ) : ℕ ⊕ Py (ℝ × ℝ) :=
  let xs := searchInputs stepStart inc n idx
  let exceeded := decide (stepLimit < rowMax xs)
  let xs := if exceeded then xs.map (fun x => min x stepLimit) else xs
  let out := xs.map fun x => |fn x|
  let dist := out.map fun o => |o - value|
  if ∃ d ∈ dist, d ≤ maxStepDiff out then .inr (.ok (xs.getD (argminL dist) 0, out.getD (argminL dist) 0))
  else if exceeded then .inr (.error .valueError)
  else .inl (idx + 1)

/-- The `while True` loop, `fuel` passes of it. (ssqueezepy/algos.py:677-699.) -/
noncomputable def findOccLoop (fn : ℝ → ℝ) (value stepStart : ℝ) (inc : ℤ) (n : ℕ) (stepLimit : ℝ) :
    ℕ → ℕ → Option (Py (ℝ × ℝ))
  | 0, _ => none
  | fuel + 1, idx =>
    match findOccStep fn value stepStart inc n stepLimit idx with
    | .inl idx' => findOccLoop fn value stepStart inc n stepLimit fuel idx'
    | .inr r => some r

/-- `find_first_occurrence(fn, value, step_size, steps_per_search, step_start, step_limit)` — ssqueezepy/algos.py:665-703. With fewer than
two steps, `.max()` of an empty array fails. -/
noncomputable def findFirstOccurrence (fn : ℝ → ℝ) (value stepSize : ℝ) (n : ℕ) (stepStart stepLimit : ℝ) (fuel : ℕ) :
    Option (Py (ℝ × ℝ)) :=
  if n ≤ 1 then some (.error .valueError)
  else findOccLoop fn value stepStart (searchIncrement n stepSize) n stepLimit fuel 0

end Ssq
