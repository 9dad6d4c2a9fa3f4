import Verif.Model.Common
import Verif.Model.Xifn
import Verif.Model.Dft

/-!
# Model of `trigdiff` (ssqueezepy/utils/common.py:161-245)
-/
namespace Ssq
open Complex

/-- Arguments of `trigdiff` besides the array (`window` is unused). (ssqueezepy/utils/common.py:161-163.) -/
structure TrigdiffArgs where
  fs : ℝ := 1
  padtype : Option String := none
  rpadded : Option Bool := none
  N : Option ℕ := none
  n1 : Option ℤ := none
  transform : String := "cwt"

/-- One row: `ifft(fft(A) * 1j * xi * fs)` with `xi = _xifn(1, len)` —
ssqueezepy/utils/common.py:219-223. -/
noncomputable def diffRow (fs : ℝ) (row : List ℂ) : List ℂ :=
  ifftL (List.zipWith (fun (F : ℂ) (w : ℝ) => F * I * (w : ℂ) * (fs : ℂ)) (fftL row) (xifn 1 row.length))

/-- A 2D array (rows, number of columns) or a 3D one. (ssqueezepy/utils/common.py:161-245.) -/
inductive Arr23
  | d2 (cols : ℕ) (rows : List (List ℂ))
  | d3 (cols : ℕ) (mats : List (List (List ℂ)))

/-- Differentiate every row and, if asked, keep `[n1 : n1 + N]`. (ssqueezepy/utils/common.py:209-245.) -/
noncomputable def diffTrim (fs : ℝ) (trim : Option (ℤ × ℕ)) (row : List ℂ) : List ℂ :=
  match trim with
  | none => diffRow fs row
  | some (n1, N) => unpad (diffRow fs row) n1 N

/-- The scheme used — ssqueezepy/utils/common.py:209-210: `''` and `None` are falsy. -/
def trigPadtype (a : TrigdiffArgs) : Option String :=
  let dflt := if a.rpadded.getD false then none else some "reflect"
  match a.padtype with
  | none => dflt
  | some s => if s = "" then dflt else some s

/-- The slice kept — ssqueezepy/utils/common.py:234-240: `N` defaults to the length of the (padded) array,
`n1` to `p2up(N)`'s. -/
noncomputable def trigTrim (a : TrigdiffArgs) (len : ℕ) (n1 : Option ℤ) : ℤ × ℕ :=
  let N := a.N.getD len
  (n1.getD (p2up N).2.1, N)

/-- Number of columns of an array of `len` columns sliced `[n1 : n1 + N]`. (ssqueezepy/utils/common.py:225-245.) -/
def trimCols (len : ℕ) (tr : ℤ × ℕ) : ℕ := (unpad (List.range len) tr.1 tr.2).length

/-- `trigdiff(A, …)` — ssqueezepy/utils/common.py:161-245. `isNumpy` is false for torch tensors. -/
noncomputable def trigdiff (isNumpy : Bool) (A : Arr23) (a : TrigdiffArgs) : Py Arr23 :=
  if a.transform = "stft" then .error .notImplementedError
  else if a.rpadded = some true ∧ a.N = none then .error .valueError
  else match trigPadtype a, A with
  | some s, .d2 cols rows => do
    let r ← padsignal2 isNumpy cols rows s none
    if a.transform ≠ "cwt" then .error .unboundLocalError
    else
      let tr := trigTrim a r.2.1.toNat (some r.2.2.1)
      .ok (.d2 (trimCols r.2.1.toNat tr) (r.1.map (diffTrim a.fs (some tr))))
  | some s, .d3 _ _ => do
    let _ ← parsePadType isNumpy s
    .error .valueError
  | none, A =>
    if a.transform ≠ "cwt" then .error .unboundLocalError
    else match A with
    | .d2 cols rows =>
      let tr := trigTrim a cols a.n1
      .ok (.d2 (trimCols cols tr) (rows.map (diffTrim a.fs (some tr))))
    | .d3 cols mats =>
      let tr := trigTrim a cols a.n1
      .ok (.d3 (trimCols cols tr) (mats.map fun m => m.map (diffTrim a.fs (some tr))))

end Ssq
