import Mathlib.Algebra.Order.Floor.Ring
import Mathlib.Data.List.Basic

/-!
# Python / numpy primitives used by the model

These are models of the *runtime's* documented behaviour (Python slices, `round`, numpy helpers);
they are part of the trusted base, see DESIGN.md section 2.
-/
namespace Ssq

/-- Exceptions that the modelled code (or the library it calls) can raise. (ssqueezepy/utils/common.py:302-306; ssqueezepy/_cwt.py:201-240.) -/
inductive PyErr
  | valueError | typeError | assertionError | notImplementedError | unboundLocalError
  | indexError | keyError | zeroDivisionError | attributeError | exception
  deriving DecidableEq, Repr

/-- Result of a Python computation: a value or an exception. (ssqueezepy/utils/common.py:302-306; ssqueezepy/_cwt.py:201-240.) -/
abbrev Py (α : Type) := Except PyErr α

/-- Python's resolution of a slice bound `i` against a sequence of length `n`
(language reference, "Slicings"): negative bounds count from the end, then clamp to `[0, n]`. (ssqueezepy/utils/common.py:147-149; ssqueezepy/ridge_extraction.py:141-143.) -/
def sliceBound (n : ℕ) (i : ℤ) : ℕ :=
  if i < 0 then (i + n).toNat else min i.toNat n

/-- `l[a:b]` with optional integer bounds and step 1. (ssqueezepy/utils/common.py:147-149; ssqueezepy/_cwt.py:292-301.) -/
def pySlice {α : Type} (l : List α) (a b : Option ℤ) : List α :=
  let s := match a with | none => 0 | some i => sliceBound l.length i
  let e := match b with | none => l.length | some i => sliceBound l.length i
  (l.drop s).take (e - s)

/-- `l[a:]`. (ssqueezepy/utils/stft_utils.py:70-98.) -/
def pyFrom {α : Type} (l : List α) (a : ℤ) : List α := pySlice l (some a) none

/-- `l[:b]`. (ssqueezepy/utils/stft_utils.py:70-98.) -/
def pyUpto {α : Type} (l : List α) (b : ℤ) : List α := pySlice l none (some b)

/-- `np.round` / Python `round`: round half to even. (ssqueezepy/algos.py:178, 204-206, 236; ssqueezepy/utils/common.py:48.) -/
def roundHalfEven {K : Type} [Field K] [LinearOrder K] [IsStrictOrderedRing K] [FloorRing K]
    (x : K) : ℤ :=
  let f := ⌊x⌋
  let r := x - f
  if r < 1/2 then f
  else if 1/2 < r then f + 1
  else if f % 2 = 0 then f else f + 1

/-- C `round` (used by the CUDA kernels): round half away from zero. (ssqueezepy/algos.py:1037-1041, 1078.) -/
def roundHalfAway {K : Type} [Field K] [LinearOrder K] [IsStrictOrderedRing K] [FloorRing K]
    (x : K) : ℤ :=
  if 0 ≤ x then ⌊x + 1/2⌋ else -⌊-x + 1/2⌋

/-- Python `int(x)` on a finite float: truncation towards zero. (ssqueezepy/utils/cwt_utils.py:340-343; ssqueezepy/_test_signals.py:663.) -/
def pyInt {K : Type} [Field K] [LinearOrder K] [IsStrictOrderedRing K] [FloorRing K]
    (x : K) : ℤ :=
  if 0 ≤ x then ⌊x⌋ else ⌈x⌉

end Ssq
