import Verif.Model.Py
import Mathlib.Analysis.SpecialFunctions.Log.Base

/-!
# Model of `ssqueezepy/utils/common.py` (padding part)
-/
namespace Ssq

/-- `p2up(n)` — ssqueezepy/utils/common.py:32-51:
`up = int(2**(1 + np.round(np.log2(n))))`, `n2 = (up-n)//2`, `n1 = up-n-n2`.
Simplification: the logarithm is the exact real one. For `n = 0` numpy yields
`log2(0) = -inf`, `2**(-inf) = 0.0`, hence `up = 0`. Returns `(up, n1, n2)`. -/
noncomputable def p2up (n : ℕ) : ℕ × ℤ × ℤ :=
  let up : ℕ := if n = 0 then 0 else 2 ^ (1 + (roundHalfEven (Real.logb 2 n)).toNat)
  let n2 : ℤ := ((up : ℤ) - n) / 2
  let n1 : ℤ := (up : ℤ) - n - n2
  (up, n1, n2)

/-- Pad widths chosen by `padsignal` — ssqueezepy/utils/common.py:111-121. `padlength` is `None` or an
integer; returns `(n_up, n1, n2)`. Python's `//` is floor division, as is `Int` `/` by 2. -/
noncomputable def padWidths (N : ℕ) : Option ℤ → ℤ × ℤ × ℤ
  | none => let r := p2up N; ((r.1 : ℤ), r.2.1, r.2.2)
  | some padlength =>
    if |padlength - N| % 2 = 0 then
      let n := (padlength - N) / 2
      (padlength, n, n)
    else
      let n2 := (padlength - N) / 2
      (padlength, n2 + 1, n2)

/-- Pad schemes — ssqueezepy/utils/common.py:96-98. -/
inductive PadType
  | zero | reflect | symmetric | replicate | wrap
  deriving DecidableEq, Repr

/-- `_process_args` of `padsignal` — ssqueezepy/utils/common.py:94-106: the accepted scheme names, fewer for
torch tensors. (`ndim` is checked in `padsignal2`.) -/
def parsePadType (isNumpy : Bool) (s : String) : Py PadType :=
  if isNumpy then
    match s with
    | "zero" => .ok .zero
    | "reflect" => .ok .reflect
    | "symmetric" => .ok .symmetric
    | "replicate" => .ok .replicate
    | "wrap" => .ok .wrap
    | _ => .error .valueError
  else
    match s with
    | "zero" => .ok .zero
    | "reflect" => .ok .reflect
    | _ => .error .valueError

/-- Index read by `np.pad(mode='edge')` at offset `i` from the first sample. (ssqueezepy/utils/common.py:140.) -/
def edgeIdx (N : ℕ) (h : 0 < N) (i : ℤ) : Fin N :=
  ⟨if i < 0 then 0 else min i.toNat (N - 1), by split <;> omega⟩

/-- Index read by `np.pad(mode='wrap')` at offset `i` from the first sample. (ssqueezepy/utils/common.py:143.) -/
def wrapIdx (N : ℕ) (h : 0 < N) (i : ℤ) : Fin N :=
  ⟨(i % N).toNat, by
    have h1 := Int.emod_nonneg i (b := (N : ℤ)) (by omega)
    have h2 := Int.emod_lt_of_pos i (b := (N : ℤ)) (by omega)
    omega⟩

/-- Index read by `np.pad(mode='reflect')` at offset `i` from the first sample: fold modulo
`2N-2`. For a single sample numpy repeats it ("legacy behaviour"). (ssqueezepy/utils/common.py:137.) -/
def reflectIdx (N : ℕ) (h : 0 < N) (i : ℤ) : Fin N :=
  if h1 : N = 1 then ⟨0, h⟩
  else
    let m := (i % (2 * N - 2 : ℤ)).toNat
    if hm : m < N then ⟨m, hm⟩
    else ⟨2 * N - 2 - m, by omega⟩

/-- numpy's `np.pad(x, (n1, n2), mode)` for the modes used (trusted base): negative widths and
extending an empty axis by anything but zeros raise `ValueError`. (ssqueezepy/utils/common.py:137-143.) -/
def npPadIdx {α : Type} (idx : (N : ℕ) → 0 < N → ℤ → Fin N) (x : List α) (n1 n2 : ℤ) :
    Py (List α) :=
  if n1 < 0 ∨ n2 < 0 then .error .valueError
  else if h : 0 < x.length then
    .ok ((List.range (n1.toNat + x.length + n2.toNat)).map
      fun p : ℕ => x[idx x.length h ((p : ℤ) - n1)])
  else if n1 = 0 ∧ n2 = 0 then .ok [] else .error .valueError

/-- `np.pad(x, (n1, n2))`: zero padding. (ssqueezepy/utils/common.py:134.) -/
def npPadZero {α : Type} [Zero α] (x : List α) (n1 n2 : ℤ) : Py (List α) :=
  if n1 < 0 ∨ n2 < 0 then .error .valueError
  else .ok (List.replicate n1.toNat 0 ++ x ++ List.replicate n2.toNat 0)

/-- The `symmetric` branch — ssqueezepy/utils/common.py:144-149:
`np.hstack([x[::-1][-n1:], x, x[::-1][:n2]])`. -/
def padSymmetric {α : Type} (x : List α) (n1 n2 : ℤ) : List α :=
  pyFrom x.reverse (-n1) ++ x ++ pyUpto x.reverse n2

/-- The pad branches for numpy input — ssqueezepy/utils/common.py:131-149. -/
def padNumpy {α : Type} [Zero α] (t : PadType) (x : List α) (n1 n2 : ℤ) : Py (List α) :=
  match t with
  | .zero => npPadZero x n1 n2
  | .reflect => npPadIdx reflectIdx x n1 n2
  | .replicate => npPadIdx edgeIdx x n1 n2
  | .wrap => npPadIdx wrapIdx x n1 n2
  | .symmetric => .ok (padSymmetric x n1 n2)

/-- The pad branches for torch input — ssqueezepy/utils/common.py:150-156. `torch.nn.functional.pad` with
`mode='reflect'` raises (`RuntimeError`, here `exception`) unless both pads are smaller than the
length; constant mode crops for negative widths, which no caller in the package produces and which
is modelled as an exception. -/
def padTorch {α : Type} [Zero α] (t : PadType) (x : List α) (n1 n2 : ℤ) : Py (List α) :=
  match t with
  | .zero => if n1 < 0 ∨ n2 < 0 then .error .exception else npPadZero x n1 n2
  | _ => if n1 < 0 ∨ n2 < 0 ∨ (x.length : ℤ) ≤ n1 ∨ (x.length : ℤ) ≤ n2 then .error .exception
         else npPadIdx reflectIdx x n1 n2

/-- `padsignal(x, padtype, padlength, get_params=True)` for 1D `x` — ssqueezepy/utils/common.py:54-158.
Returns `(xp, n_up, n1, n2)`. -/
noncomputable def padsignal {α : Type} [Zero α] (isNumpy : Bool) (x : List α) (padtype : String)
    (padlength : Option ℤ) : Py (List α × ℤ × ℤ × ℤ) := do
  let t ← parsePadType isNumpy padtype
  let (nUp, n1, n2) := padWidths x.length padlength
  let xp ← if isNumpy then padNumpy t x n1 n2 else padTorch t x n1 n2
  return (xp, nUp, n1, n2)

/-- `padsignal` on a 2D array (rows are independent signals along dim 1) —
ssqueezepy/utils/common.py:101-105, 126-128, 148-149. `N = x.shape[-1]` is passed explicitly since a list of
rows with no rows has no column count. -/
noncomputable def padsignal2 {α : Type} [Zero α] (isNumpy : Bool) (N : ℕ) (X : List (List α))
    (padtype : String) (padlength : Option ℤ) : Py (List (List α) × ℤ × ℤ × ℤ) := do
  let t ← parsePadType isNumpy padtype
  let (nUp, n1, n2) := padWidths N padlength
  let xp ← X.mapM fun x => if isNumpy then padNumpy t x n1 n2 else padTorch t x n1 n2
  return (xp, nUp, n1, n2)

/-- Unpadding used throughout: `xp[n1 : n1 + N]` (e.g. _cwt.py `Wx[:, n1:n1 + N]`). -/
def unpad {α : Type} (xp : List α) (n1 : ℤ) (N : ℕ) : List α :=
  pySlice xp (some n1) (some (n1 + N))

end Ssq
