import Verif.Model.Stft

/-!
# The STFT and its inverse with arbitrary arithmetic

`stft` and `istft` with the operations of arrays and the FFTs as parameters; `exactStft` gives back the definitions of `Model/Stft.lean` (`istftWith_exact`, `stftWith_exact`).
-/
namespace Ssq

/-- The operations used. (ssqueezepy/_stft.py:127-147, 232-246; ssqueezepy/utils/stft_utils.py:157-191.) -/
structure StftOps where
  add : ℝ → ℝ → ℝ
  mul : ℝ → ℝ → ℝ
  div : ℝ → ℝ → ℝ
  pow : ℝ → ℕ → ℝ
  rfft : List ℝ → List ℂ
  irfft : ℕ → List ℂ → List ℝ

/-- Exact arithmetic. (ssqueezepy/_stft.py:127-147, 232-246.) -/
noncomputable def exactStft : StftOps := ⟨fun a b => a + b, fun a b => a * b, fun a b => a / b, fun a k => a ^ k, rfftL, irfftL⟩

/-- See `mulWindow` — ssqueezepy/_stft.py:136. -/
def mulWindowWith (F : StftOps) (w col : List ℝ) : Py (List ℝ) :=
  if w.length = col.length then .ok (List.zipWith F.mul col w)
  else match w with
    | [c] => .ok (col.map fun z => F.mul z c)
    | _ => .error .valueError

/-- The part of `_stft` that computes `Sx` — ssqueezepy/_stft.py:127-147. -/
def stftCoreWith (F : StftOps) (xp window : List ℝ) (nFft hop : ℕ) (modulated : Bool) : Py (List (List ℂ)) := do
  let S ← buffer xp nFft ((nFft : ℤ) - hop) modulated
  let S ← S.mapM (mulWindowWith F (if modulated then ifftshiftL window else window))
  if nFft = 0 then .error .valueError
  return S.map F.rfft

/-- `stft(x, …)` without the derivative — ssqueezepy/_stft.py:149-181. -/
noncomputable def stftWith (F : StftOps) (lib : WinLib) (tiny : ℝ) (x : List ℝ) (a : StftArgs) : Py (ℕ × List (List ℂ)) := do
  let N := x.length
  let nFft ← stftNfft N a
  let window ← getWindow lib tiny a.window (stftWinLen nFft a) (some nFft)
  checkNOLA window a.hop
  let (xp, _, _, _) ← padsignal true x a.padtype (some ((N : ℤ) + nFft - 1))
  let S ← stftCoreWith F xp window nFft a.hop a.modulated
  return (nFft, S)

/-- See `addSlice` — ssqueezepy/utils/stft_utils.py:177-191. -/
def addSliceWith (F : StftOps) (x : List ℝ) (n : ℕ) (v : List ℝ) : Py (List ℝ) :=
  let s := (x.drop n).take v.length
  if s.length = v.length then .ok (x.take n ++ List.zipWith F.add s v ++ x.drop (n + v.length))
  else if v.length = 1 then .ok x
  else .error .valueError

/-- See `overlapAdd` — ssqueezepy/utils/stft_utils.py:177-181. -/
def overlapAddWith (F : StftOps) (x : List ℝ) (xbuf : List (List ℝ)) (wpow : List ℝ) (hop : ℕ) : Py (List ℝ) :=
  (xbuf.zipIdx).foldlM (fun x (c : List ℝ × ℕ) => addSliceWith F x (c.2 * hop) (List.zipWith F.mul c.1 wpow)) x

/-- See `unbuffer` — ssqueezepy/utils/stft_utils.py:141-166. -/
def unbufferWith (F : StftOps) (xbuf : List (List ℝ)) (window : List ℝ) (hop nFft N winExp : ℕ) : Py (List ℝ) :=
  if window.length ≠ nFft then .error .valueError
  else
    let wpow := if winExp = 0 then window.map (fun _ => (1 : ℝ))
      else if winExp ≠ 1 then window.map (fun v => F.pow v winExp) else window
    overlapAddWith F (List.replicate (N + nFft - 1) 0) xbuf wpow hop

/-- See `windowNorm` — ssqueezepy/utils/stft_utils.py:169-191. -/
def windowNormWith (F : StftOps) (window : List ℝ) (hop nFft N winExp : ℕ) : Py (List ℝ) := do
  let wn := List.replicate (N + nFft - 1) (0 : ℝ)
  if hop = 0 then .error .zeroDivisionError
  let maxHops := Int.fdiv ((wn.length : ℤ) - nFft) hop + 1
  let wpow := window.map fun v => F.pow v (winExp + 1)
  (List.range maxHops.toNat).foldlM (fun wn i => addSliceWith F wn (i * hop) wpow) wn

/-- See `divByNorm` — ssqueezepy/_stft.py:241-246. -/
noncomputable def divByNormWith (F : StftOps) (th : ℝ) (x wn : List ℝ) : Py (List ℝ) :=
  if wn = [] then .error .valueError
  else if ∃ v ∈ wn, v < th then
    .ok (List.zipWith (fun a b => if b > th then F.div a b else a) x wn)
  else .ok (List.zipWith F.div x wn)

/-- `istft` — ssqueezepy/_stft.py:222-256. -/
noncomputable def istftWith (F : StftOps) (lib : WinLib) (tiny th : ℝ) (rows : ℕ) (Sx : List (List ℂ)) (a : IstftArgs) :
    Py (List ℝ) := do
  let nFft := orElse a.nFft ((rows - 1) * 2)
  let winLen := orElse a.winLen nFft
  let N := orElse a.N (a.hop * Sx.length)
  let window ← getWindow lib tiny a.window winLen (some nFft)
  checkNOLA window a.hop
  if nFft = 0 then .error .valueError
  let xbuf := Sx.map (F.irfft nFft)
  let xbuf := if a.modulated then xbuf.map fftshiftL else xbuf
  let x ← unbufferWith F xbuf window a.hop nFft N a.winExp
  let wn ← windowNormWith F window a.hop nFft N a.winExp
  let x ← divByNormWith F th x wn
  return pySlice x (some ((nFft / 2 : ℕ) : ℤ)) (some (-(((nFft - 1) / 2 : ℕ) : ℤ)))

end Ssq
