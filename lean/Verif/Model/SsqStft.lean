import Verif.Model.Stft
import Verif.Model.Ssqueezing
import Verif.Model.Components

/-!
# `ssq_stft` and `issq_stft` — ssqueezepy/_ssq_stft.py

1D numpy input.
-/
namespace Ssq

/-- Arguments of `ssq_stft`. `stft.fs` is ignored: the sampling frequency comes from `fs` / `t`.
`eps` is the machine epsilon of the dtype. (ssqueezepy/_ssq_stft.py:13-17.) -/
structure SsqStftArgs where
  stft : StftArgs
  fs : Option ℝ := none
  t : Option (List ℝ) := none
  ssqFreqs : Option (FDtype × List ℝ) := none
  squeezing : Squeezing := .sum
  gamma : Option ℝ := none
  flipud : Bool := false
  getW : Bool := false
  dev : Device := .cpu
  th : ℝ
  eps : ℝ

/-- `infer_scaletype(ssq_freqs)[0] != 'linear'` rejects — ssqueezepy/_ssq_stft.py:83-86. -/
noncomputable def checkLinearFreqs : Option (FDtype × List ℝ) → Py Unit
  | none => .ok ()
  | some (d, v) => do
    let r ← inferScaletype d v
    if r.1 = .linear then .ok () else .error .valueError

/-- `_make_Sfs` — ssqueezepy/_ssq_stft.py:249-257. -/
noncomputable def makeSfs (rows : ℕ) (fs : ℝ) : List ℝ := linspace 0 (1 / 2 * fs) rows

/-- The call of `ssqueeze` — ssqueezepy/_ssq_stft.py:103-122 — on the columns `S`, `dS` of the STFT.
With `get_w` the phase transform is computed first and the derivative is not passed on. -/
noncomputable def ssqStftCall (a : SsqStftArgs) (fs : ℝ) (rows : ℕ) (S dS : List (List ℂ)) : SsqArgs :=
  let W : ℕ → ℕ → ℂ := fun i j => (S.getD j []).getD i 0
  let dW : ℕ → ℕ → ℂ := fun i j => (dS.getD j []).getD i 0
  let Sfs := makeSfs rows fs
  let gamma := a.gamma.getD (10 * a.eps)
  { dev := a.dev, M := rows, N := S.length, Wx := W
    w := if a.getW then some (phaseStft gamma (fun i => Sfs.getD i 0) W dW) else none
    dWx := if a.getW then none else some dW
    ssqFreqs := match a.ssqFreqs with
      | none => .arr .f64 Sfs
      | some (d, v) => .arr d v
    scales := none
    Sfs := some fun i => Sfs.getD i 0
    fs := none, t := none
    squeezing := a.squeezing, maprange := .maximal, wavelet := none, gamma := some gamma
    wasPadded := true, flipud := a.flipud, transform := .stft, th := a.th }

/-- `ssq_stft(x, …)` for 1D `x` — ssqueezepy/_ssq_stft.py:13-136. Returns `Tx`, the columns of `Sx`,
`ssq_freqs` and `Sfs`. An infinite sampling rate is outside the model. -/
noncomputable def ssqStft (lib : WinLib) (tiny : ℝ) (x : List ℝ) (a : SsqStftArgs) :
    Py ((ℤ → ℕ → ℂ) × List (List ℂ) × List ℝ × List ℝ) := do
  match ← processFsT a.fs a.t x.length with
  | .infinite => .error .exception
  | .fin fs _ => do
    let _ ← checkSsqueezingArgs false a.squeezing .none false none none false .cwt
    checkLinearFreqs a.ssqFreqs
    let s ← stft lib tiny x { a.stft with fs := fs }
    let rows := s.1 / 2 + 1
    let r ← ssqueeze (ssqStftCall a fs rows s.2.1 s.2.2)
    .ok (r.1, s.2.1, r.2, makeSfs rows fs)

/-- Arguments of `issq_stft`; `0` is falsy for the optional integers. (ssqueezepy/_ssq_stft.py:139-141.) -/
structure IssqStftArgs where
  window : WindowArg := .none
  cc : Option CurveArg := none
  cw : Option CurveArg := none
  nFft : Option ℕ := none
  winLen : Option ℕ := none
  hop : ℤ := 1
  modulated : Bool := true

/-- `_process_args` of `issq_stft` — ssqueezepy/_ssq_stft.py:169-186: component curves and the prepared
window. `np.argmax` of an empty window raises `ValueError`. `M ≥ 1` rows. -/
noncomputable def issqStftProcess (lib : WinLib) (tiny : ℝ) (M : ℕ) (a : IssqStftArgs) :
    Py (Option (Curves × Curves) × List ℝ) :=
  if a.modulated = false then .error .valueError
  else if a.hop ≠ 1 then .error .valueError
  else do
    let c ← processComponentArgs a.cc a.cw
    let nFft := orElse a.nFft ((M - 1) * 2)
    let winLen := orElse a.winLen nFft
    let w ← getWindow lib tiny a.window winLen (some nFft)
    checkNOLA w a.hop.toNat
    if w = [] then .error .valueError else .ok (c, w)

/-- `issq_stft` — ssqueezepy/_ssq_stft.py:139-198. With a zero centre tap numpy returns `inf`/`nan`;
statements about values assume it is nonzero. -/
noncomputable def issqStft (lib : WinLib) (tiny : ℝ) (M N : ℕ) (Tx : ℕ → ℕ → ℂ) (a : IssqStftArgs) :
    Py Inverse := do
  let cw ← issqStftProcess lib tiny M a
  let x ← invertTx M N Tx cw.1
  .ok (x.scale (2 / cw.2.getD (cw.2.length / 2) 0))

end Ssq
