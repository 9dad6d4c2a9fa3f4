import Verif.Model.Cwt
import Verif.Model.Ssqueezing
import Verif.Model.Components

/-!
# `ssq_cwt` — ssqueezepy/_ssq_cwt.py:13-310

1D numpy input, `order=0`, `difftype='trig'`. Exact reals.
-/
namespace Ssq

/-- Arguments of `ssq_cwt`. `wavelet` and `ssqw` are what `cwt` and `ssqueeze` use of the wavelet;
`dtype` is the wavelet's dtype and `eps` its machine epsilon; `th` is the threshold of
`logscale_transition_idx` for that dtype. (ssqueezepy/_ssq_cwt.py:12-17.) -/
structure SsqCwtArgs where
  wavelet : CwtWavelet
  ssqw : SsqWavelet
  scales : ScalesArg
  nv : Option ℚ := none
  fs : Option ℝ := none
  t : Option (List ℝ) := none
  ssqFreqs : FreqArg := .none
  padtype : Option String := some "reflect"
  squeezing : Squeezing := .sum
  maprange : MapRange := .peak
  difforder : Option ℤ := none
  gamma : Option ℝ := none
  vectorized : Bool := true
  flipud : Bool := true
  getW : Bool := false
  dev : Device := .cpu
  dtype : FDtype := .f64
  th : ℝ
  eps : ℝ
  downsample : ℕ := 4

/-- `if nv is None and not isinstance(scales, np.ndarray): nv = 32` —
ssqueezepy/_ssq_cwt.py:199-200. -/
def ssqCwtNv (a : SsqCwtArgs) : Option ℚ :=
  match a.nv, a.scales with
  | some q, _ => some q
  | none, .arr _ _ _ => none
  | none, _ => some 32

/-- dtype of the scales out of `process_scales`: the array's own, or float64 for generated ones. (ssqueezepy/_ssq_cwt.py:190-203; ssqueezepy/utils/cwt_utils.py:196-262.) -/
def ScalesArg.dtype : ScalesArg → FDtype
  | .arr _ d _ => d
  | _ => .f64

/-- The call of `cwt` on the processed scales `sc` — ssqueezepy/_ssq_cwt.py:248-257. -/
def SsqCwtArgs.cwtArgs (a : SsqCwtArgs) (fs : ℝ) (sc : List ℝ) : CwtArgs :=
  { wavelet := a.wavelet, scales := .arr [sc.length, 1] a.scales.dtype sc, fs := some fs, t := none
    nv := ssqCwtNv a, l1Norm := true, padtype := a.padtype, rpadded := false
    vectorized := a.vectorized, downsample := a.downsample }

/-- The call of `ssqueeze` — ssqueezepy/_ssq_cwt.py:268-295. With `get_w` the phase transform is computed
first and the derivative is not passed on. `st` is the scale type found for the `scales` argument, the
default for `ssq_freqs`. -/
noncomputable def SsqCwtArgs.ssqArgs (a : SsqCwtArgs) (fs : ℝ) (st : ScaleType) (sc : List ℝ) (N : ℕ)
    (W dW : List (List ℂ)) : SsqArgs :=
  let Wx : ℕ → ℕ → ℂ := fun i j => (W.getD i []).getD j 0
  let dWx : ℕ → ℕ → ℂ := fun i j => (dW.getD i []).getD j 0
  let gamma := a.gamma.getD (10 * a.eps)
  { dev := a.dev, M := sc.length, N := N, Wx := Wx
    w := if a.getW then some (phaseCwt gamma Wx dWx) else none
    dWx := if a.getW then none else some dWx
    ssqFreqs := match a.ssqFreqs with
      | .none => .name (.known st)
      | f => f
    scales := some (.arr [sc.length] a.dtype sc)
    Sfs := none, fs := some fs, t := none
    squeezing := a.squeezing, maprange := a.maprange, wavelet := some a.ssqw, gamma := some gamma
    wasPadded := a.padtype.isSome, flipud := a.flipud, transform := .cwt, th := a.th }

/-- What `ssq_cwt` returns (with `get_dWx`). (ssqueezepy/_ssq_cwt.py:301-310.) -/
structure SsqCwtOut where
  Tx : ℤ → ℕ → ℂ
  Wx : List (List ℂ)
  freqs : List ℝ
  scales : List ℝ
  dWx : List (List ℂ)

/-- `ssq_cwt(x, …)` — ssqueezepy/_ssq_cwt.py:13-310. An infinite sampling rate is outside the
model. -/
noncomputable def ssqCwt (x : List ℝ) (a : SsqCwtArgs) : Py SsqCwtOut := do
  let _ ← checkSsqueezingArgs false a.squeezing a.maprange true (some .trig) a.difforder a.getW .cwt
  let r ← cwtDt a.fs a.t x.length
  let sc ← processScales a.scales x.length (some a.wavelet.sw) (ssqCwtNv a) true a.downsample
  let W ← cwt x (a.cwtArgs r.1 sc.1)
  let T ← ssqueeze (a.ssqArgs r.1 sc.2.1 W.2.1 x.length W.1 W.2.2)
  .ok ⟨T.1, W.1, T.2, W.2.1, W.2.2⟩

end Ssq
