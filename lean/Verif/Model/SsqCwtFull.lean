import Verif.Model.SsqCwt
import Verif.Model.HigherOrder
import Verif.Model.Trigdiff
import Verif.Model.PhaseNum

/-!
# `ssq_cwt` with every `order` and `difftype` — ssqueezepy/_ssq_cwt.py:190-310

1D numpy input, exact reals.
-/
namespace Ssq

/-- Arguments of `ssq_cwt`: those of `SsqCwtArgs` (whose `wavelet` is used for order 0), `difftype`, `order`, and what
`cwt` needs for higher orders (see `HoArgs`). (ssqueezepy/_ssq_cwt.py:12-17.) -/
structure SsqFullArgs extends SsqCwtArgs where
  difftype : DiffType := .trig
  order : CwtOrderArg := .int 0
  isGmw : Bool := true
  fam : ℕ → WFn × ScaleWavelet
  normL1 : Bool := true

/-- The call of `cwt` for higher orders — ssqueezepy/_ssq_cwt.py:229-239: the padding is kept; the orders are
averaged if there are several. -/
def SsqFullArgs.hoArgs (a : SsqFullArgs) (fs : ℝ) (isSeq : Bool) : HoArgs where
  a := { wavelet := a.wavelet, scales := a.scales, fs := some fs, t := none, nv := ssqCwtNv a.toSsqCwtArgs
         l1Norm := true, padtype := a.padtype, rpadded := true, vectorized := a.vectorized
         downsample := a.downsample }
  isGmw := a.isGmw
  fam := a.fam
  normL1 := a.normL1
  dtype := a.dtype
  order := a.order
  average := some isSeq

/-- Number of columns of what `cwt(…, rpadded=True)` returns for `N` samples. (ssqueezepy/_ssq_cwt.py:228-260.) -/
noncomputable def SsqFullArgs.padCols (a : SsqFullArgs) (N : ℕ) : ℕ :=
  if a.padtype.isSome then (p2up N).1 else N

/-- The transform, its scales with their type, and its derivative for higher orders —
ssqueezepy/_ssq_cwt.py:228-247. The result of `cwt` is one array (several orders are averaged). -/
noncomputable def ssqHigher (x : List ℝ) (a : SsqFullArgs) (fs : ℝ) (isSeq : Bool) :
    Py (List (List ℂ) × List ℝ × ScaleType × List (List ℂ)) := do
  let r ← cwtOrder x (a.hoArgs fs isSeq)
  let n1 := (p2up x.length).2.1
  match r.1 with
  | .many _ => .error .exception
  | .one W =>
    let d ← trigdiff true (.d2 (a.padCols x.length) W)
      { fs := fs, rpadded := some true, N := some x.length, n1 := some n1 }
    let sc ← processScales r.2.1 x.length (some a.wavelet.sw) (ssqCwtNv a.toSsqCwtArgs) true a.downsample
    match d with
    | .d3 _ _ => .error .exception
    | .d2 _ dW => .ok (W.map fun row => unpad row n1 x.length, sc.1, sc.2.1, dW)

/-- The same for order 0 — ssqueezepy/_ssq_cwt.py:246-257. The padding is kept for `difftype='numeric'`. -/
noncomputable def ssqOrder0 (x : List ℝ) (a : SsqFullArgs) (fs : ℝ) :
    Py (List (List ℂ) × List ℝ × ScaleType × List (List ℂ)) := do
  let sc ← processScales a.scales x.length (some a.wavelet.sw) (ssqCwtNv a.toSsqCwtArgs) true a.downsample
  let W ← cwt x { a.cwtArgs fs sc.1 with rpadded := decide (a.difftype = .numeric) }
  .ok (W.1, W.2.1, sc.2.1, W.2.2)

/-- Which of the two — ssqueezepy/_ssq_cwt.py:228, 249. For a negative order neither branch is taken and `Wx` is not
bound. -/
noncomputable def ssqTransforms (x : List ℝ) (a : SsqFullArgs) (fs : ℝ) :
    Py (List (List ℂ) × List ℝ × ScaleType × List (List ℂ)) :=
  match a.order with
  | .seq _ => ssqHigher x a fs true
  | .int k =>
    if 0 < k then ssqHigher x a fs false
    else if k = 0 then ssqOrder0 x a fs
    else do
      let _ ← processScales a.scales x.length (some a.wavelet.sw) (ssqCwtNv a.toSsqCwtArgs) true a.downsample
      .error .unboundLocalError

/-- A matrix of phases as a function. (ssqueezepy/_ssq_cwt.py:205-226.) -/
def phaseFn (w : List (List Phase)) (i j : ℕ) : Phase := (w.getD i []).getD j .inf

/-- `phase_cwt(Wx, dWx, 'trig')`, as a list of rows of the shape of `Wx`. (ssqueezepy/_ssq_cwt.py:205-226.) -/
noncomputable def phaseRows (gamma : ℝ) (W dW : List (List ℂ)) : List (List Phase) :=
  (List.range W.length).map fun i => (List.range (W.getD i []).length).map fun j =>
    phaseCwt gamma (fun i j => (W.getD i []).getD j 0) (fun i j => (dW.getD i []).getD j 0) i j

/-- `_phase_transform` — ssqueezepy/_ssq_cwt.py:205-220: the (trimmed) transform to squeeze and its phase transform. For
signals so short that the left pad has fewer than four samples the slice starts at a negative index, as in Python
(`C99_numeric_short`). -/
noncomputable def ssqPhase (a : SsqFullArgs) (N : ℕ) (dt gamma : ℝ) (difforder : Option ℤ) (W dW : List (List ℂ)) :
    Py (List (List ℂ) × List (List Phase)) :=
  match a.difftype with
  | .trig => .ok (W, phaseRows gamma W dW)
  | .phase => do
    let w ← W.mapM (phaseCwtPhase gamma)
    .ok (W, w)
  | .numeric => do
    let n1 := (p2up N).2.1
    let W' := W.map fun r => pySlice r (some (n1 - 4)) (some (n1 + N + 4))
    let w ← W'.mapM (phaseCwtNum a.eps dt (difforder.getD 4) (some gamma))
    .ok (W', w)
  | .other => .error .unboundLocalError

/-- The call of `ssqueeze` — ssqueezepy/_ssq_cwt.py:290-295. `W` is the transform to squeeze, of `cols` columns. -/
noncomputable def SsqFullArgs.squeezeArgs (a : SsqFullArgs) (fs gamma : ℝ) (st : ScaleType) (sc : List ℝ) (cols : ℕ)
    (W : List (List ℂ)) (w : Option (List (List Phase))) (dW : Option (List (List ℂ))) : SsqArgs where
  dev := a.dev
  M := W.length
  N := cols
  Wx := fun i j => (W.getD i []).getD j 0
  w := w.map phaseFn
  dWx := dW.map fun d i j => (d.getD i []).getD j 0
  ssqFreqs := match a.ssqFreqs with
    | .none => .name (.known st)
    | f => f
  scales := some (.arr [sc.length] a.dtype sc)
  Sfs := none
  fs := some fs
  t := none
  squeezing := a.squeezing
  maprange := a.maprange
  wavelet := some a.ssqw
  gamma := some gamma
  wasPadded := a.padtype.isSome
  flipud := a.flipud
  transform := .cwt
  th := a.th

/-- What `ssq_cwt` returns; `txCols` is the number of columns of `Tx`. (ssqueezepy/_ssq_cwt.py:301-310.) -/
structure SsqFullOut where
  Tx : ℤ → ℕ → ℂ
  txCols : ℕ
  Wx : List (List ℂ)
  freqs : List ℝ
  scales : List ℝ
  w : Option (List (List Phase))
  dWx : List (List ℂ)

/-- `if difftype == 'numeric': Wx, Tx, w = Wx[:, 4:-4], …` — ssqueezepy/_ssq_cwt.py:298-301. `dWx` stays. -/
def ssqPost (d : DiffType) (o : SsqFullOut) : SsqFullOut :=
  if d = .numeric then
    { o with
      Tx := fun i j => o.Tx i (j + 4)
      txCols := o.txCols - 8
      Wx := o.Wx.map fun r => pySlice r (some 4) (some (-4))
      w := o.w.map fun w => w.map fun r => pySlice r (some 4) (some (-4)) }
  else o

/-- `ssq_cwt(x, …, order, difftype, get_dWx=True)` — ssqueezepy/_ssq_cwt.py:190-310. The number of columns of the
transform squeezed is that of its first row. A phase transform without entries has no minimum
(`ValueError`). An infinite sampling rate is outside the model. -/
noncomputable def ssqCwtFull (x : List ℝ) (a : SsqFullArgs) : Py SsqFullOut := do
  let od ← checkSsqueezingArgs false a.squeezing a.maprange true (some a.difftype) a.difforder a.getW .cwt
  let r ← cwtDt a.fs a.t x.length
  let W ← ssqTransforms x a r.1
  let gamma := a.gamma.getD (10 * a.eps)
  if a.getW then do
    let p ← ssqPhase a x.length r.2 gamma od W.1 W.2.2.2
    let cols := (p.1.headD []).length
    if cols = 0 then .error .valueError
    else do
      let T ← ssqueeze (a.squeezeArgs r.1 gamma W.2.2.1 W.2.1 cols p.1 (some p.2) none)
      .ok (ssqPost a.difftype ⟨T.1, cols, W.1, T.2, W.2.1, some p.2, W.2.2.2⟩)
  else do
    let cols := (W.1.headD []).length
    let T ← ssqueeze (a.squeezeArgs r.1 gamma W.2.2.1 W.2.1 cols W.1 none (some W.2.2.2))
    .ok (ssqPost a.difftype ⟨T.1, cols, W.1, T.2, W.2.1, none, W.2.2.2⟩)

end Ssq
