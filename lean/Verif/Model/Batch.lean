import Verif.Model.SsqStft
import Verif.Model.SsqCwtFull

/-!
# Batched input: 2D `x` in `stft`, `ssq_stft`, `ssq_cwt` and 3D `Wx` in `ssqueeze`

A batch is a list of signals of one length `N`, or of their transforms. Numpy path.
-/
namespace Ssq

/-! ## `stft` -/

/-- `_stft` — ssqueezepy/_stft.py:127-147, 2D case: `Sx` is `(n_inputs, n_fft, n_hops)`, the window is broadcast along the
other two dimensions. (With no signals at all numpy would still check the window's length.) -/
noncomputable def stftCore2 (Xp : List (List ℝ)) (window diffWin : List ℝ) (nFft hop : ℕ) (fs : ℝ) (modulated : Bool) :
    Py (List (List (List ℂ)) × List (List (List ℂ))) := do
  let S ← buffer2 Xp nFft ((nFft : ℤ) - hop) modulated
  let dS ← buffer2 Xp nFft ((nFft : ℤ) - hop) modulated
  let w := if modulated then ifftshiftL window else window
  let dw := if modulated then (ifftshiftL diffWin).map (· * fs) else diffWin
  let S ← S.mapM fun cols => cols.mapM (mulWindow w)
  let dS ← dS.mapM fun cols => cols.mapM (mulWindow dw)
  if nFft = 0 then .error .valueError
  return (S.map fun cols => cols.map rfftL, dS.map fun cols => cols.map rfftL)

/-- `stft(x, …, derivative=True)` for 2D `x` — ssqueezepy/_stft.py:149-181: `N = x.shape[-1]`. Returns `n_fft` and the columns
of every signal's transform and derivative. -/
noncomputable def stft2 (lib : WinLib) (tiny : ℝ) (N : ℕ) (X : List (List ℝ)) (a : StftArgs) :
    Py (ℕ × List (List (List ℂ)) × List (List (List ℂ))) := do
  let nFft ← stftNfft N a
  let winLen := stftWinLen nFft a
  let w ← getWindowD lib tiny a.window winLen (some nFft)
  checkNOLA w.1 a.hop
  let p ← padsignal2 true N X a.padtype (some ((N : ℤ) + nFft - 1))
  let r ← stftCore2 p.1 w.1 w.2 nFft a.hop a.fs a.modulated
  return (nFft, r.1, r.2)

/-! ## `ssqueeze` -/

/-- Arguments of `ssqueeze` for 3D input: `base` holds everything but the arrays (its own `Wx`, `w`, `dWx` are not used);
`base.M`, `base.N` are the last two dimensions. `fn3` is what a function passed as `squeezing` does to a 3D array. (ssqueezepy/ssqueezing.py:13-24, 203-215.) -/
structure SsqBatch where
  base : SsqArgs
  Ws : List (ℕ → ℕ → ℂ)
  ws : Option (List (ℕ → ℕ → Phase))
  dWs : Option (List (ℕ → ℕ → ℂ))
  fn3 : List (ℕ → ℕ → ℂ) → List (ℕ → ℕ → ℂ)

open Classical in
/-- `_process_args` of `ssqueeze` — ssqueezepy/ssqueezing.py:149-168: the minimum of `w` is over the whole batch. -/
noncomputable def ssqProcessArgs3 (q : SsqBatch) : Py ℝ := do
  if q.ws.isNone ∧ (q.dWs.isNone ∨ q.base.gamma.isNone) then .error .valueError
  else if ∃ l, q.ws = some l ∧ ∃ w ∈ l, hasNegative q.base.M q.base.N w then .error .valueError
  else do
    let _ ← checkSsqueezingArgs false q.base.squeezing q.base.maprange q.base.wavelet.isSome none none false
      q.base.transform
    if q.base.scales.isNone ∧ q.base.transform = .cwt then .error .valueError
    else do
      match ← processFsT q.base.fs q.base.t q.base.N with
      | .fin _ dt => .ok dt
      | .infinite => .error .exception

/-- The squeezing measure — ssqueezepy/ssqueezing.py:203-209. For 'lebesgue' the array is divided by `len(Wx)`, which for a 3D
array is the number of signals. -/
noncomputable def applySqueezing3 (q : SsqBatch) : List (ℕ → ℕ → ℂ) :=
  match q.base.squeezing with
  | .fn _ => q.fn3 q.Ws
  | .lebesgue => q.Ws.map fun _ => fun _ _ => 1 / (q.Ws.length : ℂ)
  | .abs => q.Ws.map fun W => fun i j => ((‖W i j‖ : ℝ) : ℂ)
  | _ => q.Ws

/-- The arguments for signal `b`: `zip(Tx, w, Wx, dWx)` — ssqueezepy/ssqueezing.py:210-215. -/
noncomputable def SsqBatch.at (q : SsqBatch) (b : ℕ) : SsqArgs :=
  { q.base with
    Wx := q.Ws.getD b fun _ _ => 0
    w := q.ws.map fun l => l.getD b fun _ _ => .inf
    dWx := q.dWs.map fun l => l.getD b fun _ _ => 0 }

/-- Whether `zip` reaches signal `b`. (ssqueezepy/ssqueezing.py:210-214.) -/
def SsqBatch.reaches (q : SsqBatch) (b : ℕ) : Bool :=
  (match q.ws with | none => true | some l => decide (b < l.length)) &&
  (match q.dWs with | none => true | some l => decide (b < l.length))

/-- `ssqueeze` for 3D numpy arrays — ssqueezepy/ssqueezing.py:13-224. Returns `Tx` for every signal, and the frequencies. -/
noncomputable def ssqueeze3 (q : SsqBatch) : Py (List (ℤ → ℕ → ℂ) × List ℝ) := do
  let dt ← ssqProcessArgs3 q
  let sc ← ssqScales q.base
  let fr ← ssqFreqsOf q.base dt sc.1 sc.2
  let W := applySqueezing3 q
  let Tx ← (List.range W.length).mapM fun b =>
    if q.reaches b then do
      let const ← ssqConst q.base.transform sc.1 sc.2 fr.1
      let ls ← fr.2.isLog
      ssqKernel (q.at b) (W.getD b fun _ _ => 0) fr.1 const ls
    else .ok fun _ _ => 0
  return (Tx, if ssqReverses q.base.transform q.base.flipud then fr.1.reverse else fr.1)

/-! ## `ssq_stft` -/

/-- `ssq_stft(x, …)` for 2D `x` — ssqueezepy/_ssq_stft.py:78-136: `get_w` is not supported. -/
noncomputable def ssqStft2 (lib : WinLib) (tiny : ℝ) (N : ℕ) (X : List (List ℝ)) (a : SsqStftArgs)
    (fn3 : List (ℕ → ℕ → ℂ) → List (ℕ → ℕ → ℂ)) :
    Py (List (ℤ → ℕ → ℂ) × List (List (List ℂ)) × List ℝ × List ℝ) := do
  if a.getW then .error .notImplementedError
  else match ← processFsT a.fs a.t N with
  | .infinite => .error .exception
  | .fin fs _ => do
    let _ ← checkSsqueezingArgs false a.squeezing .none false none none false .cwt
    checkLinearFreqs a.ssqFreqs
    let s ← stft2 lib tiny N X { a.stft with fs := fs }
    let rows := s.1 / 2 + 1
    let r ← ssqueeze3
      { base := ssqStftCall a fs rows (s.2.1.headD []) (s.2.2.headD [])
        Ws := s.2.1.map fun S => fun i j => (S.getD j []).getD i 0
        ws := none
        dWs := some (s.2.2.map fun dS => fun i j => (dS.getD j []).getD i 0)
        fn3 := fn3 }
    .ok (r.1, s.2.1, r.2, makeSfs rows fs)

/-! ## `ssq_cwt` -/

/-- What the batched `ssq_cwt` returns. (ssqueezepy/_ssq_cwt.py:301-310.) -/
structure SsqCwtOut2 where
  Tx : List (ℤ → ℕ → ℂ)
  Wx : List (List (List ℂ))
  freqs : List ℝ
  scales : List ℝ
  dWx : List (List (List ℂ))

/-- `ssq_cwt(x, …)` for 2D `x` and order 0 — ssqueezepy/_ssq_cwt.py:190-310. `get_w` is not supported, so that neither is a
`difftype` other than 'trig'. -/
noncomputable def ssqCwt2 (N : ℕ) (X : List (List ℝ)) (a : SsqCwtArgs) (fn3 : List (ℕ → ℕ → ℂ) → List (ℕ → ℕ → ℂ)) :
    Py SsqCwtOut2 := do
  if a.getW then .error .notImplementedError
  else do
    let _ ← checkSsqueezingArgs false a.squeezing a.maprange true (some .trig) a.difforder a.getW .cwt
    let r ← cwtDt a.fs a.t N
    let sc ← processScales a.scales N (some a.wavelet.sw) (ssqCwtNv a) true a.downsample
    let W ← cwt2 N X (a.cwtArgs r.1 sc.1)
    let T ← ssqueeze3
      { base := a.ssqArgs r.1 sc.2.1 W.2.1 N [] []
        Ws := W.1.map fun M => fun i j => (M.getD i []).getD j 0
        ws := none
        dWs := some (W.2.2.map fun M => fun i j => (M.getD i []).getD j 0)
        fn3 := fn3 }
    .ok ⟨T.1, W.1, T.2, W.2.1, W.2.2⟩

/-- The transform and derivative of a batch with higher orders — ssqueezepy/_ssq_cwt.py:228-247. `Wx[:, n1:n1 + N]` slices the
*second* dimension, which for a batch is that of the scales. -/
noncomputable def ssqHigher2 (N : ℕ) (X : List (List ℝ)) (a : SsqFullArgs) (fs : ℝ) (isSeq : Bool) :
    Py (List (List (List ℂ)) × List (List (List ℂ))) := do
  let r ← cwtOrder2 N X (a.hoArgs fs isSeq)
  let n1 := (p2up N).2.1
  match r.1 with
  | .many _ => .error .exception
  | .one Ws =>
    match ← trigdiff true (.d3 (a.padCols N) Ws) { fs := fs, rpadded := some true, N := some N, n1 := some n1 } with
    | .d2 _ _ => .error .exception
    | .d3 _ dWs => .ok (Ws.map fun M => pySlice M (some n1) (some (n1 + N)), dWs)

end Ssq
