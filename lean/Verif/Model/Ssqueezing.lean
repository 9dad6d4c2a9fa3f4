import Verif.Model.Scales

/-!
# `ssqueeze` and its helpers — ssqueezepy/ssqueezing.py

2D numpy input. Exact reals. The numerical `center_frequency` is an oracle.
-/
namespace Ssq

/-! ## Arguments -/

/-- `transform` argument. (ssqueezepy/ssqueezing.py:13-24.) -/
inductive Transform
  | cwt
  | stft
  | other
  deriving DecidableEq

/-- `squeezing` argument: the three names, a function of the transform, another string, or another
object. (ssqueezepy/ssqueezing.py:13-24, 314-345.) -/
inductive Squeezing
  | sum
  | lebesgue
  | abs
  | fn (f : (ℕ → ℕ → ℂ) → ℕ → ℕ → ℂ)
  | otherStr
  | other

/-- An element of a `maprange` sequence. (ssqueezepy/ssqueezing.py:314-345.) -/
inductive MapEl
  | num (x : ℝ)
  | other

/-- `maprange` argument. (ssqueezepy/ssqueezing.py:228-245, 314-345.) -/
inductive MapRange
  | none
  | tuple (l : List MapEl)
  | list (l : List MapEl)
  | maximal
  | peak
  | energy
  | otherStr
  | other

/-- `difftype` argument (not `None`). (ssqueezepy/ssqueezing.py:314-360.) -/
inductive DiffType
  | trig
  | phase
  | numeric
  | other
  deriving DecidableEq

/-- Check of `transform` — ssqueezepy/ssqueezing.py:316-318. -/
def checkTransform : Transform → Py Unit
  | .other => .error .valueError
  | _ => .ok ()

/-- Check of `squeezing` — ssqueezepy/ssqueezing.py:320-324. -/
def checkSqueezing : Squeezing → Py Unit
  | .other => .error .typeError
  | .otherStr => .error .valueError
  | _ => .ok ()

/-- `isinstance(m, (float, int))`. (ssqueezepy/ssqueezing.py:314-345.) -/
def MapEl.isNum : MapEl → Bool
  | .num _ => true
  | .other => false

/-- Check of `maprange` — ssqueezepy/ssqueezing.py:327-344. -/
def checkMaprange (tr : Transform) (hasWavelet : Bool) : MapRange → Py Unit
  | .none => .ok ()
  | .tuple l => if l.all MapEl.isNum then .ok () else .error .valueError
  | .list l => if l.all MapEl.isNum then .ok () else .error .valueError
  | .maximal => .ok ()
  | .peak => if tr = .cwt ∧ ¬ hasWavelet then .error .valueError else .ok ()
  | .energy => if tr = .cwt ∧ ¬ hasWavelet then .error .valueError else .ok ()
  | .otherStr => .error .valueError
  | .other => .error .typeError

/-- Check of `difftype` — ssqueezepy/ssqueezing.py:347-357. `gpu` is `USE_GPU()`. -/
def checkDifftype (gpu getW : Bool) : Option DiffType → Py Unit
  | none => .ok ()
  | some .other => .error .valueError
  | some .trig => .ok ()
  | some _ => if gpu then .error .valueError else if getW then .ok () else .error .valueError

/-- Check and default of `difforder` — ssqueezepy/ssqueezing.py:360-368. -/
def checkDifforder (difftype : Option DiffType) : Option ℤ → Py (Option ℤ)
  | some o =>
    if difftype ≠ some .numeric then .ok (some o)
    else if o = 1 ∨ o = 2 ∨ o = 4 then .ok (some o) else .error .valueError
  | none => if difftype = some .numeric then .ok (some 4) else .ok none

/-- `_check_ssqueezing_args` — ssqueezepy/ssqueezing.py:314-368. -/
def checkSsqueezingArgs (gpu : Bool) (sq : Squeezing) (mr : MapRange) (hasWavelet : Bool)
    (difftype : Option DiffType) (difforder : Option ℤ) (getW : Bool) (tr : Transform) :
    Py (Option ℤ) := do
  checkTransform tr
  checkSqueezing sq
  checkMaprange tr hasWavelet mr
  checkDifftype gpu getW difftype
  checkDifforder difftype difforder

/-! ## Frequencies -/

/-- `kind` argument of `center_frequency`. (ssqueezepy/ssqueezing.py:301-310.) -/
inductive CfKind
  | peak
  | energy

/-- What `ssqueeze` needs of a wavelet: `center_frequency(wavelet, scale, N, kind)`. Arbitrary. (ssqueezepy/ssqueezing.py:301-310.) -/
structure SsqWavelet where
  centerFreq : ℕ → CfKind → ℝ → Py ℝ

/-- `_get_center_frequency` — ssqueezepy/ssqueezing.py:301-310. -/
noncomputable def getCenterFrequency (wv : SsqWavelet) (N : ℕ) (kind : CfKind) (dt scale : ℝ)
    (wasPadded : Bool) : Py ℝ := do
  let N := if wasPadded then (p2up N).1 else N
  let wc ← wv.centerFreq N kind scale
  return wc / (2 * Real.pi) / dt

/-- Both ends of the range for `maprange` in `('peak', 'energy')` —
ssqueezepy/ssqueezing.py:239-243. -/
noncomputable def centerRange (wv : Option SsqWavelet) (N : ℕ) (kind : CfKind) (dt : ℝ)
    (scales : Option (List ℝ)) (wasPadded : Bool) : Py (ℝ × ℝ) :=
  match wv, scales with
  | some wv, some (s :: rest) => do
    let fm ← getCenterFrequency wv N kind dt ((s :: rest).getLastD 0) wasPadded
    let fM ← getCenterFrequency wv N kind dt s wasPadded
    return (fm, fM)
  | _, some [] => .error .indexError
  | _, none => .error .typeError
  | none, _ => .error .typeError

/-- `_ssq_freqrange` — ssqueezepy/ssqueezing.py:228-244. Unpacking a tuple of other than two elements
is a `ValueError`; for a list, `None` or any other object no branch applies and `fm` is unbound.
(A non-number in a tuple fails in later arithmetic: `TypeError`.) -/
noncomputable def ssqFreqrange (mr : MapRange) (dt : ℝ) (N : ℕ) (wv : Option SsqWavelet)
    (scales : Option (List ℝ)) (wasPadded : Bool) : Py (ℝ × ℝ) :=
  match mr with
  | .tuple [.num a, .num b] => .ok (a, b)
  | .tuple [_, _] => .error .typeError
  | .tuple _ => .error .valueError
  | .maximal => .ok (1 / (dt * N), 1 / (2 * dt))
  | .peak => centerRange wv N .peak dt scales wasPadded
  | .energy => centerRange wv N .energy dt scales wasPadded
  | _ => .error .unboundLocalError

/-- The value of `ssq_scaletype`: a scale type, another string (recording whether it starts with
`'log'`), or `None`. (ssqueezepy/ssqueezing.py:126, 136, 247-292.) -/
inductive SsqType
  | known (s : ScaleType)
  | otherStr (startsLog : Bool)
  | none
  deriving DecidableEq

/-- `fm * np.power(fM / fm, np.arange(na)/(na - 1))` — ssqueezepy/ssqueezing.py:254, 259, for `fm`,
`fM` positive and `na ≥ 2`. -/
noncomputable def logFreqs (fm fM : ℝ) (na : ℕ) : List ℝ :=
  (List.range na).map fun i : ℕ => fm * (fM / fm) ^ ((i : ℝ) / ((na : ℝ) - 1))

/-- `_exp_fm` at one point `t` of a grid with extremes `tmin`, `tmax` —
ssqueezepy/ssqueezing.py:294-298. -/
noncomputable def expFm (tmin tmax fmin fmax t : ℝ) : ℝ :=
  let a := (fmin ^ tmax / fmax ^ tmin) ^ (1 / (tmax - tmin))
  let b := fmax ^ (1 / tmax) * (1 / a) ^ (1 / tmax)
  a * b ^ t

/-- The two-segment frequencies — ssqueezepy/ssqueezing.py:267-280. `idx` is the transition index of the
scales. -/
noncomputable def piecewiseFreqs (f0 f1 f2 : ℝ) (na idx : ℕ) : List ℝ :=
  let τ (i : ℕ) : ℝ := (i : ℝ) / ((na : ℝ) - 1)
  let q := na - idx - 1
  ((List.range q).map fun i : ℕ => expFm (τ 0) (τ q) f0 f1 (τ i)) ++
    ((List.range (na - q)).map fun i : ℕ => expFm (τ q) (τ (na - 1)) f1 f2 (τ (q + i)))

/-- `CfKind` of a `maprange` (piecewise frequencies need a string one). (ssqueezepy/ssqueezing.py:301-310.) -/
def MapRange.kind : MapRange → Option CfKind
  | .peak => some .peak
  | .energy => some .energy
  | _ => Option.none

/-- `_compute_associated_frequencies` — ssqueezepy/ssqueezing.py:247-291. `th` is the threshold of
`logscale_transition_idx`. Fewer than two scales (`0/0` in numpy) are outside the model. -/
noncomputable def computeFreqs (th : ℝ) (scales : Option (List ℝ)) (N : ℕ) (wv : Option SsqWavelet)
    (st : SsqType) (mr : MapRange) (wasPadded : Bool) (dt : ℝ) (tr : Transform) :
    Py (List ℝ) := do
  let (fm, fM) ← ssqFreqrange mr dt N wv scales wasPadded
  match scales with
  | none => .error .typeError
  | some scales =>
    let na := scales.length
    if na < 2 then .error .exception
    else match st with
    | .known .log => .ok (logFreqs fm fM na)
    | .known .logPiecewise => do
      match ← logscaleTransitionIdx th scales with
      | none => .ok (logFreqs fm fM na)
      | some idx =>
        match wv, mr.kind with
        | some wv, some kind => do
          let f1 ← getCenterFrequency wv N kind dt (scales.getD idx 0) wasPadded
          let fr := piecewiseFreqs fm f1 fM na idx
          match ← logscaleTransitionIdx th fr with
          | none => .error .exception
          | some ssqIdx => if na - ssqIdx = idx then .ok fr else .error .assertionError
        | _, _ => .error .typeError
    | _ =>
      match tr with
      | .cwt => .ok (linspace fm fM na)
      | .stft => .ok ((linspace 0 (1 / 2) na).map (· / dt))
      | .other => .error .unboundLocalError

/-! ## `ssqueeze` -/

/-- `ssq_freqs` argument. (ssqueezepy/ssqueezing.py:148-200.) -/
inductive FreqArg
  | none
  | name (s : SsqType)
  | arr (dt : FDtype) (v : List ℝ)

/-- Arguments of `ssqueeze` for 2D input (`M × N`). `w`, `dWx`, `gamma`, `scales`, `Sfs`, `fs`, `t`,
`wavelet` are `none` for `None`. (ssqueezepy/ssqueezing.py:13-24.) -/
structure SsqArgs where
  dev : Device
  M : ℕ
  N : ℕ
  Wx : ℕ → ℕ → ℂ
  w : Option (ℕ → ℕ → Phase)
  dWx : Option (ℕ → ℕ → ℂ)
  ssqFreqs : FreqArg
  scales : Option ScalesArg
  Sfs : Option (ℕ → ℝ)
  fs : Option ℝ
  t : Option (List ℝ)
  squeezing : Squeezing
  maprange : MapRange
  wavelet : Option SsqWavelet
  gamma : Option ℝ
  wasPadded : Bool
  flipud : Bool
  transform : Transform
  th : ℝ

/-- `w.min() < 0` for some entry of the matrix. (ssqueezepy/ssqueezing.py:152.) -/
def hasNegative (M N : ℕ) (w : ℕ → ℕ → Phase) : Prop :=
  ∃ i < M, ∃ j < N, ∃ x, w i j = .fin x ∧ x < 0

open Classical in
/-- `_process_args` of `ssqueeze` — ssqueezepy/ssqueezing.py:149-168. An infinite sampling rate
(constant `t`) is outside the model. -/
noncomputable def ssqProcessArgs (a : SsqArgs) : Py ℝ := do
  if a.w.isNone ∧ (a.dWx.isNone ∨ a.gamma.isNone) then .error .valueError
  else if ∃ w, a.w = some w ∧ hasNegative a.M a.N w then .error .valueError
  else do
    let _ ← checkSsqueezingArgs false a.squeezing a.maprange a.wavelet.isSome none none false
      a.transform
    if a.scales.isNone ∧ a.transform = .cwt then .error .valueError
    else do
      match ← processFsT a.fs a.t a.N with
      | .fin _ dt => .ok dt
      | .infinite => .error .exception

/-- Scales, scale type and `nv` for the CWT — ssqueezepy/ssqueezing.py:173-176 (`process_scales` without
a wavelet: a string is a `ValueError`). -/
noncomputable def ssqScales (a : SsqArgs) : Py (Option (List ℝ) × Option (ScaleType × Nv)) :=
  match a.transform, a.scales with
  | .cwt, some sc => do
    let (s, st, _, nv) ← processScales sc a.N none none true 1
    return (some s, some (st, nv))
  | .cwt, none => .error .typeError
  | _, some (.arr _ _ v) => .ok (some v, none)
  | _, some (.str s) => .ok (some (s.map fun _ => 0), none)
  | _, _ => .ok (none, none)

/-- `ssq_scaletype.startswith('log')`; `None` has no such attribute. (ssqueezepy/ssqueezing.py:126, 136.) -/
def SsqType.isLog : SsqType → Py Bool
  | .known .log => .ok true
  | .known .logPiecewise => .ok true
  | .known .linear => .ok false
  | .otherStr b => .ok b
  | .none => .error .exception

/-- `maprange == 'maximal' or isinstance(maprange, tuple)` — ssqueezepy/ssqueezing.py:181-182. -/
def MapRange.fixed : MapRange → Bool
  | .maximal => true
  | .tuple _ => true
  | _ => false

/-- `ssq_freqs` and whether the scale is logarithmic — ssqueezepy/ssqueezing.py:178-201, 135. -/
noncomputable def ssqFreqsOf (a : SsqArgs) (dt : ℝ) (scales : Option (List ℝ))
    (cst : Option (ScaleType × Nv)) : Py (List ℝ × SsqType) :=
  let gen (st : SsqType) : Py (List ℝ × SsqType) :=
    if a.maprange.fixed ∧ st = .known .logPiecewise then .error .valueError
    else do
      let fr ← computeFreqs a.th scales a.N a.wavelet st a.maprange a.wasPadded dt a.transform
      .ok (fr, st)
  match a.ssqFreqs with
  | .name s => gen s
  | .none => gen (match cst with | some (st, _) => .known st | none => .none)
  | .arr d v =>
    if a.transform = .stft then .ok (v, .known .linear)
    else do
      let (st, _) ← inferScaletype d v
      .ok (v, .known st)

/-- The squeezing measure applied to the transform — ssqueezepy/ssqueezing.py:203-209. -/
noncomputable def applySqueezing (sq : Squeezing) (M : ℕ) (Wx : ℕ → ℕ → ℂ) : ℕ → ℕ → ℂ :=
  match sq with
  | .fn f => f Wx
  | .lebesgue => fun _ _ => 1 / (M : ℂ)
  | .abs => fun i j => ((‖Wx i j‖ : ℝ) : ℂ)
  | _ => Wx

/-- The constant multiplying each cell — ssqueezepy/ssqueezing.py:123-133. -/
noncomputable def ssqConst (tr : Transform) (scales : Option (List ℝ))
    (cst : Option (ScaleType × Nv)) (freqs : List ℝ) : Py ConstArg :=
  match tr, cst, scales with
  | .cwt, some (.linear, _), some sc =>
    .ok (.array (sc.map fun s => (sc.getD 1 0 - sc.getD 0 0) / s))
  | .cwt, some (_, .int n), _ => .ok (.scalar (Real.log 2 / n))
  | .cwt, some (_, .arr l), _ => .ok (.array (l.map fun n => Real.log 2 / n))
  | .cwt, _, _ => .error .unboundLocalError
  | _, _, _ =>
    match freqs with
    | f0 :: f1 :: _ => .ok (.scalar (f1 - f0))
    | _ => .error .indexError

/-- The call of the reassignment kernel — ssqueezepy/ssqueezing.py:135-146. -/
noncomputable def ssqKernel (a : SsqArgs) (W : ℕ → ℕ → ℂ) (v : List ℝ) (const : ConstArg)
    (ls : Bool) : Py (ℤ → ℕ → ℂ) :=
  match a.w with
  | some w => indexedSumOnfly a.dev a.th a.M a.N (fun _ _ => 0) W w v const ls a.flipud
  | none =>
    ssqueezeFast a.dev a.th a.M a.N (fun _ _ => 0) W (a.dWx.getD fun _ _ => 0) v const ls a.flipud
      (a.gamma.getD 0) a.Sfs

/-- Whether the frequencies are reversed on return — ssqueezepy/ssqueezing.py:217. -/
def ssqReverses (tr : Transform) (flipud : Bool) : Bool :=
  (decide (tr = .cwt) && !flipud) || flipud

/-- `ssqueeze` for a 2D numpy array — ssqueezepy/ssqueezing.py:13-224. Returns `(Tx, ssq_freqs)`. -/
noncomputable def ssqueeze (a : SsqArgs) : Py ((ℤ → ℕ → ℂ) × List ℝ) := do
  let dt ← ssqProcessArgs a
  let sc ← ssqScales a
  let fr ← ssqFreqsOf a dt sc.1 sc.2
  let const ← ssqConst a.transform sc.1 sc.2 fr.1
  let ls ← fr.2.isLog
  let Tx ← ssqKernel a (applySqueezing a.squeezing a.M a.Wx) fr.1 const ls
  return (Tx, if ssqReverses a.transform a.flipud then fr.1.reverse else fr.1)

end Ssq
