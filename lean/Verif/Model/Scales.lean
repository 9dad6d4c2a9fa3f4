import Verif.Model.Squeeze
import Verif.Model.Common
import Mathlib.Data.List.SplitOn
import Mathlib.Analysis.SpecialFunctions.Pow.Real

/-!
# Scales and sampling arguments — ssqueezepy/utils/cwt_utils.py

Exact reals instead of floats. The numerical searches inside `cwt_scalebounds` are oracles here
(the searches themselves are modelled in `Verif/Model/Search.lean`).
-/
namespace Ssq

/-! ## Sampling rate -/

/-- `np.mean(np.abs(np.diff(l, 2)))` for three or more elements. (ssqueezepy/utils/cwt_utils.py:280, 285, 709.) -/
noncomputable def meanAbsDiff2 (l : List ℝ) : ℝ :=
  ((List.range (l.length - 2)).map fun i : ℕ =>
    |(l.getD (i + 2) 0 - l.getD (i + 1) 0) - (l.getD (i + 1) 0 - l.getD i 0)|).sum /
    (l.length - 2 : ℕ)

/-- A sampling rate: a finite number, or the infinite value numpy gives for `1 / 0.`. (ssqueezepy/utils/cwt_utils.py:698-725.) -/
inductive Rate
  | fin (fs dt : ℝ)
  | infinite

/-- `_process_fs_and_t` — ssqueezepy/utils/cwt_utils.py:698-718. Returns the rate and `dt = 1/fs`.
With fewer than three samples the mean of an empty array is NaN and the comparison is false, so the
vector is rejected. A zero first step gives `fs = inf`. -/
noncomputable def processFsT (fs : Option ℝ) (t : Option (List ℝ)) (N : ℕ) : Py Rate :=
  match t with
  | some t =>
    if t.length ≠ N then .error .exception
    else if t.length < 3 then .error .exception
    else if ¬ (meanAbsDiff2 t < 1 / 10 ^ 7) then .error .exception
    else
      let step := t.getD 1 0 - t.getD 0 0
      if step = 0 then .ok .infinite
      else .ok (.fin (1 / step) (1 / (1 / step)))
  | none =>
    match fs with
    | none => .ok (.fin 1 (1 / 1))
    | some fs => if fs ≤ 0 then .error .valueError else .ok (.fin fs (1 / fs))

/-! ## Making scales -/

/-- The scale types. (ssqueezepy/utils/cwt_utils.py:264-299.) -/
inductive ScaleType
  | log
  | logPiecewise
  | linear
  deriving DecidableEq

/-- `scaletype` argument of `make_scales`: a known name or something else. (ssqueezepy/utils/cwt_utils.py:301-335.) -/
inductive ScaleTypeArg
  | known (s : ScaleType)
  | other

/-- What the scale routines need of a wavelet: `find_min_scale(cutoff)`, `find_max_scale(N, bin_loc,
bin_amp)`, `find_max_scale_alt(N, min_cutoff, max_cutoff)` and the samples
`wavelet(scale=scales, N=2048)` (one row per scale). All arbitrary. (ssqueezepy/utils/cwt_utils.py:301-335, 412-457.) -/
structure ScaleWavelet where
  minScale : ℝ → Py ℝ
  maxScale : ℕ → ℝ → ℝ → Py ℝ
  maxScaleAlt : ℕ → ℝ → ℝ → Py ℝ
  psih : List ℝ → List (List ℝ)

/-- The `preset` names. (ssqueezepy/utils/cwt_utils.py:126-159.) -/
inductive Preset
  | maximal
  | minimal
  | naive
  deriving DecidableEq

/-- `_process_args` of `cwt_scalebounds` — ssqueezepy/utils/cwt_utils.py:126-159, for the arguments
`make_scales` and `process_scales` can pass plus the cutoffs. Result: `(min_cutoff, max_cutoff,
cutoff)`. `bin_loc`, `bin_amp` are always left at their defaults `(2, 1)` for 'maximal'. -/
noncomputable def scaleboundsArgs (preset : Option Preset) (minC maxC cutoff : Option ℝ) :
    Py (Option ℝ × Option ℝ × ℝ) :=
  match preset with
  | some .naive => .ok (none, none, cutoff.getD (-1/2))
  | some .maximal => .ok (none, none, -1/2)
  | some .minimal => .ok (some (3/5), some (4/5), -1/2)
  | none => do
    let minC ← match minC with
      | none => pure (3/5 : ℝ)
      | some m => if m ≤ 0 then .error .valueError else pure m
    let maxC ← match maxC with
      | none => pure (4/5 : ℝ)
      | some m => if m < minC then .error .valueError else pure m
    return (some minC, some maxC, cutoff.getD (-1/2))

/-- `cwt_scalebounds` — ssqueezepy/utils/cwt_utils.py:66-188, without the plots. -/
noncomputable def cwtScalebounds (wv : ScaleWavelet) (N : ℕ) (preset : Option Preset)
    (minC maxC cutoff : Option ℝ) (usePaddedN : Bool) : Py (ℝ × ℝ) := do
  let (minC, maxC, cutoff) ← scaleboundsArgs preset minC maxC cutoff
  if preset = some .naive then return (1, N)
  let M := if usePaddedN then (p2up N).1 else N
  let mn ← wv.minScale cutoff
  let mx ← if preset = some .maximal then wv.maxScale M 2 1
    else wv.maxScaleAlt M (minC.getD 0) (maxC.getD 0)
  return (mn, mx)

/-- `distances.sum() < tol` and the loop of `find_downsampling_scale` — ssqueezepy/utils/cwt_utils.py:
545-565: the first group `i < n_groups` for which `tooDense i` holds, or the last loop index.
`none` when the loop has no iteration (`i` is then unbound). -/
def densityLoop (tooDense : ℕ → Bool) (nGroups : ℕ) : Option ℕ :=
  if nGroups = 0 then none
  else some (min ((List.range nGroups).findIdx tooDense) (nGroups - 1))

/-- The result of `find_downsampling_scale` given the per-group test — ssqueezepy/utils/cwt_utils.py:
538-580: `n_groups = n_scales - span - 1`; unbound `i` raises; `i` if `i < n_groups - 1`
else `None`. A negative number of groups is an empty loop as well. -/
def findDownsamplingScale (tooDense : ℕ → Bool) (nScales span : ℕ) : Py (Option ℕ) :=
  let nGroups := nScales - span - 1
  match densityLoop tooDense nGroups with
  | none => .error .unboundLocalError
  | some i => .ok (if i + 1 < nGroups then some i else none)

/-- `np.max` of a row. (ssqueezepy/utils/cwt_utils.py:564.) -/
noncomputable def rowMax (l : List ℝ) : ℝ := l.getD (argmaxL l) 0

open Classical in
/-- One group test of `find_downsampling_scale` with the default `method='sum'`, `tol=3`,
`nonzero_th=.02`, `nonzero_tol=4` — ssqueezepy/utils/cwt_utils.py:513-560. `rows` are the `span`
sampled wavelets (left halves). `np.where(psihs == max)` lists every maximal entry of every row;
`[1]` are their columns. -/
noncomputable def groupTooDense (span : ℕ) (rows : List (List ℝ)) : Bool :=
  let nonzeros : ℕ := (rows.map fun r => r.countP fun x => decide (1/50 * rowMax r < x)).sum
  if (nonzeros : ℝ) / span > 4 then false
  else
    let peaks : List ℕ := rows.flatMap fun r =>
      (List.range r.length).filter fun c => decide (r.getD c 0 = rowMax r)
    let cols := (rows.head?.getD []).length
    let prod : List ℝ := (List.range cols).map fun c : ℕ => (rows.map fun r => r.getD c 0).prod
    let joint : ℕ := argmaxL prod
    decide ((peaks.map fun p : ℕ => |(p : ℤ) - (joint : ℤ)|).sum < 3)

/-- `find_downsampling_scale(wavelet, scales)` with default parameters (`span=5`) —
ssqueezepy/utils/cwt_utils.py:459-580. -/
noncomputable def findDownsampling (wv : ScaleWavelet) (scales : List ℝ) : Py (Option ℕ) :=
  let Psih := wv.psih scales
  if Psih.length ≠ scales.length then .error .valueError
  else
    let half := Psih.map fun r => r.take (r.length / 2)
    findDownsamplingScale (fun i => groupTooDense 5 ((half.drop i).take 5)) half.length 5

/-- `scales[start::step]` for `step ≥ 1`. (ssqueezepy/utils/cwt_utils.py:359.) -/
def everyNth {α : Type} (l : List α) (start step : ℕ) : List α :=
  (List.range ((l.length - start + step - 1) / step)).filterMap fun i : ℕ => l[start + i * step]?

/-- The exponent range of `make_scales` — ssqueezepy/utils/cwt_utils.py:340-344: `na` and `mn_pow`.
`na` may be negative, in which case `np.arange` is empty. -/
noncomputable def scalePows (nv : ℕ) (mn mx : ℝ) : ℤ × ℤ :=
  (⌈(nv : ℝ) * Real.logb 2 (mx / mn)⌉, ⌊(nv : ℝ) * Real.logb 2 mn⌋)

/-- `2 ** (np.arange(mn_pow, mx_pow) / nv)` — ssqueezepy/utils/cwt_utils.py:348, 351. -/
noncomputable def logScales (nv : ℕ) (na mnPow : ℤ) : List ℝ :=
  (List.range na.toNat).map fun i : ℕ => (2 : ℝ) ^ (((mnPow + (i : ℤ) : ℤ) : ℝ) / nv)

/-- `np.linspace(a, b, n)`. (ssqueezepy/utils/cwt_utils.py:366.) -/
noncomputable def linspace (a b : ℝ) (n : ℕ) : List ℝ :=
  (List.range n).map fun i : ℕ => a + i * ((b - a) / (n - 1 : ℕ))

/-- `make_scales` — ssqueezepy/utils/cwt_utils.py:301-372. `min_scale or 1`: `None` and `0` both mean 1.
`downsample` is `int(gdefaults(...))`; a step of 0 is a `ValueError`. `nv ≥ 1`, `min, max > 0`
assumed (otherwise numpy produces NaN). -/
noncomputable def makeScales (N : ℕ) (mn mx : Option ℝ) (nv : ℕ) (st : ScaleTypeArg)
    (wv : Option ScaleWavelet) (downsample : ℕ) : Py (List ℝ) := do
  let isPw : Bool := match st with | .known .logPiecewise => true | _ => false
  if isPw && wv.isNone then throw .valueError
  let orD (o : Option ℝ) (d : ℝ) : ℝ := match o with
    | none => d
    | some x => if x = 0 then d else x
  let (mn, mx) ← match mn, mx, wv with
    | none, none, some wv => cwtScalebounds wv N none none none none true
    | _, _, _ => pure (orD mn 1, orD mx N)
  let (na, mnPow) := scalePows nv mn mx
  match st with
  | .known .log => return logScales nv na mnPow
  | .known .logPiecewise =>
    let scales := logScales nv na mnPow
    match wv with
    | none => throw .valueError
    | some wv =>
      match ← findDownsampling wv scales with
      | none => return scales
      | some idx =>
        if downsample = 0 then throw .valueError
        return scales.take idx ++ everyNth scales (idx + downsample - 1) downsample
  | .known .linear =>
    let lo : ℝ := (2 : ℝ) ^ ((mnPow : ℝ) / nv)
    let hi : ℝ := (2 : ℝ) ^ (((mnPow + na : ℤ) : ℝ) / nv)
    return linspace lo hi ⌈hi / lo⌉.toNat
  | .other => throw .valueError

/-! ## Inferring the scale type -/

/-- Element type of an array of scales. (ssqueezepy/utils/cwt_utils.py:264-299.) -/
inductive FDtype
  | f64
  | f32
  | other
  deriving DecidableEq

/-- `th_log` — ssqueezepy/utils/cwt_utils.py:277. -/
noncomputable def thLog : FDtype → ℝ
  | .f64 => 4 / 10 ^ 15
  | _ => 8 / 10 ^ 7

/-- Threshold of `logscale_transition_idx` — ssqueezepy/utils/cwt_utils.py:385. -/
noncomputable def thTr : FDtype → ℝ
  | .f64 => 1 / 10 ^ 14
  | _ => 1 / 10 ^ 6

/-- The inferred number of voices: none, an integer, or one value per scale. (ssqueezepy/utils/cwt_utils.py:397-410.) -/
inductive Nv
  | none
  | int (n : ℤ)
  | arr (l : List ℝ)

/-- `nv_from_scales` — ssqueezepy/utils/cwt_utils.py:397-409, for at least three positive scales without
equal neighbours. -/
noncomputable def nvFromScales (th : ℝ) (v : List ℝ) : Py (List ℝ) := do
  let ld : List ℝ := (List.range (v.length - 1)).map fun i : ℕ =>
    1 / (Real.logb 2 (v.getD (i + 1) 1) - Real.logb 2 (v.getD i 1))
  let nv := ld.take 1 ++ ld
  let idx ← logscaleTransitionIdx th v
  match idx with
  | some idx =>
    let d := (List.range (nv.length - 1)).map fun i : ℕ => |nv.getD (i + 1) 0 - nv.getD i 0|
    if argmaxL d + 1 = idx then return nv else throw .assertionError
  | none => return nv

/-- `infer_scaletype` — ssqueezepy/utils/cwt_utils.py:264-298. The logarithm of a non-positive element is
NaN or `-inf`, which makes the mean NaN or `inf` and the first test false. Arrays with a non-positive
element that are not linear are outside the model (numpy goes on with NaN); they are given the error
`exception` here, and no theorem speaks about them. Fewer than three elements: both means are NaN,
then `np.argmax` of an empty array raises `ValueError`. A constant array makes `1/0 = inf`, and
`int(inf)` raises `OverflowError` (`exception`). -/
noncomputable def inferScaletype (dt : FDtype) (v : List ℝ) : Py (ScaleType × Nv) :=
  if dt = .other then .error .typeError
  else if v.length < 3 then .error .valueError
  else
    open Classical in
    if (∀ x ∈ v, 0 < x) ∧ meanAbsDiff2 (v.map Real.log) < thLog dt then
      let d := Real.logb 2 (v.getD 1 1) - Real.logb 2 (v.getD 0 1)
      if d = 0 then .error .exception
      else .ok (.log, .int (roundHalfEven (1 / d)))
    else if meanAbsDiff2 v < thLog dt * 1000 then .ok (.linear, .none)
    else if ¬ (∀ x ∈ v, 0 < x) then .error .exception
    else do
      match ← logscaleTransitionIdx (thTr dt) v with
      | none => throw .valueError
      | some _ =>
        let nv ← nvFromScales (thTr dt) v
        return (.logPiecewise, .arr nv)

/-! ## Processing the `scales` argument -/

/-- The `scales` argument: a string, an array (shape, dtype, elements in C order), or something
else. (ssqueezepy/utils/cwt_utils.py:196-262.) -/
inductive ScalesArg
  | str (s : List Char)
  | arr (shape : List ℕ) (dt : FDtype) (v : List ℝ)
  | other

/-- Names of the scale types. (ssqueezepy/utils/cwt_utils.py:207-262.) -/
def scaleTypeOfName (s : List Char) : Option ScaleType :=
  if s = "log".toList then some .log
  else if s = "log-piecewise".toList then some .logPiecewise
  else if s = "linear".toList then some .linear
  else none

/-- Names of the presets. (ssqueezepy/utils/cwt_utils.py:126-159, 207-216.) -/
def presetOfName (s : List Char) : Option Preset :=
  if s = "maximal".toList then some .maximal
  else if s = "minimal".toList then some .minimal
  else if s = "naive".toList then some .naive
  else none

/-- `':' in scales` / `scales.split(':')` — ssqueezepy/utils/cwt_utils.py:208-213. More than one colon
fails to unpack (`ValueError`). -/
def splitScalesStr (s : List Char) : Py (List Char × Option (List Char)) :=
  if ':' ∈ s then
    match s.splitOn ':' with
    | [a, b] => .ok (a, some b)
    | _ => .error .valueError
  else if s = "log-piecewise".toList then .ok (s, some "maximal".toList)
  else .ok (s, none)

/-- The string case of `_process_args` — ssqueezepy/utils/cwt_utils.py:208-223. The preset is returned
unchecked (`cwt_scalebounds` checks it). -/
def parseScalesStr (s : List Char) : Py (ScaleType × Option (List Char)) := do
  let r ← splitScalesStr s
  match scaleTypeOfName r.1 with
  | none => .error .valueError
  | some st => .ok (st, r.2)

/-- `assert_is_one_of(preset, 'preset', ...)` in `cwt_scalebounds` —
ssqueezepy/utils/cwt_utils.py:130-131. -/
def checkPreset : Option (List Char) → Py (Option Preset)
  | none => .ok none
  | some p => match presetOfName p with
    | some p => .ok (some p)
    | none => .error .valueError

/-- `_assert_positive_integer` and `int(nv)` — ssqueezepy/utils/cwt_utils.py:191-193, 239-241. -/
def positiveInteger (q : ℚ) : Py ℕ :=
  if 0 < q ∧ q.den = 1 then .ok q.num.toNat else .error .valueError

/-- `process_scales` with `get_params=True` — ssqueezepy/utils/cwt_utils.py:196-261. Returns
`(scales, scaletype, na, nv)`. `nv = none` is `None`. An array's `squeeze().ndim` is its number of axes
of length other than 1. -/
noncomputable def processScales (scales : ScalesArg) (N : ℕ) (wv : Option ScaleWavelet)
    (nv : Option ℚ) (usePaddedN : Bool) (downsample : ℕ) :
    Py (List ℝ × ScaleType × ℕ × Nv) :=
  match scales with
  | .str s => do
    let (st, preset) ← parseScalesStr s
    match wv with
    | none => throw .valueError
    | some wv =>
      let nv ← positiveInteger (nv.getD 32)
      let preset ← checkPreset preset
      let (mn, mx) ← cwtScalebounds wv N preset none none none usePaddedN
      let sc ← makeScales N (some mn) (some mx) nv (.known st) (some wv) downsample
      return (sc, st, sc.length, .int nv)
  | .arr shape dt v =>
    if (shape.filter (· ≠ 1)).length ≠ 1 then .error .valueError
    else do
      let (st, nvI) ← inferScaletype dt v
      match st, nvI with
      | .log, .int n =>
        if nv ≠ none ∧ nv ≠ some (n : ℚ) then .error .exception
        else do
          let m ← positiveInteger n
          return (v, st, v.length, .int m)
      | .logPiecewise, nvI => return (v, st, v.length, nvI)
      | _, _ =>
        match nv with
        | none => return (v, st, v.length, .none)
        | some q =>
          let m ← positiveInteger q
          return (v, st, v.length, .int m)
  | .other => .error .typeError

end Ssq
