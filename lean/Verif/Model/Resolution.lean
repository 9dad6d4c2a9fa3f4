import Verif.Model.Wavelets
import Verif.Model.Shift

/-!
# Center frequency and frequency resolution, and their cached values — ssqueezepy/wavelets.py

Exact reals. `find_maximum(wavelet.fn)`, which does not depend on `N`, is a parameter `peakCt`.
-/
namespace Ssq

/-- `integrate.trapezoid(y)`. (ssqueezepy/wavelets.py:707-708.) -/
noncomputable def trapz (y : List ℝ) : ℝ :=
  ((List.range (y.length - 1)).map fun i : ℕ => (y.getD i 0 + y.getD (i + 1) 0) / 2).sum

/-- `integrate.trapezoid(y, x)`. (ssqueezepy/wavelets.py:798-799.) -/
noncomputable def trapzX (y x : List ℝ) : ℝ :=
  ((List.range (y.length - 1)).map fun i : ℕ =>
    (x.getD (i + 1) 0 - x.getD i 0) * ((y.getD i 0 + y.getD (i + 1) 0) / 2)).sum

/-- `aifftshift(_xifn(1, N))` — ssqueezepy/wavelets.py:693, 793. -/
noncomputable def shiftedXi (N : ℕ) : List ℝ := aifftshift (xifn 1 N)

/-- `np.abs(wavelet(scale * w))**2` — ssqueezepy/wavelets.py:694-695, 794-797. -/
noncomputable def apsih2 (f : WFn) (scale : ℝ) (w : List ℝ) : List ℝ :=
  (waveletAt f (w.map fun x => scale * x) (some (1 / 10 ^ 8))).map Complex.normSq

/-- `trapezoid(apsih2 * w) / trapezoid(apsih2)` — ssqueezepy/wavelets.py:707-708. -/
noncomputable def energyMean (f : WFn) (scale : ℝ) (N : ℕ) : ℝ :=
  trapz (List.zipWith (· * ·) (apsih2 f scale (shiftedXi N)) (shiftedXi N)) / trapz (apsih2 f scale (shiftedXi N))

/-- `_energy_wc` — ssqueezepy/wavelets.py:699-712. -/
noncomputable def energyWc (f : WFn) (peakCt scale : ℝ) (N : ℕ) (forceInt : Bool) : ℝ :=
  if forceInt then energyMean f scale N
  else
    let sc := 4 / Real.pi * peakCt
    energyMean f sc N * (sc / scale)

/-- `center_frequency(wavelet, scale, N, kind='energy', force_int)` — ssqueezepy/wavelets.py:726-741. `force_int or True`
on line 740. -/
noncomputable def centerEnergy (f : WFn) (peakCt : ℝ) (scale : Option ℝ) (N : ℕ) (forceInt : Option Bool) : ℝ :=
  let fi : Bool := forceInt.getD false || true
  energyWc f peakCt (scale.getD (4 / Real.pi * peakCt)) N fi

/-- `freq_resolution(wavelet, scale, N, nondim=False)` with `force_int=True` — ssqueezepy/wavelets.py:785-810: the mean is
asked for without `N`, which is then 1024. -/
noncomputable def freqResolution (f : WFn) (peakCt scale : ℝ) (N : ℕ) : ℝ :=
  let w := shiftedXi N
  let wce := centerEnergy f peakCt (some scale) 1024 (some true)
  Real.sqrt (trapzX (List.zipWith (fun x p => (x - wce) ^ 2 * p) w (apsih2 f scale w)) w /
    trapzX (apsih2 f scale w) w)

/-! ## Cached time-frequency properties -/

/-- `Wavelet.TF_PROPS` — ssqueezepy/wavelets.py:51-52. -/
inductive TfProp
  | wc
  | wcCt
  | scalecCt
  | stdT
  | stdW
  | stdTd
  | stdWd
  deriving DecidableEq

/-- The functions behind the properties: the continuous-time peak (no `N`), and four functions of `scale` and `N`. (ssqueezepy/wavelets.py:211-296.) -/
structure TfFns where
  peakCt : ℝ
  wc : ℝ → ℕ → ℝ
  stdT : ℝ → ℕ → ℝ
  stdW : ℝ → ℕ → ℝ
  stdTd : ℝ → ℕ → ℝ
  stdWd : ℝ → ℕ → ℝ

/-- A wavelet's length and the attributes `_wc`, `_wc_ct`, … (`none`: not set, or `None`). (ssqueezepy/wavelets.py:211-296, 335-341.) -/
structure TfSt where
  N : ℕ
  vals : TfProp → Option ℝ := fun _ => none

/-- Setting one attribute. (ssqueezepy/wavelets.py:211-296.) -/
def TfSt.put (s : TfSt) (p : TfProp) (v : Option ℝ) : TfSt := { s with vals := Function.update s.vals p v }

/-- `if getattr(self, '_name', None) is None: self._name = …; return self._name` — ssqueezepy/wavelets.py:212-293. -/
def TfSt.memo (s : TfSt) (p : TfProp) (compute : TfSt → TfSt × ℝ) : TfSt × ℝ :=
  match s.vals p with
  | some v => (s, v)
  | none =>
    let r := compute s
    (r.1.put p (some r.2), r.2)

/-- `wavelet.wc_ct` — ssqueezepy/wavelets.py:227-238. -/
noncomputable def getWcCt (F : TfFns) (s : TfSt) : TfSt × ℝ := s.memo .wcCt fun s => (s, F.peakCt)

/-- `wavelet.scalec_ct` — ssqueezepy/wavelets.py:240-247. -/
noncomputable def getScalecCt (F : TfFns) (s : TfSt) : TfSt × ℝ :=
  s.memo .scalecCt fun s => let r := getWcCt F s; (r.1, 4 / Real.pi * r.2)

/-- A property computed at `scale=self.scalec_ct, N=self.N`. (ssqueezepy/wavelets.py:250-296.) -/
noncomputable def getAtScale (F : TfFns) (p : TfProp) (g : ℝ → ℕ → ℝ) (s : TfSt) : TfSt × ℝ :=
  s.memo p fun s => let r := getScalecCt F s; (r.1, g r.2 r.1.N)

/-- Reading any of the properties — ssqueezepy/wavelets.py:212-293. -/
noncomputable def tfGet (F : TfFns) : TfProp → TfSt → TfSt × ℝ
  | .wc => getAtScale F .wc F.wc
  | .wcCt => getWcCt F
  | .scalecCt => getScalecCt F
  | .stdT => getAtScale F .stdT F.stdT
  | .stdW => getAtScale F .stdW F.stdW
  | .stdTd => getAtScale F .stdTd F.stdTd
  | .stdWd => getAtScale F .stdWd F.stdWd

/-- `reset_properties` — ssqueezepy/wavelets.py:336-342. `TF_PROPS` is a set: its iteration order is arbitrary. -/
noncomputable def tfReset (F : TfFns) (order : List TfProp) (s : TfSt) : TfSt :=
  order.foldl (fun s p => (tfGet F p (s.put p none)).1) s

/-- What a program does with a wavelet. (ssqueezepy/wavelets.py:163-172, 211-296, 335-341.) -/
inductive TfStep
  | setN (n : ℕ)
  | get (p : TfProp)
  | reset (order : List TfProp)

/-- One step. (ssqueezepy/wavelets.py:163-172, 211-296, 335-341.) -/
noncomputable def tfStep (F : TfFns) (s : TfSt) : TfStep → TfSt
  | .setN n => { s with N := n }
  | .get p => (tfGet F p s).1
  | .reset order => tfReset F order s

/-- A program. (ssqueezepy/wavelets.py:163-172, 211-296, 335-341.) -/
noncomputable def tfRun (F : TfFns) (s : TfSt) (h : List TfStep) : TfSt := h.foldl (tfStep F) s

end Ssq
