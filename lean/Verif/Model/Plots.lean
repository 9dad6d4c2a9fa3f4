import Verif.Model.Py
import Verif.Model.Scales
import Verif.Model.Xifn
import Mathlib.Analysis.Complex.Norm
import Mathlib.Data.List.MinMax

/-!
# Plotting helpers — ssqueezepy/visuals.py, ssqueezepy/toolkit.py

What is handed to matplotlib, as data. Of matplotlib this is assumed: `plt.subplots(1, 1)` returns one `Axes`, other shapes an array of
`Axes` in row-major order, and an empty shape is refused; an array of `Axes` has no `set_…` or `spines` attributes, and has no truth value; the limits of
an axis follow the data with a margin of 5% on each side until `set_xlim` is called, and are left alone from then on.
-/
namespace Ssq

/-! ## plots -/

/-- `nrows`, `ncols` of `plots` for `n` entries in `X` — ssqueezepy/visuals.py:814-819. -/
def plotsGrid (n : ℕ) (nrows ncols : Option ℕ) : Py (ℕ × ℕ) :=
  match nrows, ncols with
  | none, none => .ok (n, 1)
  | none, some c => if c = 0 then .error .zeroDivisionError else .ok (max (n / c) 1, c)
  | some r, none => if r = 0 then .error .zeroDivisionError else .ok (r, max (n / r) 1)
  | some r, some c => .ok (r, c)

/-- `plots(X, Y, nrows, ncols, pkw)` for `X`, `Y` that are lists or `None`, none of whose entries is a list: the calls of `plot`, as
(number of the axes, x, y, keywords) — ssqueezepy/visuals.py:808-847. `skw` is not given. -/
def plots {α κ : Type} (X : List (Option α)) (Y : Option (List (Option α))) (nrows ncols : Option ℕ) (empty : κ) (pkw : List κ) :
    Py (List (ℕ × Option α × Option α × κ)) :=
  let Y := Y.getD [none]
  let pkw := if pkw.isEmpty then List.replicate X.length empty else pkw
  (plotsGrid X.length nrows ncols).bind fun g =>
    if g.1 = 0 ∨ g.2 = 0 then .error .valueError
    else if g.1 = 1 ∧ g.2 = 1 then .error .attributeError
    else .ok ((List.range (g.1 * g.2)).zip (X.zip (Y.zip pkw)))

/-! ## _ticks -/

/-- `np.linspace(0, n - 1, 8).astype('int32')` in exact arithmetic, for `n ≥ 1` — ssqueezepy/visuals.py:961, 969. -/
def tickIdxs (n : ℕ) : List ℕ := (List.range 8).map fun k => k * (n - 1) / 7

/-- The tick positions and the values that label them; the labels are these values formatted. Without values, the last index is -1 and
numpy refuses to take element 0 — ssqueezepy/visuals.py:957-972. -/
def ticks {α : Type} (values : List α) : Py (List (ℕ × α)) :=
  if values = [] then .error .indexError
  else .ok ((tickIdxs values.length).filterMap fun i => values[i]?.map fun v => (i, v))

/-! ## x-limits -/

/-- An axis: the least and greatest x of all curves, and the limits if they were set. (ssqueezepy/visuals.py:990-1009.) -/
structure XAxis where
  data : Option (ℝ × ℝ)
  set : Option (ℝ × ℝ)

/-- `ax.get_xlim()`. (ssqueezepy/visuals.py:996.) -/
noncomputable def XAxis.lims (a : XAxis) : ℝ × ℝ :=
  match a.set with
  | some l => l
  | none => match a.data with
    | some (lo, hi) => (lo - 0.05 * (hi - lo), hi + 0.05 * (hi - lo))
    | none => (0, 1)

/-- `ax.plot` with x from `lo` to `hi`. (ssqueezepy/visuals.py:718-792.) -/
noncomputable def XAxis.draw (a : XAxis) (lo hi : ℝ) : XAxis :=
  { a with data := match a.data with
      | some (l, h) => some (min l lo, max h hi)
      | none => some (lo, hi) }

/-- The x limits `_scale_plot` sets, from those there are; `none` if it sets none — ssqueezepy/visuals.py:993-998. -/
noncomputable def scaleX (l : ℝ × ℝ) (xlims : Option (ℝ × ℝ)) (auto : Bool) : Option (ℝ × ℝ) :=
  match xlims with
  | some l => some l
  | none => if auto then some (l.1 + 0.018 * (l.2 - l.1), l.2 - 0.018 * (l.2 - l.1)) else none

/-- `plot(x, y, xlims=xlims, auto_xlims=auto)` on an axis, as far as its x limits are concerned: the curve, then `_scale_plot` —
ssqueezepy/visuals.py:766, 790-792, 993-998, 1006-1007. -/
noncomputable def plotX (a : XAxis) (lo hi : ℝ) (xlims : Option (ℝ × ℝ)) (auto : Bool := true) : XAxis :=
  let a := a.draw lo hi
  match scaleX a.lims xlims auto with
  | some l => { a with set := some l }
  | none => a

/-- The limits `_scale_plot` leaves, from the x and y limits there were; the limits asked for can be partial in y (`(0, None)`, ssqueezepy/visuals.py:775-776). With `ax_equal`
it uses `xmin, xmax`, which it has read only if it made the x limits itself — ssqueezepy/visuals.py:990-1009. -/
noncomputable def scalePlot (xl yl : ℝ × ℝ) (xlims : Option (ℝ × ℝ)) (ylims : Option (Option ℝ × Option ℝ)) (auto equal : Bool) : Py ((ℝ × ℝ) × (ℝ × ℝ)) :=
  let x1 := (scaleX xl xlims auto).getD xl
  let yset (y : ℝ × ℝ) : ℝ × ℝ := match ylims with
    | some (a, b) => (a.getD y.1, b.getD y.2)
    | none => y
  if equal then
    if xlims.isNone ∧ auto = true then
      let mx := max (max |yl.1| |yl.2|) (max |xl.1| |xl.2|)
      .ok ((-mx, mx), yset (-mx, mx))
    else .error .unboundLocalError
  else .ok (x1, yset yl)

/-! ## imshow -/

/-- The arguments of `imshow` that matter here. (ssqueezepy/visuals.py:635-640.) -/
structure ImArgs where
  norm : Option (ℝ × ℝ) := none
  normScaling : ℝ := 1
  abs : Bool := false
  complex : Bool := false
  ridge : Bool := false
  ticks : Bool := true
  hasTicks : Bool := false  -- `xticks` or `yticks` is given
  borders : Bool := true
  hasLabel : Bool := false  -- `xlabel` or `ylabel` is given
  hasTitle : Bool := false

/-- The greatest modulus, `np.max(np.abs(data))` — ssqueezepy/visuals.py:661. -/
noncomputable def maxAbs (data : List (List ℂ)) : Py ℝ :=
  match (data.flatten.map fun z => ‖z‖).max? with
  | some m => .ok m
  | none => .error .valueError

/-- `vmin`, `vmax` — ssqueezepy/visuals.py:660-667. -/
noncomputable def imNorm (data : List (List ℂ)) (a : ImArgs) : Py (ℝ × ℝ) :=
  match a.norm with
  | some l => .ok (l.1 * a.normScaling, l.2 * a.normScaling)
  | none => (maxAbs data).bind fun mx => .ok ((if a.abs then 0 else -mx) * a.normScaling, mx * a.normScaling)

/-- What an image needs of its axes after the data: everything but the data is refused by the pair of axes of `complex` —
ssqueezepy/visuals.py:692-713, 984. -/
def imStyle (a : ImArgs) : Py Unit :=
  if a.complex = true ∧ (a.ridge = true ∨ a.ticks = false ∨ a.hasTicks = true ∨ a.borders = false ∨ a.hasLabel = true) then .error .attributeError
  else if a.complex = true ∧ a.hasTitle = true then .error .valueError
  else .ok ()

/-- `imshow`: colour limits and the panels drawn — ssqueezepy/visuals.py:635-715. -/
noncomputable def imshow (data : List (List ℂ)) (a : ImArgs) : Py ((ℝ × ℝ) × List (List (List ℝ))) :=
  (imNorm data a).bind fun lims =>
    Except.bind (ε := PyErr) (α := List (List (List ℝ))) (if a.abs then
      if a.complex then .error .attributeError else .ok [data.map fun r => r.map fun z => ‖z‖]
    else if a.complex then .ok [data.map fun r => r.map Complex.re, data.map fun r => r.map Complex.im]
    else .ok [data.map fun r => r.map Complex.re]) fun panels =>
      (imStyle a).bind fun _ => .ok (lims, panels)

/-! ## frequency axes

Points of a curve in the frequency domain as (x of the plot, frequency at which the wavelet was sampled), both in radians per sample. -/

/-- `wavelet_filterbank(positives=False)`: rows `[:N//2]` of the transposed filter bank against `np.linspace(0, np.pi, N//2)` —
ssqueezepy/visuals.py:549, 563-565. -/
noncomputable def filterbankAxis (N : ℕ) : List (ℝ × ℝ) := (linspace 0 Real.pi (N / 2)).zip ((xifn 1 N).take (N / 2))

/-- `wavelet_tf`: `psihg[::-1]` against `w = _xifn(1, N)[:N//2 + 1]`, whose ticks are labelled `pi` at 0 down to 0 at `pi` —
ssqueezepy/visuals.py:54-55, 88, 99-100. -/
noncomputable def tfAxis (N : ℕ) : List (ℝ × ℝ) :=
  (((xifn 1 N).take (N / 2 + 1)).map fun w => Real.pi - w).zip ((xifn 1 N).take (N / 2 + 1)).reverse

/-- `wavelet_waveforms`: sampled at `w_dt = np.linspace(0, np.pi, N//2) * scale`, against `w_dt * (np.pi / w_dt.max())` —
ssqueezepy/visuals.py:426, 448-450. -/
noncomputable def waveformsAxis (N : ℕ) (scale : ℝ) : List (ℝ × ℝ) :=
  let wdt := (linspace 0 Real.pi (N / 2)).map fun w => w * scale
  (wdt.map fun w => w * (Real.pi / wdt.getD (N / 2 - 1) 0)).zip (wdt.map fun w => w / scale)

/-- `viz_gmw_orders(N)`: the wavelet's default length 1024, cut to `N//2 + 1` samples, against `np.linspace(0, np.pi, N//2 + 1)`; matplotlib refuses
different lengths — ssqueezepy/visuals.py:617-619, 625. -/
noncomputable def gmwOrdersAxis (N : ℕ) : Py (List (ℝ × ℝ)) :=
  if (N / 2 + 1) ≤ 1024 then .ok ((linspace 0 Real.pi (N / 2 + 1)).zip ((xifn 1 1024).take (N / 2 + 1)))
  else .error .valueError

/-! ## lin_band -/

/-- `astype('int32')` of a float: towards zero (overflow is not modelled). (ssqueezepy/toolkit.py:7-20.) -/
noncomputable def toInt (x : ℝ) : ℤ := if x < 0 then ⌈x⌉ else ⌊x⌋

/-- `lin_band(Tx, slope, offset, bw)` for `Tx` of shape `(na, N)`: `Cs` and `freqband` — ssqueezepy/toolkit.py:7-20. -/
noncomputable def linBand (na N : ℕ) (slope offset bw : ℝ) : List ℤ × List ℤ :=
  let Cs := (linspace 0 1 N).map fun t => slope * (t + offset) * na
  let freqband := List.replicate N (bw * na * 1)
  (Cs.map toInt, freqband.map toInt)

end Ssq
