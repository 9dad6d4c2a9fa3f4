import Verif.Model.Common
import Verif.Model.Dft
import Verif.Model.Xifn
import Verif.Model.Scales

/-!
# Model of `cwt` and `icwt` — ssqueezepy/_cwt.py

Exact reals. The input is a finite real signal (`x` is cast to the wavelet's real dtype:
ssqueezepy/_cwt.py:249-252), so the NaN branch of `nan_checks` is not taken. Caching of the
sampled wavelets is modelled in `Verif/Model/Cache.lean`; here they are computed anew.
-/
namespace Ssq
open Complex

/-! ## Sampling a wavelet -/

/-- A frequency-domain wavelet function, applied elementwise, with real or complex output dtype. (ssqueezepy/wavelets.py:62-84.) -/
inductive WFn
  | real (f : ℝ → ℝ)
  | cplx (f : ℝ → ℂ)

/-- Value at one frequency. (ssqueezepy/wavelets.py:62-84.) -/
def WFn.eval : WFn → ℝ → ℂ
  | .real f, w => ((f w : ℝ) : ℂ)
  | .cplx f, w => f w

/-- `self.fn(self.xifn(scale, N))`, one row — ssqueezepy/wavelets.py:74-77, 128-133. -/
noncomputable def sampleRow (f : WFn) (N : ℕ) (scale : ℝ) : List ℂ :=
  (xifn 1 N).map fun w : ℝ => f.eval (scale * w)

/-- `_halve_nyquist` — ssqueezepy/wavelets.py:87-96 (one row). -/
noncomputable def halveNyquist (psih : List ℂ) : List ℂ :=
  if psih.length % 2 = 0 then psih.set (psih.length / 2) (psih.getD (psih.length / 2) 0 / 2)
  else psih

/-- `psih.imag.sum() / psih.real.sum() < imag_th` with the default `imag_th=1e-8` —
ssqueezepy/wavelets.py:81-83. A zero denominator gives `-inf`, `nan` or `inf`. -/
def ImagSmall (im re : ℝ) : Prop := if re = 0 then im < 0 else im / re < 1 / 10 ^ 8

open Classical in
/-- The imaginary part of a complex output is dropped if its sum is small —
ssqueezepy/wavelets.py:81-84. The sum runs over all rows. -/
noncomputable def dropImag (f : WFn) (rows : List (List ℂ)) : List (List ℂ) :=
  match f with
  | .real _ => rows
  | .cplx _ =>
    if ImagSmall (rows.flatten.map fun z : ℂ => z.im).sum (rows.flatten.map fun z : ℂ => z.re).sum
    then rows.map fun r => r.map fun z : ℂ => ((z.re : ℝ) : ℂ)
    else rows

/-- `wavelet(scale=scales, nohalf=False)` — ssqueezepy/wavelets.py:62-85. -/
noncomputable def psihCall (f : WFn) (N : ℕ) (scales : List ℝ) : List (List ℂ) :=
  dropImag f (scales.map fun s => halveNyquist (sampleRow f N s))

/-! ## `cwt` -/

/-- What `cwt` uses of its `wavelet` argument: the function, the scale routines, and, for a `Wavelet`
instance that is a GMW, whether it is L1-normed (`some true`, named 'GMW L1') or not. (ssqueezepy/_cwt.py:167-199, 201-240.) -/
structure CwtWavelet where
  fn : WFn
  sw : ScaleWavelet
  gmw : Option Bool := none

/-- `_process_gmw_wavelet` for instances — ssqueezepy/_cwt.py:509-513. -/
def checkGmw (gmw : Option Bool) (l1Norm : Bool) : Py Unit :=
  match gmw with
  | some b => if b = l1Norm then .ok () else .error .valueError
  | none => .ok ()

/-- `ifft(psih * xh)`. (ssqueezepy/_cwt.py:167-199.) -/
noncomputable def convRow (psih xh : List ℂ) : List ℂ :=
  ifftL (List.zipWith (fun a b : ℂ => a * b) psih xh)

/-- Vectorised derivative: `Psih_xh *= (1j * wavelet.xi / dt)` then `ifft` —
ssqueezepy/_cwt.py:174-176. -/
noncomputable def dConvVec (dt : ℝ) (psih xh : List ℂ) : List ℂ :=
  ifftL (List.zipWith (fun (p : ℂ) (w : ℝ) => p * (I * (w : ℂ) / (dt : ℂ)))
    (List.zipWith (fun a b : ℂ => a * b) psih xh) (xifn 1 xh.length))

/-- Looped derivative: `dpsih = (1j * wavelet.xi / dt) * psih`, `ifft(dpsih * xh)` —
ssqueezepy/_cwt.py:199-201. -/
noncomputable def dConvLoop (dt : ℝ) (psih xh : List ℂ) : List ℂ :=
  ifftL (List.zipWith (fun a b : ℂ => a * b)
    (List.zipWith (fun (w : ℝ) (p : ℂ) => (I * (w : ℂ) / (dt : ℂ)) * p) (xifn 1 xh.length) psih) xh)

/-- `_vectorized` — ssqueezepy/_cwt.py:168-179. -/
noncomputable def cwtVectorized (f : WFn) (dt : ℝ) (scales : List ℝ) (xh : List ℂ) :
    List (List ℂ) × List (List ℂ) :=
  let Psih := psihCall f xh.length scales
  (Psih.map fun p => convRow p xh, Psih.map fun p => dConvVec dt p xh)

/-- The single row `wavelet(scale=scale, nohalf=False)` of the loop. (ssqueezepy/_cwt.py:179-199.) -/
noncomputable def psihOne (f : WFn) (N : ℕ) (scale : ℝ) : List ℂ := (psihCall f N [scale]).getD 0 []

/-- `_for_loop` — ssqueezepy/_cwt.py:181-202. -/
noncomputable def cwtLoop (f : WFn) (dt : ℝ) (scales : List ℝ) (xh : List ℂ) :
    List (List ℂ) × List (List ℂ) :=
  (scales.map fun s => convRow (psihOne f xh.length s) xh,
   scales.map fun s => dConvLoop dt (psihOne f xh.length s) xh)

/-- Arguments of `cwt` for `order=0`. `padtype = none` is `None`. (ssqueezepy/_cwt.py:12-15.) -/
structure CwtArgs where
  wavelet : CwtWavelet
  scales : ScalesArg
  fs : Option ℝ := none
  t : Option (List ℝ) := none
  nv : Option ℚ := none
  l1Norm : Bool := true
  padtype : Option String := some "reflect"
  rpadded : Bool := false
  vectorized : Bool := true
  downsample : ℕ := 4

/-- `if not isinstance(scales, str): nv = None` — ssqueezepy/_cwt.py:228-229. -/
def cwtNv (a : CwtArgs) : Option ℚ :=
  match a.scales with
  | .str _ => a.nv
  | _ => none

/-- Padding — ssqueezepy/_cwt.py:255-260: the padded signal and the slice to keep. -/
noncomputable def cwtPad (x : List ℝ) : Option String → Py (List ℝ × ℤ)
  | none => .ok (x, 0)
  | some s => do
    let r ← padsignal true x s none
    .ok (r.1, r.2.2.1)

/-- Unpadding — ssqueezepy/_cwt.py:294-301 (one row). -/
def cwtUnpad (a : CwtArgs) (n1 : ℤ) (N : ℕ) (row : List ℂ) : List ℂ :=
  if a.rpadded = false ∧ a.padtype.isSome then unpad row n1 N else row

/-- `Wx *= sqrt(scales)` — ssqueezepy/_cwt.py:308-312. -/
noncomputable def l2Scale (l1Norm : Bool) (scales : List ℝ) (rows : List (List ℂ)) : List (List ℂ) :=
  if l1Norm then rows
  else List.zipWith (fun (s : ℝ) r => r.map fun z : ℂ => z * ((Real.sqrt s : ℝ) : ℂ)) scales rows

/-- `dt` from `_process_fs_and_t`; an infinite rate is outside the model. (ssqueezepy/_cwt.py:201-240; ssqueezepy/utils/cwt_utils.py:698-725.) -/
noncomputable def cwtDt (fs : Option ℝ) (t : Option (List ℝ)) (N : ℕ) : Py (ℝ × ℝ) := do
  match ← processFsT fs t N with
  | .fin fs dt => .ok (fs, dt)
  | .infinite => .error .exception

/-- The part of `cwt` after argument processing, for one padded signal —
ssqueezepy/_cwt.py:263-312. -/
noncomputable def cwtRun (a : CwtArgs) (dt : ℝ) (scales : List ℝ) (N : ℕ) (xp : List ℝ) (n1 : ℤ) :
    List (List ℂ) × List (List ℂ) :=
  let xh := fftL (xp.map fun r : ℝ => (r : ℂ))
  let W := if a.vectorized then cwtVectorized a.wavelet.fn dt scales xh
    else cwtLoop a.wavelet.fn dt scales xh
  (l2Scale a.l1Norm scales (W.1.map (cwtUnpad a n1 N)),
   l2Scale a.l1Norm scales (W.2.map (cwtUnpad a n1 N)))

/-- `cwt(x, …, order=0, derivative=True)` for 1D `x` — ssqueezepy/_cwt.py:12-320. Returns
`(Wx, scales, dWx)`, the transforms as lists of rows. (`derivative=False` returns the same `Wx` and
`scales`.) -/
noncomputable def cwt (x : List ℝ) (a : CwtArgs) : Py (List (List ℂ) × List ℝ × List (List ℂ)) := do
  let r ← cwtDt a.fs a.t x.length
  checkGmw a.wavelet.gmw a.l1Norm
  let p ← cwtPad x a.padtype
  let sc ← processScales a.scales x.length (some a.wavelet.sw) (cwtNv a) true a.downsample
  let W := cwtRun a r.2 sc.1 x.length p.1 p.2
  .ok (W.1, sc.1, W.2)

/-- Padding of a 2D array with rows of length `N` — ssqueezepy/_cwt.py:255-260. -/
noncomputable def cwtPad2 (N : ℕ) (X : List (List ℝ)) : Option String → Py (List (List ℝ) × ℤ)
  | none => .ok (X, 0)
  | some s => do
    let r ← padsignal2 true N X s none
    .ok (r.1, r.2.2.1)

/-- `cwt` of a 2D array: the same scales and wavelet samples for every row, broadcast —
ssqueezepy/_cwt.py:271-272, 181-191. `N` is the common length. -/
noncomputable def cwt2 (N : ℕ) (X : List (List ℝ)) (a : CwtArgs) :
    Py (List (List (List ℂ)) × List ℝ × List (List (List ℂ))) := do
  let r ← cwtDt a.fs a.t N
  checkGmw a.wavelet.gmw a.l1Norm
  let p ← cwtPad2 N X a.padtype
  let sc ← processScales a.scales N (some a.wavelet.sw) (cwtNv a) true a.downsample
  .ok (p.1.map fun xp => (cwtRun a r.2 sc.1 N xp p.2).1, sc.1,
    p.1.map fun xp => (cwtRun a r.2 sc.1 N xp p.2).2)

/-! ## `icwt` -/

/-- Arguments of `icwt`. `admSsq`, `admCwt` are the admissibility constants the numerical integration
returns (assumed nonzero and real wherever values are concerned). `0` is falsy for `x_len`. (ssqueezepy/_cwt.py:323-326.) -/
structure IcwtArgs where
  wavelet : CwtWavelet
  admSsq : ℝ
  nv : Option ℚ := none
  xLen : Option ℕ := none
  xMean : ℝ := 0
  l1Norm : Bool := true
  downsample : ℕ := 4

/-- `_icwt_norm(scaletype, l1_norm)(scale)` — ssqueezepy/_cwt.py:485-494. `none` is the unbound
`norm`. -/
noncomputable def icwtNorm (st : ScaleType) (l1Norm : Bool) (s : ℝ) : Option ℝ :=
  if l1Norm then (if st = .log then some 1 else some s)
  else match st with
    | .log => some (Real.sqrt s)
    | .linear => some (s * Real.sqrt s)
    | .logPiecewise => none

/-- `_icwt_1int` — ssqueezepy/_cwt.py:479-482, for `n` columns. -/
noncomputable def icwt1int (n : ℕ) (Wx : List (List ℂ)) (scales : List ℝ) (st : ScaleType)
    (l1Norm : Bool) : List ℝ :=
  (List.range n).map fun j : ℕ =>
    (List.zipWith (fun (s : ℝ) (row : List ℂ) =>
      (row.getD j 0).re / (icwtNorm st l1Norm s).getD 0) scales Wx).sum

/-- The factor applied to the sum — ssqueezepy/_cwt.py:443-450. -/
noncomputable def icwtFactor (adm : ℝ) (st : ScaleType) (nv : Nv) : ℝ :=
  match st, nv with
  | .log, .int nv => (2 / adm) * Real.log ((2 : ℝ) ^ (1 / (nv : ℝ)))
  | _, _ => (2 / adm) * Real.pi / 4

/-- The inversion proper, one-integral — ssqueezepy/_cwt.py:430-453. -/
noncomputable def icwtLeaf (a : IcwtArgs) (n : ℕ) (Wx : List (List ℂ)) (scales : List ℝ)
    (st : ScaleType) (nv : Nv) : List ℝ :=
  (icwt1int n Wx scales st a.l1Norm).map fun v =>
    v * icwtFactor a.admSsq st nv + a.xMean

/-- `icwt` on an array of scales, recursively — ssqueezepy/_cwt.py:402-453 (`one_int=True`). The array is
float64 of shape `(n, 1)`. The last `else` cannot be reached: the transition index is inside the
array. -/
noncomputable def icwtArr (a : IcwtArgs) (n : ℕ) (Wx : List (List ℂ)) (scales : List ℝ) :
    Py (List ℝ) :=
  match processScales (.arr [scales.length, 1] .f64 scales) (orElseN a.xLen n) (some a.wavelet.sw)
      none true a.downsample with
  | .error e => .error e
  | .ok (_, st, _, nv) =>
    if scales.length ≠ Wx.length then .error .assertionError
    else if st = .logPiecewise then
      match logscaleTransitionIdx (thTr .f64) scales with
      | .error e => .error e
      | .ok none => .error .exception
      | .ok (some idx) =>
        if h : 0 < idx ∧ idx < scales.length then
          match icwtArr a n (Wx.take idx) (scales.take idx),
              icwtArr a n (Wx.drop idx) (scales.drop idx) with
          | .ok x, .ok y => .ok (List.zipWith (fun u v : ℝ => u + v) x y)
          | .error e, _ => .error e
          | _, .error e => .error e
        else .error .exception
    else .ok (icwtLeaf a n Wx scales st nv)
termination_by scales.length
decreasing_by
  · simp; omega
  · simp; omega
where
  /-- `x_len or n` -/
  orElseN (o : Option ℕ) (d : ℕ) : ℕ := match o with
    | none => d
    | some 0 => d
    | some k => k

/-- `icwt(Wx, wavelet, scales, …)`, one-integral, for 2D `Wx` with `n` columns —
ssqueezepy/_cwt.py:323-453. With `scales` a string the scale type is the one named, and the
default `nv` is 32. If 'log-piecewise' scales have no transition, `idx` is `None` and both halves are
the whole transform. -/
noncomputable def icwt (n : ℕ) (Wx : List (List ℂ)) (scales : ScalesArg) (a : IcwtArgs) :
    Py (List ℝ) := do
  checkGmw a.wavelet.gmw a.l1Norm
  match scales with
  | .arr _ _ _ =>
    let r ← processScales scales (icwtArr.orElseN a.xLen n) (some a.wavelet.sw) a.nv true a.downsample
    icwtTop a n Wx r
  | _ =>
    let r ← processScales scales (icwtArr.orElseN a.xLen n) (some a.wavelet.sw)
      (some (a.nv.getD 32)) true a.downsample
    icwtTop a n Wx r
where
  /-- After `process_scales` in the outermost call — ssqueezepy/_cwt.py:414-453. -/
  icwtTop (a : IcwtArgs) (n : ℕ) (Wx : List (List ℂ)) (r : List ℝ × ScaleType × ℕ × Nv) :
      Py (List ℝ) :=
    if r.1.length ≠ Wx.length then .error .assertionError
    else if r.2.1 = .logPiecewise then do
      match ← logscaleTransitionIdx (thTr .f64) r.1 with
      | none => do
        let x ← icwtArr a n Wx r.1
        let y ← icwtArr a n Wx r.1
        .ok (List.zipWith (fun u v : ℝ => u + v) x y)
      | some idx => do
        let x ← icwtArr a n (Wx.take idx) (r.1.take idx)
        let y ← icwtArr a n (Wx.drop idx) (r.1.drop idx)
        .ok (List.zipWith (fun u v : ℝ => u + v) x y)
    else .ok (icwtLeaf a n Wx r.1 r.2.1 r.2.2.2)

end Ssq
