import Verif.Model.Cwt

/-!
# Two-integral `icwt` — ssqueezepy/_cwt.py:323-477 with `one_int=False`

Exact reals; one transform (2D `Wx`).
-/
namespace Ssq
open Complex

/-- Arguments of `icwt(…, one_int=False)`: those of `IcwtArgs` (`admSsq` unused), the admissibility constant
`adm_cwt(wavelet)`, and `padtype`, `rpadded`. (ssqueezepy/_cwt.py:323-326, 456-476.) -/
structure Icwt2Args extends IcwtArgs where
  admCwt : ℝ
  padtype : Option String := some "reflect"
  rpadded : Bool := false

/-- `wavelet(scale=scale, N=n_up)` with the default `nohalf=True` — ssqueezepy/wavelets.py:62-85, one
row. -/
noncomputable def psihFull (f : WFn) (L : ℕ) (s : ℝ) : List ℂ :=
  (dropImag f [sampleRow f L s]).getD 0 []

/-- `psih * pn`, `pn = (-1)**np.arange(n_up)` — ssqueezepy/_cwt.py:463, 469. -/
noncomputable def timesPn (psih : List ℂ) : List ℂ :=
  psih.mapIdx fun k z => z * (-1) ^ k

/-- One iteration of the loop — ssqueezepy/_cwt.py:469-471:
`ifftshift(ifft(fft(Wx_scale) * psih)).real / norm(scale)`. -/
noncomputable def icwt2Row (f : WFn) (st : ScaleType) (l1 : Bool) (L : ℕ) (s : ℝ) (w : List ℂ) : List ℝ :=
  (ifftshiftL (ifftL (List.zipWith (fun a b : ℂ => a * b) (fftL w) (timesPn (psihFull f L s))))).map
    fun z : ℂ => z.re / (icwtNorm st l1 s).getD 0

/-- `_icwt_2int` — ssqueezepy/_cwt.py:454-475, for `n` columns. With `rpadded` the names `n_up`, `n1`
are never assigned. `padsignal` rejects `padtype=None`. -/
noncomputable def icwt2int (a : Icwt2Args) (n : ℕ) (Wx : List (List ℂ)) (scales : List ℝ) (st : ScaleType) :
    Py (List ℝ) :=
  if a.rpadded then .error .unboundLocalError
  else match a.padtype with
    | none => .error .valueError
    | some p => do
      let r ← padsignal2 true n Wx p none
      let rows := List.zipWith (icwt2Row a.wavelet.fn st a.l1Norm r.2.1.toNat) scales r.1
      let x := rows.foldl (fun acc row => List.zipWith (fun u v : ℝ => u + v) acc row)
        (List.replicate r.2.1.toNat 0)
      .ok (unpad x r.2.2.1 (icwtArr.orElseN a.xLen n))

/-- The inversion proper — ssqueezepy/_cwt.py:432-453. -/
noncomputable def icwt2Leaf (a : Icwt2Args) (n : ℕ) (Wx : List (List ℂ)) (scales : List ℝ)
    (st : ScaleType) (nv : Nv) : Py (List ℝ) := do
  let x ← icwt2int a n Wx scales st
  .ok (x.map fun v => v * icwtFactor a.admCwt st nv + a.xMean)

/-- After `process_scales`, for scales that are not piecewise — ssqueezepy/_cwt.py:417-453. -/
noncomputable def icwt2Top (a : Icwt2Args) (n : ℕ) (Wx : List (List ℂ))
    (r : List ℝ × ScaleType × ℕ × Nv) : Py (List ℝ) :=
  if r.1.length ≠ Wx.length then .error .assertionError
  else icwt2Leaf a n Wx r.1 r.2.1 r.2.2.2

/-- The recursion over piecewise scales — ssqueezepy/_cwt.py:402-453: each recursive call receives an array
(without `nv`), which is split again if still piecewise. -/
noncomputable def icwt2Arr (a : Icwt2Args) (n : ℕ) (Wx : List (List ℂ)) (scales : List ℝ) :
    Py (List ℝ) :=
  match processScales (.arr [scales.length, 1] .f64 scales) (icwtArr.orElseN a.xLen n) (some a.wavelet.sw)
      none true a.downsample with
  | .error e => .error e
  | .ok r =>
    if r.2.1 = .logPiecewise then
      if scales.length ≠ Wx.length then .error .assertionError
      else match logscaleTransitionIdx (thTr .f64) scales with
      | .error e => .error e
      | .ok none => .error .exception
      | .ok (some idx) =>
        if h : 0 < idx ∧ idx < scales.length then
          match icwt2Arr a n (Wx.take idx) (scales.take idx),
              icwt2Arr a n (Wx.drop idx) (scales.drop idx) with
          | .ok x, .ok y => .ok (List.zipWith (fun u v : ℝ => u + v) x y)
          | .error e, _ => .error e
          | _, .error e => .error e
        else .error .exception
    else icwt2Top a n Wx r
termination_by scales.length
decreasing_by
  · simp; omega
  · simp; omega

/-- `icwt(Wx, wavelet, scales, one_int=False, …)` for 2D `Wx` with `n` columns —
ssqueezepy/_cwt.py:323-453. `arr` is the array case of `scales`. -/
noncomputable def icwt2 (n : ℕ) (Wx : List (List ℂ)) (scales : ScalesArg) (a : Icwt2Args) :
    Py (List ℝ) := do
  checkGmw a.wavelet.gmw a.l1Norm
  let nv := match scales with
    | .arr _ _ _ => a.nv
    | _ => some (a.nv.getD 32)
  let r ← processScales scales (icwtArr.orElseN a.xLen n) (some a.wavelet.sw) nv true a.downsample
  if r.2.1 = .logPiecewise then
    if r.1.length ≠ Wx.length then .error .assertionError
    else match ← logscaleTransitionIdx (thTr .f64) r.1 with
    | none => do
      let x ← icwt2Arr a n Wx r.1
      let y ← icwt2Arr a n Wx r.1
      .ok (List.zipWith (fun u v : ℝ => u + v) x y)
    | some idx => do
      let x ← icwt2Arr a n (Wx.take idx) (r.1.take idx)
      let y ← icwt2Arr a n (Wx.drop idx) (r.1.drop idx)
      .ok (List.zipWith (fun u v : ℝ => u + v) x y)
  else icwt2Top a n Wx r

end Ssq
