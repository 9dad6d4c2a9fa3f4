import Verif.Model.Cwt

/-!
# Higher-order CWTs — ssqueezepy/_cwt.py:236-243, 517-610

`cwt(x, order=…)` with generalised Morse wavelets (GMW) of several orders. The transforms of 1D and 2D
inputs share the code; the result type `R` of one `cwt` call is a parameter.
-/
namespace Ssq

/-- The `order` argument: an integer, or a tuple / list / range of integers. (ssqueezepy/_cwt.py:562-581.) -/
inductive CwtOrderArg
  | int (k : ℤ)
  | seq (ks : List ℤ)

/-- Arguments of `cwt` with an `order`. `a` are the arguments of the order-0 call (`a.wavelet` is used for
it only). `isGmw`: the wavelet's name starts with 'gmw'. `fam k` is the wavelet of order `k` with the
remaining options (`gamma`, `beta`, `norm`, `centered_scale`, `dtype`) of the given one, `normL1` whether its
`norm` is 'bandpass', `dtype` its dtype. A 'gmw' given by name has the configured norm
('bandpass' unless changed), whatever `l1_norm` is: `_process_gmw_wavelet` runs only in the order-0
call. (ssqueezepy/_cwt.py:517-519.) -/
structure HoArgs where
  a : CwtArgs
  isGmw : Bool
  fam : ℕ → WFn × ScaleWavelet
  normL1 : Bool
  dtype : FDtype
  order : CwtOrderArg
  average : Option Bool

/-- `Wavelet(('gmw', dict(order=k, **wavopts)))` — ssqueezepy/_cwt.py:559, ssqueezepy/_gmw.py:186-211.
Negative orders are rejected. The name is 'GMW L1' or 'GMW L2' for `k = 0` and has a suffix otherwise
(ssqueezepy/_gmw.py:98-182), so that `_process_gmw_wavelet` compares the norm with `l1_norm` for
`k = 0` only. -/
def hoWavelet (h : HoArgs) (k : ℤ) : Py CwtWavelet :=
  if k < 0 then .error .valueError
  else .ok ⟨(h.fam k.toNat).1, (h.fam k.toNat).2, if k = 0 then some h.normL1 else none⟩

/-- `_process_wavelet` — ssqueezepy/_cwt.py:551-560. -/
def hoWavelets (h : HoArgs) (ks : List ℤ) : Py (List CwtWavelet) :=
  if h.isGmw then ks.mapM (hoWavelet h) else .error .valueError

/-- The scales of `_process_args` — ssqueezepy/_cwt.py:573-579. `len` is `len(x)`. Named scales are made
for the order-0 wavelet, and have shape `(n, 1)`. (The cast to a float32 dtype is not modelled as a
rounding, only as the dtype of the array.) -/
noncomputable def hoScales (h : HoArgs) (len : ℕ) : Py ScalesArg :=
  match h.a.scales with
  | .str s => do
    let r ← processScales (.str s) len (some (h.fam 0).2) h.a.nv true h.a.downsample
    .ok (.arr [r.1.length, 1] h.dtype r.1)
  | s => .ok s

/-- One array or a list of arrays. (ssqueezepy/_cwt.py:583-610.) -/
inductive HoRes (R : Type)
  | one (r : R)
  | many (l : List R)

/-- `average` after `_process_args`: ignored with a single order — ssqueezepy/_cwt.py:567-569. -/
def hoAverage (average : Option Bool) (n : ℕ) : Option Bool :=
  if n = 1 ∧ average = some true then some false else average

/-- Averaging and unpacking — ssqueezepy/_cwt.py:596-604. The stack of an empty list raises
`IndexError` (`x[0]`, ssqueezepy/utils/backend.py). -/
def hoCombine {R : Type} (mean : List R → R) (avg : Bool) (l : List R) : Py (HoRes R) :=
  if avg then
    match l with
    | [] => .error .indexError
    | r :: l => .ok (.one (mean (r :: l)))
  else
    match l with
    | [r] => .ok (.one r)
    | l => .ok (.many l)

/-- `cwt_higher_order` — ssqueezepy/_cwt.py:517-610. `call w s` is `cwt(x, w, order=0, scales=s, …)`,
returning the transform and its derivative; `isSeq` says that `order` was a tuple, list or range. Returns
the transform(s), the scales, and the derivative(s) (`derivative=True`). -/
noncomputable def cwtHigherOrder {R : Type} (call : CwtWavelet → ScalesArg → Py (R × R))
    (mean : List R → R) (len : ℕ) (h : HoArgs) (isSeq : Bool) (ks : List ℤ) :
    Py (HoRes R × ScalesArg × HoRes R) := do
  let ws ← hoWavelets h ks
  let s ← hoScales h len
  let out ← ws.mapM fun w => call w s
  let average := hoAverage h.average ks.length
  let avg := average = some true ∨ (average = none ∧ isSeq = true)
  let W ← hoCombine mean avg (out.map Prod.fst)
  let dW ← hoCombine mean avg (out.map Prod.snd)
  .ok (W, s, dW)

/-- Entrywise sum. (ssqueezepy/_cwt.py:596-599.) -/
noncomputable def addMat (A B : List (List ℂ)) : List (List ℂ) :=
  List.zipWith (List.zipWith fun u v : ℂ => u + v) A B

/-- `Q.mean(S.vstack(l), axis=0)` of 2D arrays — ssqueezepy/_cwt.py:597, ssqueezepy/utils/backend.py. -/
noncomputable def meanMat : List (List (List ℂ)) → List (List ℂ)
  | [] => []
  | A :: l => (l.foldl addMat A).map fun r => r.map fun z : ℂ => z / ((l.length + 1 : ℕ) : ℂ)

/-- The same for 3D arrays. (ssqueezepy/_cwt.py:596-599.) -/
noncomputable def meanCube (l : List (List (List (List ℂ)))) : List (List (List ℂ)) :=
  (List.range (l.headD []).length).map fun b => meanMat (l.map fun A => A.getD b [])

/-- The order-0 call made for one order: every other argument is passed on, except that `nan_checks` is
not (ssqueezepy/_cwt.py:237-241) and `nv` has no effect with an array. -/
def hoCallArgs (h : HoArgs) (w : CwtWavelet) (s : ScalesArg) : CwtArgs :=
  { h.a with wavelet := w, scales := s }

/-- `cwt(x, …, order, average, derivative=True)` for 1D `x` — ssqueezepy/_cwt.py:236-243. A nonpositive
integer falls through to the order-0 code, with 1D scales (`scales.squeeze()`). -/
noncomputable def cwtOrder (x : List ℝ) (h : HoArgs) :
    Py (HoRes (List (List ℂ)) × ScalesArg × HoRes (List (List ℂ))) :=
  let call := fun w s => do
    let r ← cwt x (hoCallArgs h w s)
    .ok (r.1, r.2.2)
  match h.order with
  | .seq ks => cwtHigherOrder call meanMat x.length h true ks
  | .int k =>
    if 0 < k then cwtHigherOrder call meanMat x.length h false [k]
    else do
      let r ← cwt x h.a
      .ok (.one r.1, .arr [r.2.1.length] h.dtype r.2.1, .one r.2.2)

/-- `cwt(x, …, order, average, derivative=True)` for 2D `x` with rows of length `N`: `len(x)` is the
number of rows — ssqueezepy/_cwt.py:236-243, 575. -/
noncomputable def cwtOrder2 (N : ℕ) (X : List (List ℝ)) (h : HoArgs) :
    Py (HoRes (List (List (List ℂ))) × ScalesArg × HoRes (List (List (List ℂ)))) :=
  let call := fun w s => do
    let r ← cwt2 N X (hoCallArgs h w s)
    .ok (r.1, r.2.2)
  match h.order with
  | .seq ks => cwtHigherOrder call meanCube X.length h true ks
  | .int k =>
    if 0 < k then cwtHigherOrder call meanCube X.length h false [k]
    else do
      let r ← cwt2 N X h.a
      .ok (.one r.1, .arr [r.2.1.length] h.dtype r.2.1, .one r.2.2)

end Ssq
