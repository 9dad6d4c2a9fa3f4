import Verif.Model.Cache

/-!
# One wavelet on two devices — ssqueezepy/_cwt.py:167-199, 246-290, ssqueezepy/wavelets.py:131-175, ssqueezepy/utils/backend.py:6-36

`USE_GPU()` is read anew in every call, a `Wavelet` keeps arrays from call to call. Modelled: on which device each array of `cwt` is, which samples of the wavelet are used, and
the `TypeError`s of numpy and torch for arrays on different devices. The samples are an arbitrary function `call` of scales and length. Not modelled: the arithmetic (C36-C38).
-/
namespace Ssq

/-- What `Wavelet.Psih` keeps: samples `_Psih`, their length `_Psih_N` and scales `_Psih_scale`, and the device they are on (`true`: a CUDA tensor, `false`: a numpy array)
— ssqueezepy/wavelets.py:154-159. -/
structure DevPsih (V : Type) where
  samples : V
  len : ℕ
  scales : List ℝ
  gpu : Bool

/-- A `Wavelet`: `N`, the device of `xi` (made by `S.asarray` when `N` is set, ssqueezepy/wavelets.py:166-172), and the cache. -/
structure DevWav (V : Type) where
  N : ℕ
  xiGpu : Bool
  cache : Option (DevPsih V) := none

/-- A call of `cwt` with a `Wavelet` instance: length of the padded signal, scales, `vectorized`, `cache_wavelet`, `derivative`. -/
structure DevCall where
  len : ℕ
  scales : List ℝ
  vectorized : Bool := true
  cached : Bool := true
  derivative : Bool := true

/-- The product of two arrays: on their common device; numpy and torch raise `TypeError` for an array and a CUDA tensor. (ssqueezepy/_cwt.py:169, 171, 175, 194.) -/
def devMul (a b : Bool) : Py Bool := if a = b then .ok a else .error .typeError

open Classical in
/-- `S.allclose(a, b)` — ssqueezepy/utils/backend.py:6-11: as tensors if one of them is a tensor. `S.asarray` (lines 26-29) moves both to the GPU if it is in use, and else is
`np.asarray`, which raises `TypeError` for a CUDA tensor. -/
noncomputable def devAllclose (use : Bool) (a : List ℝ) (aGpu : Bool) (b : List ℝ) (bGpu : Bool) : Py Bool :=
  if (aGpu || bGpu) && !use then .error .typeError else .ok (decide (npAllclose a b))

/-- `wavelet.Psih(scale=scales, nohalf=False)` — ssqueezepy/wavelets.py:131-160; `scales` are on the device in use (ssqueezepy/_cwt.py:275). The samples used, and the wavelet
afterwards. -/
noncomputable def devPsih {V : Type} (call : List ℝ → ℕ → V) (use : Bool) (w : DevWav V) (scales : List ℝ) : DevWav V × Py (DevPsih V) :=
  let fresh : DevPsih V := ⟨call scales w.N, w.N, scales, use⟩
  match w.cache with
  | none => ({ w with cache := some fresh }, .ok fresh)
  | some e =>
    if w.N = e.len ∧ scales.length = e.scales.length then
      match devAllclose use scales use e.scales e.gpu with
      | .error x => (w, .error x)
      | .ok true => (w, .ok e)
      | .ok false => ({ w with cache := some fresh }, .ok fresh)
    else ({ w with cache := some fresh }, .ok fresh)

/-- `cwt(x, wavelet, scales, vectorized=, cache_wavelet=, derivative=)` — ssqueezepy/_cwt.py:167-199, 228-235, 278-290: `wavelet.N` is set to the length of the padded signal, the
samples are taken from the cache or computed, multiplied by the signal's spectrum (on the device in use), by `1j * xi` for the derivative; then `wavelet.N` is set back, which does
not happen if an exception was raised. Returned: the samples used. -/
noncomputable def cwtDev {V : Type} (call : List ℝ → ℕ → V) (use : Bool) (w : DevWav V) (c : DevCall) : DevWav V × Py (DevPsih V) :=
  let w1 : DevWav V := { w with N := c.len, xiGpu := use }
  let p : DevWav V × Py (DevPsih V) :=
    if c.vectorized && c.cached then devPsih call use w1 c.scales
    else (w1, (devMul use w1.xiGpu).bind fun d => .ok ⟨call c.scales w1.N, w1.N, c.scales, d⟩)
  let r : Py (DevPsih V) := p.2.bind fun e => (devMul e.gpu use).bind fun d => (if c.derivative then devMul d p.1.xiGpu else .ok d).bind fun _ => .ok e
  match r with
  | .error x => (p.1, .error x)
  | .ok e => ({ p.1 with N := w.N, xiGpu := use }, .ok e)

/-- A history of calls with one wavelet, each with the device in use at the time (the environment variable `SSQ_GPU` may be changed in between; ssqueezepy/configs.py:142-147).
Exceptions are caught by the caller. -/
noncomputable def cwtDevRun {V : Type} (call : List ℝ → ℕ → V) (w : DevWav V) (h : List (Bool × DevCall)) : DevWav V :=
  h.foldl (fun w e => (cwtDev call e.1 w e.2).1) w

end Ssq
