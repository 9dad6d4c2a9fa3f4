import Verif.Model.Squeeze
import Verif.Model.Cwt

/-!
# Floating-point arithmetic with bounded relative errors

The two-pass squeezing kernels (`indexedSumBody`, `runOps`) are generic in the operations; here are the sums of the inverses with arbitrary operations.
-/
namespace Ssq

/-- An order and bracketing of a sum over the rows: the additions `np.sum` performs are not specified by numpy. (ssqueezepy/_cwt.py:479-483; ssqueezepy/_ssq_cwt.py:368-378.) -/
inductive SumTree
  | leaf (i : ℕ)
  | node (l r : SumTree)

/-- The rows of the sum. (ssqueezepy/_cwt.py:479-483.) -/
def SumTree.leaves : SumTree → List ℕ
  | .leaf i => [i]
  | .node l r => l.leaves ++ r.leaves

/-- The sum, with addition `add`. (ssqueezepy/_cwt.py:479-483.) -/
def SumTree.eval (add : ℝ → ℝ → ℝ) (f : ℕ → ℝ) : SumTree → ℝ
  | .leaf i => f i
  | .node l r => add (l.eval add f) (r.eval add f)

/-- `Tx.real.sum(axis=0)` and `x *= (2 / Css)`, one column — ssqueezepy/_ssq_cwt.py:370, 376 and ssqueezepy/_ssq_stft.py:193, 197; `k` is the factor. -/
noncomputable def invertColumn (add mul : ℝ → ℝ → ℝ) (order : SumTree) (T : ℤ → ℕ → ℂ) (k : ℝ) (j : ℕ) : ℝ :=
  mul (order.eval add fun r => (T r j).re) k

/-- A complex number plus a complex number, part by part. (ssqueezepy/algos.py:173-181.) -/
noncomputable def cAdd (add : ℝ → ℝ → ℝ) (a b : ℂ) : ℂ := ⟨add a.re b.re, add a.im b.im⟩

/-- A complex number times a real number, part by part. (ssqueezepy/algos.py:173-181.) -/
noncomputable def cMul (mul : ℝ → ℝ → ℝ) (a : ℂ) (b : ℝ) : ℂ := ⟨mul a.re b, mul a.im b⟩

/-- The operations of an FFT backend and of complex arrays. (ssqueezepy/_cwt.py:167-199.) -/
structure FloatOps where
  fft : List ℂ → List ℂ
  ifft : List ℂ → List ℂ
  mul : ℂ → ℂ → ℂ

/-- `ifft(psih * xh)` — ssqueezepy/_cwt.py:169-173, 194. -/
def convRowWith (F : FloatOps) (psih xh : List ℂ) : List ℂ := F.ifft (List.zipWith F.mul psih xh)

/-- `Psih_xh *= (1j * wavelet.xi / dt)` then `ifft` — ssqueezepy/_cwt.py:174-176; `d` is `1j * wavelet.xi / dt`. -/
def dConvVecWith (F : FloatOps) (d psih xh : List ℂ) : List ℂ := F.ifft (List.zipWith F.mul (List.zipWith F.mul psih xh) d)

/-- `dpsih = (1j * wavelet.xi / dt) * psih`, `ifft(dpsih * xh)` — ssqueezepy/_cwt.py:199-201. -/
def dConvLoopWith (F : FloatOps) (d psih xh : List ℂ) : List ℂ := F.ifft (List.zipWith F.mul (List.zipWith F.mul d psih) xh)

/-- The transform of a padded signal, `l1_norm=True`, given the sampled wavelets and the factor of the derivative — ssqueezepy/_cwt.py:168-202, 265-266, 294-301. -/
def cwtRunWith (F : FloatOps) (a : CwtArgs) (N : ℕ) (n1 : ℤ) (psih : List (List ℂ)) (d xp : List ℂ) : List (List ℂ) × List (List ℂ) :=
  (psih.map fun p => cwtUnpad a n1 N (convRowWith F p (F.fft xp)),
   psih.map fun p => cwtUnpad a n1 N (if a.vectorized then dConvVecWith F d p (F.fft xp) else dConvLoopWith F d p (F.fft xp)))

/-- The sampled wavelets — ssqueezepy/_cwt.py:169, 171, 193. -/
noncomputable def cwtSamples (a : CwtArgs) (n : ℕ) (scales : List ℝ) : List (List ℂ) :=
  if a.vectorized then psihCall a.wavelet.fn n scales else scales.map fun s => psihOne a.wavelet.fn n s

/-- `1j * wavelet.xi / dt` — ssqueezepy/_cwt.py:175, 197. -/
noncomputable def cwtDfactor (dt : ℝ) (n : ℕ) : List ℂ := (xifn 1 n).map fun w : ℝ => Complex.I * (w : ℂ) / (dt : ℂ)

/-- Exact arithmetic. (ssqueezepy/_cwt.py:167-199.) -/
noncomputable def exactOps : FloatOps := ⟨fftL, ifftL, fun a b => a * b⟩

/-- One column of `icwt`: `(Wx.real / norm(scales)).sum(axis=-2)`, `x *= factor`, `x += x_mean` — ssqueezepy/_cwt.py:441-453, 479-482. -/
noncomputable def icwtColumnWith (add mul div : ℝ → ℝ → ℝ) (order : SumTree) (Wx : List (List ℂ)) (norm : ℕ → ℝ) (factor xMean : ℝ) (j : ℕ) : ℝ :=
  add (mul (order.eval add fun i => div ((Wx.getD i []).getD j 0).re (norm i)) factor) xMean

end Ssq
