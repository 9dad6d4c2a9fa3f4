import Verif.Model.SsqCwt
import Verif.Model.SsqStft

/-!
# Complex signals (ssqueezepy/_cwt.py:254-266; ssqueezepy/_stft.py:163; ssqueezepy/wavelets.py:486-495)

`cwt` casts its input with `S.asarray(x, dtype)` and `S.astype(x, dtype)`, `stft` with `np.asarray(p).astype(dtype)`, where `dtype` is 'float32' or 'float64'. numpy's cast of a complex
array to a real type keeps the real parts (and issues a `ComplexWarning`); nothing before it looks at the type of the samples.
-/
namespace Ssq

/-- The cast of complex samples to a real type — ssqueezepy/_cwt.py:257-258 and ssqueezepy/wavelets.py:494. -/
def castReal (x : List ℂ) : List ℝ := x.map Complex.re

/-- `cwt(x)` of complex samples — ssqueezepy/_cwt.py:254-320. -/
noncomputable def cwtOfComplex (x : List ℂ) (a : CwtArgs) : Py (List (List ℂ) × List ℝ × List (List ℂ)) := cwt (castReal x) a

/-- `ssq_cwt(x)` of complex samples: `x` is passed to `cwt` — ssqueezepy/_ssq_cwt.py:247-254. -/
noncomputable def ssqCwtOfComplex (x : List ℂ) (a : SsqCwtArgs) : Py SsqCwtOut := ssqCwt (castReal x) a

/-- `stft(x)` of complex samples — ssqueezepy/_stft.py:149-181. -/
noncomputable def stftOfComplex (lib : WinLib) (tiny : ℝ) (x : List ℂ) (a : StftArgs) : Py (ℕ × List (List ℂ) × List (List ℂ)) := stft lib tiny (castReal x) a

end Ssq
