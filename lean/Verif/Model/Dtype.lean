import Verif.Model.FftState

/-!
# Data types of the results

Which of float32, float64, complex64, complex128 each array is, on the CPU. numpy's rules are taken as follows: an
operation on two arrays gives the wider precision, complex if one of them is; a Python number does not count; a numpy
scalar counts or does not, according to numpy's version (`Option FftDtype` below); `a *= b` and `a[i] = b` keep the
type of `a`; `scipy.fft` keeps precision. Sizes and values are not modelled here.
-/
namespace Ssq

/-- Double precision. -/
def FftDtype.isDouble : FftDtype → Bool
  | .float64 | .complex128 => true
  | _ => false

/-- The type with that precision. -/
def dtOf (complex double : Bool) : FftDtype :=
  match complex, double with
  | false, false => .float32
  | false, true => .float64
  | true, false => .complex64
  | true, true => .complex128

/-- The type of `a * b` for arrays of types `a` and `b` (numpy's promotion, for the four types). -/
def dtMul (a b : FftDtype) : FftDtype := dtOf (a.isComplex || b.isComplex) (a.isDouble || b.isDouble)

/-- `a * s` for a scalar `s`: `none` if it doesn't count. -/
def dtScalar (a : FftDtype) : Option FftDtype → FftDtype
  | none => a
  | some s => dtMul a s

/-- `fft`, `ifft`, `rfft` of an array (scipy.fft) — ssqueezepy/utils/fft_utils.py:170-208. -/
def dtFft (a : FftDtype) : FftDtype := dtOf true a.isDouble

/-- `.real`, `irfft`. -/
def dtReal (a : FftDtype) : FftDtype := dtOf false a.isDouble

/-- A wavelet: a built-in one with its `dtype` and whether its values are complex (`bump`), or a function of the user's,
by the type it returns for each type. (ssqueezepy/wavelets.py:403-470, 498-600.) -/
inductive DtWav
  | builtin (double complex : Bool)
  | user (f : FftDtype → FftDtype)

/-- `Wavelet.dtype`: for a user's function, the precision it returns for a float32 array —
ssqueezepy/wavelets.py:180-182, 419-420, 422-433. -/
def DtWav.dtype : DtWav → FftDtype
  | .builtin d _ => dtOf false d
  | .user f => if (f .float32).isComplex then (if f .float32 = .complex64 then .float32 else .float64) else f .float32

/-- `wavelet(scale=…)`, whose argument has type `Wavelet.dtype`; `drop`: the imaginary part is small and dropped —
ssqueezepy/wavelets.py:60-85, 127-133. -/
def DtWav.psih (w : DtWav) (drop : Bool) : FftDtype :=
  let p := match w with
    | .builtin d c => dtOf c d
    | .user f => f w.dtype
  if p.isComplex && drop then dtReal p else p

/-- What `cwt` returns. (ssqueezepy/_cwt.py:312-320.) -/
structure DtCwt where
  Wx : FftDtype
  scales : FftDtype
  dWx : FftDtype

/-- `cwt` — ssqueezepy/_cwt.py:167-203, 252-311: `x` and `scales` cast to `Wavelet.dtype`; `Psih_xh *= …` and `Wx *= …`
keep the type. -/
def dtCwt (w : DtWav) (drop vectorized : Bool) : DtCwt :=
  let xh := dtFft w.dtype
  if vectorized then
    let psihXh := dtMul (w.psih drop) xh
    ⟨dtFft psihXh, w.dtype, dtFft psihXh⟩
  else
    let cdtype : FftDtype := if xh = .complex128 then .complex128 else .complex64
    ⟨cdtype, w.dtype, cdtype⟩

/-- `trigdiff(A, fs)` — ssqueezepy/utils/common.py:218-221. -/
def trigdiffDt (A : FftDtype) (fs : Option FftDtype) : FftDtype :=
  dtFft (dtScalar (dtMul (dtFft A) A) fs)

/-- The frequencies given to `ssqueeze`: an array, or a scheme. (ssqueezepy/ssqueezing.py:14-22.) -/
inductive DtFreqs
  | given (d : FftDtype)
  | log

/-- `ssq_freqs` returned: generated exponential frequencies are `fm * np.power(fM/fm, np.arange(na)/(na - 1))`, whose
exponent is float64 — ssqueezepy/ssqueezing.py:236-306. -/
def dtFreqs : DtFreqs → FftDtype
  | .given d => d
  | .log => .float64

/-- `phase_cwt`, `phase_stft` — ssqueezepy/algos.py:711-718, 785-792. -/
def phaseDt (Wx : FftDtype) : FftDtype := if Wx = .complex64 then .float32 else .float64

/-- What `ssq_cwt` returns. (ssqueezepy/_ssq_cwt.py:300-312.) -/
structure DtSsq where
  Tx : FftDtype
  Wx : FftDtype
  freqs : FftDtype
  scales : FftDtype
  w : FftDtype
  dWx : FftDtype

/-- `ssq_cwt` with `difftype='trig'` — ssqueezepy/_ssq_cwt.py:228-300; `Tx` is zeros of `Wx.dtype`
(ssqueezepy/ssqueezing.py:205). -/
def ssqCwtDt (w : DtWav) (drop vectorized higher : Bool) (freqs : DtFreqs) (fs : Option FftDtype) : DtSsq :=
  let c := dtCwt w drop vectorized
  let dWx := if higher then trigdiffDt c.Wx fs else c.dWx
  ⟨c.Wx, c.Wx, dtFreqs freqs, c.scales, phaseDt c.Wx, dWx⟩

/-- `stft(x, window, dtype=dtype)`: `window` and `diff_window` are cast and multiplied into buffers of `x`'s type;
`none` is the float32 of configs.ini — ssqueezepy/_stft.py:127-175, 302-309. -/
def stftDt (dtype : Option Bool) : FftDtype × FftDtype :=
  let d := dtOf false (dtype.getD false)
  (dtFft d, dtFft d)

/-- What `ssq_stft` returns: `Tx, Sx, ssq_freqs, Sfs, w, dSx`; without `ssq_freqs` they are `Sfs` —
ssqueezepy/_ssq_stft.py:88-125, 249-257. -/
structure DtSsqStft where
  Tx : FftDtype
  Sx : FftDtype
  freqs : FftDtype
  Sfs : FftDtype
  w : FftDtype
  dSx : FftDtype

/-- `ssq_stft` — ssqueezepy/_ssq_stft.py:88-125, 249-257. -/
def ssqStftDt (dtype : Option Bool) (freqs : Option FftDtype) : DtSsqStft :=
  let S := stftDt dtype
  let Sfs : FftDtype := if S.1 = .complex64 then .float32 else .float64
  ⟨S.1, S.1, freqs.getD Sfs, Sfs, phaseDt S.1, S.2⟩

/-- `istft`: the buffer of the inverse FFT; windows are multiplied and divided into it in place —
ssqueezepy/_stft.py:232-256, ssqueezepy/utils/stft_utils.py:163. -/
def istftDt (Sx : FftDtype) : FftDtype := dtReal Sx

/-- `icwt`: `none` scales are generated as float64; `x *= …` and `x += …` keep the type. With two integrals `x` begins as
`np.zeros(n_up)` — ssqueezepy/_cwt.py:406-490. -/
def icwtDt (Wx : FftDtype) (scales : Option FftDtype) (oneInt l1 log : Bool) : FftDtype :=
  if oneInt then
    if l1 && log then dtReal Wx
    else dtMul (dtReal Wx) (scales.getD .float64)
  else .float64

/-- `issq_cwt`, `issq_stft`: all of `Tx`, or components, which are added up in `np.zeros` —
ssqueezepy/_ssq_cwt.py:364-405, ssqueezepy/_ssq_stft.py:190-197. -/
def issqDt (Tx : FftDtype) (components : Bool) : FftDtype :=
  if components then .float64 else dtReal Tx

end Ssq
