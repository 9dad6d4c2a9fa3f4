import Verif.Model.FftState

/-!
# Shapes and dtypes of the pyFFTW path — ssqueezepy/utils/fft_utils.py
-/
namespace Ssq

/-- Position named by a Python index into a sequence of length `n`, if any. (ssqueezepy/utils/fft_utils.py:297-315.) -/
def pyPos (n : ℕ) (axis : ℤ) : Option ℕ :=
  if 0 ≤ axis then (if axis.toNat < n then some axis.toNat else none)
  else if (-axis).toNat ≤ n then some (n - (-axis).toNat) else none

/-- `x.shape[axis]`. (ssqueezepy/utils/fft_utils.py:297-315.) -/
def shapeAt (shape : List ℕ) (axis : ℤ) : Py ℕ :=
  match pyPos shape.length axis with
  | some p => .ok (shape.getD p 0)
  | none => .error .indexError

/-- `fft_out_len` — ssqueezepy/utils/fft_utils.py:293-302. A length below zero (`2*(0 - 1)`) is 0 here; both are refused by pyFFTW. -/
def fftOutLen (shape : List ℕ) (axis : ℤ) : FKind → Py ℕ
  | .fft => shapeAt shape axis
  | .rfft => (shapeAt shape axis).bind fun n => .ok (n / 2 + 1)
  | .ifft => shapeAt shape axis
  | .irfft (some n) => .ok n
  | .irfft none => (shapeAt shape axis).bind fun n => .ok (2 * (n - 1))

/-- `_get_output_shape` — ssqueezepy/utils/fft_utils.py:292-310. -/
def fftOutShape (shape : List ℕ) (axis : ℤ) (k : FKind) : Py (List ℕ) :=
  (fftOutLen shape axis k).bind fun len =>
    if shape.length ≠ 1 then
      match pyPos shape.length axis with
      | some p => .ok (shape.set p len)
      | none => .error .indexError
    else .ok [len]

/-- `dtype_in`, `dtype_out` — ssqueezepy/utils/fft_utils.py:273-278. -/
def fftDtypes (d : FftDtype) (k : FKind) : FftDtype × FftDtype :=
  let double := d = .float64 ∨ d = .complex128
  let cdtype : FftDtype := if double then .complex128 else .complex64
  let rdtype : FftDtype := if double then .float64 else .float32
  (if k.isReal && !k.isInverse then rdtype else cdtype, if k.isReal && k.isInverse then rdtype else cdtype)

/-- What `pyfftw.FFTW(a, b, axes=(axis,))` asks of the shapes: no length zero; the axis exists; equal lengths, but for the real transforms along the
axis, where `n` real points go with `n//2 + 1` complex ones. (ssqueezepy/utils/fft_utils.py:249-260.) -/
def fftwAccepts (shapeIn shapeOut : List ℕ) (axis : ℤ) (k : FKind) : Bool :=
  match pyPos shapeIn.length axis with
  | none => false
  | some p =>
    shapeIn.all (0 < ·) && shapeOut.all (0 < ·) &&
      match k with
      | .fft | .ifft => shapeIn = shapeOut
      | .rfft => shapeOut = shapeIn.set p (shapeIn.getD p 0 / 2 + 1)
      | .irfft _ => shapeIn = shapeOut.set p (shapeOut.getD p 0 / 2 + 1)

/-- Shape and dtype of `fft`, `rfft`, `ifft`, `irfft` with patience 1 or 2 and no cached object — ssqueezepy/utils/fft_utils.py:155-204,
249-310; lines 237 and 236 (the call and `input_array[:] = x`) do not fail after that. -/
def fftwResult (shape : List ℕ) (d : FftDtype) (axis : ℤ) (k : FKind) (p : PatArg) : Py (List ℕ × FftDtype) :=
  (fftValidate d axis k p).bind fun _ =>
    (fftOutShape shape axis k).bind fun out =>
      if fftwAccepts shape out axis k then .ok (out, (fftDtypes d k).2) else .error .valueError

end Ssq
