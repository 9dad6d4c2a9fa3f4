import Verif.Model.Py

/-!
# State of the FFT layer — ssqueezepy/utils/fft_utils.py, and its use in `cwt`

Patience setting, cached FFT objects, and the global state `cwt` changes while it runs.
-/
namespace Ssq

/-- A Python value as far as the patience code looks at it: an int (bools are ints), `None`, or something else. (ssqueezepy/utils/fft_utils.py:349-361.) -/
inductive PatV
  | int (z : ℤ)
  | none
  | other
  deriving DecidableEq

/-- A value given for `patience`: a plain value or a tuple. (ssqueezepy/utils/fft_utils.py:349-361.) -/
inductive PatArg
  | val (v : PatV)
  | tuple (l : List PatV)

/-- The two settings of an `FFT` instance — ssqueezepy/utils/fft_utils.py:113-117. -/
structure FftSt where
  patience : PatV
  timelimit : PatV

/-- `_validate_patience` — ssqueezepy/utils/fft_utils.py:349-355. For an int other than 0, 1, 2 the error message joins
ints, which is a TypeError (ssqueezepy/utils/common.py:302-305). Tuples are not looked into. -/
def validatePatience : PatArg → Py Unit
  | .val (.int z) => if z = 0 ∨ z = 1 ∨ z = 2 then .ok () else .error .typeError
  | .val _ => .error .typeError
  | .tuple _ => .ok ()

/-- The setter of `patience` — ssqueezepy/utils/fft_utils.py:147-153: the new state, and the exception if any. -/
def setPatience (s : FftSt) (a : PatArg) : FftSt × Py Unit :=
  match validatePatience a with
  | .error e => (s, .error e)
  | .ok () =>
    match a with
    | .val v => ({ s with patience := v }, .ok ())
    | .tuple [p, t] => (⟨p, t⟩, .ok ())
    | .tuple _ => (s, .error .valueError)

/-- `_process_patience` — ssqueezepy/utils/fft_utils.py:357-361. `pyfftw` says whether it is installed. -/
def processPatience (pyfftw : Bool) (s : FftSt) (arg : Option PatArg) : Py PatArg :=
  let p := arg.getD (.val s.patience)
  match p with
  | .val (.int 0) => .ok p
  | _ => if pyfftw then .ok p else .error .valueError

/-! ## Global state during `cwt` -/

/-- What `cwt` changes outside itself: the length of the wavelet it was given and the settings of `FFT_GLOBAL`. (ssqueezepy/_cwt.py:242-330.) -/
structure CwtSt where
  waveletN : ℕ
  fft : FftSt

/-- Places where `cwt` may raise, apart from the settings of the FFT layer: processing of arguments and padding; choosing
scales; computing the transform (any of its steps); unpadding and normalisation. (ssqueezepy/_cwt.py:242-330.) -/
inductive CwtCrash
  | args
  | scales
  | compute
  | post
  deriving DecidableEq

/-- `cwt` (order 0, numpy arrays) as a program on that state — ssqueezepy/_cwt.py:244-330. `Npad` is the padded length,
`patience` the argument, `crash` the place of an exception of its own. Each FFT asks for the current patience; with pyfftw
installed and a bad setting the planner raises (`planner`: its behaviour for the current setting). -/
def cwtState (pyfftw : Bool) (planner : PatArg → Py Unit) (s : CwtSt) (Npad : ℕ) (patience : PatArg)
    (crash : Option CwtCrash) : CwtSt × Py Unit :=
  if crash = some .args then (s, .error .exception)
  else
    match fftCall pyfftw planner s.fft with
    | .error e => (s, .error e)
    | .ok () =>
      if crash = some .scales then (s, .error .exception)
      else
        let s1 : CwtSt := { s with waveletN := Npad }
        match setPatience s1.fft patience with
        | (f, .error e) => ({ s1 with fft := f }, .error e)
        | (f, .ok ()) =>
          let s2 : CwtSt := { s1 with fft := f }
          if crash = some .compute then (s2, .error .exception)
          else
            match fftCall pyfftw planner s2.fft with
            | .error e => (s2, .error e)
            | .ok () =>
              let s3 : CwtSt := { s2 with waveletN := s.waveletN }
              match setPatience s3.fft (.tuple [s.fft.patience, s.fft.timelimit]) with
              | (f, .error e) => ({ s3 with fft := f }, .error e)
              | (f, .ok ()) =>
                let s4 : CwtSt := { s3 with fft := f }
                if crash = some .post then (s4, .error .exception) else (s4, .ok ())
where
  /-- A call of `fft` or `ifft` without `patience` — ssqueezepy/utils/fft_utils.py:156-193: scipy for patience 0. -/
  fftCall (pyfftw : Bool) (planner : PatArg → Py Unit) (f : FftSt) : Py Unit := do
    let p ← processPatience pyfftw f none
    match p with
    | .val (.int 0) => .ok ()
    | _ => planner p

/-! ## Cached FFT objects -/

/-- The four transforms; `irfft` with its `n`. (ssqueezepy/utils/fft_utils.py:156-208.) -/
inductive FKind
  | fft
  | ifft
  | rfft
  | irfft (n : Option ℕ)
  deriving DecidableEq

/-- `real` — ssqueezepy/utils/fft_utils.py:165-204. -/
def FKind.isReal : FKind → Bool
  | .fft | .ifft => false
  | .rfft | .irfft _ => true

/-- `inverse`. (ssqueezepy/utils/fft_utils.py:182-208.) -/
def FKind.isInverse : FKind → Bool
  | .fft | .rfft => false
  | .ifft | .irfft _ => true

/-- `n` — only `irfft` has one. (ssqueezepy/utils/fft_utils.py:196-208.) -/
def FKind.n : FKind → Option ℕ
  | .irfft n => n
  | _ => none

/-- Data types of arrays: the four supported ones, or another. (ssqueezepy/utils/fft_utils.py:333-347.) -/
inductive FftDtype
  | float32
  | float64
  | complex64
  | complex128
  | other
  deriving DecidableEq

/-- `dtype.startswith('complex')`. (ssqueezepy/utils/fft_utils.py:333-347.) -/
def FftDtype.isComplex : FftDtype → Bool
  | .complex64 | .complex128 => true
  | _ => false

/-- The dictionary key `combo` — ssqueezepy/utils/fft_utils.py:240. -/
structure FKey where
  shape : List ℕ
  dtype : FftDtype
  axis : ℤ
  real : Bool
  n : Option ℕ
  deriving DecidableEq

/-- An array handed to the FFT layer. (ssqueezepy/utils/fft_utils.py:156-208.) -/
structure FArr (V : Type) where
  shape : List ℕ
  dtype : FftDtype
  data : V

/-- A `pyfftw.FFTW` object: what it computes along which axis, and the number of its output array. (ssqueezepy/utils/fft_utils.py:249-260.) -/
structure FObj where
  kind : FKind
  axis : ℤ
  out : ℕ

/-- State: the settings, whether objects are cached, the dictionary `_input_history` (latest first), and the output
arrays made so far. A result handed to the caller is the number of an array. (ssqueezepy/utils/fft_utils.py:116-134, 238-247.) -/
structure FCache (V : Type) where
  set : FftSt
  cacheOn : Bool
  hist : List (FKey × FObj) := []
  heap : List V := []

/-- `_validate_input` — ssqueezepy/utils/fft_utils.py:329-347, and the unpacking of a tuple for `patience` into two values
(ssqueezepy/utils/fft_utils.py:266-267). -/
def fftValidate (dtype : FftDtype) (axis : ℤ) (k : FKind) (p : PatArg) : Py Unit :=
  if dtype = .other then .error .typeError
  else if k = .rfft ∧ dtype.isComplex = true then .error .typeError
  else if axis ≠ 0 ∧ axis ≠ 1 ∧ axis ≠ -1 then .error .valueError
  else
    match p with
    | .tuple l => if l.length = 2 then .ok () else .error .valueError
    | p => validatePatience p

/-- `get_fft_object` — ssqueezepy/utils/fft_utils.py:238-260. A new object has new (here: blank) arrays. Exceptions of the
planner itself are not modelled; plans are assumed to compute what they are made for. -/
def getFftObject {V : Type} (blank : V) (s : FCache V) (x : FArr V) (axis : ℤ) (p : PatArg) (k : FKind) :
    FCache V × Py FObj :=
  let combo : FKey := ⟨x.shape, x.dtype, axis, k.isReal, k.n⟩
  match if s.cacheOn then s.hist.lookup combo else none with
  | some o => (s, .ok o)
  | none =>
    match fftValidate x.dtype axis k p with
    | .error e => (s, .error e)
    | .ok () =>
      let o : FObj := ⟨k, axis, s.heap.length⟩
      ({ s with heap := s.heap ++ [blank], hist := if s.cacheOn then (combo, o) :: s.hist else s.hist }, .ok o)

/-- `fft`, `ifft`, `rfft`, `irfft` on numpy arrays — ssqueezepy/utils/fft_utils.py:156-204, 232-236, with pyfftw
installed. `tr` is the transform itself. The scipy functions (patience 0) return a new array. -/
def fftOp {V : Type} (tr : FKind → ℤ → FArr V → V) (s : FCache V) (k : FKind) (x : FArr V) (axis : ℤ)
    (patience : Option PatArg) : FCache V × Py ℕ :=
  match processPatience true s.set patience with
  | .error e => (s, .error e)
  | .ok (.val (.int 0)) => ({ s with heap := s.heap ++ [tr k axis x] }, .ok s.heap.length)
  | .ok p =>
    match getFftObject x.data s x axis p k with
    | (s', .error e) => (s', .error e)
    | (s', .ok o) => ({ s' with heap := s'.heap.set o.out (tr o.kind o.axis x) }, .ok o.out)

/-- One call in a history. (ssqueezepy/utils/fft_utils.py:156-208.) -/
structure FCall (V : Type) where
  kind : FKind
  x : FArr V
  axis : ℤ
  patience : Option PatArg

/-- A history of calls. (ssqueezepy/utils/fft_utils.py:156-208.) -/
def fftRun {V : Type} (tr : FKind → ℤ → FArr V → V) (s : FCache V) (h : List (FCall V)) : FCache V :=
  h.foldl (fun s c => (fftOp tr s c.kind c.x c.axis c.patience).1) s

end Ssq
