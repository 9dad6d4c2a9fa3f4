import Verif.Model.Dtype

/-!
# C227: the precision of results

The precision asked for is that of the wavelet (`cwt`, `ssq_cwt`), of `dtype` (`stft`, `ssq_stft`) and of the transform
given (`icwt`, `istft`, `issq_cwt`, `issq_stft`).
-/
namespace Ssq

namespace Spec

/-- A real array of that precision. -/
def realOf (double : Bool) : FftDtype := if double then .float64 else .float32

/-- A complex array of that precision. -/
def complexOf (double : Bool) : FftDtype := if double then .complex128 else .complex64

end Spec

open Spec

/-- A user's wavelet function returns one of the four types for a float32 array. -/
def DtWav.Supported : DtWav → Prop
  | .builtin _ _ => True
  | .user f => f .float32 ≠ .other

theorem DtWav.dtype_real {w : DtWav} (h : w.Supported) : w.dtype = realOf w.dtype.isDouble := by
  cases w with
  | builtin d c => cases d <;> rfl
  | user f =>
    simp only [DtWav.Supported] at h
    cases e : f .float32 <;> simp_all [DtWav.dtype, FftDtype.isComplex, FftDtype.isDouble, realOf]

/-- The wavelet is never sampled in more precision than `Wavelet.dtype`. -/
theorem DtWav.psih_le {w : DtWav} (h : w.Supported) (drop : Bool) (hd : w.dtype.isDouble = false) :
    (w.psih drop).isDouble = false := by
  cases w with
  | builtin d c => cases d <;> cases c <;> cases drop <;> simp_all [DtWav.dtype, DtWav.psih, dtOf, dtReal,
      FftDtype.isComplex, FftDtype.isDouble]
  | user f =>
    have e : (DtWav.user f).dtype = .float32 := by
      have h1 := DtWav.dtype_real h
      rw [hd] at h1
      exact h1
    have h2 : (f .float32).isDouble = false := by
      simp only [DtWav.Supported] at h
      cases e' : f .float32 <;> simp_all [DtWav.dtype, FftDtype.isComplex, FftDtype.isDouble]
    simp only [DtWav.psih, e]
    cases e' : f .float32 <;> cases drop <;> simp_all [dtReal, dtOf, FftDtype.isComplex, FftDtype.isDouble]

/-- The full claim, of all functions: every array returned has the precision asked for. -/
def C227_full : Prop :=
  (∀ (w : DtWav) (drop vectorized : Bool), w.Supported →
    let d := w.dtype.isDouble
    let r := dtCwt w drop vectorized
    r.Wx = complexOf d ∧ r.dWx = complexOf d ∧ r.scales = realOf d) ∧
  (∀ (w : DtWav) (drop vectorized higher : Bool) (fs : Option FftDtype), w.Supported →
    let d := w.dtype.isDouble
    let r := ssqCwtDt w drop vectorized higher .log fs
    r.Tx = complexOf d ∧ r.Wx = complexOf d ∧ r.dWx = complexOf d ∧ r.w = realOf d ∧ r.scales = realOf d ∧
      r.freqs = realOf d) ∧
  (∀ (dtype : Bool),
    let r := ssqStftDt (some dtype) none
    r.Tx = complexOf dtype ∧ r.Sx = complexOf dtype ∧ r.dSx = complexOf dtype ∧ r.w = realOf dtype ∧
      r.Sfs = realOf dtype ∧ r.freqs = realOf dtype) ∧
  (∀ (d oneInt l1 log : Bool) (scales : Option FftDtype), icwtDt (complexOf d) scales oneInt l1 log = realOf d) ∧
  (∀ d : Bool, istftDt (complexOf d) = realOf d) ∧
  (∀ d components : Bool, issqDt (complexOf d) components = realOf d)

/-- It is false: the frequencies made by `ssq_cwt` for a float32 wavelet are float64. -/
theorem C227_refuted : ¬ C227_full := by
  intro h
  have h1 := (h.2.1 (.builtin false false) false true false none trivial).2.2.2.2.2
  simp [ssqCwtDt, dtFreqs, DtWav.dtype, dtOf, FftDtype.isDouble, realOf] at h1

/-- `cwt`: its transform and derivative are complex arrays of the wavelet's precision and its scales real ones,
whatever the signal's type, for built-in wavelets and for any function of the user's, vectorized or not. -/
theorem C227_cwt {w : DtWav} (hw : w.Supported) (drop vectorized : Bool) :
    (dtCwt w drop vectorized).Wx = complexOf w.dtype.isDouble ∧
    (dtCwt w drop vectorized).dWx = complexOf w.dtype.isDouble ∧
    (dtCwt w drop vectorized).scales = realOf w.dtype.isDouble := by
  have h1 := DtWav.dtype_real hw
  have h2 := DtWav.psih_le hw drop
  have e : (dtCwt w drop vectorized).scales = w.dtype := by cases vectorized <;> rfl
  rw [e]
  refine ⟨?_, ?_, h1⟩
  all_goals
    cases hd : w.dtype.isDouble
    · have h3 := h2 hd
      rw [hd] at h1
      simp only [dtCwt, h1]
      revert h3
      cases w.psih drop <;> cases vectorized <;> decide
    · rw [hd] at h1
      simp only [dtCwt, h1]
      cases w.psih drop <;> cases vectorized <;> rfl

/-- `cwt` with a function of the user's: its results have the precision the function returns for a float32 array, also
where the function is complex. -/
theorem C227_user (f : FftDtype → FftDtype) (hf : f .float32 ≠ .other) (drop vectorized : Bool) :
    (dtCwt (.user f) drop vectorized).Wx = complexOf (f .float32).isDouble ∧
    (dtCwt (.user f) drop vectorized).dWx = complexOf (f .float32).isDouble ∧
    (dtCwt (.user f) drop vectorized).scales = realOf (f .float32).isDouble := by
  have e : (DtWav.user f).dtype.isDouble = (f .float32).isDouble := by
    cases e' : f .float32 <;> simp_all [DtWav.dtype, FftDtype.isComplex, FftDtype.isDouble]
  rw [← e]
  exact C227_cwt (w := .user f) hf drop vectorized

/-- A complex function in single precision: the transform is complex64. -/
example : (dtCwt (.user fun _ => .complex64) false true).Wx = .complex64 := by decide

/-- A function of the user's that computes in float64 makes a float64 wavelet, and the transform is complex128. -/
example : (dtCwt (.user fun _ => .float64) false true).Wx = .complex128 := by decide

/-- One that keeps the type it is given makes a float32 wavelet, and the transform is complex64. -/
example : (dtCwt (.user id) false true).Wx = .complex64 := by decide

/-- `ssq_cwt`, all but its frequencies, with a regular wavelet (or where the sampling rate is a Python number). -/
theorem C227_ssq_cwt_partial {w : DtWav} (hw : w.Supported) (drop vectorized higher : Bool) (freqs : DtFreqs)
    (fs : Option FftDtype) (hfs : higher = true → fs = none) :
    (ssqCwtDt w drop vectorized higher freqs fs).Tx = complexOf w.dtype.isDouble ∧
    (ssqCwtDt w drop vectorized higher freqs fs).Wx = complexOf w.dtype.isDouble ∧
    (ssqCwtDt w drop vectorized higher freqs fs).dWx = complexOf w.dtype.isDouble ∧
    (ssqCwtDt w drop vectorized higher freqs fs).w = realOf w.dtype.isDouble ∧
    (ssqCwtDt w drop vectorized higher freqs fs).scales = realOf w.dtype.isDouble := by
  obtain ⟨h1, h2, h3⟩ := C227_cwt hw drop vectorized
  refine ⟨h1, h1, ?_, ?_, h3⟩
  · cases higher
    · exact h2
    · simp only [ssqCwtDt, h1, hfs rfl, if_true]
      cases w.dtype.isDouble <;> decide
  · simp only [ssqCwtDt, h1]
    cases w.dtype.isDouble <;> decide

/-- The exception among the transforms: with a higher-order wavelet of float32 and a sampling rate that counts as
float64 (a numpy scalar, from `t`, in numpy 2), the derivative is complex128 beside a complex64 transform. -/
theorem C227_higher_refuted :
    ∃ (w : DtWav) (drop vectorized : Bool) (fs : Option FftDtype), w.Supported ∧
      (ssqCwtDt w drop vectorized true .log fs).Wx = .complex64 ∧
      (ssqCwtDt w drop vectorized true .log fs).dWx = .complex128 :=
  ⟨.builtin false false, false, true, some .float64, trivial, by decide, by decide⟩

/-- The frequencies `ssq_cwt` returns: those given, as they are; those it makes, always float64. -/
theorem C227_freqs (w : DtWav) (drop vectorized higher : Bool) (fs : Option FftDtype) :
    (ssqCwtDt w drop vectorized higher .log fs).freqs = .float64 ∧
    ∀ d, (ssqCwtDt w drop vectorized higher (.given d) fs).freqs = d :=
  ⟨rfl, fun _ => rfl⟩

/-- `stft` and `ssq_stft` with any `dtype`: every array, frequencies included, has that precision. -/
theorem C227_stft (dtype : Bool) :
    stftDt (some dtype) = (complexOf dtype, complexOf dtype) ∧
    ssqStftDt (some dtype) none =
      ⟨complexOf dtype, complexOf dtype, realOf dtype, realOf dtype, realOf dtype, complexOf dtype⟩ := by
  cases dtype <;> exact ⟨rfl, rfl⟩

/-- Without `dtype`, all is float32. -/
theorem C227_stft_default :
    stftDt none = stftDt (some false) ∧ ∀ freqs, ssqStftDt none freqs = ssqStftDt (some false) freqs :=
  ⟨rfl, fun _ => rfl⟩

/-- `icwt`: exactly when the signal has the precision of the transform: it is double, or one integral is taken and the
scales are not divided by or are a float32 array. -/
theorem C227_icwt (d oneInt l1 log : Bool) (scales : Option Bool) :
    icwtDt (complexOf d) (scales.map realOf) oneInt l1 log = realOf d ↔
      d = true ∨ (oneInt = true ∧ ((l1 = true ∧ log = true) ∨ scales = some false)) := by
  rcases scales with _ | s
  · cases d <;> cases oneInt <;> cases l1 <;> cases log <;> decide
  · cases s <;> cases d <;> cases oneInt <;> cases l1 <;> cases log <;> decide

/-- So a float32 transform inverted with `scales='log'` and `l1_norm=False`, or with two integrals, is float64. -/
theorem C227_icwt_refuted :
    ¬ ∀ (d oneInt l1 log : Bool) (scales : Option Bool),
      icwtDt (complexOf d) (scales.map realOf) oneInt l1 log = realOf d := by
  intro h
  have := (C227_icwt false true false true none).1 (h false true false true none)
  simp at this

/-- A transform inverted with the scales `cwt` returned, with one integral: the wavelet's precision throughout. -/
theorem C227_roundtrip {w : DtWav} (hw : w.Supported) (drop vectorized l1 log : Bool) :
    icwtDt (dtCwt w drop vectorized).Wx (some (dtCwt w drop vectorized).scales) true l1 log
      = realOf w.dtype.isDouble := by
  obtain ⟨h1, -, h3⟩ := C227_cwt hw drop vectorized
  rw [h1, h3]
  refine (C227_icwt _ true l1 log (some w.dtype.isDouble)).2 ?_
  cases w.dtype.isDouble <;> simp

example : icwtDt (dtCwt (.builtin false true) true true).Wx (some (dtCwt (.builtin false true) true true).scales) true
    false false = .float32 := by decide

/-- `istft` keeps the precision of the transform, so `istft(stft(x, dtype=dtype))` has that of `dtype`. -/
theorem C227_istft (d : Bool) :
    istftDt (complexOf d) = realOf d ∧ istftDt (stftDt (some d)).1 = realOf d := by
  cases d <;> exact ⟨rfl, rfl⟩

/-- `issq_cwt` and `issq_stft`: all of the transform keeps its precision, components are always float64. -/
theorem C227_issq (d : Bool) :
    issqDt (complexOf d) false = realOf d ∧ issqDt (complexOf d) true = .float64 := by
  cases d <;> exact ⟨rfl, rfl⟩

end Ssq
