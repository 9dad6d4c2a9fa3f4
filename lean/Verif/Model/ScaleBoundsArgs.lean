import Verif.Model.Scales

/-!
# `cwt_scalebounds` with all its arguments — ssqueezepy/utils/cwt_utils.py:60-192
-/
namespace Ssq

/-- `v or d` for a number: `None` and `0` give `d`. (ssqueezepy/utils/cwt_utils.py:126-159.) -/
noncomputable def orNum (v : Option ℝ) (d : ℝ) : ℝ :=
  match v with
  | none => d
  | some y => if y = 0 then d else y

/-- The `preset` argument of `cwt_scalebounds`: `None`, a name of the documentation, or another one. (ssqueezepy/utils/cwt_utils.py:126-159.) -/
inductive PresetArg
  | none
  | known (p : Preset)
  | other
  deriving DecidableEq

/-- `cwt_scalebounds(wavelet, N, preset, min_cutoff, max_cutoff, cutoff, bin_loc, bin_amp, use_padded_N)` —
ssqueezepy/utils/cwt_utils.py:126-192, without the warnings and the plots. An unknown preset is refused by `assert_is_one_of` with a `ValueError`. -/
noncomputable def cwtScaleboundsAll (wv : ScaleWavelet) (N : ℕ) (preset : PresetArg) (minC maxC cutoff binLoc binAmp : Option ℝ)
    (usePaddedN : Bool) : Py (ℝ × ℝ) :=
  let M := if usePaddedN then (p2up N).1 else N
  match preset with
  | .other => .error .valueError
  | .known .naive => .ok (1, N)
  | .known .maximal => (wv.minScale (-1/2)).bind fun mn => (wv.maxScale M (orNum binLoc 2) (orNum binAmp 1)).bind fun mx => .ok (mn, mx)
  | .known .minimal => (wv.minScale (-1/2)).bind fun mn => (wv.maxScaleAlt M (3/5) (4/5)).bind fun mx => .ok (mn, mx)
  | .none =>
    (match minC with
      | none => Except.ok (3/5)
      | some m => if m ≤ 0 then Except.error PyErr.valueError else Except.ok m : Py ℝ).bind fun lo =>
    (match maxC with
      | none => Except.ok (4/5)
      | some m => if m < lo then Except.error PyErr.valueError else Except.ok m : Py ℝ).bind fun hi =>
    (wv.minScale (cutoff.getD (-1/2))).bind fun mn => (wv.maxScaleAlt M lo hi).bind fun mx => .ok (mn, mx)

end Ssq
