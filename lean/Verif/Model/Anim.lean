import Verif.Model.Scales

/-!
# The scales and frames of `wavelet_tf_anim`, and the scale `wavelet_tf` picks — ssqueezepy/visuals.py
-/
namespace Ssq

/-- `srepl`, `srepr`: how many scales are replaced at each end, `max(int((25/253)*na), 1)` in exact arithmetic —
ssqueezepy/visuals.py:155-158. -/
def animRep (na : ℕ) : ℕ := max (25 * na / 253) 1

/-- `_make_anim_scales` once `scales` are known — ssqueezepy/visuals.py:151-169. One scale becomes a 0-dimensional array under
`squeeze`, and `len` of it fails. -/
noncomputable def makeAnimScales (scales : List ℝ) : Py (List ℝ) :=
  if scales.length = 0 then .error .indexError
  else if scales.length = 1 then .error .typeError
  else
    let na := scales.length
    let r := animRep na
    let sright := linspace (scales.getD (na - r) 0) (scales.getD (na - 1) 0) (r * 3)
    let sleft := linspace (scales.getD 0 0) (scales.getD r 0) (r * 4)
    let sright := sright ++ List.replicate (3 * 2) (sright.getD (sright.length - 1) 0)
    let sleft := List.replicate (4 * 2) (sleft.getD 0 0) ++ sleft
    .ok (sleft ++ (scales.drop r).take (na - r - r) ++ sright)

/-- `frames`: forth over all scales and back again — ssqueezepy/visuals.py:294. -/
def animFrames (n : ℕ) : List ℕ := List.range n ++ (List.range (n - 1)).reverse

/-- The loop of `pick_scale` from the `i`-th round on; `T` is `time_resolution` as a function of the scale, `lo`, `hi` the bounds —
ssqueezepy/visuals.py:31-42. `fuel` only makes the recursion structural: `pickScale` gives it more rounds than the loop can
take. -/
noncomputable def pickLoop (T : ℝ → ℝ) (lo hi : ℝ) (maxIters : ℕ) : ℕ → ℕ → ℝ → Py ℝ
  | 0, _, _ => .error .exception
  | fuel + 1, i, scale =>
    if lo < T scale ∧ T scale < hi then .ok scale
    else if i > maxIters then .error .valueError
    else pickLoop T lo hi maxIters fuel (i + 1) (if T scale > hi then scale / 1.1 else scale * 1.1)

/-- `pick_scale`, from the wavelet's `scalec_ct = s0` — ssqueezepy/visuals.py:22-43. -/
noncomputable def pickScale (T : ℝ → ℝ) (s0 : ℝ) (N : ℕ) : Py ℝ := pickLoop T (65 * (N / 2048)) (75 * (N / 2048)) 100 103 0 s0

end Ssq
