import Verif.Props.Scales
import Verif.Props.SsqCwt
import Verif.Model.SsqStft
import Verif.Model.SsqCwtFull

/-!
# C211: a uniform time vector states the rate and nothing else (ssqueezepy/utils/cwt_utils.py:698-718, _cwt.py, _ssq_cwt.py, _ssq_stft.py)
-/
namespace Ssq

namespace Spec

/-- `N` uniform sampling times: from `t0` on in steps of `d`. -/
noncomputable def times0 (t0 d : ℝ) (N : ℕ) : List ℝ := (List.range N).map fun i : ℕ => t0 + i * d

end Spec

theorem processFsT_uniform (fs : Option ℝ) (t0 d : ℝ) (hd : 0 < d) (N : ℕ) (hN : 3 ≤ N) :
    processFsT fs (some (Spec.times0 t0 d N)) N = processFsT (some (1 / d)) none N := by
  obtain ⟨-, -, h3, -, -, -, h7, -⟩ := C48_fs_t_partial fs N
  rw [h7 _ t0 d (fun i hi => by simp [Spec.times0]) (by simp [Spec.times0]) hN hd.ne', h3 _ (by positivity), one_div_one_div]

theorem cwtDt_uniform (fs : Option ℝ) (t0 d : ℝ) (hd : 0 < d) (N : ℕ) (hN : 3 ≤ N) :
    cwtDt fs (some (Spec.times0 t0 d N)) N = cwtDt (some (1 / d)) none N := by
  unfold cwtDt
  rw [processFsT_uniform fs t0 d hd N hN]

/-- **C211**: `cwt` with uniform times is `cwt` with the rate, whatever the first time and whatever `fs`. -/
theorem C211_cwt (x : List ℝ) (hx : 3 ≤ x.length) (t0 d : ℝ) (hd : 0 < d) (a : CwtArgs) :
    cwt x { a with t := some (Spec.times0 t0 d x.length) } = cwt x { a with fs := some (1 / d), t := none } := by
  unfold cwt
  simp only [cwtDt_uniform _ t0 d hd _ hx]
  rfl

/-- So is `ssq_cwt`. -/
theorem C211_ssq_cwt (x : List ℝ) (hx : 3 ≤ x.length) (t0 d : ℝ) (hd : 0 < d) (a : SsqCwtArgs) :
    ssqCwt x { a with t := some (Spec.times0 t0 d x.length) } = ssqCwt x { a with fs := some (1 / d), t := none } := by
  have h1 : ({ a with t := some (Spec.times0 t0 d x.length) } : SsqCwtArgs).ssqArgs = ({ a with fs := some (1 / d), t := none } : SsqCwtArgs).ssqArgs := by
    funext fs st sc N W dW
    unfold SsqCwtArgs.ssqArgs
    rfl
  have h2 : ({ a with t := some (Spec.times0 t0 d x.length) } : SsqCwtArgs).cwtArgs = ({ a with fs := some (1 / d), t := none } : SsqCwtArgs).cwtArgs := by
    funext fs sc
    unfold SsqCwtArgs.cwtArgs
    rfl
  have h3 : ssqCwtNv { a with t := some (Spec.times0 t0 d x.length) } = ssqCwtNv { a with fs := some (1 / d), t := none } := rfl
  unfold ssqCwt
  simp only [cwtDt_uniform _ t0 d hd _ hx, h1, h2, h3]

/-- So is `ssq_stft`. -/
theorem C211_ssq_stft (lib : WinLib) (tiny : ℝ) (x : List ℝ) (hx : 3 ≤ x.length) (t0 d : ℝ) (hd : 0 < d) (a : SsqStftArgs) :
    ssqStft lib tiny x { a with t := some (Spec.times0 t0 d x.length) } = ssqStft lib tiny x { a with fs := some (1 / d), t := none } := by
  have h1 : ssqStftCall { a with t := some (Spec.times0 t0 d x.length) } = ssqStftCall { a with fs := some (1 / d), t := none } := by
    funext fs rows S dS
    unfold ssqStftCall
    rfl
  unfold ssqStft
  simp only [processFsT_uniform _ t0 d hd _ hx, h1]

/-- Likewise `ssq_cwt` with higher orders and numeric differentiation. -/
theorem C211_ssq_full (x : List ℝ) (hx : 3 ≤ x.length) (t0 d : ℝ) (hd : 0 < d) (a : SsqFullArgs) :
    ssqCwtFull x { a with t := some (Spec.times0 t0 d x.length) } = ssqCwtFull x { a with fs := some (1 / d), t := none } := by
  have h1 : ssqTransforms x { a with t := some (Spec.times0 t0 d x.length) } = ssqTransforms x { a with fs := some (1 / d), t := none } := by
    funext fs
    unfold ssqTransforms
    rfl
  have h2 : ssqPhase { a with t := some (Spec.times0 t0 d x.length) } = ssqPhase { a with fs := some (1 / d), t := none } := by
    funext
    unfold ssqPhase
    rfl
  unfold ssqCwtFull
  simp only [cwtDt_uniform _ t0 d hd _ hx, h1, h2]
  rfl

theorem getD_shift (c : ℝ) (t : List ℝ) (i : ℕ) (hi : i < t.length) : (t.map fun u => c + u).getD i 0 = c + t.getD i 0 := by
  rw [List.getD_eq_getElem _ _ (by simpa using hi), List.getD_eq_getElem _ _ hi, List.getElem_map]

theorem processFsT_shift (fs : Option ℝ) (c : ℝ) (t : List ℝ) (N : ℕ) : processFsT fs (some (t.map fun u => c + u)) N = processFsT fs (some t) N := by
  unfold processFsT
  simp only [List.length_map]
  by_cases h1 : t.length ≠ N
  · rw [if_pos h1, if_pos h1]
  rw [if_neg h1, if_neg h1]
  by_cases h2 : t.length < 3
  · rw [if_pos h2, if_pos h2]
  rw [if_neg h2, if_neg h2]
  have hm : meanAbsDiff2 (t.map fun u => c + u) = meanAbsDiff2 t := by
    unfold meanAbsDiff2
    rw [List.length_map]
    congr 2
    refine List.map_congr_left fun i hi => ?_
    have := List.mem_range.1 hi
    rw [getD_shift c t _ (by omega), getD_shift c t _ (by omega), getD_shift c t _ (by omega)]
    congr 1
    ring
  rw [hm, getD_shift c t 1 (by omega), getD_shift c t 0 (by omega), add_sub_add_left_eq_sub]

/-- When the signal starts does not matter: times later by `c` give the same result or exception, uniform or not. -/
theorem C211_origin (x : List ℝ) (c : ℝ) (t : List ℝ) :
    (∀ a : CwtArgs, cwt x { a with t := some (t.map fun u => c + u) } = cwt x { a with t := some t }) ∧
    (∀ a : SsqCwtArgs, ssqCwt x { a with t := some (t.map fun u => c + u) } = ssqCwt x { a with t := some t }) ∧
    ∀ (lib : WinLib) (tiny : ℝ) (a : SsqStftArgs), ssqStft lib tiny x { a with t := some (t.map fun u => c + u) } = ssqStft lib tiny x { a with t := some t } := by
  refine ⟨fun a => ?_, fun a => ?_, fun lib tiny a => ?_⟩
  · unfold cwt cwtDt
    simp only [processFsT_shift]
    rfl
  · have h1 : ({ a with t := some (t.map fun u => c + u) } : SsqCwtArgs).ssqArgs = ({ a with t := some t } : SsqCwtArgs).ssqArgs := by
      funext fs st sc N W dW
      unfold SsqCwtArgs.ssqArgs
      rfl
    have h2 : ({ a with t := some (t.map fun u => c + u) } : SsqCwtArgs).cwtArgs = ({ a with t := some t } : SsqCwtArgs).cwtArgs := by
      funext fs sc
      unfold SsqCwtArgs.cwtArgs
      rfl
    have h3 : ssqCwtNv { a with t := some (t.map fun u => c + u) } = ssqCwtNv { a with t := some t } := rfl
    unfold ssqCwt cwtDt
    simp only [processFsT_shift, h1, h2, h3]
  · have h1 : ssqStftCall { a with t := some (t.map fun u => c + u) } = ssqStftCall { a with t := some t } := by
      funext fs rows S dS
      unfold ssqStftCall
      rfl
    unfold ssqStft
    simp only [processFsT_shift, h1]

/-- The hypotheses are met and the calls succeed: four samples from second 7 on, eight per second. -/
example : ∃ o, ssqCwt [3, 1, 4, 1] { exSsq none with t := some (Spec.times0 7 (1 / 8) 4) } = .ok o := by
  obtain ⟨o, h, -⟩ := exSsq_ok none [3, 1, 4, 1] (by simp)
  refine ⟨o, (C211_ssq_cwt [3, 1, 4, 1] (by simp) 7 (1 / 8) (by norm_num) (exSsq none)).trans ?_⟩
  rw [← h]
  congr 1
  simp [exSsq]

end Ssq
