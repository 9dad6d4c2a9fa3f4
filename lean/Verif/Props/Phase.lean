import Verif.Model.Squeeze
import Mathlib.Tactic.FieldSimp
import Mathlib.Tactic.Ring

/-!
# Property C70: the value of the phase transform
-/
namespace Ssq
open Complex

/-- Imaginary part of a quotient of complex numbers in real arithmetic. -/
theorem im_div_eq (W dW : ℂ) (hW : W ≠ 0) :
    (dW.im * W.re - dW.re * W.im) / (W.re ^ 2 + W.im ^ 2) = (dW / W).im := by
  have h : W.re ^ 2 + W.im ^ 2 ≠ 0 := by
    have := normSq_pos.mpr hW
    rw [normSq_apply] at this
    nlinarith
  rw [div_im, normSq_apply]
  have h' : W.re * W.re + W.im * W.im ≠ 0 := by rwa [← sq, ← sq]
  field_simp

theorem cwtFreq_eq (W dW : ℂ) (hW : W ≠ 0) : cwtFreq W dW = |(dW / W).im| / (2 * Real.pi) := by
  have hpi : (0 : ℝ) < 2 * Real.pi := by have := Real.pi_pos; positivity
  unfold cwtFreq
  rw [← div_div, im_div_eq W dW hW, abs_div, abs_of_pos hpi]

theorem stftFreq_eq (f : ℝ) (W dW : ℂ) (hW : W ≠ 0) :
    stftFreq f W dW = |f - (dW / W).im / (2 * Real.pi)| := by
  unfold stftFreq
  rw [← div_div, im_div_eq W dW hW]

/-- **C70 (CWT).** For every transform, derivative and positive threshold, each cell of the phase
transform is `inf` exactly where `|Wx| < gamma`, and `|Im(dWx/Wx)| / 2π` elsewhere. -/
theorem C70_phase_cwt (gamma : ℝ) (hg : 0 < gamma) (Wx dWx : ℕ → ℕ → ℂ) (i j : ℕ) :
    (‖Wx i j‖ < gamma → phaseCwt gamma Wx dWx i j = .inf) ∧
    (gamma ≤ ‖Wx i j‖ → phaseCwt gamma Wx dWx i j = .fin (|(dWx i j / Wx i j).im| / (2 * Real.pi))) := by
  refine ⟨fun h => by simp [phaseCwt, h], fun h => ?_⟩
  have hW : Wx i j ≠ 0 := norm_pos_iff.1 (lt_of_lt_of_le hg h)
  simp [phaseCwt, not_lt.2 h, cwtFreq_eq _ _ hW]

/-- **C70 (STFT).** Likewise with `|Sfs_i - Im(dSx/Sx) / 2π|`. -/
theorem C70_phase_stft (gamma : ℝ) (hg : 0 < gamma) (Sfs : ℕ → ℝ) (Sx dSx : ℕ → ℕ → ℂ) (i j : ℕ) :
    (‖Sx i j‖ < gamma → phaseStft gamma Sfs Sx dSx i j = .inf) ∧
    (gamma ≤ ‖Sx i j‖ →
      phaseStft gamma Sfs Sx dSx i j = .fin |Sfs i - (dSx i j / Sx i j).im / (2 * Real.pi)|) := by
  refine ⟨fun h => by simp [phaseStft, h], fun h => ?_⟩
  have hW : Sx i j ≠ 0 := norm_pos_iff.1 (lt_of_lt_of_le hg h)
  simp [phaseStft, not_lt.2 h, stftFreq_eq _ _ _ hW]

/-- **C70 (instantaneous frequency).** If the derivative of the cell is `(α + 2πi f)·Wx` (a component of
frequency `f`, with any growth rate `α`), the phase transform is `|f|`. -/
theorem C70_instantaneous (gamma : ℝ) (hg : 0 < gamma) (Wx dWx : ℕ → ℕ → ℂ) (i j : ℕ) (α f : ℝ)
    (hW : gamma ≤ ‖Wx i j‖) (hd : dWx i j = (α + 2 * Real.pi * I * f) * Wx i j) :
    phaseCwt gamma Wx dWx i j = .fin |f| := by
  have hW0 : Wx i j ≠ 0 := norm_pos_iff.1 (lt_of_lt_of_le hg hW)
  rw [(C70_phase_cwt gamma hg Wx dWx i j).2 hW, hd, mul_div_assoc, div_self hW0, mul_one]
  have : ((α : ℂ) + 2 * Real.pi * I * f).im = 2 * Real.pi * f := by simp
  rw [this, abs_mul, abs_of_pos (by have := Real.pi_pos; positivity : (0 : ℝ) < 2 * Real.pi)]
  congr 1
  have : (2 * Real.pi) ≠ 0 := by have := Real.pi_pos; positivity
  field_simp

/-- **C70 (scale invariance).** Multiplying transform and derivative by the same nonzero number does not
change the phase transform of a cell that stays above the threshold. -/
theorem C70_invariant (gamma : ℝ) (hg : 0 < gamma) (Wx dWx : ℕ → ℕ → ℂ) (c : ℂ) (i j : ℕ)
    (hW : gamma ≤ ‖Wx i j‖) (hcW : gamma ≤ ‖c * Wx i j‖) :
    phaseCwt gamma (fun i j => c * Wx i j) (fun i j => c * dWx i j) i j = phaseCwt gamma Wx dWx i j := by
  have hc : c ≠ 0 := by
    rintro rfl
    simp at hcW; linarith
  rw [(C70_phase_cwt gamma hg _ _ i j).2 hcW, (C70_phase_cwt gamma hg Wx dWx i j).2 hW,
    mul_div_mul_left _ _ hc]

example : phaseCwt 1 (fun _ _ => 2) (fun _ _ => (3 + 2 * Real.pi * I * (5 : ℝ)) * 2) 0 0 = .fin |5| :=
  C70_instantaneous 1 one_pos _ _ 0 0 3 5 (by norm_num) (by push_cast; ring)

end Ssq
