import Verif.Props.SsqFreqs
import Mathlib.Tactic.IntervalCases

/-!
# A concrete case of `C28_piecewise`
-/
namespace Ssq
lemma logb2_pow (n : ℤ) : Real.logb 2 ((2 : ℝ) ^ n) = n := by
  rw [← Real.rpow_intCast, Real.logb_rpow (by norm_num) (by norm_num)]

/-- The hypotheses of `C28_piecewise` are met by scales 1, 2, 4, 16, 64 (transition at 16) and a wavelet of centre
frequency `8 / scale`. -/
example : ∃ fr, computeFreqs 1 (some [1, 2, 4, 16, 64]) 100 (some ⟨fun _ _ s => .ok (2 * Real.pi * (8 / s))⟩)
    (.known .logPiecewise) .peak false 1 .cwt = .ok fr ∧ fr.length = 5 ∧ fr[0]? = some (1 / 8) ∧ fr[1]? = some (1 / 2) ∧
    fr[4]? = some 8 := by
  have hcf : ∀ s : ℝ, getCenterFrequency ⟨fun _ _ s => .ok (2 * Real.pi * (8 / s))⟩ 100 .peak 1 s false = .ok (8 / s) := by
    intro s
    have : 2 * Real.pi * (8 / s) / (2 * Real.pi) / 1 = 8 / s := by
      rw [div_one, mul_div_cancel_left₀ _ (by positivity)]
    simp only [getCenterFrequency, ok_bind, pure_eq_ok, this]
  have l0 : Real.logb 2 (1 / 8) = -3 := by
    have := logb2_pow (-3); norm_num at this ⊢; exact this
  have l1 : Real.logb 2 (1 / 2) = -1 := by
    have := logb2_pow (-1); norm_num at this ⊢; exact this
  have l2 : Real.logb 2 8 = 3 := by
    have := logb2_pow 3; norm_num at this ⊢; exact this
  have l3 : Real.logb 2 4 = 2 := by
    have := logb2_pow 2; norm_num at this ⊢; exact this
  have l4 : Real.logb 2 16 = 4 := by
    have := logb2_pow 4; norm_num at this ⊢; exact this
  have l5 : Real.logb 2 64 = 6 := by
    have := logb2_pow 6; norm_num at this ⊢; exact this
  have htwo : Spec.TwoSegment [1, 2, 4, 16, 64] 2 0 1 2 := by
    refine ⟨by norm_num, by simp, ?_⟩
    intro i hi
    simp only [List.length_cons, List.length_nil] at hi
    interval_cases i <;> norm_num [l3, l4, l5]
  obtain ⟨fr, h1, h2, h3, h4, h5, -⟩ := C28_piecewise 1 one_pos [1, 2, 4, 16, 64] 100
    ⟨fun _ _ s => .ok (2 * Real.pi * (8 / s))⟩ .peak .peak (Or.inl ⟨rfl, rfl⟩) false 1 .cwt (1 / 8) (1 / 2) 8
    (by
      have e1 := hcf 64
      have e2 := hcf 1
      simp only [ssqFreqrange, centerRange]
      rw [show ([1, 2, 4, 16, 64] : List ℝ).getLastD 0 = 64 from rfl, e1, ok_bind, e2, ok_bind, pure_eq_ok]
      norm_num)
    3 (transition_two one_pos htwo (by norm_num)) (by rw [hcf]; norm_num) (by norm_num) (by simp) (by norm_num) (by norm_num)
    (by norm_num) (by rw [l0, l1, l2]; norm_num)
  exact ⟨fr, h1, h2, h3, h4, h5⟩
end Ssq
