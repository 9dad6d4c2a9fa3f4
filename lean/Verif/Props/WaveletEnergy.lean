import Verif.Model.Wavelets
import Mathlib.MeasureTheory.Integral.Gamma
import Mathlib.Analysis.SpecialFunctions.Gaussian.GaussianIntegral

/-!
# C87: energies of the Morlet and Mexican-hat wavelets
-/
namespace Ssq
open MeasureTheory Set

theorem morlet_const_pos (μ : ℝ) (h : μ ≠ 0) : 0 < 1 + Real.exp (-μ ^ 2) - 2 * Real.exp (-(3 / 4) * μ ^ 2) := by
  set a := Real.exp (-(1 / 4) * μ ^ 2) with ha
  have hpos : 0 < a := Real.exp_pos _
  have h1 : a < 1 := by
    rw [ha, Real.exp_lt_one_iff]
    have : 0 < μ ^ 2 := by positivity
    linarith
  have e4 : Real.exp (-μ ^ 2) = a ^ 4 := by
    rw [ha, ← Real.exp_nat_mul]; congr 1; push_cast; ring
  have e3 : Real.exp (-(3 / 4) * μ ^ 2) = a ^ 3 := by
    rw [ha, ← Real.exp_nat_mul]; congr 1; push_cast; ring
  rw [e4, e3, show 1 + a ^ 4 - 2 * a ^ 3 = (1 - a) * (1 + a + a ^ 2 * (1 - a)) by ring]
  have : 0 < 1 - a := by linarith
  positivity

theorem rpow_quarter_sq (x : ℝ) (hx : 0 ≤ x) : (x ^ (1 / 4 : ℝ)) ^ 2 = Real.sqrt x := by
  rw [← Real.rpow_natCast, ← Real.rpow_mul hx, Real.sqrt_eq_rpow]; norm_num

/-- **C87**, Morlet: the transform vanishes at frequency 0 (zero mean) and has energy `2π`, for every `mu ≠ 0`. -/
theorem C87_morlet (μ : ℝ) (h : μ ≠ 0) : morletFn μ 0 = 0 ∧ ∫ w, morletFn μ w ^ 2 = 2 * Real.pi := by
  constructor
  · unfold morletFn
    simp
  have hD := morlet_const_pos μ h
  set D := 1 + Real.exp (-μ ^ 2) - 2 * Real.exp (-(3 / 4) * μ ^ 2) with hDdef
  set ks := Real.exp (-(1 / 2) * μ ^ 2) with hks
  have hfun : (fun w => morletFn μ w ^ 2) = fun w => (2 / D * Real.sqrt Real.pi) *
      (Real.exp (-1 * (w - μ) ^ 2) + (ks ^ 2 * Real.exp (-1 * w ^ 2) +
        (-2 * ks * Real.exp (-(1 / 4) * μ ^ 2)) * Real.exp (-1 * (w - μ / 2) ^ 2))) := by
    funext w
    have h1 : (D ^ (-(1 / 2) : ℝ)) ^ 2 = D⁻¹ := by
      rw [← Real.rpow_natCast, ← Real.rpow_mul hD.le, ← Real.rpow_neg_one]; norm_num
    have h2 := rpow_quarter_sq Real.pi Real.pi_pos.le
    have h3 : Real.sqrt 2 ^ 2 = 2 := Real.sq_sqrt (by norm_num)
    have a1 : Real.exp (-1 * (w - μ) ^ 2) = Real.exp (-(1 / 2) * (w - μ) ^ 2) ^ 2 := by
      rw [← Real.exp_nat_mul]; congr 1; push_cast; ring
    have a2 : Real.exp (-1 * w ^ 2) = Real.exp (-(1 / 2) * w ^ 2) ^ 2 := by
      rw [← Real.exp_nat_mul]; congr 1; push_cast; ring
    have a3 : Real.exp (-(1 / 4) * μ ^ 2) * Real.exp (-1 * (w - μ / 2) ^ 2) =
        Real.exp (-(1 / 2) * (w - μ) ^ 2) * Real.exp (-(1 / 2) * w ^ 2) := by
      rw [← Real.exp_add, ← Real.exp_add]; congr 1; ring
    have : morletFn μ w ^ 2 = Real.sqrt 2 ^ 2 * (D ^ (-(1 / 2) : ℝ)) ^ 2 * (Real.pi ^ (1 / 4 : ℝ)) ^ 2 *
        (Real.exp (-(1 / 2) * (w - μ) ^ 2) - ks * Real.exp (-(1 / 2) * w ^ 2)) ^ 2 := by
      unfold morletFn; simp only; rw [← hDdef, ← hks]; ring
    rw [this, h1, h2, h3, a1, a2, mul_assoc (-2 * ks), a3]
    ring
  have hint : ∀ c : ℝ, Integrable fun w : ℝ => Real.exp (-1 * (w - c) ^ 2) := fun c =>
    (integrable_exp_neg_mul_sq one_pos).comp_sub_right c
  have hval : ∀ c : ℝ, ∫ w : ℝ, Real.exp (-1 * (w - c) ^ 2) = Real.sqrt Real.pi := fun c => by
    rw [integral_sub_right_eq_self (fun w : ℝ => Real.exp (-1 * w ^ 2)) c, integral_gaussian, div_one]
  have hint0 : Integrable fun w : ℝ => Real.exp (-1 * w ^ 2) := integrable_exp_neg_mul_sq one_pos
  have hval0 : ∫ w : ℝ, Real.exp (-1 * w ^ 2) = Real.sqrt Real.pi := by rw [integral_gaussian, div_one]
  have hsum : Integrable fun w : ℝ => ks ^ 2 * Real.exp (-1 * w ^ 2) +
      -2 * ks * Real.exp (-(1 / 4) * μ ^ 2) * Real.exp (-1 * (w - μ / 2) ^ 2) :=
    (hint0.const_mul _).add ((hint _).const_mul _)
  rw [hfun, integral_const_mul, integral_add (hint μ) hsum,
    integral_add (hint0.const_mul _) ((hint _).const_mul _), integral_const_mul, integral_const_mul, hval, hval, hval0]
  have e1 : ks ^ 2 = Real.exp (-μ ^ 2) := by
    rw [hks, ← Real.exp_nat_mul]; congr 1; push_cast; ring
  have e2 : ks * Real.exp (-(1 / 4) * μ ^ 2) = Real.exp (-(3 / 4) * μ ^ 2) := by
    rw [hks, ← Real.exp_add]; congr 1; ring
  have hs : Real.sqrt Real.pi * Real.sqrt Real.pi = Real.pi := Real.mul_self_sqrt Real.pi_pos.le
  have hfin : 2 / D * Real.sqrt Real.pi * (Real.sqrt Real.pi + (ks ^ 2 * Real.sqrt Real.pi +
      -2 * ks * Real.exp (-(1 / 4) * μ ^ 2) * Real.sqrt Real.pi)) =
      2 / D * (Real.sqrt Real.pi * Real.sqrt Real.pi) * (1 + ks ^ 2 - 2 * (ks * Real.exp (-(1 / 4) * μ ^ 2))) := by ring
  rw [hfin, hs, e1, e2, ← hDdef]
  field_simp

/-- **C87**, complex Mexican hat: unit energy, for every centre and every width. -/
theorem C87_cmhat (μ s : ℝ) (hs : 0 < s) : ∫ w, cmhatFn μ s w ^ 2 = 1 := by
  have hshift : (fun w => cmhatFn μ s w ^ 2) = fun w => (fun v => cmhatFn 0 s v ^ 2) (w - μ) := by
    funext w; simp [cmhatFn]
  rw [hshift, integral_sub_right_eq_self (fun v => cmhatFn 0 s v ^ 2) μ]
  have hfun : (fun v => cmhatFn 0 s v ^ 2) = (Ici 0).indicator fun v : ℝ =>
      (8 / 3 * Real.pi ^ (-(1 / 2) : ℝ) * s ^ (5 : ℝ)) * (v ^ (4 : ℝ) * Real.exp (-s ^ 2 * v ^ (2 : ℝ))) := by
    funext v
    by_cases hv : 0 ≤ v
    · rw [indicator_of_mem (by exact hv)]
      have h1 : (Real.pi ^ (-(1 / 4) : ℝ)) ^ 2 = Real.pi ^ (-(1 / 2) : ℝ) := by
        rw [← Real.rpow_natCast, ← Real.rpow_mul Real.pi_pos.le]; norm_num
      have h2 : (s ^ (5 / 2 : ℝ)) ^ 2 = s ^ (5 : ℝ) := by
        rw [← Real.rpow_natCast, ← Real.rpow_mul hs.le]; norm_num
      have h3 : Real.sqrt (2 / 3) ^ 2 = 2 / 3 := Real.sq_sqrt (by norm_num)
      have h4 : Real.exp (-s ^ 2 * v ^ 2 / 2) ^ 2 = Real.exp (-s ^ 2 * v ^ 2) := by
        rw [← Real.exp_nat_mul]; congr 1; push_cast; ring
      have e4 : v ^ (4 : ℝ) = v ^ 4 := by exact_mod_cast Real.rpow_natCast v 4
      have e2 : v ^ (2 : ℝ) = v ^ 2 := by exact_mod_cast Real.rpow_natCast v 2
      have : cmhatFn 0 s v ^ 2 = 4 * Real.sqrt (2 / 3) ^ 2 * (Real.pi ^ (-(1 / 4) : ℝ)) ^ 2 *
          ((s ^ (5 / 2 : ℝ)) ^ 2 * v ^ 4 * Real.exp (-s ^ 2 * v ^ 2 / 2) ^ 2) := by
        unfold cmhatFn; simp only [sub_zero]; rw [if_pos hv]; ring
      rw [this, h1, h2, h3, h4, e4, e2]
      ring
    · rw [indicator_of_notMem (by exact hv)]
      unfold cmhatFn
      simp [hv]
  rw [hfun, integral_indicator measurableSet_Ici, integral_Ici_eq_integral_Ioi, integral_const_mul,
    integral_rpow_mul_exp_neg_mul_rpow (by norm_num) (by norm_num) (by positivity)]
  have hg : Real.Gamma ((4 + 1) / 2) = 3 / 4 * Real.sqrt Real.pi := by
    rw [show ((4 : ℝ) + 1) / 2 = 1 / 2 + 1 + 1 by norm_num, Real.Gamma_add_one (by norm_num), Real.Gamma_add_one (by norm_num),
      Real.Gamma_one_half_eq]
    ring
  have hsp : (s ^ 2) ^ (-(4 + 1) / 2 : ℝ) = (s ^ (5 : ℝ))⁻¹ := by
    rw [← Real.rpow_natCast, ← Real.rpow_mul hs.le, ← Real.rpow_neg hs.le]; norm_num
  have hpi : Real.pi ^ (-(1 / 2) : ℝ) = (Real.sqrt Real.pi)⁻¹ := by
    rw [Real.rpow_neg Real.pi_pos.le, Real.sqrt_eq_rpow]
  rw [hg, hsp, hpi]
  have h1 : 0 < s ^ (5 : ℝ) := by positivity
  have h2 : 0 < Real.sqrt Real.pi := Real.sqrt_pos.2 Real.pi_pos
  field_simp
  norm_num

/-- The Hermitian hat's transform on the whole line. -/
noncomputable def Spec.hermitianHat (v : ℝ) : ℝ :=
  2 / Real.sqrt 5 * Real.pi ^ (-(1 / 4) : ℝ) * (v * (1 + v)) * Real.exp (-(1 / 2) * v ^ 2)

theorem gauss_even_moment (f : ℝ → ℝ) (k : ℕ) (hk : Even k) (hf : ∀ v, f v = v ^ k * Real.exp (-1 * v ^ 2)) :
    ∫ v, f v = Real.Gamma ((k + 1) / 2) := by
  have : f = fun v => (fun u : ℝ => u ^ (k : ℝ) * Real.exp (-1 * u ^ (2 : ℝ))) |v| := by
    funext v
    have e2 : |v| ^ (2 : ℝ) = |v| ^ 2 := by exact_mod_cast Real.rpow_natCast |v| 2
    simp only [hf, Real.rpow_natCast, e2, sq_abs, hk.pow_abs]
  rw [this, integral_comp_abs, integral_rpow_mul_exp_neg_mul_rpow (by norm_num)
    (by have : (0 : ℝ) ≤ k := Nat.cast_nonneg k
        linarith) one_pos]
  rw [Real.one_rpow]; ring

theorem gauss_moment_integrable (k : ℕ) : Integrable fun v : ℝ => v ^ k * Real.exp (-1 * v ^ 2) := by
  have := integrable_rpow_mul_exp_neg_mul_sq one_pos (s := (k : ℝ))
    (by have : (0 : ℝ) ≤ k := Nat.cast_nonneg k
        linarith)
  simpa only [Real.rpow_natCast] using this

/-- **C87**, Hilbert analytic of the Hermitian hat: zero up to its centre, beyond it twice the Hermitian hat, which has
unit energy. -/
theorem C87_hhhat (μ : ℝ) : (∀ w ≤ μ, hhhatFn μ w = 0) ∧ (∀ w > μ, hhhatFn μ w = 2 * Spec.hermitianHat (w - μ)) ∧
    ∫ v, Spec.hermitianHat v ^ 2 = 1 := by
  refine ⟨fun w hw => ?_, fun w hw => ?_, ?_⟩
  · unfold hhhatFn
    dsimp only
    rcases hw.lt_or_eq with h | rfl
    · rw [Real.sign_of_neg (by linarith)]; ring
    · simp
  · unfold hhhatFn Spec.hermitianHat
    dsimp only
    rw [Real.sign_of_pos (by linarith)]; ring
  · have hq : (Real.pi ^ (-(1 / 4) : ℝ)) ^ 2 = (Real.sqrt Real.pi)⁻¹ := by
      rw [← Real.rpow_natCast, ← Real.rpow_mul Real.pi_pos.le, Real.sqrt_eq_rpow, ← Real.rpow_neg Real.pi_pos.le]; norm_num
    have h5 : Real.sqrt 5 ^ 2 = 5 := Real.sq_sqrt (by norm_num)
    have hfun : (fun v => Spec.hermitianHat v ^ 2) = fun v => (4 / 5 * (Real.sqrt Real.pi)⁻¹) *
        (v ^ 2 * Real.exp (-1 * v ^ 2) + (2 * (v ^ 3 * Real.exp (-1 * v ^ 2)) + v ^ 4 * Real.exp (-1 * v ^ 2))) := by
      funext v
      have h4 : Real.exp (-(1 / 2) * v ^ 2) ^ 2 = Real.exp (-1 * v ^ 2) := by
        rw [← Real.exp_nat_mul]; congr 1; push_cast; ring
      have : Spec.hermitianHat v ^ 2 = 4 / Real.sqrt 5 ^ 2 * (Real.pi ^ (-(1 / 4) : ℝ)) ^ 2 * (v * (1 + v)) ^ 2 *
          Real.exp (-(1 / 2) * v ^ 2) ^ 2 := by
        unfold Spec.hermitianHat; ring
      rw [this, hq, h5, h4]; ring
    have hodd : ∫ v : ℝ, v ^ 3 * Real.exp (-1 * v ^ 2) = 0 := by
      have h := integral_neg_eq_self (fun v : ℝ => v ^ 3 * Real.exp (-1 * v ^ 2)) volume
      have h' : (fun v : ℝ => (-v) ^ 3 * Real.exp (-1 * (-v) ^ 2)) = fun v => -(v ^ 3 * Real.exp (-1 * v ^ 2)) := by
        funext v; rw [neg_sq]; ring
      rw [h', integral_neg] at h
      linarith
    have i2 := gauss_moment_integrable 2
    have i3 := (gauss_moment_integrable 3).const_mul 2
    have i4 := gauss_moment_integrable 4
    have i34 : Integrable fun v : ℝ => 2 * (v ^ 3 * Real.exp (-1 * v ^ 2)) + v ^ 4 * Real.exp (-1 * v ^ 2) := i3.add i4
    have g2 : Real.Gamma (((2 : ℕ) + 1) / 2) = 1 / 2 * Real.sqrt Real.pi := by
      rw [show (((2 : ℕ) : ℝ) + 1) / 2 = 1 / 2 + 1 by norm_num, Real.Gamma_add_one (by norm_num), Real.Gamma_one_half_eq]
    have g4 : Real.Gamma (((4 : ℕ) + 1) / 2) = 3 / 4 * Real.sqrt Real.pi := by
      rw [show (((4 : ℕ) : ℝ) + 1) / 2 = 1 / 2 + 1 + 1 by norm_num, Real.Gamma_add_one (by norm_num),
        Real.Gamma_add_one (by norm_num), Real.Gamma_one_half_eq]
      ring
    rw [hfun, integral_const_mul, integral_add i2 i34, integral_add i3 i4, integral_const_mul, hodd,
      gauss_even_moment _ 2 (by decide) (fun _ => rfl), gauss_even_moment _ 4 (by decide) (fun _ => rfl), g2, g4]
    have h2 : 0 < Real.sqrt Real.pi := Real.sqrt_pos.2 Real.pi_pos
    field_simp
    ring

/-- The default parameters. -/
example : ∫ w, morletFn 13.4 w ^ 2 = 2 * Real.pi := (C87_morlet 13.4 (by norm_num)).2
example : ∫ w, cmhatFn 1 1 w ^ 2 = 1 := C87_cmhat 1 1 one_pos
example : hhhatFn 5 6 = 2 * Spec.hermitianHat 1 := by
  rw [(C87_hhhat 5).2.1 6 (by norm_num)]; norm_num

end Ssq
