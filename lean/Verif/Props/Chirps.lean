import Verif.Model.Chirps
import Mathlib.MeasureTheory.Integral.IntervalIntegral.FundThmCalculus
import Mathlib.Analysis.SpecialFunctions.ExpDeriv
import Mathlib.Analysis.SpecialFunctions.Pow.Deriv
import Mathlib.Tactic.FieldSimp
import Mathlib.Tactic.Ring
import Mathlib.Tactic.Linarith
import Mathlib.Tactic.Positivity

/-!
# C65, C66: chirps and amplitude modulators
-/
namespace Ssq

open Set

namespace Spec

/-- `(phi, w)` is a chirp over `[t0, t1]` from frequency `f0` to `f1`: the phase starts at zero and is the integral of the angular
frequency, which goes monotonically from `2 pi f0` to `2 pi f1`. -/
structure Sweeps (phi w : ℝ → ℝ) (t0 t1 f0 f1 : ℝ) : Prop where
  start : phi t0 = 0
  deriv : ∀ t ∈ Icc t0 t1, HasDerivAt phi (w t) t
  integral : ∀ t ∈ Icc t0 t1, phi t = ∫ s in t0..t, w s
  first : w t0 = 2 * Real.pi * f0
  last : w t1 = 2 * Real.pi * f1
  up : f0 ≤ f1 → MonotoneOn w (Icc t0 t1)
  down : f1 ≤ f0 → AntitoneOn w (Icc t0 t1)

end Spec
open Spec

/-- The integral form follows from the derivative. -/
theorem Sweeps.of_deriv {phi w : ℝ → ℝ} {t0 t1 f0 f1 : ℝ} (hs : phi t0 = 0) (hd : ∀ t ∈ Icc t0 t1, HasDerivAt phi (w t) t)
    (hc : ContinuousOn w (Icc t0 t1)) (h0 : w t0 = 2 * Real.pi * f0) (h1 : w t1 = 2 * Real.pi * f1)
    (hu : f0 ≤ f1 → MonotoneOn w (Icc t0 t1)) (hdn : f1 ≤ f0 → AntitoneOn w (Icc t0 t1)) : Sweeps phi w t0 t1 f0 f1 := by
  refine ⟨hs, hd, ?_, h0, h1, hu, hdn⟩
  intro t ht
  have hsub : uIcc t0 t ⊆ Icc t0 t1 := by
    rw [uIcc_of_le ht.1]; exact Icc_subset_Icc le_rfl ht.2
  rw [intervalIntegral.integral_eq_sub_of_hasDerivAt (fun s hs' => hd s (hsub hs')) (hc.mono hsub).intervalIntegrable, hs, sub_zero]

/-- **C65**, `lchirp`. -/
theorem C65_lchirp (tmin tmax fmin fmax : ℝ) (ht : tmin < tmax) :
    ∃ phi w : ℝ → ℝ, (∀ t, lchirpFn tmin tmax fmin fmax t = .ok (some ⟨phi t, w t⟩)) ∧ Sweeps phi w tmin tmax fmin fmax := by
  have h1 : tmin - tmax ≠ 0 := sub_ne_zero.2 ht.ne
  have h2 : tmax - tmin ≠ 0 := sub_ne_zero.2 ht.ne'
  have hpi := Real.pi_pos
  set a := (fmin - fmax) / (tmin - tmax) with ha
  set b := (fmin * tmax - fmax * tmin) / (tmax - tmin) with hb
  have ha' : a = (fmax - fmin) / (tmax - tmin) := by rw [ha]; field_simp; ring
  have mono : ∀ s t : ℝ, (a * t + b) * (2 * Real.pi) - (a * s + b) * (2 * Real.pi) = 2 * Real.pi * ((fmax - fmin) / (tmax - tmin)) * (t - s) := by
    intro s t; rw [← ha']; ring
  refine ⟨fun t => (a / 2 * (t ^ 2 - tmin ^ 2) + b * (t - tmin)) * (2 * Real.pi), fun t => (a * t + b) * (2 * Real.pi), ?_, ?_⟩
  · intro t; simp only [lchirpFn, if_neg h1, ← ha, ← hb]
  · apply Sweeps.of_deriv
    · ring
    · intro t _
      have := ((((hasDerivAt_pow 2 t).sub_const (tmin ^ 2)).const_mul (a / 2)).add (((hasDerivAt_id t).sub_const tmin).const_mul b)).mul_const (2 * Real.pi)
      exact this.congr_deriv (by push_cast; ring)
    · fun_prop
    · rw [ha', hb]; field_simp; ring
    · rw [ha', hb]; field_simp; ring
    · intro hf s _ t _ hst
      have : 0 ≤ 2 * Real.pi * ((fmax - fmin) / (tmax - tmin)) * (t - s) := by
        have : 0 ≤ (fmax - fmin) / (tmax - tmin) := div_nonneg (by linarith) (by linarith)
        have : 0 ≤ t - s := by linarith
        positivity
      have := mono s t
      simp only; linarith
    · intro hf s _ t _ hst
      have : 0 ≤ 2 * Real.pi * ((fmin - fmax) / (tmax - tmin)) * (t - s) := by
        have : 0 ≤ (fmin - fmax) / (tmax - tmin) := div_nonneg (by linarith) (by linarith)
        have : 0 ≤ t - s := by linarith
        positivity
      have h4 := mono s t
      have : (fmax - fmin) / (tmax - tmin) = - ((fmin - fmax) / (tmax - tmin)) := by ring
      rw [this] at h4
      simp only; linarith

/-- **C65**, `echirp_pc`. -/
theorem C65_echirp_pc (tmin tmax fmin fmax : ℝ) (ht : tmin < tmax) :
    ∃ phi w : ℝ → ℝ, (∀ t, echirpPcFn tmin tmax fmin fmax t = .ok (some ⟨phi t, w t⟩)) ∧ Sweeps phi w tmin tmax fmin fmax := by
  have he : 0 < Real.exp tmax - Real.exp tmin := sub_pos.2 (Real.exp_lt_exp.2 ht)
  have hpi := Real.pi_pos
  set A := (fmax - fmin) / (Real.exp tmax - Real.exp tmin) with hA
  set B := (fmin * Real.exp tmax - fmax * Real.exp tmin) / (Real.exp tmax - Real.exp tmin) with hB
  refine ⟨fun t => (A * (Real.exp t - Real.exp tmin) + B * (t - tmin)) * (2 * Real.pi), fun t => (A * Real.exp t + B) * (2 * Real.pi), ?_, ?_⟩
  · intro t; simp only [echirpPcFn, if_neg he.ne', ← hA, ← hB]
  · apply Sweeps.of_deriv
    · ring
    · intro t _
      have := ((((Real.hasDerivAt_exp t).sub_const (Real.exp tmin)).const_mul A).add (((hasDerivAt_id t).sub_const tmin).const_mul B)).mul_const (2 * Real.pi)
      exact this.congr_deriv (by ring)
    · fun_prop
    · rw [hA, hB]; field_simp; ring
    · rw [hA, hB]; field_simp; ring
    · intro hf s _ t _ hst
      have h1 : 0 ≤ A := div_nonneg (by linarith) he.le
      have h2 := Real.exp_le_exp.2 hst
      simp only
      gcongr
    · intro hf s _ t _ hst
      have h1 : A ≤ 0 := div_nonpos_of_nonpos_of_nonneg (by linarith) he.le
      have h2 := Real.exp_le_exp.2 hst
      simp only
      have : A * Real.exp t ≤ A * Real.exp s := mul_le_mul_of_nonpos_left h2 h1
      nlinarith

/-- **C65**, `echirp`, for different positive frequencies and `tmax ≠ 0`. -/
theorem C65_echirp_partial (tmin tmax fmin fmax : ℝ) (ht : tmin < tmax) (h0 : tmax ≠ 0) (h1 : 0 < fmin) (h2 : 0 < fmax) (hne : fmin ≠ fmax) :
    ∃ phi w : ℝ → ℝ, (∀ t, echirpFn tmin tmax fmin fmax t = .ok (some ⟨phi t, w t⟩)) ∧ Sweeps phi w tmin tmax fmin fmax := by
  have hT : tmax - tmin ≠ 0 := sub_ne_zero.2 ht.ne'
  have hpi := Real.pi_pos
  set a := (fmin ^ tmax / fmax ^ tmin) ^ (1 / (tmax - tmin)) with ha
  have ha0 : 0 < a := by positivity
  set b := fmax ^ (1 / tmax) * (1 / a) ^ (1 / tmax) with hb
  have hb0 : 0 < b := by positivity
  have la : Real.log a = (tmax * Real.log fmin - tmin * Real.log fmax) / (tmax - tmin) := by
    rw [ha, Real.log_rpow (by positivity), Real.log_div (by positivity) (by positivity), Real.log_rpow h1, Real.log_rpow h2]
    field_simp
  have lb : Real.log b = (Real.log fmax - Real.log fmin) / (tmax - tmin) := by
    rw [hb, Real.log_mul (by positivity) (by positivity), Real.log_rpow h2, Real.log_rpow (by positivity), one_div a, Real.log_inv, la]
    field_simp
    ring
  have lb0 : Real.log b ≠ 0 := by
    rw [lb]
    refine div_ne_zero (sub_ne_zero.2 fun h => hne ?_) hT
    exact (Real.log_injOn_pos (mem_Ioi.2 h2) (mem_Ioi.2 h1) h).symm
  have wexp : ∀ t, a * b ^ t = Real.exp (Real.log a + t * Real.log b) := by
    intro t
    rw [Real.exp_add, Real.exp_log ha0, Real.rpow_def_of_pos hb0, mul_comm t]
  refine ⟨fun t => a / Real.log b * (b ^ t - b ^ tmin) * (2 * Real.pi), fun t => a * b ^ t * (2 * Real.pi), ?_, ?_⟩
  · intro t
    have c1 : ¬ (fmin ≤ 0 ∨ fmax ≤ 0) := by push Not; exact ⟨h1, h2⟩
    have c2 : ¬ (tmax - tmin = 0 ∨ tmax = 0) := by push Not; exact ⟨hT, h0⟩
    simp only [echirpFn, if_neg c1, if_neg c2, ← ha, ← hb, if_neg lb0]
  · apply Sweeps.of_deriv
    · ring
    · intro t _
      have := ((((hasDerivAt_id t).const_rpow hb0).sub_const (b ^ tmin)).const_mul (a / Real.log b)).mul_const (2 * Real.pi)
      exact this.congr_deriv (by simp only [id]; field_simp)
    · apply Continuous.continuousOn
      have : Continuous fun t : ℝ => b ^ t := Real.continuous_const_rpow hb0.ne'
      fun_prop
    · rw [wexp, la, lb]
      have : (tmax * Real.log fmin - tmin * Real.log fmax) / (tmax - tmin) + tmin * ((Real.log fmax - Real.log fmin) / (tmax - tmin)) = Real.log fmin := by
        field_simp; ring
      rw [this, Real.exp_log h1]; ring
    · rw [wexp, la, lb]
      have : (tmax * Real.log fmin - tmin * Real.log fmax) / (tmax - tmin) + tmax * ((Real.log fmax - Real.log fmin) / (tmax - tmin)) = Real.log fmax := by
        field_simp; ring
      rw [this, Real.exp_log h2]; ring
    · intro hf s _ t _ hst
      simp only [wexp]
      have : 0 ≤ Real.log b := by
        rw [lb]; exact div_nonneg (sub_nonneg.2 (Real.log_le_log h1 hf)) (by linarith)
      gcongr
    · intro hf s _ t _ hst
      simp only [wexp]
      have : Real.log b ≤ 0 := by
        rw [lb]; exact div_nonpos_of_nonpos_of_nonneg (sub_nonpos.2 (Real.log_le_log h2 hf)) (by linarith)
      have h3 : t * Real.log b ≤ s * Real.log b := mul_le_mul_of_nonpos_right hst this
      gcongr

/-- **C65**, `hchirp`, for different positive frequencies. -/
theorem C65_hchirp_partial (tmin tmax fmin fmax : ℝ) (ht : tmin < tmax) (h1 : 0 < fmin) (h2 : 0 < fmax) (hne : fmin ≠ fmax) :
    ∃ phi w : ℝ → ℝ, (∀ t ∈ Icc tmin tmax, hchirpFn tmin tmax fmin fmax t = .ok (some ⟨phi t, w t⟩)) ∧
      Sweeps phi w tmin tmax fmin fmax := by
  have hpi := Real.pi_pos
  obtain ⟨p, hp, rfl⟩ : ∃ p, 0 < p ∧ fmin = p ^ 2 := ⟨Real.sqrt fmin, Real.sqrt_pos.2 h1, (Real.sq_sqrt h1.le).symm⟩
  obtain ⟨q, hq, rfl⟩ : ∃ q, 0 < q ∧ fmax = q ^ 2 := ⟨Real.sqrt fmax, Real.sqrt_pos.2 h2, (Real.sq_sqrt h2.le).symm⟩
  have hpq : p - q ≠ 0 := sub_ne_zero.2 fun h => hne (by rw [h])
  have hpq' : p + q ≠ 0 := by positivity
  have hT : tmin - tmax ≠ 0 := sub_ne_zero.2 ht.ne
  have hsq : Real.sqrt ((p ^ 2) ^ 3 * (q ^ 2) ^ 3 * (tmin - tmax) ^ 4) = p ^ 3 * q ^ 3 * (tmin - tmax) ^ 2 := by
    rw [show (p ^ 2) ^ 3 * (q ^ 2) ^ 3 * (tmin - tmax) ^ 4 = (p ^ 3 * q ^ 3 * (tmin - tmax) ^ 2) ^ 2 by ring]
    exact Real.sqrt_sq (by positivity)
  have hAB : p ^ 2 - q ^ 2 ≠ 0 := by
    rw [show p ^ 2 - q ^ 2 = (p - q) * (p + q) by ring]; exact mul_ne_zero hpq hpq'
  set A := (2 * (p ^ 3 * q ^ 3 * (tmin - tmax) ^ 2) + (p ^ 2) ^ 2 * q ^ 2 * (tmin - tmax) ^ 2 + p ^ 2 * (q ^ 2) ^ 2 * (tmin - tmax) ^ 2) /
    (p ^ 2 - q ^ 2) ^ 2 with hA
  set B := (p ^ 3 * q ^ 3 * (tmin - tmax) ^ 2 + (p ^ 2) ^ 2 * q ^ 2 * tmin * (tmin - tmax) + p ^ 2 * (q ^ 2) ^ 2 * tmax * (tmax - tmin)) /
    (p ^ 2 * q ^ 2 * (p ^ 2 - q ^ 2) * (tmin - tmax)) with hB
  have eA : A = (tmin - tmax) ^ 2 * p ^ 2 * q ^ 2 / (p - q) ^ 2 := by
    rw [hA, show p ^ 2 - q ^ 2 = (p - q) * (p + q) by ring]
    field_simp
    ring
  have eB : B = tmin + (tmin - tmax) * q / (p - q) := by
    rw [hB, show p ^ 2 - q ^ 2 = (p - q) * (p + q) by ring]
    field_simp
    ring
  have eBd : B = tmax + (tmin - tmax) * p / (p - q) := by
    rw [eB]; field_simp; ring
  have hA0 : 0 < A := by
    rw [eA]
    have := sq_pos_of_ne_zero hpq
    have := sq_pos_of_ne_zero hT
    positivity
  have side : (p < q ∧ ∀ t ≤ tmax, 0 < B - t) ∨ (q < p ∧ ∀ t, tmin ≤ t → B - t < 0) := by
    rcases lt_or_gt_of_ne (sub_ne_zero.1 hpq) with h | h
    · left
      refine ⟨h, fun t htt => ?_⟩
      have : 0 < (tmin - tmax) * p / (p - q) := div_pos_of_neg_of_neg (mul_neg_of_neg_of_pos (by linarith) hp) (by linarith)
      rw [eBd]; linarith
    · right
      refine ⟨h, fun t htt => ?_⟩
      have : (tmin - tmax) * q / (p - q) < 0 := div_neg_of_neg_of_pos (mul_neg_of_neg_of_pos (by linarith) hq) (by linarith)
      rw [eB]; linarith
  have hBt : ∀ t ∈ Icc tmin tmax, B - t ≠ 0 := by
    intro t htt
    rcases side with ⟨_, h⟩ | ⟨_, h⟩
    · exact (h t htt.2).ne'
    · exact (h t htt.1).ne
  have hB0 : B - tmin ≠ 0 := hBt tmin ⟨le_rfl, ht.le⟩
  have hB0' : tmin - B ≠ 0 := by rw [← neg_sub]; exact neg_ne_zero.2 hB0
  refine ⟨fun t => A * (1 / (B - t) + 1 / (tmin - B)) * (2 * Real.pi), fun t => A / (B - t) ^ 2 * (2 * Real.pi), ?_, ?_⟩
  · intro t htt
    have c1 : ¬ (p ^ 2 * q ^ 2 < 0 ∨ (p ^ 2 - q ^ 2) ^ 2 = 0 ∨ p ^ 2 * q ^ 2 * (p ^ 2 - q ^ 2) * (tmin - tmax) = 0) := by
      push Not
      refine ⟨by positivity, pow_ne_zero 2 hAB, ?_⟩
      exact mul_ne_zero (mul_ne_zero (by positivity) hAB) hT
    have c2 : ¬ (B - t = 0 ∨ tmin - B = 0) := by push Not; exact ⟨hBt t htt, hB0'⟩
    simp only [hchirpFn, hsq, if_neg c1, ← hA, ← hB, if_neg c2]
  · apply Sweeps.of_deriv
    · have : 1 / (B - tmin) + 1 / (tmin - B) = 0 := by
        rw [← neg_sub tmin B]; field_simp; ring
      simp only [this]; ring
    · intro t htt
      have hd : HasDerivAt (fun t : ℝ => B - t) (-1) t := by simpa using (hasDerivAt_id t).const_sub B
      have := (((hd.inv (hBt t htt)).add_const (1 / (tmin - B))).const_mul A).mul_const (2 * Real.pi)
      have e : (fun t => A * (1 / (B - t) + 1 / (tmin - B)) * (2 * Real.pi)) =
          fun y => A * ((fun t => B - t)⁻¹ y + 1 / (tmin - B)) * (2 * Real.pi) := by
        funext s; simp only [one_div, Pi.inv_apply]
      rw [e]
      exact this.congr_deriv (by ring)
    · intro t htt
      apply ContinuousAt.continuousWithinAt
      have := hBt t htt
      fun_prop (disch := exact pow_ne_zero 2 this)
    · rw [eA, eB, show tmin + (tmin - tmax) * q / (p - q) - tmin = (tmin - tmax) * q / (p - q) by ring]
      field_simp
    · rw [eA, eBd, show tmax + (tmin - tmax) * p / (p - q) - tmax = (tmin - tmax) * p / (p - q) by ring]
      field_simp
    · intro hf s hs t htt hst
      have hlt : p < q := by
        rcases side with ⟨h, _⟩ | ⟨h, _⟩
        · exact h
        · nlinarith
      rcases side with ⟨_, hB'⟩ | ⟨h, _⟩
      · have k1 := hB' t htt.2
        simp only
        gcongr
      · linarith
    · intro hf s hs t htt hst
      have hlt : q < p := by
        rcases side with ⟨h, _⟩ | ⟨h, _⟩
        · nlinarith
        · exact h
      rcases side with ⟨h, _⟩ | ⟨_, hB'⟩
      · linarith
      · have k1 := hB' s hs.1
        have k2 : (B - s) ^ 2 ≤ (B - t) ^ 2 := by nlinarith
        have k3 : 0 < (B - s) ^ 2 := sq_pos_of_ne_zero k1.ne
        simp only
        gcongr

/-- C65 in full: every increasing time interval and positive frequencies. -/
def C65_full : Prop := ∀ tmin tmax fmin fmax : ℝ, tmin < tmax → 0 < fmin → fmin ≤ fmax →
  (∃ phi w : ℝ → ℝ, (∀ t ∈ Icc tmin tmax, lchirpFn tmin tmax fmin fmax t = .ok (some ⟨phi t, w t⟩)) ∧ Sweeps phi w tmin tmax fmin fmax) ∧
  (∃ phi w : ℝ → ℝ, (∀ t ∈ Icc tmin tmax, echirpFn tmin tmax fmin fmax t = .ok (some ⟨phi t, w t⟩)) ∧ Sweeps phi w tmin tmax fmin fmax) ∧
  (∃ phi w : ℝ → ℝ, (∀ t ∈ Icc tmin tmax, hchirpFn tmin tmax fmin fmax t = .ok (some ⟨phi t, w t⟩)) ∧ Sweeps phi w tmin tmax fmin fmax)

/-- An exponential chirp that ends at time 0 divides by zero. -/
theorem C65_tmax_zero (tmin fmin fmax t : ℝ) (h1 : 0 < fmin) (h2 : 0 < fmax) :
    echirpFn tmin 0 fmin fmax t = .error .zeroDivisionError := by
  have c1 : ¬ (fmin ≤ 0 ∨ fmax ≤ 0) := by push Not; exact ⟨h1, h2⟩
  simp only [echirpFn, if_neg c1, or_true, if_true]

/-- A hyperbolic or exponential chirp with equal frequencies is not finite (`0 / 0`). -/
theorem C65_flat (tmin tmax f t : ℝ) (ht : tmin < tmax) (h0 : tmax ≠ 0) (hf : 0 < f) :
    echirpFn tmin tmax f f t = .ok none ∧ hchirpFn tmin tmax f f t = .ok none := by
  constructor
  · have c1 : ¬ (f ≤ 0 ∨ f ≤ 0) := by push Not; exact ⟨hf, hf⟩
    have hT : tmax - tmin ≠ 0 := sub_ne_zero.2 ht.ne'
    have c2 : ¬ (tmax - tmin = 0 ∨ tmax = 0) := by push Not; exact ⟨hT, h0⟩
    have e : (f ^ tmax / f ^ tmin) ^ (1 / (tmax - tmin)) = f := by
      rw [← Real.rpow_sub hf, ← Real.rpow_mul hf.le, mul_one_div_cancel hT, Real.rpow_one]
    have e2 : f ^ (1 / tmax) * (1 / f) ^ (1 / tmax) = 1 := by
      rw [← Real.mul_rpow hf.le (by positivity), mul_one_div_cancel hf.ne', Real.one_rpow]
    simp only [echirpFn, if_neg c1, if_neg c2, e, e2, Real.log_one, if_true]
  · simp [hchirpFn]

theorem C65_refuted : ¬ C65_full := fun h => by
  obtain ⟨_, ⟨phi, w, h1, _⟩, _⟩ := h (-1) 0 1 2 (by norm_num) (by norm_num) (by norm_num)
  have := h1 0 ⟨by norm_num, le_rfl⟩
  rw [C65_tmax_zero (-1) 1 2 0 (by norm_num) (by norm_num)] at this
  simp at this

/-- The defaults with a band up to 256. -/
example : (0 : ℝ) < 1 ∧ (1 : ℝ) ≠ 0 ∧ (0 : ℝ) < 1 ∧ (0 : ℝ) < 256 ∧ (1 : ℝ) ≠ 256 := by norm_num

/-! ### C66 -/

/-- **C66**: sine and cosine modulators. -/
theorem C66_sine (f amin amax phi t : ℝ) (h : amin ≤ amax) :
    amSine f amin amax phi t ∈ Icc amin amax ∧ amCosine f amin amax phi t ∈ Icc amin amax := by
  have key : ∀ s : ℝ, -1 ≤ s → s ≤ 1 → amin + (amax - amin) * ((s + 1) / 2) ∈ Icc amin amax := by
    intro s h1 h2
    have h3 : 0 ≤ (s + 1) / 2 := by linarith
    have h4 : (s + 1) / 2 ≤ 1 := by linarith
    constructor
    · nlinarith [mul_nonneg (sub_nonneg.2 h) h3]
    · nlinarith [mul_le_mul_of_nonneg_left h4 (sub_nonneg.2 h)]
  exact ⟨key _ (Real.neg_one_le_sin _) (Real.sin_le_one _), key _ (Real.neg_one_le_cos _) (Real.cos_le_one _)⟩

/-- Both bounds are reached, so the modulation spans the requested range (`f ≠ 0`). -/
theorem C66_span (f amin amax phi : ℝ) (hf : f ≠ 0) :
    (∃ t, amSine f amin amax phi t = amin) ∧ (∃ t, amSine f amin amax phi t = amax) ∧
    (∃ t, amCosine f amin amax phi t = amin) ∧ (∃ t, amCosine f amin amax phi t = amax) := by
  have hpi := Real.pi_pos
  have sol : ∀ c : ℝ, 2 * Real.pi * f * ((c - phi) / (2 * Real.pi * f)) + phi = c := by
    intro c; field_simp; ring
  refine ⟨⟨(-(Real.pi / 2) - phi) / (2 * Real.pi * f), ?_⟩, ⟨(Real.pi / 2 - phi) / (2 * Real.pi * f), ?_⟩,
    ⟨(Real.pi - phi) / (2 * Real.pi * f), ?_⟩, ⟨(0 - phi) / (2 * Real.pi * f), ?_⟩⟩
  · rw [amSine, sol, Real.sin_neg, Real.sin_pi_div_two]; ring
  · rw [amSine, sol, Real.sin_pi_div_two]; ring
  · rw [amCosine, sol, Real.cos_pi]; ring
  · rw [amCosine, sol, Real.cos_zero]; ring

/-- **C66**: Gaussian modulator. -/
theorem C66_gauss (n : ℕ) (amin amax : ℝ) (h : amin ≤ amax) : ∀ y ∈ amGauss n amin amax, y ∈ Icc amin amax := by
  intro y hy
  simp only [amGauss, List.mem_map] at hy
  obtain ⟨s, _, rfl⟩ := hy
  set m := (tVec (-1) 1 n false).sum / ((tVec (-1) 1 n false).length : ℝ)
  have h1 : 0 < Real.exp (-((s - m) ^ 2 * 5)) := Real.exp_pos _
  have h2 : Real.exp (-((s - m) ^ 2 * 5)) ≤ 1 := Real.exp_le_one_iff.2 (by nlinarith [sq_nonneg (s - m)])
  constructor
  · nlinarith [mul_nonneg (sub_nonneg.2 h) h1.le]
  · nlinarith [mul_le_mul_of_nonneg_left h2 (sub_nonneg.2 h)]

/-- **C66**: exponential modulator, from `amin` at `tmin` to `amax` at `tmax` and between them meanwhile. -/
theorem C66_exp (tmin tmax amin amax : ℝ) (ht : tmin < tmax) (h0 : tmax ≠ 0) (h1 : 0 < amin) (h2 : amin < amax) :
    ∃ A : ℝ → ℝ, (∀ t, amExp tmin tmax amin amax t = .ok (some (A t))) ∧ A tmin = amin ∧ A tmax = amax ∧
      ∀ t ∈ Icc tmin tmax, A t ∈ Icc amin amax := by
  obtain ⟨phi, w, e, hs⟩ := C65_echirp_partial tmin tmax amin amax ht h0 h1 (h1.trans h2) h2.ne
  have hpi := Real.pi_pos
  have e0 : w tmin / (2 * Real.pi) = amin := by rw [hs.first]; field_simp
  have e1 : w tmax / (2 * Real.pi) = amax := by rw [hs.last]; field_simp
  refine ⟨fun t => w t / (2 * Real.pi), fun t => ?_, e0, e1, fun t htt => ?_⟩
  · simp only [amExp, e, bind, Except.bind, pure, Except.pure, Option.map_some]
  · have u1 := hs.up h2.le ⟨le_rfl, ht.le⟩ htt htt.1
    have u2 := hs.up h2.le htt ⟨ht.le, le_rfl⟩ htt.2
    constructor
    · rw [← e0]; dsimp only; gcongr
    · rw [← e1]; dsimp only; gcongr

example : (0 : ℝ) < 1 ∧ (1 : ℝ) ≠ 0 ∧ (0 : ℝ) < 1 / 10 ∧ (1 / 10 : ℝ) < 1 := by norm_num

end Ssq
