import Verif.Model.Wavelets
import Verif.Lemmas.ScaleBounds
import Mathlib.Analysis.Calculus.Deriv.MeanValue
import Mathlib.Analysis.SpecialFunctions.ExpDeriv
import Mathlib.Analysis.SpecialFunctions.Trigonometric.Chebyshev.Basic
import Mathlib.Tactic.Linarith
import Mathlib.Tactic.Positivity
import Mathlib.Tactic.FieldSimp
import Mathlib.Tactic.Ring

/-!
# C234: each named wavelet has one peak
-/
namespace Ssq
open Set

/-- On `S` the function rises up to `p` and falls from there; its value at `p` is greater than everywhere else, also outside `S`. -/
structure Spec.OnePeak (f : ℝ → ℝ) (S : Set ℝ) (p : ℝ) : Prop where
  mem : p ∈ S
  rises : StrictMonoOn f (S ∩ Iic p)
  falls : StrictAntiOn f (S ∩ Ici p)
  greatest : ∀ w, w ≠ p → f w < f p

theorem strictMonoOn_of_hasDeriv {f f' : ℝ → ℝ} {s : Set ℝ} (hs : Convex ℝ s) (hf : ∀ x, HasDerivAt f (f' x) x) (h : ∀ x ∈ interior s, 0 < f' x) : StrictMonoOn f s :=
  strictMonoOn_of_deriv_pos hs (fun x _ => (hf x).continuousAt.continuousWithinAt) fun x hx => by rw [(hf x).deriv]; exact h x hx

theorem strictAntiOn_of_hasDeriv {f f' : ℝ → ℝ} {s : Set ℝ} (hs : Convex ℝ s) (hf : ∀ x, HasDerivAt f (f' x) x) (h : ∀ x ∈ interior s, f' x < 0) : StrictAntiOn f s :=
  strictAntiOn_of_deriv_neg hs (fun x _ => (hf x).continuousAt.continuousWithinAt) fun x hx => by rw [(hf x).deriv]; exact h x hx

/-- A function that agrees on `[lo, ∞)` with one that rises up to `p` and falls from there, and is smaller outside. -/
theorem onePeak_of {f g : ℝ → ℝ} {lo p : ℝ} (hlo : lo < p) (hfg : ∀ w, lo ≤ w → f w = g w) (h1 : StrictMonoOn g (Icc lo p)) (h2 : StrictAntiOn g (Ici p)) (h3 : ∀ w < lo, f w < f p) :
    Spec.OnePeak f (Ici lo) p := by
  have e1 : Ici lo ∩ Iic p = Icc lo p := rfl
  have e2 : Ici lo ∩ Ici p = Ici p := by
    ext w; simp only [mem_inter_iff, mem_Ici]
    exact ⟨fun h => h.2, fun h => ⟨hlo.le.trans h, h⟩⟩
  have m1 : StrictMonoOn f (Icc lo p) := h1.congr fun w hw => (hfg w hw.1).symm
  have m2 : StrictAntiOn f (Ici p) := h2.congr fun w hw => (hfg w (hlo.le.trans hw)).symm
  refine ⟨hlo.le, by rw [e1]; exact m1, by rw [e2]; exact m2, fun w hw => ?_⟩
  rcases lt_or_ge w lo with h | h
  · exact h3 w h
  · rcases lt_or_gt_of_ne hw with h' | h'
    · exact m1 ⟨h, h'.le⟩ ⟨hlo.le, le_rfl⟩ h'
    · exact m2 (mem_Ici.2 le_rfl) (mem_Ici.2 h'.le) h'

/-- **C234, `cmhat`.** Its peak is at `mu + √2 / s`. -/
theorem C234_cmhat (μ s : ℝ) (hs : 0 < s) : Spec.OnePeak (fun w => |cmhatFn μ s w|) (Ici μ) (μ + Real.sqrt 2 / s) ∧ ∀ w < μ, cmhatFn μ s w = 0 := by
  have hpi := Real.pi_pos
  have h2 : (0 : ℝ) < Real.sqrt 2 := by positivity
  set c : ℝ := 2 * Real.sqrt (2 / 3) * Real.pi ^ (-(1 / 4) : ℝ) * s ^ (5 / 2 : ℝ) with hc
  have hc0 : 0 < c := by positivity
  have hz : ∀ w < μ, cmhatFn μ s w = 0 := by
    intro w hw
    simp only [cmhatFn]
    rw [if_neg (by linarith)]; ring
  have hfg : ∀ w, μ ≤ w → |cmhatFn μ s w| = c * ((w - μ) ^ 2 * Real.exp (-s ^ 2 * (w - μ) ^ 2 / 2)) := by
    intro w hw
    simp only [cmhatFn]
    rw [if_pos (by linarith), abs_of_nonneg (by positivity), hc]; ring
  have hd : ∀ w, HasDerivAt (fun w => c * ((w - μ) ^ 2 * Real.exp (-s ^ 2 * (w - μ) ^ 2 / 2)))
      (c * Real.exp (-s ^ 2 * (w - μ) ^ 2 / 2) * ((w - μ) * (2 - s ^ 2 * (w - μ) ^ 2))) w := by
    intro w
    have h1 : HasDerivAt (fun w => w - μ) 1 w := (hasDerivAt_id' w).sub_const μ
    have h3 := h1.pow 2
    have h4 := ((h3.const_mul (-s ^ 2)).div_const 2).exp
    have h5 := (h3.mul h4).const_mul c
    refine h5.congr_deriv ?_
    simp
    ring
  refine ⟨onePeak_of (by have := div_pos h2 hs; linarith) hfg (strictMonoOn_of_hasDeriv (convex_Icc _ _) hd fun w hw => ?_)
    (strictAntiOn_of_hasDeriv (convex_Ici _) hd fun w hw => ?_) fun w hw => ?_, hz⟩
  · rw [interior_Icc] at hw
    have hv : 0 < w - μ := by linarith [hw.1]
    have hv2 : s * (w - μ) < Real.sqrt 2 := by
      have : w - μ < Real.sqrt 2 / s := by linarith [hw.2]
      rw [lt_div_iff₀ hs] at this
      linarith
    have hsq : (s * (w - μ)) ^ 2 < 2 := by
      have := pow_lt_pow_left₀ hv2 (by positivity) two_ne_zero
      rwa [Real.sq_sqrt (by norm_num)] at this
    have : 0 < 2 - s ^ 2 * (w - μ) ^ 2 := by rw [mul_pow] at hsq; linarith
    positivity
  · rw [interior_Ici] at hw
    have hv2 : Real.sqrt 2 < s * (w - μ) := by
      have : Real.sqrt 2 / s < w - μ := by linarith [mem_Ioi.1 hw]
      rw [div_lt_iff₀ hs] at this
      linarith
    have hv : 0 < w - μ := by
      by_contra hn
      have : s * (w - μ) ≤ 0 := mul_nonpos_of_nonneg_of_nonpos hs.le (by linarith)
      linarith
    have hsq : 2 < (s * (w - μ)) ^ 2 := by
      have := pow_lt_pow_left₀ hv2 h2.le two_ne_zero
      rwa [Real.sq_sqrt (by norm_num)] at this
    have h6 : 2 - s ^ 2 * (w - μ) ^ 2 < 0 := by rw [mul_pow] at hsq; linarith
    exact mul_neg_of_pos_of_neg (by positivity) (mul_neg_of_pos_of_neg hv h6)
  · rw [hz w hw, abs_zero, hfg _ (by have := div_pos h2 hs; linarith)]
    have : 0 < (μ + Real.sqrt 2 / s - μ) ^ 2 := by
      have := div_pos h2 hs
      rw [add_sub_cancel_left]
      positivity
    positivity

/-- The root of `c³ + c² = 2 c + 1` that is positive. -/
theorem cos_root : 1 < 2 * Real.cos (2 * Real.pi / 7) ∧ (2 * Real.cos (2 * Real.pi / 7)) ^ 3 + (2 * Real.cos (2 * Real.pi / 7)) ^ 2 = 2 * (2 * Real.cos (2 * Real.pi / 7)) + 1 := by
  have hpi := Real.pi_pos
  set t := 2 * Real.pi / 7 with ht
  set x := Real.cos t with hx
  have h1 : 1 / 2 < x := by
    rw [← Real.cos_pi_div_three]
    exact Real.cos_lt_cos_of_nonneg_of_le_pi (by positivity) (by linarith) (by rw [ht]; linarith)
  have h2 : x < 1 := by
    rw [← Real.cos_zero]
    exact Real.cos_lt_cos_of_nonneg_of_le_pi le_rfl (by rw [ht]; linarith) (by positivity)
  have e : Real.cos (2 * (2 * t)) = Real.cos (3 * t) := by
    have : 2 * (2 * t) = 2 * Real.pi - 3 * t := by rw [ht]; ring
    rw [this, Real.cos_two_pi_sub]
  rw [Real.cos_two_mul, Real.cos_two_mul, Real.cos_three_mul, ← hx] at e
  refine ⟨by linarith, ?_⟩
  have h3 : (2 * x - 2) * ((2 * x) ^ 3 + (2 * x) ^ 2 - 2 * (2 * x) - 1) = 0 := by
    linear_combination 2 * e
  rcases mul_eq_zero.1 h3 with h | h
  · linarith
  · linarith

/-- **C234, `hhhat`.** Its peak is at `mu + 2 cos(2π/7)`. -/
theorem C234_hhhat (μ : ℝ) : Spec.OnePeak (fun w => |hhhatFn μ w|) (Ici μ) (μ + 2 * Real.cos (2 * Real.pi / 7)) ∧ ∀ w < μ, hhhatFn μ w = 0 := by
  have hpi := Real.pi_pos
  obtain ⟨c1, c2⟩ := cos_root
  set p := 2 * Real.cos (2 * Real.pi / 7) with hp
  set c : ℝ := 2 / Real.sqrt 5 * Real.pi ^ (-(1 / 4) : ℝ) * 2 with hc
  have hc0 : 0 < c := by positivity
  have hz : ∀ w < μ, hhhatFn μ w = 0 := by
    intro w hw
    simp only [hhhatFn]
    rw [Real.sign_of_neg (by linarith)]; ring
  have hfg : ∀ w, μ ≤ w → |hhhatFn μ w| = c * (((w - μ) + (w - μ) ^ 2) * Real.exp (-(1 / 2) * (w - μ) ^ 2)) := by
    intro w hw
    simp only [hhhatFn]
    rcases hw.eq_or_lt with h | h
    · rw [h]; simp
    · rw [Real.sign_of_pos (by linarith)]
      have : 0 < w - μ := by linarith
      rw [abs_of_nonneg (by positivity), hc]; ring
  have hd : ∀ w, HasDerivAt (fun w => c * (((w - μ) + (w - μ) ^ 2) * Real.exp (-(1 / 2) * (w - μ) ^ 2)))
      (c * Real.exp (-(1 / 2) * (w - μ) ^ 2) * (1 + 2 * (w - μ) - (w - μ) ^ 2 - (w - μ) ^ 3)) w := by
    intro w
    have h1 : HasDerivAt (fun w => w - μ) 1 w := (hasDerivAt_id' w).sub_const μ
    have h3 := h1.pow 2
    have h4 := (h3.const_mul (-(1 / 2))).exp
    have h5 := ((h1.add h3).mul h4).const_mul c
    refine h5.congr_deriv ?_
    simp
    ring
  have hfac : ∀ v, 1 + 2 * v - v ^ 2 - v ^ 3 = (p - v) * (v ^ 2 + (1 + p) * v + (p ^ 2 + p - 2)) := by
    intro v
    linear_combination -c2
  have hq : 0 < p ^ 2 + p - 2 := by nlinarith
  refine ⟨onePeak_of (by linarith) hfg (strictMonoOn_of_hasDeriv (convex_Icc _ _) hd fun w hw => ?_) (strictAntiOn_of_hasDeriv (convex_Ici _) hd fun w hw => ?_) fun w hw => ?_, hz⟩
  · rw [interior_Icc] at hw
    rw [hfac]
    have hv : 0 < w - μ := by linarith [hw.1]
    have hv2 : 0 < p - (w - μ) := by linarith [hw.2]
    have : 0 < 1 + p := by linarith
    positivity
  · rw [interior_Ici] at hw
    rw [hfac]
    have hv2 : p - (w - μ) < 0 := by linarith [mem_Ioi.1 hw]
    have hv : 0 < w - μ := by linarith
    have : 0 < 1 + p := by linarith
    exact mul_neg_of_pos_of_neg (by positivity) (mul_neg_of_neg_of_pos hv2 (by positivity))
  · rw [hz w hw, abs_zero, hfg _ (by linarith), add_sub_cancel_left]
    have : 0 < p := by linarith
    positivity

/-- **C234, `bump`.** Its peak is at `mu`; it is zero outside of `mu ± 0.999 s`. -/
theorem C234_bump (μ s om : ℝ) (hs : 0 < s) :
    Spec.OnePeak (fun w => ‖bumpFn μ s om w‖) (Ioo (μ - 0.999 * s) (μ + 0.999 * s)) μ ∧ ∀ w, w ∉ Ioo (μ - 0.999 * s) (μ + 0.999 * s) → bumpFn μ s om w = 0 := by
  have hin : ∀ w, w ∈ Ioo (μ - 0.999 * s) (μ + 0.999 * s) ↔ |(w - μ) / s| < 0.999 := by
    intro w
    rw [abs_lt, lt_div_iff₀ hs, div_lt_iff₀ hs, mem_Ioo]
    constructor
    · rintro ⟨h1, h2⟩; constructor <;> linarith
    · rintro ⟨h1, h2⟩; constructor <;> linarith
  have hz : ∀ w, w ∉ Ioo (μ - 0.999 * s) (μ + 0.999 * s) → bumpFn μ s om w = 0 := by
    intro w hw
    rw [hin] at hw
    simp only [bumpFn]
    rw [if_neg hw]
    simp
  have hval : ∀ w ∈ Ioo (μ - 0.999 * s) (μ + 0.999 * s), ‖bumpFn μ s om w‖ = Real.exp (-1 / (1 - ((w - μ) / s) ^ 2)) / s / 0.443993816053287 := by
    intro w hw
    rw [hin] at hw
    simp only [bumpFn]
    rw [if_pos hw]
    have e : (2 * Real.pi * Complex.I * om * w : ℂ) = ((2 * Real.pi * om * w : ℝ) : ℂ) * Complex.I := by push_cast; ring
    rw [e]
    simp only [norm_mul, norm_div, Complex.norm_exp_ofReal_mul_I, Complex.norm_real, Real.norm_eq_abs, abs_of_pos hs, mul_one, abs_one, Real.abs_exp]
    rw [abs_of_pos (by norm_num)]
    ring
  have hlt : ∀ v w : ℝ, |v| < |w| → |w| < 0.999 → Real.exp (-1 / (1 - w ^ 2)) < Real.exp (-1 / (1 - v ^ 2)) := by
    intro v w hvw hw
    apply Real.exp_lt_exp.2
    have h1 : v ^ 2 < w ^ 2 := sq_lt_sq.2 hvw
    have h2 : w ^ 2 < 1 := by
      rw [← sq_abs w]
      have := abs_nonneg w
      nlinarith
    rw [neg_div, neg_div, neg_lt_neg_iff]
    exact one_div_lt_one_div_of_lt (by linarith) (by linarith)
  have hμ : μ ∈ Ioo (μ - 0.999 * s) (μ + 0.999 * s) := by constructor <;> nlinarith
  have key : ∀ v ∈ Ioo (μ - 0.999 * s) (μ + 0.999 * s), ∀ w ∈ Ioo (μ - 0.999 * s) (μ + 0.999 * s), |v - μ| < |w - μ| → ‖bumpFn μ s om w‖ < ‖bumpFn μ s om v‖ := by
    intro v hv w hw h
    rw [hval v hv, hval w hw]
    refine div_lt_div_of_pos_right (div_lt_div_of_pos_right (hlt _ _ ?_ ((hin w).1 hw)) hs) (by norm_num)
    rw [abs_div, abs_div]
    exact div_lt_div_of_pos_right h (abs_pos.2 hs.ne')
  refine ⟨⟨hμ, ?_, ?_, fun w hw => ?_⟩, hz⟩
  · rintro v ⟨hv, hv'⟩ w ⟨hw, hw'⟩ h
    refine key w hw v hv ?_
    rw [abs_of_nonpos (by linarith [mem_Iic.1 hw']), abs_of_nonpos (by linarith [mem_Iic.1 hv'])]
    linarith
  · rintro v ⟨hv, hv'⟩ w ⟨hw, hw'⟩ h
    refine key v hv w hw ?_
    rw [abs_of_nonneg (by linarith [mem_Ici.1 hv']), abs_of_nonneg (by linarith [mem_Ici.1 hw'])]
    linarith
  · by_cases h : w ∈ Ioo (μ - 0.999 * s) (μ + 0.999 * s)
    · refine key μ hμ w h ?_
      rw [sub_self, abs_zero]
      exact abs_pos.2 (sub_ne_zero.2 hw)
    · rw [hz w h, norm_zero, hval μ hμ]
      positivity

/-- The normalization of `morlet` is positive. -/
theorem morlet_norm_pos (μ : ℝ) (hμ : μ ≠ 0) : 0 < 1 + Real.exp (-μ ^ 2) - 2 * Real.exp (-(3 / 4) * μ ^ 2) := by
  set q := Real.exp (-(1 / 4) * μ ^ 2) with hq
  have h0 : 0 < q := Real.exp_pos _
  have h1 : q < 1 := by
    rw [hq, Real.exp_lt_one_iff]
    have := pow_pos (abs_pos.2 hμ) 2
    rw [sq_abs] at this
    linarith
  have e3 : Real.exp (-(3 / 4) * μ ^ 2) = q ^ 3 := by rw [hq, ← Real.exp_nat_mul]; congr 1; push_cast; ring
  have e4 : Real.exp (-μ ^ 2) = q ^ 4 := by rw [hq, ← Real.exp_nat_mul]; congr 1; push_cast; ring
  rw [e3, e4]
  have : 1 + q ^ 4 - 2 * q ^ 3 = (1 - q) * (1 + q + q ^ 2 * (1 - q)) := by ring
  rw [this]
  have : 0 < 1 - q := by linarith
  positivity

/-- **C234, `morlet`.** For `mu > 0` its peak is the solution of `p (1 - exp(-mu p)) = mu`, above `mu` by less than `1 / mu`. -/
theorem C234_morlet (μ : ℝ) (hμ : 0 < μ) :
    ∃ p, p * (1 - Real.exp (-(μ * p))) = μ ∧ μ < p ∧ p < μ + 1 / μ ∧ Spec.OnePeak (fun w => |morletFn μ w|) (Ici 0) p := by
  have hpi := Real.pi_pos
  set h : ℝ → ℝ := fun w => w * (1 - Real.exp (-(μ * w))) with hh
  have hmono : ∀ a b, 0 ≤ a → a < b → h a < h b := by
    intro a b ha hab
    have h1 : Real.exp (-(μ * b)) < Real.exp (-(μ * a)) := Real.exp_lt_exp.2 (by nlinarith)
    have h2 : Real.exp (-(μ * a)) ≤ 1 := Real.exp_le_one_iff.2 (by have := mul_nonneg hμ.le ha; linarith)
    simp only [hh]
    nlinarith
  have hlo : h μ < μ := by
    have := Real.exp_pos (-(μ * μ))
    simp only [hh]
    nlinarith
  have hhi : μ < h (μ + 1 / μ) := by
    set w := μ + 1 / μ with hw
    have hw0 : 0 < w := by positivity
    have hμw : μ * w = μ ^ 2 + 1 := by rw [hw]; field_simp
    have h1 : 1 + μ * w < Real.exp (μ * w) := by
      have := Real.add_one_lt_exp (x := μ * w) (by positivity)
      linarith
    have h2 : Real.exp (-(μ * w)) < 1 / (1 + μ * w) := by
      rw [Real.exp_neg, ← one_div]
      exact one_div_lt_one_div_of_lt (by positivity) h1
    have h3 : μ ≤ w * (1 - 1 / (1 + μ * w)) := by
      have : w * (1 - 1 / (1 + μ * w)) = w * (μ * w) / (1 + μ * w) := by field_simp; ring
      rw [this, le_div_iff₀ (by positivity)]
      have h4 : w * (μ * w) = (μ * w) * (μ * w) / μ := by field_simp
      rw [h4, hμw, le_div_iff₀ hμ]
      nlinarith
    simp only [hh]
    nlinarith
  have hcont : ContinuousOn h (Icc μ (μ + 1 / μ)) := by
    simp only [hh]
    fun_prop
  obtain ⟨p, ⟨hp1, hp2⟩, hp⟩ := intermediate_value_Icc (by have := one_div_pos.2 hμ; linarith) hcont ⟨hlo.le, hhi.le⟩
  have hp1' : μ < p := lt_of_le_of_ne hp1 fun e => by rw [← e] at hp; linarith
  have hp2' : p < μ + 1 / μ := lt_of_le_of_ne hp2 fun e => by rw [e] at hp; linarith
  have hp0 : 0 < p := hμ.trans hp1'
  refine ⟨p, hp, hp1', hp2', ?_⟩
  set c : ℝ := Real.sqrt 2 * (1 + Real.exp (-μ ^ 2) - 2 * Real.exp (-(3 / 4) * μ ^ 2)) ^ (-(1 / 2) : ℝ) * Real.pi ^ (1 / 4 : ℝ) with hc
  have hc0 : 0 < c := by
    have := Real.rpow_pos_of_pos (morlet_norm_pos μ hμ.ne') (-(1 / 2))
    positivity
  have hk : ∀ w, Real.exp (-(1 / 2) * μ ^ 2) * Real.exp (-(1 / 2) * w ^ 2) = Real.exp (-(1 / 2) * (w - μ) ^ 2) * Real.exp (-(μ * w)) := by
    intro w
    rw [← Real.exp_add, ← Real.exp_add]
    congr 1
    ring
  have hval : ∀ w, morletFn μ w = c * (Real.exp (-(1 / 2) * (w - μ) ^ 2) * (1 - Real.exp (-(μ * w)))) := by
    intro w
    simp only [morletFn]
    rw [hk]
    ring
  have hge : ∀ w, 0 ≤ w → 0 ≤ 1 - Real.exp (-(μ * w)) := by
    intro w hw
    have := Real.exp_le_one_iff.2 (by have := mul_nonneg hμ.le hw; linarith : -(μ * w) ≤ 0)
    linarith
  have hfg : ∀ w, 0 ≤ w → |morletFn μ w| = c * (Real.exp (-(1 / 2) * (w - μ) ^ 2) - Real.exp (-(1 / 2) * μ ^ 2) * Real.exp (-(1 / 2) * w ^ 2)) := by
    intro w hw
    rw [hval, abs_of_nonneg, hk]
    · ring
    · have := hge w hw
      positivity
  have hd : ∀ w, HasDerivAt (fun w => c * (Real.exp (-(1 / 2) * (w - μ) ^ 2) - Real.exp (-(1 / 2) * μ ^ 2) * Real.exp (-(1 / 2) * w ^ 2)))
      (c * Real.exp (-(1 / 2) * (w - μ) ^ 2) * (μ - h w)) w := by
    intro w
    have h1 : HasDerivAt (fun w => w - μ) 1 w := (hasDerivAt_id' w).sub_const μ
    have h2 := ((h1.pow 2).const_mul (-(1 / 2))).exp
    have h3 := (((hasDerivAt_id' w).pow 2).const_mul (-(1 / 2))).exp
    have h5 := (h2.sub (h3.const_mul (Real.exp (-(1 / 2) * μ ^ 2)))).const_mul c
    refine h5.congr_deriv ?_
    have := hk w
    simp only [hh]
    simp only [Pi.pow_apply, Nat.cast_ofNat, Nat.add_one_sub_one, pow_one, mul_one]
    linear_combination c * w * this
  refine onePeak_of hp0 hfg (strictMonoOn_of_hasDeriv (convex_Icc _ _) hd fun w hw => ?_) (strictAntiOn_of_hasDeriv (convex_Ici _) hd fun w hw => ?_) fun w hw => ?_
  · rw [interior_Icc] at hw
    have := hmono w p hw.1.le hw.2
    have : 0 < μ - h w := by rw [hp] at this; linarith
    positivity
  · rw [interior_Ici] at hw
    have := hmono p w hp0.le hw
    exact mul_neg_of_pos_of_neg (by positivity) (by rw [hp] at this; linarith)
  · have hm : StrictMonoOn (fun w => |morletFn μ w|) (Icc 0 p) := (strictMonoOn_of_hasDeriv (convex_Icc _ _) hd fun w hw => by
      rw [interior_Icc] at hw
      have := hmono w p hw.1.le hw.2
      have : 0 < μ - h w := by rw [hp] at this; linarith
      positivity).congr fun w hw => (hfg w hw.1).symm
    have ha : StrictAntiOn (fun w => |morletFn μ w|) (Ici p) := (strictAntiOn_of_hasDeriv (convex_Ici _) hd fun w hw => by
      rw [interior_Ici] at hw
      have := hmono p w hp0.le hw
      exact mul_neg_of_pos_of_neg (by positivity) (by rw [hp] at this; linarith)).congr fun w hw => (hfg w (hp0.le.trans hw)).symm
    have hle : |morletFn μ (-w)| ≤ |morletFn μ p| := by
      rcases le_total (-w) p with hwp | hwp
      · exact hm.monotoneOn ⟨by linarith, hwp⟩ ⟨hp0.le, le_rfl⟩ hwp
      · exact ha.antitoneOn (mem_Ici.2 le_rfl) (mem_Ici.2 hwp) hwp
    refine lt_of_lt_of_le ?_ hle
    have hμw : 0 < μ * -w := mul_pos hμ (by linarith)
    have g1 : 0 < 1 - Real.exp (-(μ * -w)) := by
      have := Real.exp_lt_one_iff.2 (by linarith : -(μ * -w) < 0)
      linarith
    have g2 : 1 - Real.exp (-(μ * w)) = -(Real.exp (μ * -w) * (1 - Real.exp (-(μ * -w)))) := by
      rw [mul_sub, mul_one, ← Real.exp_add, add_neg_cancel, Real.exp_zero]
      rw [show -(μ * w) = μ * -w by ring]
      ring
    rw [hval, hval, g2, mul_neg, mul_neg, abs_neg, abs_of_pos (by positivity), abs_of_pos (by positivity), ← mul_assoc (Real.exp _) (Real.exp _), ← Real.exp_add]
    refine mul_lt_mul_of_pos_left (mul_lt_mul_of_pos_right (Real.exp_lt_exp.2 ?_) g1) hc0
    nlinarith

/-- Along the frequencies `0, 0.001, 0.002, …` a function with one peak rises up to one of the two next to the peak and falls from there; all others are
below these two. -/
theorem grid_of_peak (fn : ℝ → ℝ) (S : Set ℝ) (hS : S.OrdConnected) (p : ℝ) (hp0 : 0 ≤ p) (h : Spec.OnePeak (fun w => |fn w|) S p)
    (hz : ∀ w, 0 ≤ w → w ∉ S → fn w = 0) (hnear : ∀ w, 0 ≤ w → |w - p| ≤ 1 / 1000 → w ∈ S) :
    ∃ T : ℕ, (T : ℝ) / 1000 ≤ p ∧ p < ((T + 1 : ℕ) : ℝ) / 1000 ∧
      (∀ s t : ℕ, s ≤ t → t ≤ T → |fn (s / 1000)| ≤ |fn (t / 1000)|) ∧
      (∀ s t : ℕ, T + 1 ≤ s → s ≤ t → |fn (t / 1000)| ≤ |fn (s / 1000)|) ∧
      (∀ t : ℕ, t < T → |fn (t / 1000)| < |fn (T / 1000)|) ∧
      (∀ t : ℕ, T + 1 < t → |fn (t / 1000)| < |fn ((T + 1 : ℕ) / 1000)| ∨ |fn (t / 1000)| < |fn (T / 1000)|) := by
  have hup : ∀ v w : ℝ, 0 ≤ v → v ≤ w → w ≤ p → |fn v| ≤ |fn w| := by
    intro v w hv hvw hwp
    by_cases hvS : v ∈ S
    · exact h.rises.monotoneOn ⟨hvS, hvw.trans hwp⟩ ⟨hS.out hvS h.mem ⟨hvw, hwp⟩, hwp⟩ hvw
    · rw [hz v hv hvS, abs_zero]; exact abs_nonneg _
  have hdn : ∀ v w : ℝ, p ≤ v → v ≤ w → |fn w| ≤ |fn v| := by
    intro v w hpv hvw
    by_cases hwS : w ∈ S
    · exact h.falls.antitoneOn ⟨hS.out h.mem hwS ⟨hpv, hvw⟩, hpv⟩ ⟨hwS, hpv.trans hvw⟩ hvw
    · rw [hz w (hp0.trans (hpv.trans hvw)) hwS, abs_zero]; exact abs_nonneg _
  have hfl : ((⌊1000 * p⌋₊ : ℕ) : ℝ) ≤ 1000 * p := Nat.floor_le (by linarith)
  have hfl2 : 1000 * p < (⌊1000 * p⌋₊ : ℝ) + 1 := Nat.lt_floor_add_one _
  set T := ⌊1000 * p⌋₊ with hT
  have cast : ∀ {s t : ℕ}, s ≤ t → (s : ℝ) / 1000 ≤ t / 1000 := by
    intro s t hst
    have : (s : ℝ) ≤ t := by exact_mod_cast hst
    linarith
  have hT1 : p < ((T + 1 : ℕ) : ℝ) / 1000 := by push_cast; linarith
  refine ⟨T, by linarith, hT1, fun s t hst htT => hup _ _ (by positivity) (cast hst) ((cast htT).trans (by linarith)),
    fun s t hs hst => hdn _ _ (hT1.le.trans (cast hs)) (cast hst), fun t ht => ?_, fun t ht => ?_⟩
  · have h1 : ((t + 1 : ℕ) : ℝ) ≤ T := by exact_mod_cast ht
    push_cast at h1
    have hTS : (T : ℝ) / 1000 ∈ S := hnear _ (by positivity) (by rw [abs_le]; constructor <;> linarith)
    by_cases htS : (t : ℝ) / 1000 ∈ S
    · exact h.rises ⟨htS, mem_Iic.2 (by linarith)⟩ ⟨hTS, mem_Iic.2 (by linarith)⟩ (by linarith)
    · rw [hz _ (by positivity) htS, abs_zero]
      have hq : p - 1 / 1000 ∈ S := hnear _ (by have : (0 : ℝ) ≤ t := Nat.cast_nonneg t; linarith) (by rw [abs_le]; constructor <;> linarith)
      exact (abs_nonneg _).trans_lt (h.rises ⟨hq, mem_Iic.2 (by linarith)⟩ ⟨hTS, mem_Iic.2 (by linarith)⟩ (by linarith))
  · have h1 : ((T + 1 + 1 : ℕ) : ℝ) ≤ t := by exact_mod_cast ht
    push_cast at h1 hT1
    have hTS : ((T + 1 : ℕ) : ℝ) / 1000 ∈ S := hnear _ (by positivity) (by push_cast; rw [abs_le]; constructor <;> linarith)
    by_cases htS : (t : ℝ) / 1000 ∈ S
    · left
      exact h.falls ⟨hTS, mem_Ici.2 (by push_cast; linarith)⟩ ⟨htS, mem_Ici.2 (by linarith)⟩ (by push_cast; linarith)
    · rw [hz _ (by positivity) htS, abs_zero]
      rcases hfl.lt_or_eq with hlt | heq
      · left
        have hq : p + 1 / 1000 ∈ S := hnear _ (by linarith) (by rw [abs_le]; constructor <;> linarith)
        exact (abs_nonneg _).trans_lt (h.falls ⟨hTS, mem_Ici.2 (by push_cast; linarith)⟩ ⟨hq, mem_Ici.2 (by linarith)⟩ (by push_cast; linarith))
      · right
        have e : (T : ℝ) / 1000 = p := by rw [heq]; ring
        rw [e]
        exact (abs_nonneg _).trans_lt (h.greatest (p + 1) (by linarith))

/-- **C234, the search.** If `find_maximum(fn)` returns, for a function with one peak, then a frequency within 0.001 of it and the value there. -/
theorem C234_found (fn : ℝ → ℝ) (S : Set ℝ) (hS : S.OrdConnected) (p : ℝ) (hp0 : 0 ≤ p) (h : Spec.OnePeak (fun w => |fn w|) S p)
    (hz : ∀ w, 0 ≤ w → w ∉ S → fn w = 0) (hnear : ∀ w, 0 ≤ w → |w - p| ≤ 1 / 1000 → w ∈ S) (fuel : ℕ) (v mx : ℝ)
    (hf : findPeak fn fuel = some (.ok (v, mx))) : |v - p| ≤ 1 / 1000 ∧ mx = |fn v| := by
  obtain ⟨T, h1, h2, hup, hdn, hl, hr⟩ := grid_of_peak fn S hS p hp0 h hz hnear
  have hg : ∀ t : ℕ, |fn (t / 1000)| ≤ mx := by
    have e : ∀ t : ℕ, Spec.gridPt 0 (1 / 1000) 10000 t = (t : ℝ) / 1000 := fun t => by rw [gridPt_default, zero_add]
    have key : ∀ t, |fn (Spec.gridPt 0 (1 / 1000) 10000 t)| ≤ mx := by
      rcases le_total |fn (T / 1000)| |fn ((T + 1 : ℕ) / 1000)| with hc | hc
      · refine C64_max_global _ _ _ _ _ _ _ _ _ hf (T + 1) (fun s t hst ht => ?_) (fun s t hs hst => ?_)
        · rw [e, e]
          rcases Nat.lt_or_ge T t with h' | h'
          · obtain rfl : t = T + 1 := by omega
            rcases Nat.lt_or_ge T s with h'' | h''
            · obtain rfl : s = T + 1 := by omega
              exact le_rfl
            · exact (hup s T h'' le_rfl).trans hc
          · exact hup s t hst h'
        · rw [e, e]; exact hdn s t hs hst
      · refine C64_max_global _ _ _ _ _ _ _ _ _ hf T (fun s t hst ht => ?_) (fun s t hs hst => ?_)
        · rw [e, e]; exact hup s t hst ht
        · rw [e, e]
          rcases hs.eq_or_lt with rfl | h'
          · rcases hst.eq_or_lt with rfl | h''
            · exact le_rfl
            · exact (hdn (T + 1) t le_rfl h'').trans hc
          · exact hdn s t h' hst
    intro t
    rw [← e]
    exact key t
  obtain ⟨C, t0, -, h3, h4, -⟩ := C64_max_result _ _ _ _ _ _ _ _ _ hf
  rw [gridPt_default, zero_add] at h3
  refine ⟨?_, h4⟩
  have hT0 : T ≤ t0 := by
    by_contra hc
    have := hl t0 (by omega)
    rw [← h3, ← h4] at this
    exact absurd (hg T) (not_le.2 this)
  have hT1 : t0 ≤ T + 1 := by
    by_contra hc
    have := hr t0 (by omega)
    rw [← h3, ← h4] at this
    rcases this with h' | h'
    · exact absurd (hg (T + 1)) (not_le.2 h')
    · exact absurd (hg T) (not_le.2 h')
  push_cast at h2
  rw [h3, abs_le]
  rcases Nat.lt_or_ge T t0 with h' | h'
  · obtain rfl : t0 = T + 1 := by omega
    push_cast
    constructor <;> linarith
  · obtain rfl : t0 = T := by omega
    constructor <;> linarith

/-- The largest of `|fn|` over one block of the search. -/
noncomputable def blockMax (fn : ℝ → ℝ) (b : ℕ) : ℝ := rowMax ((searchInputs 0 10 10000 b).map fun x => |fn x|)

theorem blockMax_mem (fn : ℝ → ℝ) (b : ℕ) : ∃ t, b * 10000 ≤ t ∧ t < (b + 1) * 10000 ∧ blockMax fn b = |fn ((t : ℕ) / 1000)| := by
  have hne : ((searchInputs 0 10 10000 b).map fun x => |fn x|) ≠ [] := by
    intro e
    have := mem_searchInputs 0 b 0 (by norm_num)
    rw [List.map_eq_nil_iff.1 e] at this
    exact absurd this (by simp)
  obtain ⟨x, hx, e⟩ := List.mem_map.1 (rowMax_mem _ hne)
  obtain ⟨t, ht1, ht2, rfl⟩ := searchInputs_mem 0 b x hx
  exact ⟨t, ht1, ht2, by unfold blockMax; rw [← e, zero_add]⟩

theorem le_blockMax (fn : ℝ → ℝ) (b t : ℕ) (h1 : b * 10000 ≤ t) (h2 : t < (b + 1) * 10000) : |fn ((t : ℕ) / 1000)| ≤ blockMax fn b := by
  refine le_rowMax _ _ (List.mem_map.2 ⟨_, mem_searchInputs 0 b (t - b * 10000) (by rw [add_mul] at h2; omega), ?_⟩)
  rw [Nat.add_sub_cancel' h1, zero_add]

/-- While the maxima of the blocks do not fall, and the limit is not reached, the search goes on; it ends at the first block below the last. -/
theorem loop_ends (fn : ℝ → ℝ) (c k : ℕ) (hc0 : 0 < c) (hc : c ≤ 100) (hup : ∀ b, 0 < b → b < c → blockMax fn (b - 1) ≤ blockMax fn b)
    (hdn : blockMax fn c < blockMax fn (c - 1)) : ∀ (d b : ℕ) (L : ℝ) (iv : Option ℝ), b + d = c → (b = 0 → L = -1) →
    (0 < b → L = blockMax fn (b - 1) ∧ iv.isSome) → ∃ v m, findMaxLoop fn 0 10 10000 1000 (d + 1 + k) (b, L, iv) = some (.ok (v, m)) := by
  have hpos : ∀ b, 0 ≤ blockMax fn b := fun b => by
    obtain ⟨t, -, -, e⟩ := blockMax_mem fn b
    rw [e]; exact abs_nonneg _
  intro d
  induction d with
  | zero =>
    intro b L iv hb h0 h1
    obtain rfl : b = c := by omega
    obtain ⟨hL, hiv⟩ := h1 hc0
    obtain ⟨v, rfl⟩ := Option.isSome_iff_exists.1 hiv
    refine ⟨v, L, ?_⟩
    rw [show 0 + 1 + k = k + 1 by omega]
    unfold findMaxLoop findMaxStep
    simp only
    rw [if_pos (show rowMax _ < L by rw [hL]; exact hdn)]
  | succ d ih =>
    intro b L iv hb h0 h1
    have hLM : L ≤ blockMax fn b := by
      rcases Nat.eq_zero_or_pos b with e | e
      · rw [h0 e]; linarith [hpos b]
      · rw [(h1 e).1]; exact hup b e (by omega)
    have rx : rowMax (searchInputs 0 10 10000 b) ≤ 1000 := by
      have hne : searchInputs 0 10 10000 b ≠ [] := List.ne_nil_of_mem (mem_searchInputs 0 b 0 (by norm_num))
      obtain ⟨t, -, ht, e⟩ := searchInputs_mem 0 b _ (rowMax_mem _ hne)
      rw [e]
      have : (t : ℝ) ≤ 1000000 := by exact_mod_cast (by rw [add_mul] at ht; omega : t ≤ 1000000)
      linarith
    rw [show d + 1 + 1 + k = (d + 1 + k) + 1 by omega]
    unfold findMaxLoop findMaxStep
    simp only
    rw [if_neg (show ¬ rowMax _ < _ from not_lt.2 hLM), if_neg (not_lt.2 rx)]
    by_cases hlt : L < blockMax fn b
    · rw [if_pos (show L < rowMax _ from hlt)]
      refine ih (b + 1) (blockMax fn b) (some _) (by omega) (by omega) fun _ => ⟨by rw [Nat.add_sub_cancel], rfl⟩
    · rw [if_neg (show ¬ L < rowMax _ from hlt)]
      refine ih (b + 1) _ _ (by omega) (by omega) fun _ => ⟨le_antisymm hLM (not_lt.1 hlt), ?_⟩
      rcases Nat.eq_zero_or_pos b with e | e
      · exact absurd (by rw [h0 e]; linarith [hpos b]) hlt
      · exact (h1 e).2

/-- **C234, the search succeeds** for peaks up to 999, within 101 passes. -/
theorem C234_finds (fn : ℝ → ℝ) (S : Set ℝ) (hS : S.OrdConnected) (p : ℝ) (hp0 : 0 ≤ p) (hp : p ≤ 999) (h : Spec.OnePeak (fun w => |fn w|) S p)
    (hz : ∀ w, 0 ≤ w → w ∉ S → fn w = 0) (hnear : ∀ w, 0 ≤ w → |w - p| ≤ 1 / 1000 → w ∈ S) (k : ℕ) :
    ∃ v, findPeak fn (k + 101) = some (.ok (v, |fn v|)) ∧ |v - p| ≤ 1 / 1000 := by
  obtain ⟨T, h1, h2, hup, hdn, hl, hr⟩ := grid_of_peak fn S hS p hp0 h hz hnear
  have hT : T ≤ 999000 := by
    have : (T : ℝ) ≤ 999000 := by linarith
    exact_mod_cast this
  have key : ∃ A, A ≤ 999001 ∧ (∀ s t : ℕ, s ≤ t → t ≤ A → |fn (s / 1000)| ≤ |fn (t / 1000)|) ∧ ∀ t : ℕ, A < t → |fn (t / 1000)| < |fn (A / 1000)| := by
    rcases le_or_gt |fn (T / 1000)| |fn ((T + 1 : ℕ) / 1000)| with hc | hc
    · refine ⟨T + 1, by omega, fun s t hst ht => ?_, fun t ht => ?_⟩
      · rcases Nat.lt_or_ge T t with h' | h'
        · obtain rfl : t = T + 1 := by omega
          rcases Nat.lt_or_ge T s with h'' | h''
          · obtain rfl : s = T + 1 := by omega
            exact le_rfl
          · exact (hup s T h'' le_rfl).trans hc
        · exact hup s t hst h'
      · rcases hr t ht with h' | h'
        · exact h'
        · exact h'.trans_le hc
    · refine ⟨T, by omega, hup, fun t ht => ?_⟩
      rcases Nat.lt_or_ge (T + 1) t with h' | h'
      · rcases hr t h' with h'' | h''
        · exact h''.trans hc
        · exact h''
      · obtain rfl : t = T + 1 := by omega
        exact hc
  obtain ⟨A, hA, hAup, hAdn⟩ := key
  have hB1 : A / 10000 * 10000 ≤ A := Nat.div_mul_le_self A 10000
  have hB2 : A < (A / 10000 + 1) * 10000 := by omega
  obtain ⟨v, m, e⟩ := loop_ends fn (A / 10000 + 1) (k + 100 - (A / 10000 + 1)) (by omega) (by omega) (fun b hb hbc => by
      obtain ⟨t, -, ht, e⟩ := blockMax_mem fn (b - 1)
      rw [e]
      have hbA : b * 10000 ≤ A := (Nat.mul_le_mul_right _ (by omega : b ≤ A / 10000)).trans hB1
      refine (hAup t (b * 10000) ?_ hbA).trans (le_blockMax fn b (b * 10000) le_rfl (by omega))
      rw [Nat.sub_add_cancel hb] at ht
      omega) (by
      obtain ⟨t, ht, -, e⟩ := blockMax_mem fn (A / 10000 + 1)
      rw [e, Nat.add_sub_cancel]
      exact (hAdn t (by omega)).trans_le (le_blockMax fn _ A hB1 hB2)) (A / 10000 + 1) 0 (-1) none (by omega) (fun _ => rfl) (fun h => absurd h (by omega))
  have e' : findPeak fn (k + 101) = some (.ok (v, m)) := by
    unfold findPeak findMaximum
    rw [if_neg (by norm_num), inc_default, ← e]
    congr 1
    omega
  obtain ⟨h3, h4⟩ := C234_found fn S hS p hp0 h hz hnear _ v m e'
  exact ⟨v, by rw [e', h4], h3⟩

/-- **C234, together.** The continuous-time peak center frequency of the default `cmhat`, `hhhat`, `bump` and of any `morlet` with `1 < mu ≤ 998` (13.4
by default) is found, to within 0.001. -/
theorem C234_peak_ct (k : ℕ) :
    (∃ v m, findPeak (cmhatFn 1 1) (k + 101) = some (.ok (v, m)) ∧ |v - (1 + Real.sqrt 2)| ≤ 1 / 1000) ∧
    (∃ v m, findPeak (hhhatFn 5) (k + 101) = some (.ok (v, m)) ∧ |v - (5 + 2 * Real.cos (2 * Real.pi / 7))| ≤ 1 / 1000) ∧
    (∃ v m, findPeak (fun w => ‖bumpFn 5 1 0 w‖) (k + 101) = some (.ok (v, m)) ∧ |v - 5| ≤ 1 / 1000) ∧
    (∀ μ : ℝ, 1 < μ → μ ≤ 998 → ∃ v m p, findPeak (morletFn μ) (k + 101) = some (.ok (v, m)) ∧ p * (1 - Real.exp (-(μ * p))) = μ ∧ μ < p ∧ |v - p| ≤ 1 / 1000) := by
  refine ⟨?_, ?_, ?_, fun μ h1 h9 => ?_⟩
  · obtain ⟨h, hz⟩ := C234_cmhat 1 1 one_pos
    rw [div_one] at h
    have hs0 : 1 < Real.sqrt 2 := by rw [Real.lt_sqrt (by norm_num)]; norm_num
    have hs : Real.sqrt 2 < 2 := by rw [Real.sqrt_lt' (by norm_num)]; norm_num
    obtain ⟨v, e, hv⟩ := C234_finds (cmhatFn 1 1) (Ici 1) ordConnected_Ici _ (by positivity) (by linarith) h
      (fun w _ hw => hz w (by simpa using hw)) (fun w _ hw => mem_Ici.2 (by linarith [(abs_le.1 hw).1])) k
    exact ⟨v, _, e, hv⟩
  · obtain ⟨h, hz⟩ := C234_hhhat 5
    have hc := cos_root.1
    have hc2 := Real.cos_le_one (2 * Real.pi / 7)
    obtain ⟨v, e, hv⟩ := C234_finds (hhhatFn 5) (Ici 5) ordConnected_Ici _ (by linarith) (by linarith) h
      (fun w _ hw => hz w (by simpa using hw)) (fun w _ hw => mem_Ici.2 (by linarith [(abs_le.1 hw).1])) k
    exact ⟨v, _, e, hv⟩
  · obtain ⟨h, hz⟩ := C234_bump 5 1 0 one_pos
    obtain ⟨v, e, hv⟩ := C234_finds (fun w => ‖bumpFn 5 1 0 w‖) _ ordConnected_Ioo 5 (by norm_num) (by norm_num) (by simpa only [abs_norm] using h)
      (fun w _ hw => by rw [hz w hw, norm_zero]) (fun w _ hw => by
        obtain ⟨g1, g2⟩ := abs_le.1 hw
        constructor <;> norm_num <;> linarith) k
    exact ⟨v, _, e, hv⟩
  · obtain ⟨p, g1, g2, g3, h⟩ := C234_morlet μ (by linarith)
    have : 1 / μ < 1 := by rw [div_lt_one (by linarith)]; exact h1
    obtain ⟨v, e, hv⟩ := C234_finds (morletFn μ) (Ici 0) ordConnected_Ici p (by linarith) (by linarith) h
      (fun w hw hw' => absurd hw hw') (fun w hw _ => hw) k
    exact ⟨v, _, p, e, g1, g2, hv⟩

/-- A morlet wavelet with the default `mu` meets the hypotheses. -/
example : ∃ v m p, findPeak (morletFn 13.4) 101 = some (.ok (v, m)) ∧ p * (1 - Real.exp (-(13.4 * p))) = 13.4 ∧ 13.4 < p ∧ |v - p| ≤ 1 / 1000 :=
  (C234_peak_ct 0).2.2.2 13.4 (by norm_num) (by norm_num)

end Ssq
