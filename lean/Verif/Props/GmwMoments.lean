import Verif.Lemmas.GmwOrtho
import Verif.Props.Gmw
import Verif.Props.Cumulants
import Mathlib.MeasureTheory.Integral.IntegralEqImproper
import Mathlib.MeasureTheory.Measure.Haar.NormedSpace

/-!
# Energy, orthogonality (C77) and moments (C78) of the Morse wavelets
-/
namespace Ssq

open MeasureTheory Set Spec

/-- An integral over the line of something that vanishes for `w ≤ 0`. -/
theorem integral_pos_part (g : ℝ → ℝ) (h : ∀ w ≤ 0, g w = 0) : ∫ w, g w = ∫ w in Ioi 0, g w :=
  (setIntegral_eq_integral_of_forall_compl_eq_zero fun w hw => h w (not_lt.1 hw)).symm

theorem gmwClosed_energy_prod {γ β : ℝ} (hγ : 0 < γ) (hβ : 0 < β) (j k : ℕ) (hjk : j ≤ k) :
    ∫ w, gmwClosed γ β .energy j w * gmwClosed γ β .energy k w = if j = k then 2 * Real.pi else 0 := by
  rw [integral_pos_part _ fun w hw => by rw [gmwClosed_nonpos _ _ _ _ hw, zero_mul]]
  have e : ∀ w, gmwClosed γ β .energy j w * gmwClosed γ β .energy k w =
      (gmwCoeff γ β j .energy * gmwCoeff γ β k .energy) * (morse γ β w ^ 2 *
        (Spec.laguerre ((2 * β + 1) / γ - 1) (2 * w ^ γ) j * Spec.laguerre ((2 * β + 1) / γ - 1) (2 * w ^ γ) k)) :=
    fun w => by simp only [gmwClosed]; ring
  simp_rw [e]
  rw [integral_const_mul, laguerre_ortho hγ hβ j k hjk]
  split_ifs with h
  · subst h
    have hG := Real.Gamma_pos_of_pos (show 0 < j + (2 * β + 1) / γ by positivity)
    have hf : (0 : ℝ) < j.factorial := by exact_mod_cast Nat.factorial_pos j
    have hp := Real.pi_pos
    rw [gmwCoeff_energy hγ hβ, Real.mul_self_sqrt (by positivity)]
    field_simp
  · ring

theorem gmwCoeff_ratio {γ β : ℝ} (hγ : 0 < γ) (hβ : 0 < β) (k : ℕ) :
    gmwCoeff γ β k .bandpass = Real.sqrt (Real.Gamma ((2 * β + 1) / γ) / (2 * Real.pi * γ * 2 ^ ((2 * β + 1) / γ))) *
      gmwCoeff γ β k .energy := by
  have hG := Real.Gamma_pos_of_pos (show 0 < (2 * β + 1) / γ by positivity)
  have hG' := Real.Gamma_pos_of_pos (show 0 < k + (2 * β + 1) / γ by positivity)
  have hf : (0 : ℝ) < k.factorial := by exact_mod_cast Nat.factorial_pos k
  have hp := Real.pi_pos
  rw [gmwCoeff_bandpass hγ hβ, gmwCoeff_energy hγ hβ, ← Real.sqrt_mul (by positivity)]
  congr 1
  field_simp

/-- Bandpass wavelets are one common multiple of the energy wavelets. -/
theorem bandpass_energy {γ β : ℝ} (hγ : 0 < γ) (hβ : 0 < β) : ∃ a : ℝ, ∀ k w,
    gmwClosed γ β .bandpass k w = a * gmwClosed γ β .energy k w :=
  ⟨2 * Real.sqrt (Real.Gamma ((2 * β + 1) / γ) / (2 * Real.pi * γ * 2 ^ ((2 * β + 1) / γ))) / morse γ β (morsefreq γ β),
    fun k w => by simp only [gmwClosed, gmwCoeff_ratio hγ hβ]; ring⟩

/-- **C77** (energy norm). For all `gamma, beta > 0` the Morse wavelets of orders 0, 1, 2, … are orthonormal: with
`norm='energy'`, `(1/2π) ∫ ψ_j ψ_k dw` is 1 if the orders agree and 0 otherwise. -/
theorem C77_orthonormal {γ β : ℝ} {j k : ℕ} {f g : ℝ → ℝ}
    (hf : gmw (some γ) (some β) (.known .energy) (.int j) none false = .ok f)
    (hg : gmw (some γ) (some β) (.known .energy) (.int k) none false = .ok g) :
    (1 / (2 * Real.pi)) * ∫ w, f w * g w = if j = k then 1 else 0 := by
  obtain ⟨hγ, hβ, n, j', hn, _, hk, _, rfl⟩ := gmw_ok hf
  obtain ⟨_, _, n', k', hn', _, hk', _, rfl⟩ := gmw_ok hg
  obtain rfl : GmwNorm.energy = n := by simpa [gmwNormOf] using hn
  obtain rfl : GmwNorm.energy = n' := by simpa [gmwNormOf] using hn'
  obtain rfl : j = j' := by simpa [gmwOrder] using hk
  obtain rfl : k = k' := by simpa [gmwOrder] using hk'
  simp only [Option.getD_some] at hγ hβ
  simp only [Option.getD_some, Option.getD_none, gmwArg, Bool.false_eq_true, if_false]
  have hp := Real.pi_pos.ne'
  rcases le_total j k with h | h
  · rw [gmwClosed_energy_prod hγ hβ j k h]
    split_ifs
    · field_simp
    · ring
  · simp_rw [mul_comm (gmwClosed γ β .energy j _)]
    rw [gmwClosed_energy_prod hγ hβ k j h]
    simp_rw [eq_comm (a := k)]
    split_ifs
    · field_simp
    · ring

/-- **C77** (bandpass norm). With `norm='bandpass'` different orders are still orthogonal, and all have the same energy. -/
theorem C77_orthogonal {γ β : ℝ} {j k : ℕ} {f g : ℝ → ℝ} {b b' : Bool}
    (hf : gmw (some γ) (some β) (.known .bandpass) (.int j) none b = .ok f)
    (hg : gmw (some γ) (some β) (.known .bandpass) (.int k) none b' = .ok g) :
    (j ≠ k → ∫ w, f w * g w = 0) ∧ ∫ w, f w * f w = ∫ w, g w * g w := by
  obtain ⟨hγ, hβ, n, j', hn, _, hk, _, rfl⟩ := gmw_ok hf
  obtain ⟨_, _, n', k', hn', _, hk', _, rfl⟩ := gmw_ok hg
  obtain rfl : GmwNorm.bandpass = n := by simpa [gmwNormOf] using hn
  obtain rfl : GmwNorm.bandpass = n' := by simpa [gmwNormOf] using hn'
  obtain rfl : j = j' := by simpa [gmwOrder] using hk
  obtain rfl : k = k' := by simpa [gmwOrder] using hk'
  simp only [Option.getD_some] at hγ hβ
  simp only [Option.getD_some, Option.getD_none, gmwArg, Bool.false_eq_true, if_false]
  obtain ⟨a, ha⟩ := bandpass_energy hγ hβ
  simp_rw [ha]
  have e : ∀ i l w, a * gmwClosed γ β .energy i w * (a * gmwClosed γ β .energy l w) =
      a ^ 2 * (gmwClosed γ β .energy i w * gmwClosed γ β .energy l w) := fun i l w => by ring
  simp_rw [e, integral_const_mul]
  refine ⟨fun hne => ?_, ?_⟩
  · rcases le_total j k with h | h
    · rw [gmwClosed_energy_prod hγ hβ j k h, if_neg hne, mul_zero]
    · simp_rw [mul_comm (gmwClosed γ β .energy j _)]
      rw [gmwClosed_energy_prod hγ hβ k j h, if_neg (Ne.symm hne), mul_zero]
  · rw [gmwClosed_energy_prod hγ hβ j j le_rfl, gmwClosed_energy_prod hγ hβ k k le_rfl, if_pos rfl, if_pos rfl]

/-- **C77** (rescaling of `compute_gmw`). The factor `sqrt(scale)` — `sqrt(wc·scale)` with `centered_scale` — keeps the
energy at 1 at every scale. -/
theorem C77_scaled {γ β : ℝ} {k : ℕ} {f : ℝ → ℝ} {c : Bool} (s : ℝ) (hs : 0 < s)
    (hf : gmw (some γ) (some β) (.known .energy) (.int k) (some c) false = .ok f) :
    (1 / (2 * Real.pi)) * ∫ w, ((if c then Real.sqrt (morsefreq γ β * s) else Real.sqrt s) * f (s * w)) ^ 2 = 1 := by
  obtain ⟨hγ, hβ, n, k', hn, _, hk, _, rfl⟩ := gmw_ok hf
  obtain rfl : GmwNorm.energy = n := by simpa [gmwNormOf] using hn
  obtain rfl : k = k' := by simpa [gmwOrder] using hk
  simp only [Option.getD_some] at hγ hβ
  have hwc := morsefreq_pos hγ hβ
  have h1 := gmwClosed_energy_prod hγ hβ k k le_rfl
  rw [if_pos rfl] at h1
  have hp := Real.pi_pos.ne'
  have key : ∀ t : ℝ, 0 < t → ∫ w, (Real.sqrt t * gmwClosed γ β .energy k (t * w)) ^ 2 = 2 * Real.pi := fun t ht => by
    have e : ∀ w, (Real.sqrt t * gmwClosed γ β .energy k (t * w)) ^ 2 =
        t * (fun v => gmwClosed γ β .energy k v * gmwClosed γ β .energy k v) (t * w) := fun w => by
      rw [mul_pow, Real.sq_sqrt ht.le]; ring
    simp_rw [e]
    have hc := Measure.integral_comp_mul_left
      (fun v => gmwClosed γ β .energy k v * gmwClosed γ β .energy k v) t
    rw [integral_const_mul, hc, h1, abs_of_pos (inv_pos.2 ht), smul_eq_mul]
    field_simp
  cases c
  · simp only [Option.getD_some, gmwArg, Bool.false_eq_true, if_false]
    rw [key s hs]; field_simp
  · simp only [Option.getD_some, gmwArg, if_true]
    have e : ∀ w : ℝ, s * w * morsefreq γ β = (morsefreq γ β * s) * w := fun w => by ring
    simp_rw [e]
    rw [key _ (by positivity)]; field_simp

example : ∃ f g, gmw (some 3) (some 60) (.known .energy) (.int 1) none false = .ok f ∧
    gmw (some 3) (some 60) (.known .energy) (.int 2) none false = .ok g :=
  ⟨_, _, gmw_eq (n := .energy) (k := 1) none (by norm_num) (by norm_num) rfl (by simp [gmwCheckOrder]) rfl (by simp),
    gmw_eq (n := .energy) (k := 2) none (by norm_num) (by norm_num) rfl (by simp [gmwCheckOrder]) rfl (by simp)⟩

theorem morse_ratio_le {γ β : ℝ} (hγ : 0 < γ) (hβ : 0 < β) (w : ℝ) : morse γ β w ≤ morse γ β (morsefreq γ β) := by
  have h := (morse_ratio hγ hβ w).1
  rwa [div_le_one (morse_pos γ β _ (morsefreq_pos hγ hβ))] at h

/-! ## C78: moments -/

theorem morse_integral {γ β : ℝ} (hγ : 0 < γ) (hβ : 0 < β) (p : ℕ) :
    ∫ w, w ^ p * morse γ β w = (1 / γ) * Real.Gamma ((β + p + 1) / γ) := by
  rw [integral_pos_part _ fun w hw => by rw [morse_of_nonpos _ _ _ hw, mul_zero]]
  have hq : -1 < β + p := by
    have : (0 : ℝ) ≤ p := Nat.cast_nonneg p
    linarith
  have e : ∀ w ∈ Ioi (0 : ℝ), w ^ p * morse γ β w = w ^ (β + p) * Real.exp (-1 * w ^ γ) := fun w hw => by
    have hw : 0 < w := hw
    unfold Spec.morse
    rw [if_pos hw, Real.rpow_add hw, Real.rpow_natCast, neg_one_mul]
    ring
  rw [setIntegral_congr_fun measurableSet_Ioi e, integral_rpow_mul_exp_neg_mul_rpow hγ hq one_pos, Real.one_rpow, one_mul]

theorem morse_sq_moment {γ β : ℝ} (hγ : 0 < γ) (hβ : 0 < β) (p : ℕ) :
    ∫ w, w ^ p * morse γ β w ^ 2 = 2 ^ (-((2 * β + p + 1) / γ)) * (1 / γ) * Real.Gamma ((2 * β + p + 1) / γ) := by
  rw [integral_pos_part _ fun w hw => by rw [morse_of_nonpos _ _ _ hw]; simp]
  have hq : -1 < 2 * β + p := by
    have : (0 : ℝ) ≤ p := Nat.cast_nonneg p
    linarith
  have e : ∀ w ∈ Ioi (0 : ℝ), w ^ p * morse γ β w ^ 2 = w ^ (2 * β + p) * Real.exp (-2 * w ^ γ) := fun w hw => by
    have := morse_sq_mul (γ := γ) (β := β) w hw 0
    simp only [pow_zero, mul_one, one_mul, Nat.cast_zero, mul_zero, add_zero] at this
    have hw : 0 < w := hw
    rw [this, Real.rpow_add hw, Real.rpow_natCast]
    ring
  rw [setIntegral_congr_fun measurableSet_Ioi e, integral_rpow_mul_exp_neg_mul_rpow hγ hq two_pos, neg_div]

theorem morseafun_bandpass {γ β : ℝ} (hγ : 0 < γ) (hβ : 0 < β) (k : ℝ) :
    morseafun γ β k .bandpass = 2 / morse γ β (morsefreq γ β) := by
  have hw := morsefreq_pos hγ hβ
  simp only [morseafun, if_neg hβ.ne']
  congr 1
  unfold Spec.morse
  rw [if_pos hw, Real.rpow_def_of_pos hw β, ← Real.exp_add]
  congr 1; ring

/-- The amplitude for `2β` in terms of the one for `β`. -/
theorem morse_peak_double {γ β : ℝ} (hγ : 0 < γ) (hβ : 0 < β) :
    morse γ (2 * β) (morsefreq γ (2 * β)) = 2 ^ (2 * β / γ) * morse γ β (morsefreq γ β) ^ 2 := by
  have h2 : 0 < 2 * β := by positivity
  have hw := morsefreq_pos hγ hβ
  have hw2 := morsefreq_pos hγ h2
  unfold Spec.morse
  rw [if_pos hw, if_pos hw2, morsefreq_rpow hγ hβ, morsefreq_rpow hγ h2, mul_pow, ← Real.exp_nat_mul,
    Real.rpow_def_of_pos hw2, Real.rpow_def_of_pos hw, Real.rpow_def_of_pos two_pos, ← Real.exp_nat_mul, ← Real.exp_add,
    ← Real.exp_add, ← Real.exp_add, log_morsefreq hγ hβ, log_morsefreq hγ h2, mul_div_assoc 2 β γ,
    Real.log_mul two_ne_zero (by positivity)]
  congr 1
  push_cast
  field_simp
  ring

/-- **C78** (`_morsemom`). For the bandpass order-0 wavelet `ψ`, the returned moment and energy moment are
`(1/2π) ∫ w^p ψ dw` and `(1/2π) ∫ w^p ψ² dw`, for every `p`. -/
theorem C78_moments {γ β : ℝ} {f : ℝ → ℝ} {b : Bool} (p : ℕ)
    (hf : gmw (some γ) (some β) (.known .bandpass) (.int 0) none b = .ok f) :
    (morsemom p γ β).1 = (1 / (2 * Real.pi)) * ∫ w, w ^ p * f w ∧
    (morsemom p γ β).2 = (1 / (2 * Real.pi)) * ∫ w, w ^ p * f w ^ 2 := by
  obtain ⟨hγ, hβ, n, k', hn, _, hk, _, rfl⟩ := gmw_ok hf
  obtain rfl : GmwNorm.bandpass = n := by simpa [gmwNormOf] using hn
  obtain rfl : 0 = k' := by simpa [gmwOrder] using hk
  simp only [Option.getD_some] at hγ hβ
  have hw := morse_pos γ β _ (morsefreq_pos hγ hβ)
  have h2 : 0 < 2 * β := by positivity
  have hp := Real.pi_pos
  simp only [Option.getD_some, Option.getD_none, gmwArg, Bool.false_eq_true, if_false, gmwClosed, gmwCoeff_zero_bandpass,
    Spec.laguerre, mul_one]
  set A := morse γ β (morsefreq γ β) with hA
  have e1 : ∀ w, w ^ p * (2 * (morse γ β w / A)) = 2 / A * (w ^ p * morse γ β w) := fun w => by ring
  have e2 : ∀ w, w ^ p * (2 * (morse γ β w / A)) ^ 2 = (2 / A) ^ 2 * (w ^ p * morse γ β w ^ 2) := fun w => by ring
  simp_rw [e1, e2, integral_const_mul]
  rw [morse_integral hγ hβ, morse_sq_moment hγ hβ]
  simp only [morsemom, morsemom1, morsef, morseafun_bandpass hγ hβ, morseafun_bandpass hγ h2, morse_peak_double hγ hβ,
    ← hA]
  refine ⟨by field_simp, ?_⟩
  have e3 : (2 : ℝ) ^ (-((2 * β + p + 1) / γ)) = ((2 : ℝ) ^ ((1 + p) / γ))⁻¹ * ((2 : ℝ) ^ (2 * β / γ))⁻¹ := by
    rw [← Real.rpow_neg two_pos.le, ← Real.rpow_neg two_pos.le, ← Real.rpow_add two_pos]
    congr 1; field_simp; ring
  rw [e3]
  have a1 : (0 : ℝ) < 2 ^ ((1 + (p : ℝ)) / γ) := by positivity
  have a2 : (0 : ℝ) < 2 ^ (2 * β / γ) := by positivity
  field_simp

/-- **C78** (`morsefreq(n_out=3)`). The three frequencies are the place of the maximum, the energy mean `∫wψ²/∫ψ²`, and
`∫wψ/∫ψ`, for the order-0 wavelet of either normalisation. -/
theorem C78_frequencies {γ β : ℝ} {f : ℝ → ℝ} {b : Bool} {n : GmwNorm}
    (hf : gmw (some γ) (some β) (.known n) (.int 0) none b = .ok f) :
    (∀ w, f w ≤ f (morsefreq3 γ β).1) ∧
    (morsefreq3 γ β).2.1 = (∫ w, w * f w ^ 2) / ∫ w, f w ^ 2 ∧
    (morsefreq3 γ β).2.2 = (∫ w, w * f w) / ∫ w, f w := by
  obtain ⟨hγ, hβ, n', k', hn, _, hk, _, rfl⟩ := gmw_ok hf
  obtain rfl : n = n' := by simpa [gmwNormOf] using hn
  obtain rfl : 0 = k' := by simpa [gmwOrder] using hk
  simp only [Option.getD_some] at hγ hβ
  have hw := morse_pos γ β _ (morsefreq_pos hγ hβ)
  simp only [Option.getD_some, Option.getD_none, gmwArg, Bool.false_eq_true, if_false]
  have hp := Real.pi_pos
  have hG0 := Real.Gamma_pos_of_pos (show 0 < (2 * β + 1) / γ by positivity)
  obtain ⟨a, ha, hA⟩ : ∃ a : ℝ, 0 < a ∧ ∀ w, gmwClosed γ β n 0 w = a * morse γ β w := by
    cases n
    · exact ⟨2 / morse γ β (morsefreq γ β), by positivity, fun w => by
        simp only [gmwClosed, gmwCoeff_zero_bandpass, Spec.laguerre]; ring⟩
    · refine ⟨gmwCoeff γ β 0 .energy, ?_, fun w => by simp only [gmwClosed, Spec.laguerre]; ring⟩
      rw [gmwCoeff_energy hγ hβ]
      simp only [Nat.cast_zero, zero_add, Nat.factorial_zero, Nat.cast_one]
      positivity
  simp_rw [hA]
  refine ⟨fun w => ?_, ?_, ?_⟩
  · have h := (morse_ratio_le hγ hβ w)
    exact mul_le_mul_of_nonneg_left h ha.le
  · have e1 : ∀ w, w * (a * morse γ β w) ^ 2 = a ^ 2 * (w ^ 1 * morse γ β w ^ 2) := fun w => by ring
    have e2 : ∀ w, (a * morse γ β w) ^ 2 = a ^ 2 * (w ^ 0 * morse γ β w ^ 2) := fun w => by ring
    rw [integral_congr_ae (Filter.Eventually.of_forall e1), integral_congr_ae (Filter.Eventually.of_forall e2),
      integral_const_mul, integral_const_mul, morse_sq_moment hγ hβ, morse_sq_moment hγ hβ]
    simp only [morsefreq3, Nat.cast_one, Nat.cast_zero, add_zero]
    have e3 : (2 : ℝ) ^ (-((2 * β + 1 + 1) / γ)) = (2 ^ (1 / γ))⁻¹ * 2 ^ (-((2 * β + 1) / γ)) := by
      rw [← Real.rpow_neg two_pos.le, ← Real.rpow_add two_pos]; congr 1; field_simp; ring
    have a1 : (0 : ℝ) < 2 ^ (-((2 * β + 1) / γ)) := by positivity
    have a2 : (0 : ℝ) < 2 ^ (1 / γ) := by positivity
    rw [e3, show 2 * β + 1 + 1 = 2 * β + 2 by ring]
    field_simp
  · have e1 : ∀ w, w * (a * morse γ β w) = a * (w ^ 1 * morse γ β w) := fun w => by ring
    have e2 : ∀ w, a * morse γ β w = a * (w ^ 0 * morse γ β w) := fun w => by ring
    rw [integral_congr_ae (Filter.Eventually.of_forall e1), integral_congr_ae (Filter.Eventually.of_forall e2),
      integral_const_mul, integral_const_mul, morse_integral hγ hβ, morse_integral hγ hβ]
    simp only [morsefreq3, Nat.cast_one, Nat.cast_zero, add_zero]
    have hG1 := Real.Gamma_pos_of_pos (show 0 < (β + 1) / γ by positivity)
    rw [show β + 1 + 1 = β + 2 by ring]
    field_simp

/-! ### cumulants of the wavelet -/

theorem morse_integrable {γ β : ℝ} (hγ : 0 < γ) (hβ : 0 < β) (p : ℕ) : Integrable fun w => w ^ p * morse γ β w := by
  have hq : -1 < β + p := by
    have : (0 : ℝ) ≤ p := Nat.cast_nonneg p
    linarith
  have h : IntegrableOn (fun w => w ^ p * morse γ β w) (Ioi 0) := by
    refine IntegrableOn.congr_fun (integrableOn_rpow_mul_exp_neg_mul_rpow hq hγ one_pos) (fun w hw => ?_) measurableSet_Ioi
    have hw : 0 < w := hw
    unfold Spec.morse
    beta_reduce
    rw [if_pos hw, Real.rpow_add hw, Real.rpow_natCast, neg_one_mul]
    ring
  have h2 : IntegrableOn (fun w => w ^ p * morse γ β w) (Iic 0) :=
    IntegrableOn.congr_fun (integrableOn_zero (μ := volume) (s := Iic (0 : ℝ)))
      (fun w hw => by beta_reduce; rw [morse_of_nonpos _ _ _ hw, mul_zero]) measurableSet_Iic
  rw [← integrableOn_univ, ← Iic_union_Ioi (a := (0 : ℝ))]
  exact h2.union h

theorem cum_two (a b c : ℝ) : (momentsToCumulants [a, b, c]).getD 2 0 = c / a - (b / a) ^ 2 := by
  simp [momentsToCumulants, cumStep, List.range_succ, List.range'_succ, nCk]
  ring

theorem cum_three (a b c d : ℝ) :
    (momentsToCumulants [a, b, c, d]).getD 3 0 = d / a - 3 * (b / a) * (c / a) + 2 * (b / a) ^ 3 := by
  simp [momentsToCumulants, cumStep, List.range_succ, List.range'_succ, nCk]
  ring

/-- **C78** (`morsefreq(n_out=4)`). With `wi = ∫wψ/∫ψ`, the second and third cumulants are the central moments
`∫(w-wi)²ψ/∫ψ` and `∫(w-wi)³ψ/∫ψ`; the reported curvature is minus their skewness. -/
theorem C78_curvature {γ β : ℝ} {f : ℝ → ℝ} {b : Bool}
    (hf : gmw (some γ) (some β) (.known .bandpass) (.int 0) none b = .ok f) :
    (morsecum 2 γ β).1 = (∫ w, (w - (morsefreq3 γ β).2.2) ^ 2 * f w) / ∫ w, f w ∧
    (morsecum 3 γ β).1 = (∫ w, (w - (morsefreq3 γ β).2.2) ^ 3 * f w) / ∫ w, f w ∧
    morsecurv γ β = -(((∫ w, (w - (morsefreq3 γ β).2.2) ^ 3 * f w) / ∫ w, f w) /
      ((∫ w, (w - (morsefreq3 γ β).2.2) ^ 2 * f w) / ∫ w, f w) ^ (3 / 2 : ℝ)) := by
  have hm := fun p => (C78_moments p hf).1
  have hwi := (C78_frequencies hf).2.2
  obtain ⟨hγ, hβ, n', k', hn, _, hk, _, hfe⟩ := gmw_ok hf
  obtain rfl : GmwNorm.bandpass = n' := by simpa [gmwNormOf] using hn
  obtain rfl : 0 = k' := by simpa [gmwOrder] using hk
  simp only [Option.getD_some] at hγ hβ
  have hw := morse_pos γ β _ (morsefreq_pos hγ hβ)
  obtain ⟨a, ha, hA⟩ : ∃ a : ℝ, 0 < a ∧ ∀ w, f w = a * morse γ β w :=
    ⟨2 / morse γ β (morsefreq γ β), by positivity, fun w => by
      rw [hfe]
      simp only [Option.getD_some, Option.getD_none, gmwArg, Bool.false_eq_true, if_false, gmwClosed,
        gmwCoeff_zero_bandpass, Spec.laguerre]
      ring⟩
  have hint : ∀ p : ℕ, Integrable fun w => w ^ p * f w := fun p => by
    have h := (morse_integrable hγ hβ p).const_mul a
    refine h.congr (Filter.Eventually.of_forall fun w => ?_)
    beta_reduce
    rw [hA]; ring
  have hp := Real.pi_pos
  have hI0 : 0 < ∫ w, f w := by
    have e : ∀ w, f w = a * (w ^ 0 * morse γ β w) := fun w => by rw [hA]; ring
    rw [integral_congr_ae (Filter.Eventually.of_forall e), integral_const_mul, morse_integral hγ hβ]
    have := Real.Gamma_pos_of_pos (show 0 < (β + (0 : ℕ) + 1) / γ by positivity)
    positivity
  set u := (morsefreq3 γ β).2.2 with hu
  have i0 : ∫ w, w ^ 0 * f w = ∫ w, f w := by simp
  have i1 : ∫ w, w ^ 1 * f w = u * ∫ w, f w := by
    rw [hwi, div_mul_cancel₀ _ hI0.ne']; simp
  have c2 : ∫ w, (w - u) ^ 2 * f w = (∫ w, w ^ 2 * f w) - 2 * u * (∫ w, w ^ 1 * f w) + u ^ 2 * ∫ w, w ^ 0 * f w := by
    have h1 : Integrable fun w => w ^ 2 * f w - 2 * u * (w ^ 1 * f w) := (hint 2).sub ((hint 1).const_mul _)
    have e : ∀ w, (w - u) ^ 2 * f w = (w ^ 2 * f w - 2 * u * (w ^ 1 * f w)) + u ^ 2 * (w ^ 0 * f w) := fun w => by ring
    rw [integral_congr_ae (Filter.Eventually.of_forall e), integral_add h1 ((hint 0).const_mul _),
      integral_sub (hint 2) ((hint 1).const_mul _), integral_const_mul, integral_const_mul]
  have c3 : ∫ w, (w - u) ^ 3 * f w = (∫ w, w ^ 3 * f w) - 3 * u * (∫ w, w ^ 2 * f w) + 3 * u ^ 2 * (∫ w, w ^ 1 * f w)
      - u ^ 3 * ∫ w, w ^ 0 * f w := by
    have h1 : Integrable fun w => w ^ 3 * f w - 3 * u * (w ^ 2 * f w) := (hint 3).sub ((hint 2).const_mul _)
    have h2 : Integrable fun w => w ^ 3 * f w - 3 * u * (w ^ 2 * f w) + 3 * u ^ 2 * (w ^ 1 * f w) :=
      h1.add ((hint 1).const_mul _)
    have e : ∀ w, (w - u) ^ 3 * f w =
        (w ^ 3 * f w - 3 * u * (w ^ 2 * f w) + 3 * u ^ 2 * (w ^ 1 * f w)) - u ^ 3 * (w ^ 0 * f w) := fun w => by ring
    rw [integral_congr_ae (Filter.Eventually.of_forall e), integral_sub h2 ((hint 0).const_mul _),
      integral_add h1 ((hint 1).const_mul _), integral_sub (hint 3) ((hint 2).const_mul _), integral_const_mul,
      integral_const_mul, integral_const_mul]
  have k2 : (morsecum 2 γ β).1 = (∫ w, (w - u) ^ 2 * f w) / ∫ w, f w := by
    have : (morsecum 2 γ β).1 = (momentsToCumulants [(morsemom (0 : ℕ) γ β).1, (morsemom (1 : ℕ) γ β).1,
        (morsemom (2 : ℕ) γ β).1]).getD 2 0 := rfl
    rw [this, cum_two, hm, hm, hm, c2, i0, i1]
    field_simp
    ring
  have k3 : (morsecum 3 γ β).1 = (∫ w, (w - u) ^ 3 * f w) / ∫ w, f w := by
    have : (morsecum 3 γ β).1 = (momentsToCumulants [(morsemom (0 : ℕ) γ β).1, (morsemom (1 : ℕ) γ β).1,
        (morsemom (2 : ℕ) γ β).1, (morsemom (3 : ℕ) γ β).1]).getD 3 0 := rfl
    rw [this, cum_three, hm, hm, hm, hm, c3, i0, i1]
    field_simp
    ring
  refine ⟨k2, k3, ?_⟩
  rw [morsecurv, k2, k3]
  norm_num

example : ∃ f, gmw (some 3) (some 60) (.known .bandpass) (.int 0) none true = .ok f :=
  ⟨_, gmw_eq (n := .bandpass) (k := 0) none (by norm_num) (by norm_num) rfl (by simp [gmwCheckOrder]) rfl (by simp)⟩

end Ssq
