import Verif.Props.PeakBins
import Verif.Props.Gmw

/-!
# C234 and C235 for the default wavelet
-/
namespace Ssq
open Set Spec

/-- The Morse function rises on `[0, p]` and falls on `[p, ∞)`, `p = (β/γ)^(1/γ)`. -/
theorem morse_onePeak {γ β : ℝ} (hγ : 0 < γ) (hβ : 0 < β) : StrictMonoOn (morse γ β) (Icc 0 (morsefreq γ β)) ∧ StrictAntiOn (morse γ β) (Ici (morsefreq γ β)) := by
  have hp := morsefreq_pos hγ hβ
  set p := morsefreq γ β with hpdef
  have hpγ : p ^ γ = β / γ := by
    rw [hpdef]; unfold morsefreq
    rw [← Real.rpow_mul (by positivity), one_div_mul_cancel hγ.ne', Real.rpow_one]
  have hval : ∀ w, 0 < w → morse γ β w = Real.exp (β * Real.log w - w ^ γ) := by
    intro w hw
    unfold morse
    rw [if_pos hw, Real.rpow_def_of_pos hw, ← Real.exp_add]
    congr 1
    ring
  have hd : ∀ w, 0 < w → HasDerivAt (fun w => β * Real.log w - w ^ γ) ((β - γ * w ^ γ) / w) w := by
    intro w hw
    have h1 := ((Real.hasDerivAt_log hw.ne').const_mul β).sub (Real.hasDerivAt_rpow_const (p := γ) (Or.inl hw.ne'))
    refine h1.congr_deriv ?_
    rw [Real.rpow_sub_one hw.ne']
    field_simp
  have m1 : StrictMonoOn (fun w => β * Real.log w - w ^ γ) (Ioc 0 p) := by
    refine strictMonoOn_of_deriv_pos (convex_Ioc _ _) (fun w hw => (hd w hw.1).continuousAt.continuousWithinAt) fun w hw => ?_
    rw [interior_Ioc] at hw
    rw [(hd w hw.1).deriv]
    refine div_pos ?_ hw.1
    have := Real.rpow_lt_rpow hw.1.le hw.2 hγ
    rw [hpγ, lt_div_iff₀ hγ] at this
    linarith
  have m2 : StrictAntiOn (fun w => β * Real.log w - w ^ γ) (Ici p) := by
    refine strictAntiOn_of_deriv_neg (convex_Ici _) (fun w hw => (hd w (hp.trans_le hw)).continuousAt.continuousWithinAt) fun w hw => ?_
    rw [interior_Ici] at hw
    have hw0 : 0 < w := hp.trans hw
    rw [(hd w hw0).deriv]
    refine div_neg_of_neg_of_pos ?_ hw0
    have := Real.rpow_lt_rpow hp.le hw hγ
    rw [hpγ, div_lt_iff₀ hγ] at this
    linarith
  constructor
  · intro v hv w hw hvw
    have hw0 : 0 < w := hv.1.trans_lt hvw
    rcases hv.1.eq_or_lt with h | h
    · rw [← h, morse_of_nonpos _ _ _ le_rfl]; exact morse_pos γ β w hw0
    · rw [hval v h, hval w hw0]
      exact Real.exp_lt_exp.2 (m1 ⟨h, hv.2⟩ ⟨hw0, hw.2⟩ hvw)
  · intro v hv w hw hvw
    rw [hval v (hp.trans_le hv), hval w (hp.trans_le hw)]
    exact Real.exp_lt_exp.2 (m2 hv hw hvw)

/-- **C234, `gmw`**, of order 0, in either normalization: its only peak is at `(beta/gamma)^(1/gamma)`, or at 1 with `centered_scale`. -/
theorem C234_gmw {γ β : ℝ} {norm : NormArg} {c : Option Bool} {f32 : Bool} {f : ℝ → ℝ} (h : gmw (some γ) (some β) norm (.int 0) c f32 = .ok f) :
    Spec.OnePeak (fun w => |f w|) (Ici 0) (if c = some true then 1 else (β / γ) ^ (1 / γ)) ∧ ∀ w < 0, f w = 0 := by
  obtain ⟨hγ, hβ, n, k, hn, _, hk, _, rfl⟩ := gmw_ok h
  obtain rfl : 0 = k := by simpa [gmwOrder] using hk
  simp only [Option.getD_some] at hγ hβ
  have hwc := morsefreq_pos hγ hβ
  obtain ⟨C, hC, hcl⟩ : ∃ C : ℝ, 0 < C ∧ ∀ w, gmwClosed γ β n 0 w = C * morse γ β w := by
    cases n with
    | bandpass =>
      refine ⟨2 / morse γ β (morsefreq γ β), div_pos two_pos (morse_pos γ β _ hwc), fun w => ?_⟩
      simp only [gmwClosed, gmwCoeff_zero_bandpass, Spec.laguerre, mul_one]
      ring
    | energy =>
      refine ⟨gmwCoeff γ β 0 .energy, ?_, fun w => ?_⟩
      · rw [gmwCoeff_energy hγ hβ]
        have hr : 0 < (2 * β + 1) / γ := by positivity
        have := Real.Gamma_pos_of_pos (show 0 < ((0 : ℕ) : ℝ) + (2 * β + 1) / γ by simpa using hr)
        have := Real.pi_pos
        positivity
      · simp only [gmwClosed, Spec.laguerre, mul_one]
  set a : ℝ := if c = some true then morsefreq γ β else 1 with ha
  have ha0 : 0 < a := by rw [ha]; split_ifs <;> positivity
  have harg : ∀ w, gmwArg (c.getD false) (morsefreq γ β) w = w * a := by
    intro w
    unfold gmwArg
    rcases c with _ | _ | _ <;> simp [ha]
  have hpa : (if c = some true then 1 else (β / γ) ^ (1 / γ)) * a = morsefreq γ β := by
    rw [ha]; split_ifs
    · rw [one_mul]
    · rw [mul_one]; rfl
  set p : ℝ := if c = some true then 1 else (β / γ) ^ (1 / γ) with hp
  have hp0 : 0 < p := by
    have : 0 < p * a := by rw [hpa]; exact hwc
    exact (pos_iff_pos_of_mul_pos this).2 ha0
  simp only [Option.getD_some, hcl, harg]
  have hnn : ∀ w, 0 ≤ morse γ β w := fun w => by
    unfold morse; split_ifs with hw
    · positivity
    · exact le_rfl
  obtain ⟨m1, m2⟩ := morse_onePeak hγ hβ
  refine ⟨onePeak_of (g := fun w => C * morse γ β (w * a)) hp0 (fun w _ => abs_of_nonneg (mul_nonneg hC.le (hnn _))) ?_ ?_ ?_, ?_⟩
  · intro v hv w hw hvw
    refine mul_lt_mul_of_pos_left (m1 ⟨mul_nonneg hv.1 ha0.le, ?_⟩ ⟨mul_nonneg hw.1 ha0.le, ?_⟩ (mul_lt_mul_of_pos_right hvw ha0)) hC
    · rw [← hpa]; exact mul_le_mul_of_nonneg_right hv.2 ha0.le
    · rw [← hpa]; exact mul_le_mul_of_nonneg_right hw.2 ha0.le
  · intro v hv w hw hvw
    refine mul_lt_mul_of_pos_left (m2 ?_ ?_ (mul_lt_mul_of_pos_right hvw ha0)) hC
    · rw [← hpa]; exact mul_le_mul_of_nonneg_right hv ha0.le
    · rw [← hpa]; exact mul_le_mul_of_nonneg_right hw ha0.le
  · intro w hw
    rw [morse_of_nonpos γ β (w * a) (mul_nonpos_of_nonpos_of_nonneg hw.le ha0.le), mul_zero, abs_zero, hpa]
    exact abs_pos.2 (mul_pos hC (morse_pos γ β _ hwc)).ne'
  · intro w hw
    rw [morse_of_nonpos γ β (w * a) (mul_nonpos_of_nonpos_of_nonneg hw.le ha0.le), mul_zero]

/-- **C234, `center_frequency(kind='peak-ct')` of `gmw`**: found to within 0.001, if it is at most 999. -/
theorem C234_gmw_found {γ β : ℝ} {norm : NormArg} {c : Option Bool} {f32 : Bool} {f : ℝ → ℝ} (h : gmw (some γ) (some β) norm (.int 0) c f32 = .ok f)
    (hp : (if c = some true then 1 else (β / γ) ^ (1 / γ)) ≤ 999) (k : ℕ) :
    ∃ v, findPeak f (k + 101) = some (.ok (v, |f v|)) ∧ |v - if c = some true then 1 else (β / γ) ^ (1 / γ)| ≤ 1 / 1000 := by
  obtain ⟨h1, -⟩ := C234_gmw h
  exact C234_finds f (Ici 0) ordConnected_Ici _ h1.mem hp h1 (fun w hw hw' => absurd hw hw') (fun w hw _ => hw) k

/-- **C235 for `gmw`**: its sampled peak is next to its peak, at every scale. -/
theorem C235_gmw {γ β : ℝ} {norm : NormArg} {c : Option Bool} {f32 : Bool} {f : ℝ → ℝ} (h : gmw (some γ) (some β) norm (.int 0) c f32 = .ok f)
    (scale : ℝ) (N : ℕ) (hN : 2 ≤ N) (hs : 0 < scale) (hlo : 2 * Real.pi / N ≤ (if c = some true then 1 else (β / γ) ^ (1 / γ)) / scale)
    (hhi : (if c = some true then 1 else (β / γ) ^ (1 / γ)) / scale ≤ Real.pi) :
    |peakWc (.real f) scale N - (if c = some true then 1 else (β / γ) ^ (1 / γ)) / scale| ≤ 2 * Real.pi / N := by
  obtain ⟨h1, hz⟩ := C234_gmw h
  exact C235_bin f (Ici 0) ordConnected_Ici _ scale N hN hs h1 (fun w hw hw' => absurd hw hw') (fun w hw => .inl (hz w hw)) (fun w hw _ => hw) hlo hhi

/-- **C235 for `gmw` at the default scale**: `π/4` to within a bin and 0.001. -/
theorem C235_gmw_default {γ β : ℝ} {norm : NormArg} {c : Option Bool} {f32 : Bool} {f : ℝ → ℝ} (h : gmw (some γ) (some β) norm (.int 0) c f32 = .ok f)
    (h1 : 1 ≤ if c = some true then 1 else (β / γ) ^ (1 / γ)) (N : ℕ) (hN : 16 ≤ N) (fuel : ℕ) (v mx : ℝ) (hf : findPeak f fuel = some (.ok (v, mx))) :
    |peakWc (.real f) (4 / Real.pi * v) N - Real.pi / 4| ≤ 2 * Real.pi / N + 1 / 1000 := by
  obtain ⟨h2, hz⟩ := C234_gmw h
  exact C235_default f (Ici 0) ordConnected_Ici _ N hN h1 h2 (fun w hw hw' => absurd hw hw') (fun w hw => .inl (hz w hw)) (fun w hw _ => hw) (fun w hw _ => hw)
    fuel v mx hf

/-- The default wavelet, `gamma = 3, beta = 60`, peaks at `20^(1/3)`; it is found, and at the default scale of 1024 samples it is at `π/4`. -/
example : ∃ f, gmw (some 3) (some 60) (.known .bandpass) (.int 0) none true = .ok f ∧ ∃ v mx, findPeak f 101 = some (.ok (v, mx)) ∧
    |v - (60 / 3 : ℝ) ^ (1 / 3 : ℝ)| ≤ 1 / 1000 ∧ |peakWc (.real f) (4 / Real.pi * v) 1024 - Real.pi / 4| ≤ 2 * Real.pi / (1024 : ℕ) + 1 / 1000 := by
  have h := gmw_eq (γ := some 3) (β := some 60) (norm := .known .bandpass) (order := .int 0) (n := .bandpass) (k := 0)
    (f32 := true) none (by norm_num) (by norm_num) rfl (by simp [gmwCheckOrder]) rfl (by simp)
  have h1 : (1 : ℝ) ≤ (60 / 3) ^ (1 / 3 : ℝ) := Real.one_le_rpow (by norm_num) (by norm_num)
  have h2 : (60 / 3 : ℝ) ^ (1 / 3 : ℝ) ≤ 999 := (Real.rpow_le_rpow_of_exponent_le (by norm_num) (by norm_num : (1 / 3 : ℝ) ≤ 1)).trans (by norm_num)
  obtain ⟨v, e, hv⟩ := C234_gmw_found h (by simpa using h2) 0
  exact ⟨_, h, v, _, e, by simpa using hv, C235_gmw_default h (by simpa using h1) 1024 (by norm_num) _ v _ e⟩

end Ssq
