import Verif.Lemmas.HumpTrap
import Verif.Props.Integrate
import Verif.Props.InvErr
import Mathlib.Analysis.SpecialFunctions.Gaussian.GaussianIntegral

/-!
# C185: how accurate the admissibility constants are

`Spec.Hump f p P` (`Lemmas/Hump.lean`) says that `f` is zero for `w ≤ 0`, never negative, rises up to `p` and falls from there, with `f p = P`. No bound on the
slope is asked for.
-/
namespace Ssq
open MeasureTheory Spec

variable {f : ℝ → ℝ} {p P : ℝ}

/-- **C185**: for a function that rises to its largest value `P` and falls from there, `integrate_analytic` returns its integral from `1e-15` to some `T`
between 0.1 and 160 up to `P/130`; without the warning `P` is above `1e-10` and the function is below `1e-15` from some `T' ≤ T + 0.002` on. -/
theorem C185_integrate (h : Hump f p P) (R : ℝ) (w : Bool) (hR : integrateAnalytic f = .ok (R, w)) :
    ∃ T, 1 / 10 ≤ T ∧ T ≤ 160 ∧ |R - ∫ t in (1 / 10 ^ 15 : ℝ)..T, f t| ≤ P / 130 ∧
      (w = false → 1 / 10 ^ 10 < P ∧ ∃ T', T ≤ T' ∧ T' ≤ T + 1 / 500 ∧ ∀ t, T' ≤ t → f t < 1 / 10 ^ 15) := by
  obtain ⟨m, L, n, h1, h2, h3, h4', h5, h6, -⟩ := C114_shape f R w hR
  simp only at h3 h4' h5 h6
  have h4 : w = false → |f (1 / 10 + ((n : ℝ) + 1) * ((L - 1 / 10) / ((10000 * m : ℕ) : ℝ)))| < 1 / 10 ^ 15 := by
    intro hw
    rcases h4' with h | h
    · exact h
    · have := (h6 hw).1; omega
  obtain ⟨hm, hL, hs0, hs1, hs2⟩ := main_step h1
  set δ := (L - 1 / 10) / ((10000 * m : ℕ) : ℝ) with hδ
  have hnear := near_hump h
  have hPn := h.P_nonneg
  have huni : w = false → ∀ t, 1 / 10 + ((n : ℝ) + 1) * δ ≤ t → f t < 1 / 10 ^ 15 := by
    intro hw t ht
    obtain ⟨a, han, ha, -⟩ := h5
    have hv := h4 hw
    rw [abs_of_nonneg (h.nonneg _)] at hv
    by_cases hp : p ≤ 1 / 10 + ((n : ℝ) + 1) * δ
    · exact lt_of_le_of_lt (h.fall _ _ hp ht) hv
    · exfalso
      have hle : f (1 / 10 + ((a : ℝ) + 1) * δ) ≤ f (1 / 10 + ((n : ℝ) + 1) * δ) := by
        refine h.rise _ _ (by positivity) ?_ (not_le.1 hp).le
        have : (a : ℝ) ≤ n := by exact_mod_cast han
        nlinarith
      have hsum := (h6 hw).2
      have hb : ((List.range (10000 * m)).map fun i : ℕ => |f (1 / 10 + ((i : ℝ) + 1) * δ)|).sum ≤ (10000 * m) • (1 / 10 ^ 15 : ℝ) := by
        have := List.sum_le_card_nsmul ((List.range (10000 * m)).map fun i : ℕ => |f (1 / 10 + ((i : ℝ) + 1) * δ)|) (1 / 10 ^ 15) (by
          intro v hv'
          simp only [List.mem_map, List.mem_range] at hv'
          obtain ⟨j, hj, rfl⟩ := hv'
          rw [abs_of_nonneg (h.nonneg _)]
          linarith [ha j hj])
        simpa using this
      have hm8 := main_m h1
      rw [nsmul_eq_mul] at hb
      have : ((10000 * m : ℕ) : ℝ) ≤ 80000 := by
        have : (m : ℝ) ≤ 8 := by exact_mod_cast hm8
        push_cast
        linarith
      have : ((10000 * m : ℕ) : ℝ) * (1 / 10 ^ 15) ≤ 80000 * (1 / 10 ^ 15) := mul_le_mul_of_nonneg_right this (by norm_num)
      norm_num at this hb hsum
      linarith
  have hbig : w = false → 1 / 10 ^ 10 < P := by
    intro hw
    have hsum := (h6 hw).2
    have hb : ((List.range (10000 * m)).map fun i : ℕ => |f (1 / 10 + ((i : ℝ) + 1) * δ)|).sum ≤ (10000 * m) • P := by
      have := List.sum_le_card_nsmul ((List.range (10000 * m)).map fun i : ℕ => |f (1 / 10 + ((i : ℝ) + 1) * δ)|) P (by
        intro v hv'
        simp only [List.mem_map, List.mem_range] at hv'
        obtain ⟨j, hj, rfl⟩ := hv'
        rw [abs_of_nonneg (h.nonneg _)]
        exact h.le _)
      simpa using this
    have hm8 := main_m h1
    rw [nsmul_eq_mul] at hb
    have : ((10000 * m : ℕ) : ℝ) ≤ 80000 := by
      have : (m : ℝ) ≤ 8 := by exact_mod_cast hm8
      push_cast
      linarith
    have : ((10000 * m : ℕ) : ℝ) * P ≤ 80000 * P := mul_le_mul_of_nonneg_right this hPn
    norm_num at this hb hsum ⊢
    linarith
  have hx : ∀ i : ℕ, i < 10000 * m → 1 / 10 + ((i : ℝ) + 1) * δ ≤ 160 := by
    intro i hi
    have : ((i : ℝ) + 1) ≤ ((10000 * m : ℕ) : ℝ) := by exact_mod_cast hi
    nlinarith
  have hx0 : ∀ i : ℕ, 1 / 10 ≤ 1 / 10 + ((i : ℝ) + 1) * δ := by
    intro i
    have : 0 ≤ ((i : ℝ) + 1) * δ := by positivity
    linarith
  rcases Nat.eq_zero_or_pos n with hn | hn
  · subst hn
    refine ⟨1 / 10, le_rfl, by norm_num, ?_, ?_⟩
    · rw [h3]
      simp only [Nat.zero_sub, List.range_zero, List.map_nil, List.sum_nil, zero_add]
      refine le_trans hnear ?_
      nlinarith
    · intro hw
      refine ⟨hbig hw, _, ?_, ?_, huni hw⟩
      · exact hx0 0
      · push_cast; linarith
  · have hT : 1 / 10 + (((n - 1 : ℕ) : ℝ) + 1) * δ = 1 / 10 + (n : ℝ) * δ := by
      rw [Nat.cast_sub hn]; push_cast; ring
    have hmain := hump_trap h (fun i : ℕ => 1 / 10 + ((i : ℝ) + 1) * δ) (1 / 500) (by norm_num) (n - 1)
      (fun i hi => by have := hx0 i; linarith)
      (fun i hi => by push_cast; nlinarith) (fun i hi => by push_cast; nlinarith)
    have hgap := flat_bounds h (a := 1 / 10) (b := 1 / 10 + (((0 : ℕ) : ℝ) + 1) * δ) (m := 0) (K := P) (by norm_num) (hx0 0)
      (fun w _ _ => h.nonneg w) (fun w _ _ => h.le w)
    have hp0 : ∀ i : ℕ, 0 < 1 / 10 + ((i : ℝ) + 1) * δ := fun i => by have := hx0 i; linarith
    have hi1 := h.integrable (a := 1 / 10 ^ 15) (b := 1 / 10) (by norm_num) (by norm_num)
    have hi2 := h.integrable (a := 1 / 10) (b := 1 / 10 + (((0 : ℕ) : ℝ) + 1) * δ) (by norm_num) (hp0 0)
    have hi3 := h.integrable (hp0 0) (hp0 (n - 1))
    refine ⟨1 / 10 + (((n - 1 : ℕ) : ℝ) + 1) * δ, hx0 _, hx _ (by omega), ?_, ?_⟩
    · rw [← intervalIntegral.integral_add_adjacent_intervals (hi1.trans hi2) hi3,
        ← intervalIntegral.integral_add_adjacent_intervals hi1 hi2, h3]
      obtain ⟨g1, g2⟩ := hgap
      have g3 : (1 / 10 + (((0 : ℕ) : ℝ) + 1) * δ - 1 / 10) * P ≤ 1 / 500 * P :=
        mul_le_mul_of_nonneg_right (by push_cast; linarith) hPn
      generalize ((List.range (n - 1)).map fun i : ℕ => ((1 / 10 + (((i + 1 : ℕ) : ℝ) + 1) * δ) - (1 / 10 + ((i : ℝ) + 1) * δ)) *
        ((f (1 / 10 + ((i : ℝ) + 1) * δ) + f (1 / 10 + (((i + 1 : ℕ) : ℝ) + 1) * δ)) / 2)).sum = S at *
      generalize (∫ t in (1 / 10 : ℝ)..(1 / 10 + (((0 : ℕ) : ℝ) + 1) * δ), f t) = G at *
      generalize (∫ t in (1 / 10 + (((0 : ℕ) : ℝ) + 1) * δ)..(1 / 10 + (((n - 1 : ℕ) : ℝ) + 1) * δ), f t) = M at *
      generalize (∫ t in (1 / 10 ^ 15 : ℝ)..(1 / 10), f t) = Z at *
      generalize integrateNearZero f = Y at *
      rw [abs_le] at *
      constructor <;> linarith [hmain.1, hmain.2, hnear.1, hnear.2]
    · intro hw
      refine ⟨hbig hw, _, ?_, ?_, huni hw⟩
      · rw [hT]
        nlinarith
      · rw [hT]
        nlinarith

/-! ### The Morse wavelets -/

theorem Spec.Hump.const_mul (h : Hump f p P) {c : ℝ} (hc : 0 ≤ c) : Hump (fun w => c * f w) p (c * P) :=
  ⟨h.peak_pos, fun w hw => by rw [h.zero w hw, mul_zero], fun w => mul_nonneg hc (h.nonneg w),
    fun v w h1 h2 h3 => mul_le_mul_of_nonneg_left (h.rise v w h1 h2 h3) hc, fun v w h1 h2 => mul_le_mul_of_nonneg_left (h.fall v w h1 h2) hc,
    by rw [h.top]⟩

/-- `K w^b e^(-w^γ)` at the frequency `w r`. -/
theorem scaled_hump {γ b K r : ℝ} (hγ : 0 < γ) (hb : 0 < b) (hK : 0 ≤ K) (hr : 0 < r) :
    Hump (fun w => K * morse γ b (w * r)) (morsefreq γ b / r) (K * morse γ b (morsefreq γ b)) := by
  have hM := morse_pos γ b _ (morsefreq_pos hγ hb)
  have h := ((morse_hump hγ hb).comp_mul hr).const_mul (c := K * morse γ b (morsefreq γ b) / 2) (by positivity)
  have e : (fun w => K * morse γ b (morsefreq γ b) / 2 * (2 * (morse γ b (w * r) / morse γ b (morsefreq γ b)))) = fun w => K * morse γ b (w * r) := by
    funext w
    field_simp
  rw [e] at h
  rwa [div_mul_cancel₀ _ (by norm_num : (2 : ℝ) ≠ 0)] at h

theorem scaled_integrable {γ b K r : ℝ} (hγ : 0 < γ) (hb : 0 < b) (hr : 0 < r) :
    IntegrableOn (fun w => K * morse γ b (w * r)) (Set.Ioi 0) := by
  refine Integrable.const_mul ?_ K
  have h1 : IntegrableOn (morse γ b) (Set.Ioi 0) := by
    refine (integrableOn_congr_fun (fun y hy => ?_) measurableSet_Ioi).2 (integrableOn_rpow_mul_exp_neg_rpow (by linarith : -1 < b) hγ)
    simp only [Spec.morse, if_pos (Set.mem_Ioi.1 hy)]
  have := (integrableOn_Ioi_comp_mul_right_iff (morse γ b) 0 hr).2 (by rw [zero_mul]; exact h1)
  exact this

/-- From the point where it is `e` times below its peak on, the integral is at most the value there times the frequency. -/
theorem morse_tail {γ b K r T : ℝ} (hγ : 1 ≤ γ) (hb : 0 < b) (hK : 0 < K) (hr : 0 < r) (hT : 0 < T) (hp : morsefreq γ b ≤ T * r)
    (he : Real.exp 1 * (K * morse γ b (T * r)) ≤ K * morse γ b (morsefreq γ b)) :
    ∫ w in Set.Ioi T, K * morse γ b (w * r) ≤ K * morse γ b (T * r) * T := by
  have hγ0 : 0 < γ := by linarith
  have hq := morsefreq_pos hγ0 hb
  have hx : 0 < T * r := by positivity
  have hslope : 1 ≤ γ * (T * r) ^ γ - b := by
    have h1 : Real.exp 1 * morse γ b (T * r) ≤ morse γ b (morsefreq γ b) := by
      have : K * (Real.exp 1 * morse γ b (T * r)) ≤ K * morse γ b (morsefreq γ b) := by linarith
      exact le_of_mul_le_mul_left this hK
    unfold Spec.morse at h1
    rw [if_pos hx, if_pos hq, Real.rpow_def_of_pos hx, Real.rpow_def_of_pos hq, ← Real.exp_add, ← Real.exp_add, ← Real.exp_add,
      Real.exp_le_exp] at h1
    rw [morsefreq_rpow hγ0 hb] at h1
    have h2 := Real.log_le_log hq hp
    have h3 : 1 ≤ (T * r) ^ γ - b / γ := by nlinarith
    have h4 : γ * ((T * r) ^ γ - b / γ) = γ * (T * r) ^ γ - b := by field_simp
    nlinarith
  have hdec : ∀ t ∈ Set.Ioi T, K * morse γ b (t * r) ≤ K * morse γ b (T * r) * Real.exp 1 * Real.exp (-(1 / T) * t) := by
    intro t ht
    have ht : T < t := ht
    have ht0 : 0 < t := hT.trans ht
    have hy : 0 < t * r := by positivity
    set u := (t - T) / T with hu
    have hu0 : 0 ≤ u := div_nonneg (by linarith) hT.le
    have e1 : t * r = T * r * (1 + u) := by rw [hu]; field_simp; ring
    have h1 : Real.log (t * r) ≤ Real.log (T * r) + u := by
      rw [e1, Real.log_mul hx.ne' (by positivity)]
      have := Real.log_le_sub_one_of_pos (by positivity : 0 < 1 + u)
      linarith
    have h2 : (T * r) ^ γ * (1 + γ * u) ≤ (t * r) ^ γ := by
      rw [e1, Real.mul_rpow hx.le (by positivity)]
      exact mul_le_mul_of_nonneg_left (one_add_mul_self_le_rpow_one_add (by linarith) hγ) (by positivity)
    have h3 : morse γ b (t * r) ≤ morse γ b (T * r) * Real.exp (-u) := by
      unfold Spec.morse
      rw [if_pos hx, if_pos hy, Real.rpow_def_of_pos hx b, Real.rpow_def_of_pos hy b, ← Real.exp_add, ← Real.exp_add, ← Real.exp_add, Real.exp_le_exp]
      have h4 := mul_le_mul_of_nonneg_right h1 hb.le
      have h5 := mul_le_mul_of_nonneg_left hslope hu0
      nlinarith
    have e2 : Real.exp 1 * Real.exp (-(1 / T) * t) = Real.exp (-u) := by
      rw [← Real.exp_add]; congr 1; rw [hu]; field_simp; ring
    rw [mul_assoc, e2]
    have := mul_le_mul_of_nonneg_left h3 hK.le
    linarith
  have hi1 : IntegrableOn (fun w => K * morse γ b (w * r)) (Set.Ioi T) :=
    (scaled_integrable hγ0 hb hr).mono_set (Set.Ioi_subset_Ioi hT.le)
  have hi2 : IntegrableOn (fun w => K * morse γ b (T * r) * Real.exp 1 * Real.exp (-(1 / T) * w)) (Set.Ioi T) :=
    (integrableOn_exp_mul_Ioi (by simp only [Left.neg_neg_iff]; positivity) T).const_mul _
  refine (setIntegral_mono_on hi1 hi2 measurableSet_Ioi hdec).trans (le_of_eq ?_)
  rw [integral_const_mul, integral_exp_mul_Ioi (by simp only [Left.neg_neg_iff]; positivity) T]
  have e3 : -(1 / T) * T = -1 := by field_simp
  rw [e3, neg_div_neg_eq, Real.exp_neg]
  have := (Real.exp_pos 1).ne'
  field_simp

/-- `integrate_analytic` of `K (w r)^b e^(-(w r)^γ)`. -/
theorem scaled_integrate {γ b K r : ℝ} (hγ : 1 ≤ γ) (hb : 0 < b) (hK : 0 < K) (hr : 0 < r) (C : ℝ)
    (hC : integrateAnalytic (fun w => K * morse γ b (w * r)) = .ok (C, false)) :
    |C - ∫ w in Set.Ioi 0, K * morse γ b (w * r)| ≤ K * morse γ b (morsefreq γ b) / 80 := by
  have hγ0 : 0 < γ := by linarith
  have hH := scaled_hump hγ0 hb hK.le hr
  have hint := scaled_integrable (K := K) hγ0 hb hr
  obtain ⟨T, hT1, hT2, hT3, hT4⟩ := C185_integrate hH C false hC
  obtain ⟨hP, T', hT5, hT6, hT7⟩ := hT4 rfl
  set F : ℝ → ℝ := fun w => K * morse γ b (w * r) with hF
  set P := K * morse γ b (morsefreq γ b) with hPd
  have hT'0 : 0 < T' := by linarith
  have hT0 : 0 < T := by linarith
  have htop : F (morsefreq γ b / r) = P := hH.top
  have hFT : F T' < 1 / 10 ^ 15 := hT7 T' le_rfl
  have hpT : morsefreq γ b ≤ T' * r := by
    by_contra hno
    rw [not_le] at hno
    have : F (morsefreq γ b / r) < 1 / 10 ^ 15 := hT7 _ ((le_div_iff₀ hr).2 hno.le)
    rw [htop] at this
    norm_num at this hP
    linarith
  have htail := morse_tail hγ hb hK hr hT'0 hpT (by
    have h3 := Real.exp_one_lt_d9
    have h4 : Real.exp 1 * (K * morse γ b (T' * r)) ≤ 3 * (1 / 10 ^ 15) :=
      mul_le_mul (by linarith) hFT.le (hH.nonneg T') (by norm_num)
    norm_num at h4 hP
    linarith)
  have htail0 : 0 ≤ ∫ w in Set.Ioi T', F w := setIntegral_nonneg measurableSet_Ioi fun w _ => hH.nonneg w
  have htail1 : F T' * T' ≤ 1 / 10 ^ 15 * 161 := mul_le_mul hFT.le (by linarith) hT'0.le (by norm_num)
  have hii : ∀ a c, 0 ≤ a → 0 ≤ c → IntervalIntegrable F volume a c := by
    intro a c ha hc
    constructor
    · exact hint.mono_set fun w hw => ha.trans_lt hw.1
    · exact hint.mono_set fun w hw => hc.trans_lt hw.1
  have hsplit : ∫ w in Set.Ioi 0, F w = (∫ w in (0 : ℝ)..T', F w) + ∫ w in Set.Ioi T', F w :=
    (intervalIntegral.integral_interval_add_Ioi hint (hint.mono_set (Set.Ioi_subset_Ioi hT'0.le))).symm
  rw [hsplit, ← intervalIntegral.integral_add_adjacent_intervals (hii 0 T le_rfl hT0.le) (hii T T' hT0.le hT'0.le),
    ← intervalIntegral.integral_add_adjacent_intervals (hii 0 (1 / 10 ^ 15) le_rfl (by norm_num)) (hii (1 / 10 ^ 15) T (by norm_num) hT0.le)]
  obtain ⟨g1, g2⟩ := flat_bounds hH (a := T) (b := T') (m := 0) (K := P) hT0 hT5 (fun w _ _ => hH.nonneg w) (fun w _ _ => hH.le w)
  have g3 : (T' - T) * P ≤ 1 / 500 * P := mul_le_mul_of_nonneg_right (by linarith) hH.P_nonneg
  have z1 : 0 ≤ ∫ w in (0 : ℝ)..(1 / 10 ^ 15), F w := intervalIntegral.integral_nonneg (by norm_num) fun w _ => hH.nonneg w
  have z2 : ∫ w in (0 : ℝ)..(1 / 10 ^ 15), F w ≤ 1 / 10 ^ 15 * P := by
    have := intervalIntegral.integral_mono_on (by norm_num : (0 : ℝ) ≤ 1 / 10 ^ 15) (hii 0 (1 / 10 ^ 15) le_rfl (by norm_num))
      (intervalIntegrable_const (c := P)) fun w _ => hH.le w
    rw [intervalIntegral.integral_const, smul_eq_mul, sub_zero] at this
    exact this
  have htail2 : ∫ w in Set.Ioi T', F w ≤ 1 / 10 ^ 15 * 161 := htail.trans htail1
  rw [mul_zero] at g1
  generalize (∫ w in (0 : ℝ)..(1 / 10 ^ 15), F w) = A1 at *
  generalize (∫ w in (1 / 10 ^ 15)..T, F w) = A2 at *
  generalize (∫ w in T..T', F w) = A3 at *
  generalize (∫ w in Set.Ioi T', F w) = A4 at *
  rw [abs_le] at hT3 ⊢
  norm_num at hP hT3 z2 htail2 g3 ⊢
  constructor <;> linarith [hT3.1, hT3.2]

/-- A bandpass Morse wavelet of order 0, over `w`. -/
theorem gmw_scaled {γ β : ℝ} {c : Option Bool} {f32 : Bool} {f : ℝ → ℝ} (h : gmw (some γ) (some β) (.known .bandpass) (.int 0) c f32 = .ok f) :
    0 < γ ∧ 0 < β ∧ ∃ r, 0 < r ∧ (c ≠ some true → r = 1) ∧ f = fun w => 2 * (morse γ β (w * r) / morse γ β (morsefreq γ β)) := by
  obtain ⟨hγ, hβ, n, k, hn, _, hk, _, rfl⟩ := gmw_ok h
  obtain rfl : GmwNorm.bandpass = n := by simpa [gmwNormOf] using hn
  obtain rfl : 0 = k := by simpa [gmwOrder] using hk
  simp only [Option.getD_some] at hγ hβ
  refine ⟨hγ, hβ, ?_⟩
  simp only [Option.getD_some, gmwClosed, gmwCoeff_zero_bandpass, Spec.laguerre, mul_one]
  by_cases hc : c.getD false = true
  · refine ⟨morsefreq γ β, morsefreq_pos hγ hβ, fun h => ?_, by rw [hc]; simp [gmwArg]⟩
    rcases c with _ | _ | _ <;> simp_all
  · refine ⟨1, one_pos, fun _ => rfl, ?_⟩
    rw [Bool.not_eq_true] at hc
    rw [hc]
    simp [gmwArg]

theorem morse_over {γ β x : ℝ} : morse γ β x = x * morse γ (β - 1) x := by
  unfold Spec.morse
  by_cases hx : 0 < x
  · rw [if_pos hx, if_pos hx, Real.rpow_sub_one hx.ne']; field_simp
  · rw [if_neg hx, if_neg hx, mul_zero]

theorem over_scaled {γ β r M : ℝ} :
    (fun w => 2 * (morse γ β (w * r) / M) / w) = fun w => 2 * r / M * morse γ (β - 1) (w * r) := by
  funext w
  rcases eq_or_ne w 0 with rfl | hw
  · simp [Spec.morse]
  · rw [morse_over]; field_simp

theorem adm_flag {g : ℝ → ℝ} {C : ℝ} (h : (integrateAnalytic g).map Prod.fst = .ok C) : ∃ w, integrateAnalytic g = .ok (C, w) := by
  rcases hi : integrateAnalytic g with e | ⟨R, w⟩
  · rw [hi] at h; exact nomatch h
  · rw [hi] at h
    have : R = C := by simpa [Except.map] using h
    exact ⟨w, by rw [this]⟩

/-- **C185, `adm_ssq`.** For the bandpass Morse wavelets of order 0 with `gamma ≥ 1`, `beta > 1`: when no warning was given, `adm_ssq` is the exact
`∫₀^∞ ψ(w)/w dw` up to an eightieth of the largest value of `ψ(w)/w`. -/
theorem C185_adm_ssq {γ β : ℝ} {c : Option Bool} {f32 : Bool} {f : ℝ → ℝ} (h : gmw (some γ) (some β) (.known .bandpass) (.int 0) c f32 = .ok f)
    (hγ : 1 ≤ γ) (hβ : 1 < β) (C : ℝ) (hC : admSsq f = .ok C) (hw : ∀ R, integrateAnalytic (fun w => f w / w) ≠ .ok (R, true)) (P : ℝ)
    (hP : ∀ w > 0, f w / w ≤ P) :
    |C - 2 / γ * Real.Gamma (β / γ) * (Real.exp 1 * γ / β) ^ (β / γ)| ≤ P / 80 := by
  obtain ⟨-, -, hval, -⟩ := C183_gmw h
  obtain ⟨hγ0, hβ0, r, hr, -, rfl⟩ := gmw_scaled h
  have hM := morse_pos γ β _ (morsefreq_pos hγ0 hβ0)
  have hb : 0 < β - 1 := by linarith
  have hC' : integrateAnalytic (fun w => 2 * r / morse γ β (morsefreq γ β) * morse γ (β - 1) (w * r)) = .ok (C, false) := by
    rw [← over_scaled]
    obtain ⟨w, hi⟩ := adm_flag hC
    rcases w with _ | _
    · exact hi
    · exact absurd hi (hw _)
  have := scaled_integrate hγ hb (K := 2 * r / morse γ β (morsefreq γ β)) (by positivity) hr C hC'
  rw [← over_scaled, hval] at this
  refine this.trans ?_
  have hp := morsefreq_pos hγ0 hb
  have h1 := hP (morsefreq γ (β - 1) / r) (by positivity)
  have h2 := congrFun (over_scaled (γ := γ) (β := β) (r := r) (M := morse γ β (morsefreq γ β))) (morsefreq γ (β - 1) / r)
  rw [div_mul_cancel₀ _ hr.ne'] at h2
  simp only [div_mul_cancel₀ _ hr.ne'] at h1
  rw [h2] at h1
  linarith

theorem sq_scaled {γ β r M : ℝ} (hγ : 0 < γ) (hr : 0 < r) :
    (fun w => 2 * (morse γ β (w * r) / M) * (2 * (morse γ β (w * r) / M)) / w) =
      fun w => 4 * r / M ^ 2 * 2 ^ (-(2 * β - 1) / γ) * morse γ (2 * β - 1) (w * (r * 2 ^ (1 / γ))) := by
  funext w
  unfold Spec.morse
  have h2 : (0 : ℝ) < 2 ^ (1 / γ) := by positivity
  by_cases hw : 0 < w
  · have hx : 0 < w * r := by positivity
    rw [if_pos hx, if_pos (by positivity), ← mul_assoc w r]
    have e1 : (w * r * 2 ^ (1 / γ)) ^ γ = 2 * (w * r) ^ γ := by
      rw [Real.mul_rpow hx.le h2.le, ← Real.rpow_mul (by norm_num), one_div, inv_mul_cancel₀ hγ.ne', Real.rpow_one, mul_comm]
    have e2 : (w * r * 2 ^ (1 / γ)) ^ (2 * β - 1) = (w * r) ^ (2 * β - 1) * 2 ^ ((2 * β - 1) / γ) := by
      rw [Real.mul_rpow hx.le h2.le, ← Real.rpow_mul (by norm_num)]
      congr 2
      ring
    have e3 : (w * r) ^ (2 * β - 1) = (w * r) ^ β * (w * r) ^ β / (w * r) := by
      rw [Real.rpow_sub_one hx.ne', two_mul, Real.rpow_add hx]
    have e4 : Real.exp (-(2 * (w * r) ^ γ)) = Real.exp (-(w * r) ^ γ) * Real.exp (-(w * r) ^ γ) := by
      rw [← Real.exp_add]; congr 1; ring
    have e5 : (2 : ℝ) ^ (-(2 * β - 1) / γ) * 2 ^ ((2 * β - 1) / γ) = 1 := by
      rw [← Real.rpow_add (by norm_num), neg_div, neg_add_cancel, Real.rpow_zero]
    rw [e1, e2, e3, e4]
    calc _ = 4 * r / M ^ 2 * ((w * r) ^ β * (w * r) ^ β / (w * r)) * (Real.exp (-(w * r) ^ γ) * Real.exp (-(w * r) ^ γ)) := by field_simp; ring
      _ = 4 * r / M ^ 2 * ((w * r) ^ β * (w * r) ^ β / (w * r)) * (Real.exp (-(w * r) ^ γ) * Real.exp (-(w * r) ^ γ)) *
          ((2 : ℝ) ^ (-(2 * β - 1) / γ) * 2 ^ ((2 * β - 1) / γ)) := by rw [e5, mul_one]
      _ = _ := by ring
  · have hw : w ≤ 0 := not_lt.1 hw
    rw [if_neg (not_lt.2 (mul_nonpos_of_nonpos_of_nonneg hw hr.le)), if_neg (not_lt.2 (mul_nonpos_of_nonpos_of_nonneg hw (by positivity)))]
    simp

/-- **C185, `adm_cwt`.** The same for the other constant, `∫₀^∞ ψ(w)²/w dw`, with `beta > 1/2`. -/
theorem C185_adm_cwt {γ β : ℝ} {c : Option Bool} {f32 : Bool} {f : ℝ → ℝ} (h : gmw (some γ) (some β) (.known .bandpass) (.int 0) c f32 = .ok f)
    (hγ : 1 ≤ γ) (hβ : 1 / 2 < β) (C : ℝ) (hC : admCwt f = .ok C) (hw : ∀ R, integrateAnalytic (fun w => f w * f w / w) ≠ .ok (R, true)) (P : ℝ)
    (hP : ∀ w > 0, f w ^ 2 / w ≤ P) :
    |C - 4 / γ * Real.Gamma (2 * β / γ) * (Real.exp 1 * γ / (2 * β)) ^ (2 * β / γ)| ≤ P / 80 := by
  obtain ⟨hγ0, hβ0, r, hr, -, rfl⟩ := gmw_scaled h
  have hwc := morsefreq_pos hγ0 hβ0
  have hM := morse_pos γ β _ hwc
  have hb : 0 < 2 * β - 1 := by linarith
  have h2 : (0 : ℝ) < 2 ^ (1 / γ) := by positivity
  have hr' : 0 < r * 2 ^ (1 / γ) := by positivity
  have hC' : integrateAnalytic (fun w => 4 * r / morse γ β (morsefreq γ β) ^ 2 * 2 ^ (-(2 * β - 1) / γ) * morse γ (2 * β - 1) (w * (r * 2 ^ (1 / γ)))) =
      .ok (C, false) := by
    rw [← sq_scaled hγ0 hr]
    obtain ⟨w, hi⟩ := adm_flag hC
    rcases w with _ | _
    · exact hi
    · exact absurd hi (hw _)
  have := scaled_integrate hγ hb (K := 4 * r / morse γ β (morsefreq γ β) ^ 2 * 2 ^ (-(2 * β - 1) / γ)) (by positivity) hr' C hC'
  have hval : ∫ w in Set.Ioi 0, 4 * r / morse γ β (morsefreq γ β) ^ 2 * 2 ^ (-(2 * β - 1) / γ) * morse γ (2 * β - 1) (w * (r * 2 ^ (1 / γ))) =
      4 / γ * Real.Gamma (2 * β / γ) * (Real.exp 1 * γ / (2 * β)) ^ (2 * β / γ) := by
    rw [integral_const_mul, integral_comp_mul_right_Ioi _ _ hr', zero_mul, smul_eq_mul,
      setIntegral_congr_fun measurableSet_Ioi (g := fun x : ℝ => x ^ (2 * β - 1) * Real.exp (-x ^ γ)) (fun y hy => by
        simp only [Spec.morse, if_pos (Set.mem_Ioi.1 hy)]),
      integral_rpow_mul_exp_neg_rpow hγ0 (by linarith), sub_add_cancel]
    have hMe : morse γ β (morsefreq γ β) ^ 2 = (β / γ / Real.exp 1) ^ (2 * β / γ) := by
      have : morse γ β (morsefreq γ β) = (β / γ / Real.exp 1) ^ (β / γ) := by
        unfold Spec.morse
        rw [if_pos hwc, morsefreq_rpow hγ0 hβ0, morsefreq, ← Real.rpow_mul (by positivity), Real.exp_neg,
          Real.div_rpow (show 0 ≤ β / γ by positivity) (Real.exp_pos 1).le, ← Real.exp_mul, one_mul, show 1 / γ * β = β / γ by ring]
        rfl
      have hpos : 0 ≤ β / γ / Real.exp 1 := by have := Real.exp_pos 1; positivity
      rw [this, ← Real.rpow_natCast, ← Real.rpow_mul hpos]
      rw [show β / γ * ((2 : ℕ) : ℝ) = 2 * β / γ by push_cast; ring]
    have hbase : Real.exp 1 * γ / (2 * β) = (β / γ / Real.exp 1)⁻¹ * 2⁻¹ := by
      have := (Real.exp_pos 1).ne'
      field_simp
    have hpos : 0 < β / γ / Real.exp 1 := by have := Real.exp_pos 1; positivity
    rw [hMe, hbase, Real.mul_rpow (by positivity) (by norm_num), Real.inv_rpow hpos.le, Real.inv_rpow (by norm_num : (0 : ℝ) ≤ 2)]
    have e1 : (2 : ℝ) ^ (-(2 * β - 1) / γ) = ((2 : ℝ) ^ (2 * β / γ))⁻¹ * 2 ^ (1 / γ) := by
      rw [show -(2 * β - 1) / γ = -(2 * β / γ) + 1 / γ by ring, Real.rpow_add (by norm_num), Real.rpow_neg (by norm_num)]
    rw [e1]
    have := Real.rpow_pos_of_pos hpos (2 * β / γ)
    have h22 : (0 : ℝ) < 2 ^ (2 * β / γ) := by positivity
    field_simp
  rw [hval] at this
  refine this.trans ?_
  have hp := morsefreq_pos hγ0 hb
  have h1 := hP (morsefreq γ (2 * β - 1) / (r * 2 ^ (1 / γ))) (by positivity)
  have h2 := congrFun (sq_scaled (γ := γ) (β := β) (r := r) (M := morse γ β (morsefreq γ β)) hγ0 hr) (morsefreq γ (2 * β - 1) / (r * 2 ^ (1 / γ)))
  simp only at h1 h2
  rw [pow_two, h2, div_mul_cancel₀ _ hr'.ne'] at h1
  linarith

/-! ### When there is no warning -/

theorem loop_nowarn (g : ℝ → ℝ) (z : ℝ) : ∀ (l : List (ℕ × ℝ)) (last : Option (List ℝ × List ℝ × ℕ)), (∀ q ∈ l, 0 < q.1) →
    (∃ m L, (m, L) ∈ l ∧ 1 / 10 ^ 5 < (((mainMesh L (10000 * m)).map g).map fun x => |x|).sum ∧ ∀ n, EstGood g L (10000 * m) n → n < 9000 * m) →
    ∃ r, convergentLoop g z l last = .ok (r, false) := by
  intro l
  induction l with
  | nil => rintro _ _ ⟨_, _, h, _⟩; simp at h
  | cons q l ih =>
    obtain ⟨m', L'⟩ := q
    rintro last hpos ⟨m, L, hm, hsum, hgood⟩
    have hm' : 0 < m' := hpos (m', L') (by simp)
    unfold convergentLoop
    obtain ⟨n, hn, e, hsm⟩ := estArr_ok g L' (10000 * m') (by omega)
    rw [e]
    simp only [Except.bind]
    by_cases hc : 1000 * m' < (mainMesh L' (10000 * m')).length - n ∧ 1 / 10 ^ 5 < (((mainMesh L' (10000 * m')).map g).map fun x => |x|).sum
    · rw [if_pos hc]
      exact ⟨_, rfl⟩
    · rw [if_neg hc]
      refine ih _ (fun q hq => hpos q (by simp [hq])) ⟨m, L, ?_, hsum, hgood⟩
      rcases List.mem_cons.1 hm with h | h
      · exfalso
        simp only [Prod.mk.injEq] at h
        obtain ⟨rfl, rfl⟩ := h
        refine hc ⟨?_, hsum⟩
        rw [mainMesh_length]
        have := hgood n ⟨hn, hsm⟩
        omega
      · exact h

/-- **C185, no warning.** `integrate_analytic` succeeds without the warning when the function is above `1e-5` over some `[u, u + 0.002]` between 0.1 and 20 and is
below `1e-15` somewhere between its peak and 18. -/
theorem C185_nowarn (h : Hump f p P) (u v : ℝ) (hu0 : 1 / 10 ≤ u) (hu1 : u + 1 / 500 ≤ 20) (hu : ∀ t, u ≤ t → t ≤ u + 1 / 500 → 1 / 10 ^ 5 < f t)
    (hpv : p ≤ v) (hv : v ≤ 18) (hfv : f v < 1 / 10 ^ 15) : ∃ R, integrateAnalytic f = .ok (R, false) := by
  have hN : ((10000 * 1 : ℕ) : ℝ) = 10000 := by norm_num
  obtain ⟨j, hj, hj1, hj2⟩ : ∃ j : ℕ, j < 10000 ∧ u ≤ 1 / 10 + ((j : ℝ) + 1) * ((20 - 1 / 10) / 10000) ∧
      1 / 10 + ((j : ℝ) + 1) * ((20 - 1 / 10) / 10000) ≤ u + 1 / 500 := by
    have hq : 0 ≤ (u - 1 / 10) / ((20 - 1 / 10) / 10000) := div_nonneg (by linarith) (by norm_num)
    refine ⟨⌊(u - 1 / 10) / ((20 - 1 / 10) / 10000)⌋₊, (Nat.floor_lt hq).2 ?_, ?_, ?_⟩
    · rw [div_lt_iff₀ (by norm_num)]; norm_num; linarith
    · have := (Nat.lt_floor_add_one ((u - 1 / 10) / ((20 - 1 / 10) / 10000))).le
      rw [div_le_iff₀ (by norm_num)] at this
      linarith
    · have := Nat.floor_le hq
      rw [le_div_iff₀ (by norm_num)] at this
      norm_num at this ⊢
      linarith
  have hbig := hu _ hj1 hj2
  have hsum : 1 / 10 ^ 5 < (((mainMesh 20 (10000 * 1)).map f).map fun x => |x|).sum := by
    have hmem : |f (1 / 10 + ((j : ℝ) + 1) * ((20 - 1 / 10) / 10000))| ∈ ((mainMesh 20 (10000 * 1)).map f).map fun x => |x| := by
      have := mainMesh_getD 20 (10000 * 1) j (by omega)
      rw [hN] at this
      rw [← this, List.getD_eq_getElem _ _ (by rw [mainMesh_length]; omega)]
      exact List.mem_map_of_mem (List.mem_map_of_mem (List.getElem_mem _))
    have := List.single_le_sum (l := ((mainMesh 20 (10000 * 1)).map f).map fun x => |x|) (by
      intro x hx
      rw [List.mem_map] at hx
      obtain ⟨y, -, rfl⟩ := hx
      exact abs_nonneg y) _ hmem
    exact lt_of_lt_of_le (lt_of_lt_of_le hbig (le_abs_self _)) this
  have hsmall : ∀ i : ℕ, 8999 ≤ i → f (1 / 10 + ((i : ℝ) + 1) * ((20 - 1 / 10) / 10000)) < 1 / 10 ^ 15 := by
    intro i hi
    have : (8999 : ℝ) ≤ i := by exact_mod_cast hi
    refine lt_of_le_of_lt (h.fall v _ hpv ?_) hfv
    linarith
  obtain ⟨r, hr⟩ := loop_nowarn f (integrateNearZero f) [(1, 1), (1, 20), (4, 80), (8, 160)] none (by simp)
    ⟨1, 20, by simp, hsum, fun n hn => by
      obtain ⟨hn, -, a, han, ha, hmin⟩ := hn
      rw [hN] at ha hmin
      by_contra hc
      have ha' : a < 8999 := by
        by_contra hc'
        have h1 := ha j (by omega)
        have h2 := hsmall a (by omega)
        norm_num at h2 hbig
        linarith
      have h1 := hmin 8999 (by omega) (by omega)
      have h2 := hsmall 8999 le_rfl
      rw [abs_of_nonneg (h.nonneg _)] at h1
      linarith⟩
  unfold integrateAnalytic
  simp only
  rw [hr]
  exact ⟨_, rfl⟩

theorem exp_40 : Real.exp (-40) < 1 / 10 ^ 15 := by
  rw [Real.exp_neg, ← one_div]
  apply one_div_lt_one_div_of_lt (by norm_num)
  have h1 := Real.exp_one_gt_d9
  have h2 : (27 / 10 : ℝ) ^ 40 ≤ Real.exp 1 ^ 40 := pow_le_pow_left₀ (by norm_num) (by linarith) 40
  rw [← Real.exp_nat_mul] at h2
  norm_num at h2 ⊢
  linarith

theorem mf_cube {b : ℝ} (hb : 0 < b) : morsefreq 3 b ^ (3 : ℕ) = b / 3 := by
  rw [← morsefreq_rpow (by norm_num : (0 : ℝ) < 3) hb, ← Real.rpow_natCast]
  norm_num

theorem mf_le {b x : ℝ} (hb : 0 < b) (hx : 0 < x) (h : b ≤ 3 * x ^ 3) : morsefreq 3 b ≤ x := by
  by_contra hc
  have h1 := pow_lt_pow_left₀ (not_le.1 hc) hx.le (by norm_num : (3 : ℕ) ≠ 0)
  rw [mf_cube hb] at h1
  linarith

theorem lt_mf {b x : ℝ} (hb : 0 < b) (h : 3 * x ^ 3 < b) : x < morsefreq 3 b := by
  by_contra hc
  have h1 := pow_le_pow_left₀ (morsefreq_pos (by norm_num) hb).le (not_lt.1 hc) 3
  rw [mf_cube hb] at h1
  linarith

theorem morse_nat (t : ℝ) (ht : 0 < t) : morse 3 60 t = t ^ 60 * Real.exp (-t ^ 3) := by
  unfold Spec.morse
  rw [if_pos ht]
  congr 1
  · exact_mod_cast Real.rpow_natCast t 60
  · congr 2; exact_mod_cast Real.rpow_natCast t 3

theorem morse_default :
    (∀ t, morsefreq 3 60 ≤ t → t ≤ morsefreq 3 60 + 1 / 500 → 1 ≤ 2 * (morse 3 60 t / morse 3 60 (morsefreq 3 60)) ∧ t ≤ 3) ∧
    2 * (morse 3 60 18 / morse 3 60 (morsefreq 3 60)) < 18 * (1 / 10 ^ 15) := by
  have hwc := morsefreq_pos (by norm_num : (0 : ℝ) < 3) (by norm_num : (0 : ℝ) < 60)
  have h3 := mf_cube (b := 60) (by norm_num)
  have hlo : 2 < morsefreq 3 60 := lt_mf (by norm_num) (by norm_num)
  have hhi : morsefreq 3 60 ≤ 2718 / 1000 := mf_le (by norm_num) (by norm_num) (by norm_num)
  have hM := morse_pos 3 60 _ hwc
  rw [morse_nat _ hwc, h3] at *
  set q := morsefreq 3 60 with hq
  constructor
  · intro t h1 h2
    have ht : 0 < t := by linarith
    refine ⟨?_, by linarith⟩
    have h4 : t ^ 3 ≤ 21 / 1 - 4 / 5 := by
      have : t ≤ 272 / 100 := by linarith
      have := pow_le_pow_left₀ ht.le this 3
      norm_num at this ⊢
      linarith
    have h5 := Real.add_one_le_exp (20 - t ^ 3)
    have h6 : q ^ 60 ≤ t ^ 60 := pow_le_pow_left₀ hwc.le h1 60
    have h7 : q ^ 60 * Real.exp (-(60 / 3)) * (1 / 2) ≤ t ^ 60 * Real.exp (-t ^ 3) := by
      have e : Real.exp (-t ^ 3) = Real.exp (-(60 / 3)) * Real.exp (20 - t ^ 3) := by rw [← Real.exp_add]; congr 1; ring
      rw [e, mul_assoc]
      refine mul_le_mul h6 (mul_le_mul_of_nonneg_left (by linarith) (Real.exp_pos _).le) (by positivity) (by positivity)
    rw [morse_nat t ht]
    have := (le_div_iff₀ hM).2 (by rw [mul_comm]; exact h7 : (1 / 2) * (q ^ 60 * Real.exp (-(60 / 3))) ≤ t ^ 60 * Real.exp (-t ^ 3))
    linarith
  · rw [morse_nat 18 (by norm_num)]
    have e1 : (9 : ℝ) ≤ Real.exp 3 := by
      have h1 := Real.exp_one_gt_d9
      have h2 : (27 / 10 : ℝ) ^ 3 ≤ Real.exp 1 ^ 3 := pow_le_pow_left₀ (by norm_num) (by linarith) 3
      rw [← Real.exp_nat_mul] at h2
      norm_num at h2 ⊢
      linarith
    have e2 : (18 : ℝ) ^ 60 ≤ q ^ 60 * Real.exp 180 := by
      have h1 : (18 : ℝ) ≤ q * Real.exp 3 := by nlinarith
      have h2 := pow_le_pow_left₀ (by norm_num) h1 60
      rw [mul_pow, ← Real.exp_nat_mul] at h2
      norm_num at h2 ⊢
      exact h2
    have e3 : Real.exp (-18 ^ 3) ≤ Real.exp (-(60 / 3)) * (Real.exp (-180) * Real.exp (-40)) := by
      rw [← Real.exp_add, ← Real.exp_add, Real.exp_le_exp]; norm_num
    have e4 : (18 : ℝ) ^ 60 * Real.exp (-18 ^ 3) ≤ q ^ 60 * Real.exp (-(60 / 3)) * Real.exp (-40) := by
      calc _ ≤ (q ^ 60 * Real.exp 180) * (Real.exp (-(60 / 3)) * (Real.exp (-180) * Real.exp (-40))) :=
            mul_le_mul e2 e3 (Real.exp_pos _).le (by positivity)
        _ = q ^ 60 * Real.exp (-(60 / 3)) * Real.exp (-40) * (Real.exp 180 * Real.exp (-180)) := by ring
        _ = _ := by rw [← Real.exp_add]; norm_num
    have e5 : (18 : ℝ) ^ 60 * Real.exp (-18 ^ 3) / (q ^ 60 * Real.exp (-(60 / 3))) ≤ Real.exp (-40) := (div_le_iff₀ hM).2 (by linarith)
    have := exp_40
    linarith [Real.exp_pos (-40)]

/-- **C185, the default wavelet.** For `gamma = 3`, `beta = 60` neither constant comes with a warning. -/
theorem C185_default {c : Option Bool} (hc : c ≠ some true) {f32 : Bool} {f : ℝ → ℝ}
    (h : gmw (some 3) (some 60) (.known .bandpass) (.int 0) c f32 = .ok f) :
    (∃ C, integrateAnalytic (fun w => f w / w) = .ok (C, false) ∧ admSsq f = .ok C) ∧
    ∃ C, integrateAnalytic (fun w => f w * f w / w) = .ok (C, false) ∧ admCwt f = .ok C := by
  obtain ⟨-, -, r, -, hr, rfl⟩ := gmw_scaled h
  obtain rfl := hr hc
  obtain ⟨d1, d2⟩ := morse_default
  have hM := morse_pos 3 60 _ (morsefreq_pos (by norm_num : (0 : ℝ) < 3) (by norm_num : (0 : ℝ) < 60))
  have hlo : 2 < morsefreq 3 60 := lt_mf (by norm_num) (by norm_num)
  have hhi : morsefreq 3 60 ≤ 3 := mf_le (by norm_num) (by norm_num) (by norm_num)
  have h18 : 0 ≤ morse 3 60 18 / morse 3 60 (morsefreq 3 60) := div_nonneg (morse_nonneg _ _ _) hM.le
  have H1 := scaled_hump (γ := 3) (b := 60 - 1) (K := 2 * 1 / morse 3 60 (morsefreq 3 60)) (r := 1) (by norm_num) (by norm_num) (by positivity) one_pos
  have h2 : (1 : ℝ) ≤ 2 ^ (1 / 3 : ℝ) := Real.one_le_rpow (by norm_num) (by norm_num)
  have H2 := scaled_hump (γ := 3) (b := 2 * 60 - 1) (K := 4 * 1 / morse 3 60 (morsefreq 3 60) ^ 2 * 2 ^ (-(2 * 60 - 1) / 3 : ℝ)) (r := 1 * 2 ^ (1 / 3 : ℝ))
    (by norm_num) (by norm_num) (by positivity) (by positivity)
  rw [← over_scaled] at H1
  rw [← sq_scaled (by norm_num) one_pos] at H2
  have p1 : morsefreq 3 (60 - 1) / 1 ≤ 18 := by rw [div_one]; exact mf_le (by norm_num) (by norm_num) (by norm_num)
  have p2 : morsefreq 3 (2 * 60 - 1) / (1 * 2 ^ (1 / 3 : ℝ)) ≤ 18 := by
    rw [one_mul]
    exact (div_le_self (morsefreq_pos (by norm_num) (by norm_num)).le h2).trans (mf_le (by norm_num) (by norm_num) (by norm_num))
  obtain ⟨C1, hC1⟩ := C185_nowarn H1 (morsefreq 3 60) 18 (by linarith) (by linarith) (fun t h1 h2 => by
    obtain ⟨a, b⟩ := d1 t h1 h2
    have ht : 0 < t := by linarith
    simp only [mul_one]
    rw [lt_div_iff₀ ht]
    norm_num
    linarith) p1 le_rfl (by
    simp only [mul_one]
    rw [div_lt_iff₀ (by norm_num)]
    linarith)
  obtain ⟨C2, hC2⟩ := C185_nowarn H2 (morsefreq 3 60) 18 (by linarith) (by linarith) (fun t h1 h2 => by
    obtain ⟨a, b⟩ := d1 t h1 h2
    have ht : 0 < t := by linarith
    simp only [mul_one]
    rw [lt_div_iff₀ ht]
    have := mul_le_mul a a zero_le_one (by linarith)
    norm_num at this ⊢
    linarith) p2 le_rfl (by
    simp only [mul_one]
    rw [div_lt_iff₀ (by norm_num)]
    have h1 : 2 * (morse 3 60 18 / morse 3 60 (morsefreq 3 60)) ≤ 1 := by norm_num at d2 ⊢; linarith
    have := mul_le_mul_of_nonneg_right h1 (by linarith : 0 ≤ 2 * (morse 3 60 18 / morse 3 60 (morsefreq 3 60)))
    linarith)
  refine ⟨⟨C1, hC1, ?_⟩, C2, hC2, ?_⟩
  · unfold admSsq; rw [hC1]; rfl
  · unfold admCwt; rw [hC2]; rfl

/-- For the default wavelet `adm_ssq` is `(2/3) Γ(20) (e/20)^20` up to 1/80. -/
theorem C185_default_value {c : Option Bool} (hc : c ≠ some true) {f32 : Bool} {f : ℝ → ℝ}
    (h : gmw (some 3) (some 60) (.known .bandpass) (.int 0) c f32 = .ok f) :
    ∃ C, admSsq f = .ok C ∧ |C - 2 / 3 * Real.Gamma 20 * (Real.exp 1 / 20) ^ (20 : ℝ)| ≤ 1 / 80 := by
  obtain ⟨⟨C, h1, h2⟩, -⟩ := C185_default hc h
  have h3 := C185_adm_ssq h (by norm_num) (by norm_num) C h2 (fun R => by rw [h1]; simp) 1 (by
    obtain ⟨hH, -, -, -⟩ := C183_gmw h
    rw [if_neg hc] at hH
    obtain ⟨-, -, r, -, hr, rfl⟩ := gmw_scaled h
    obtain rfl := hr hc
    have hM := morse_pos 3 60 _ (morsefreq_pos (by norm_num : (0 : ℝ) < 3) (by norm_num : (0 : ℝ) < 60))
    have H1 := scaled_hump (γ := 3) (b := 60 - 1) (K := 2 * 1 / morse 3 60 (morsefreq 3 60)) (r := 1) (by norm_num) (by norm_num) (by positivity) one_pos
    rw [← over_scaled, div_one] at H1
    have big : ∀ w, 2 ≤ w → 2 * (morse 3 60 (w * 1) / morse 3 60 (morsefreq 3 60)) / w ≤ 1 := by
      intro w hw
      rw [div_le_one (by linarith)]
      exact (hH.le w).trans hw
    intro w hw
    rcases le_total 2 w with h | h
    · exact big w h
    · exact (H1.rise w 2 hw h (lt_mf (by norm_num) (by norm_num)).le).trans (big 2 le_rfl))
  refine ⟨C, h2, ?_⟩
  rw [show (60 : ℝ) / 3 = 20 by norm_num, show Real.exp 1 * 3 / 60 = Real.exp 1 / 20 by ring] at h3
  exact h3

/-- The hypotheses of `C185_adm_ssq`, `C185_adm_cwt` and `C185_default` hold for the default wavelet. -/
example : ∃ f, gmw (some 3) (some 60) (.known .bandpass) (.int 0) none false = .ok f ∧ (∃ C, admSsq f = .ok C) ∧ ∃ C, admCwt f = .ok C := by
  have h := gmw_eq (γ := some 3) (β := some 60) (norm := .known .bandpass) (order := .int 0) (n := .bandpass) (k := 0)
    (f32 := false) none (by norm_num) (by norm_num) rfl (by simp [gmwCheckOrder]) rfl (by simp)
  obtain ⟨⟨C, _, h1⟩, D, _, h2⟩ := C185_default (by simp) h
  exact ⟨_, h, ⟨C, h1⟩, D, h2⟩

end Ssq
