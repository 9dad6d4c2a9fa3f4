import Verif.Lemmas.Gmw
import Verif.Lemmas.Xifn
import Verif.Props.CwtTone
import Verif.Model.Wavelets
import Mathlib.Analysis.SpecialFunctions.Log.Basic
import Mathlib.Tactic.NormNum

/-!
# Built-in wavelets: analyticity (C51), the Morse peak (C52), higher orders (C53)
-/
namespace Ssq

open Spec (morse)

/-! ## C51 -/

/-- **C51** (Morse wavelets). Whatever the parameters, norm, order and centring, a wavelet returned by `gmw` is zero at every
frequency `w ≤ 0`. -/
theorem C51_gmw {γ β : Option ℝ} {norm : NormArg} {order : OrderArg} {c : Option Bool} {f32 : Bool} {f : ℝ → ℝ}
    (h : gmw γ β norm order c f32 = .ok f) (w : ℝ) (hw : w ≤ 0) : f w = 0 := by
  obtain ⟨hγ, hβ, n, k, _, _, _, _, rfl⟩ := gmw_ok h
  refine gmwClosed_nonpos _ _ _ _ ?_
  unfold gmwArg
  have := morsefreq_pos hγ hβ
  split_ifs
  · exact mul_nonpos_of_nonpos_of_nonneg hw this.le
  · exact hw

/-- **C51** (Morse wavelets, order 0). The base wavelet is positive at every positive frequency. -/
theorem C51_gmw_pos {γ β : Option ℝ} {norm : NormArg} {c : Option Bool} {f32 : Bool} {f : ℝ → ℝ}
    (h : gmw γ β norm (.int 0) c f32 = .ok f) (w : ℝ) (hw : 0 < w) : 0 < f w := by
  obtain ⟨hγ, hβ, n, k, _, _, hk, _, rfl⟩ := gmw_ok h
  have hwc := morsefreq_pos hγ hβ
  have h0 : k = 0 := by simpa [gmwOrder] using hk.symm
  subst h0
  have hpos : 0 < gmwArg (c.getD false) (morsefreq (γ.getD 3) (β.getD 60)) w := by
    unfold gmwArg; split_ifs
    · positivity
    · exact hw
  have hm := morse_pos (γ.getD 3) (β.getD 60) _ hpos
  have hm' := morse_pos (γ.getD 3) (β.getD 60) _ hwc
  have hG := Real.Gamma_pos_of_pos (show 0 < (2 * β.getD 60 + 1) / γ.getD 3 by positivity)
  cases n
  · simp only [gmwClosed, gmwCoeff_zero_bandpass, Spec.laguerre]
    positivity
  · simp only [gmwClosed, gmwCoeff_energy hγ hβ, Spec.laguerre]
    simp only [Nat.cast_zero, zero_add, Nat.factorial_zero, Nat.cast_one]
    positivity

/-- The default `gmw()`, and a third-order energy wavelet. -/
example : (∃ f, gmw none none .none .none none true = .ok f) ∧
    ∃ f, gmw (some 2) (some 8) (.known .energy) (.int 3) (some true) false = .ok f :=
  ⟨⟨_, gmw_eq (n := .bandpass) (k := 0) none (by norm_num) (by norm_num) rfl rfl rfl (by simp)⟩,
   ⟨_, gmw_eq (n := .energy) (k := 3) (some true) (by norm_num) (by norm_num) rfl (by simp [gmwCheckOrder])
     rfl (by simp)⟩⟩

/-- Positivity holds for order 0 only: the first-order wavelet is negative at high frequencies. -/
theorem C51_order_one_negative : ∃ f, gmw (some 1) (some 1) (.known .bandpass) (.int 1) none false = .ok f ∧ f 2 < 0 := by
  refine ⟨_, gmw_eq (n := .bandpass) (k := 1) none (by norm_num) (by norm_num) rfl (by simp [gmwCheckOrder])
    rfl (by simp), ?_⟩
  simp only [Option.getD_some, Option.getD_none, gmwArg, Bool.false_eq_true, if_false, gmwClosed, Spec.laguerre]
  have h1 := morse_pos 1 1 2 (by norm_num)
  have h2 := morse_pos 1 1 _ (morsefreq_pos (γ := 1) (β := 1) one_pos one_pos)
  have h3 : 0 < gmwCoeff 1 1 1 .bandpass := by
    rw [gmwCoeff_bandpass one_pos one_pos]
    have a := Real.Gamma_pos_of_pos (show (0 : ℝ) < (2 * 1 + 1) / 1 by norm_num)
    have b := Real.Gamma_pos_of_pos (show (0 : ℝ) < ((1 : ℕ) : ℝ) + (2 * 1 + 1) / 1 by norm_num)
    have d : (0 : ℝ) < ((1 : ℕ).factorial : ℝ) := by norm_num
    positivity
  have h4 : (1 : ℝ) + ((2 * 1 + 1) / 1 - 1) - 2 * 2 ^ (1 : ℝ) = -1 := by norm_num
  rw [h4]
  have : 0 < 2 * gmwCoeff 1 1 1 .bandpass * (morse 1 1 2 / morse 1 1 (morsefreq 1 1)) := by positivity
  nlinarith

/-- **C51** (bump). Zero exactly when the normalised distance from `mu` is at least 0.999; with `om = 0` a positive real
inside. So it is analytic (zero for `w < 0`) whenever `mu ≥ 0.999·s`. -/
theorem C51_bump (μ s om w : ℝ) (hs : 0 < s) :
    (bumpFn μ s om w = 0 ↔ 0.999 * s ≤ |w - μ|) ∧
    (|w - μ| < 0.999 * s → 0 < (bumpFn μ s 0 w).re ∧ (bumpFn μ s 0 w).im = 0) ∧
    (0.999 * s ≤ μ → w ≤ 0 → bumpFn μ s om w = 0) := by
  have hiff : |(w - μ) / s| < 0.999 ↔ |w - μ| < 0.999 * s := by
    rw [abs_div, abs_of_pos hs, div_lt_iff₀ hs]
  have h0 : ¬ |w - μ| < 0.999 * s → bumpFn μ s om w = 0 := fun h => by
    simp only [bumpFn, if_neg (mt hiff.1 h)]
    simp
  refine ⟨⟨fun h => ?_, fun h => h0 (not_lt.2 h)⟩, fun h => ?_, fun hμ hw => h0 ?_⟩
  · by_contra hlt
    have h1 := hiff.2 (not_le.1 hlt)
    simp only [bumpFn, if_pos h1] at h
    have hs' : (s : ℂ) ≠ 0 := by exact_mod_cast hs.ne'
    have hc : ((0.443993816053287 : ℝ) : ℂ) ≠ 0 := by
      rw [Complex.ofReal_ne_zero]; norm_num
    have he : ((Real.exp (-1 / (1 - ((w - μ) / s * 1) ^ 2)) : ℝ) : ℂ) ≠ 0 := by
      rw [Complex.ofReal_ne_zero]; exact (Real.exp_pos _).ne'
    refine absurd h (div_ne_zero (mul_ne_zero (mul_ne_zero (div_ne_zero (Complex.exp_ne_zero _) hs') ?_) he) hc)
    simp
  · simp only [bumpFn, if_pos (hiff.2 h)]
    have : Complex.exp (2 * Real.pi * Complex.I * ((0 : ℝ) : ℂ) * w) = ((1 : ℝ) : ℂ) := by simp
    rw [this, ← Complex.ofReal_div, ← Complex.ofReal_mul, ← Complex.ofReal_mul, ← Complex.ofReal_div,
      Complex.ofReal_re, Complex.ofReal_im]
    exact ⟨by positivity, rfl⟩
  · rw [abs_of_nonpos (by nlinarith), not_lt]
    linarith

/-- **C51** (complex Mexican hat). Zero for `w ≤ mu` and positive for `w > mu`; so analytic whenever `mu ≥ 0`. -/
theorem C51_cmhat (μ s w : ℝ) (hs : 0 < s) : (w ≤ μ → cmhatFn μ s w = 0) ∧ (μ < w → 0 < cmhatFn μ s w) := by
  refine ⟨fun h => ?_, fun h => ?_⟩
  · rcases h.lt_or_eq with h | h
    · simp only [cmhatFn, if_neg (show ¬ 0 ≤ w - μ by linarith)]; simp
    · subst h; simp [cmhatFn]
  · have h' : 0 < w - μ := by linarith
    simp only [cmhatFn, if_pos h'.le]
    positivity

/-- **C51** (Hilbert-Hermitian hat). Zero for `w ≤ mu` and positive for `w > mu`. -/
theorem C51_hhhat (μ w : ℝ) : (w ≤ μ → hhhatFn μ w = 0) ∧ (μ < w → 0 < hhhatFn μ w) := by
  refine ⟨fun h => ?_, fun h => ?_⟩
  · rcases h.lt_or_eq with h | h
    · simp only [hhhatFn, Real.sign_of_neg (show w - μ < 0 by linarith)]; simp
    · subst h; simp [hhhatFn]
  · have h' : 0 < w - μ := by linarith
    simp only [hhhatFn, Real.sign_of_pos h']
    positivity

/-- Morlet, by contrast, is negative at every negative frequency (for `mu > 0`): it is only approximately analytic. It is
zero at `w = 0` and positive for `w > 0`. -/
theorem C51_morlet (μ w : ℝ) (hμ : 0 < μ) :
    (w < 0 → morletFn μ w < 0) ∧ morletFn μ 0 = 0 ∧ (0 < w → 0 < morletFn μ w) := by
  have hmu2 : 0 < μ ^ 2 := by positivity
  have hcs : 0 < 1 + Real.exp (-μ ^ 2) - 2 * Real.exp (-(3 / 4) * μ ^ 2) := by
    set y := Real.exp (-(1 / 4) * μ ^ 2) with hy
    have y0 : 0 < y := Real.exp_pos _
    have y1 : y < 1 := by rw [hy, Real.exp_lt_one_iff]; linarith
    have e1 : Real.exp (-μ ^ 2) = y ^ 4 := by
      rw [hy, ← Real.exp_nat_mul]; congr 1; push_cast; ring
    have e2 : Real.exp (-(3 / 4) * μ ^ 2) = y ^ 3 := by
      rw [hy, ← Real.exp_nat_mul]; congr 1; push_cast; ring
    rw [e1, e2]
    have f : 1 + y ^ 4 - 2 * y ^ 3 = (1 - y ^ 2) ^ 2 + 2 * y ^ 2 * (1 - y) := by ring
    rw [f]
    have : 0 < 2 * y ^ 2 * (1 - y) := by
      have : 0 < 1 - y := by linarith
      positivity
    have := sq_nonneg (1 - y ^ 2)
    linarith
  have key : Real.exp (-(1 / 2) * μ ^ 2) * Real.exp (-(1 / 2) * w ^ 2) = Real.exp (-(1 / 2) * (μ ^ 2 + w ^ 2)) := by
    rw [← Real.exp_add]; congr 1; ring
  have hC : 0 < Real.sqrt 2 * (1 + Real.exp (-μ ^ 2) - 2 * Real.exp (-(3 / 4) * μ ^ 2)) ^ (-(1 / 2) : ℝ) *
      Real.pi ^ (1 / 4 : ℝ) := by
    have := Real.pi_pos
    positivity
  refine ⟨fun h => ?_, ?_, fun h => ?_⟩
  · simp only [morletFn]
    rw [key]
    refine mul_neg_of_pos_of_neg hC (sub_neg.2 (Real.exp_lt_exp.2 ?_))
    nlinarith [mul_neg_of_neg_of_pos h hμ]
  · simp [morletFn]
  · simp only [morletFn]
    rw [key]
    refine mul_pos hC (sub_pos.2 (Real.exp_lt_exp.2 ?_))
    nlinarith [mul_pos h hμ]

/-- **C51** (all analytic wavelets, as used by the tone theorems): zero at every negative frequency. -/
theorem C51_analytic :
    (∀ (γ β : Option ℝ) (norm : NormArg) (order : OrderArg) (c : Option Bool) (f32 : Bool) (f : ℝ → ℝ),
      gmw γ β norm order c f32 = .ok f → Spec.Analytic fun w => (f w : ℂ)) ∧
    (∀ μ s om : ℝ, 0 < s → 0.999 * s ≤ μ → Spec.Analytic (bumpFn μ s om)) ∧
    (∀ μ s : ℝ, 0 < s → 0 ≤ μ → Spec.Analytic fun w => (cmhatFn μ s w : ℂ)) ∧
    (∀ μ : ℝ, 0 ≤ μ → Spec.Analytic fun w => (hhhatFn μ w : ℂ)) := by
  refine ⟨fun γ β n o c f32 f h w hw => ?_, fun μ s om hs hμ w hw => (C51_bump μ s om w hs).2.2 hμ hw.le,
    fun μ s hs hμ w hw => ?_, fun μ hμ w hw => ?_⟩
  · beta_reduce; rw [C51_gmw h w hw.le, Complex.ofReal_zero]
  · beta_reduce; rw [(C51_cmhat μ s w hs).1 (by linarith), Complex.ofReal_zero]
  · beta_reduce; rw [(C51_hhhat μ w).1 (by linarith), Complex.ofReal_zero]

/-- The default parameters of the configuration file meet the hypotheses. -/
example : Spec.Analytic (bumpFn 5 1 0) ∧ (Spec.Analytic fun w => (cmhatFn 1 1 w : ℂ)) ∧
    Spec.Analytic fun w => (hhhatFn 5 w : ℂ) :=
  ⟨C51_analytic.2.1 5 1 0 (by norm_num) (by norm_num), C51_analytic.2.2.1 1 1 (by norm_num) (by norm_num),
    C51_analytic.2.2.2 5 (by norm_num)⟩

/-! ## C52 -/

/-- The ratio to the peak. -/
theorem morse_ratio {γ β : ℝ} (hγ : 0 < γ) (hβ : 0 < β) (w : ℝ) :
    morse γ β w / morse γ β (morsefreq γ β) ≤ 1 ∧
      (morse γ β w / morse γ β (morsefreq γ β) = 1 ↔ w = morsefreq γ β) := by
  have hwc := morsefreq_pos hγ hβ
  have hm := morse_pos γ β _ hwc
  have hlt : w ≠ morsefreq γ β → morse γ β w / morse γ β (morsefreq γ β) < 1 := fun hne => by
    rw [div_lt_one hm]
    rcases le_or_gt w 0 with h | h
    · rw [morse_of_nonpos _ _ _ h]; exact hm
    · unfold Spec.morse
      rw [if_pos h, if_pos hwc, Real.rpow_def_of_pos h, Real.rpow_def_of_pos hwc, ← Real.exp_add, ← Real.exp_add,
        Real.exp_lt_exp]
      set u := (w / morsefreq γ β) ^ γ with hu
      have hu0 : 0 < u := by positivity
      have hu1 : u ≠ 1 := fun h1 => by
        have : w / morsefreq γ β = 1 := by
          have h2 : ((w / morsefreq γ β) ^ γ) ^ (1 / γ) = (1 : ℝ) ^ (1 / γ) := by rw [← hu, h1]
          rwa [← Real.rpow_mul (by positivity), mul_one_div_cancel hγ.ne', Real.rpow_one, Real.one_rpow] at h2
        rw [div_eq_one_iff_eq hwc.ne'] at this
        exact hne this
      have hlog : Real.log u = γ * (Real.log w - Real.log (morsefreq γ β)) := by
        rw [hu, Real.log_rpow (by positivity), Real.log_div h.ne' hwc.ne']
      have hw : w ^ γ = u * (β / γ) := by
        rw [hu, Real.div_rpow h.le hwc.le, morsefreq_rpow hγ hβ, div_mul_cancel₀]
        positivity
      have hkey := Real.log_lt_sub_one_of_pos hu0 hu1
      rw [hw, morsefreq_rpow hγ hβ]
      have hb : 0 < β / γ := by positivity
      have := mul_lt_mul_of_pos_left hkey hb
      rw [hlog] at this
      have e : β / γ * (γ * (Real.log w - Real.log (morsefreq γ β))) = β * (Real.log w - Real.log (morsefreq γ β)) := by
        field_simp
      rw [e] at this
      linarith
  by_cases hne : w = morsefreq γ β
  · subst hne; rw [div_self hm.ne']; simp
  · exact ⟨(hlt hne).le, ⟨fun h => absurd h (hlt hne).ne, fun h => absurd h hne⟩⟩

/-- **C52**. For all `gamma, beta > 0`, the bandpass Morse wavelet never exceeds 2, and equals 2 exactly at
`(beta/gamma)^(1/gamma)` — the value of `morsefreq` — or at 1 with `centered_scale`. -/
theorem C52_peak {γ β : ℝ} {c : Option Bool} {f32 : Bool} {f : ℝ → ℝ}
    (h : gmw (some γ) (some β) (.known .bandpass) (.int 0) c f32 = .ok f) (w : ℝ) :
    f w ≤ 2 ∧ (f w = 2 ↔ w = if c = some true then 1 else (β / γ) ^ (1 / γ)) := by
  obtain ⟨hγ, hβ, n, k, hn, _, hk, _, rfl⟩ := gmw_ok h
  obtain rfl : GmwNorm.bandpass = n := by simpa [gmwNormOf] using hn
  obtain rfl : 0 = k := by simpa [gmwOrder] using hk
  simp only [Option.getD_some] at hγ hβ
  have hwc := morsefreq_pos hγ hβ
  simp only [Option.getD_some, gmwClosed, gmwCoeff_zero_bandpass, Spec.laguerre, mul_one]
  obtain ⟨h1, h2⟩ := morse_ratio hγ hβ (gmwArg (c.getD false) (morsefreq γ β) w)
  refine ⟨by linarith, ?_⟩
  have e : (2 * (morse γ β (gmwArg (c.getD false) (morsefreq γ β) w) / morse γ β (morsefreq γ β)) = 2) ↔
      gmwArg (c.getD false) (morsefreq γ β) w = morsefreq γ β := by
    rw [← h2]
    constructor
    · intro h; linarith
    · intro h; linarith
  rw [e]
  change _ ↔ w = if c = some true then 1 else morsefreq γ β
  unfold gmwArg
  rcases c with _ | _ | _ <;> simp
  exact mul_eq_right₀ hwc.ne'

/-- With `gamma = 3, beta = 60` the peak is at `20^(1/3)`. -/
example : ∃ f, gmw (some 3) (some 60) (.known .bandpass) (.int 0) none true = .ok f ∧ f ((60 / 3) ^ (1 / 3 : ℝ)) = 2 :=
  have h := gmw_eq (γ := some 3) (β := some 60) (norm := .known .bandpass) (order := .int 0) (n := .bandpass) (k := 0)
    (f32 := true) none (by norm_num) (by norm_num) rfl (by simp [gmwCheckOrder]) rfl (by simp)
  ⟨_, h, ((C52_peak h _).2).2 (by simp)⟩

/-! ## C53 -/

/-- **C53** (order 0). `gmw_l1_k` and `gmw_l2_k` with `k = 0` are `gmw_l1` and `gmw_l2`, for every `gamma` and `beta`
(including those that are rejected). -/
theorem C53_order_zero (γ β : ℝ) (c : Bool) : gmwL1k γ β 0 c = gmwL1 γ β c ∧ gmwL2k γ β 0 c = gmwL2 γ β c := by
  by_cases h : 0 < γ ∧ 0 < β
  · rw [gmwL1k_eq h.1 h.2, gmwL2k_eq h.1 h.2, gmwL1_eq h.1 h.2, gmwL2_eq h.1 h.2]
    exact ⟨rfl, rfl⟩
  · have : gmwCheck false (some γ) (some β) = .error .valueError := by
      unfold gmwCheck gmwCheck.checkBeta
      by_cases h1 : γ ≤ 0
      · simp [h1]
      · rcases lt_trichotomy β 0 with h2 | h2 | h2
        · simp [h1, h2]
        · simp [h1, h2]
        · exact absurd ⟨not_le.1 h1, h2⟩ h
    simp only [gmwL1k, gmwL1, gmwL2k, gmwL2, this]
    exact ⟨rfl, rfl⟩

/-- **C53** (`laguerre`). The function `laguerre(x, k, c)` is the generalized Laguerre polynomial of the three-term
recurrence, for every order and every `c > -1`. -/
theorem C53_laguerre (x : ℝ) (k : ℕ) (c : ℝ) (hc : -1 < c) : laguerreFn x k c = Spec.laguerre c x k := by
  rw [← lagPoly_laguerre c x hc, lagPoly, laguerreFn, sum_range_list]
  refine Finset.sum_congr rfl fun m hm => ?_
  rw [← laguerreConst_lagCoef hc (by rw [Finset.mem_range] at hm; omega), laguerreConst]
  ring

/-- **C53** (all orders). The wavelet of order `k` is the normalised Laguerre polynomial of `2w^γ` times the Morse
function. -/
theorem C53_formula {γ β : ℝ} {k : ℕ} {n : GmwNorm} {f32 : Bool} {f : ℝ → ℝ}
    (h : gmw (some γ) (some β) (.known n) (.int k) none f32 = .ok f) (w : ℝ) :
    f w = Spec.laguerre ((2 * β + 1) / γ - 1) (2 * w ^ γ) k * morse γ β w *
      match n with
      | .bandpass => 2 / morse γ β ((β / γ) ^ (1 / γ)) *
          Real.sqrt (Real.Gamma ((2 * β + 1) / γ) * (k.factorial : ℝ) / Real.Gamma (k + (2 * β + 1) / γ))
      | .energy => Real.sqrt (2 * Real.pi * γ * 2 ^ ((2 * β + 1) / γ) *
          ((k.factorial : ℝ) / Real.Gamma (k + (2 * β + 1) / γ))) := by
  obtain ⟨hγ, hβ, n', k', hn, _, hk, _, rfl⟩ := gmw_ok h
  obtain rfl : n = n' := by simpa [gmwNormOf] using hn
  obtain rfl : k = k' := by simpa [gmwOrder] using hk
  simp only [Option.getD_some] at hγ hβ
  cases n
  · simp only [Option.getD_some, Option.getD_none, gmwArg, Bool.false_eq_true, if_false, gmwClosed,
      gmwCoeff_bandpass hγ hβ, morsefreq]
    ring
  · simp only [Option.getD_some, Option.getD_none, gmwArg, Bool.false_eq_true, if_false, gmwClosed,
      gmwCoeff_energy hγ hβ]
    ring

example : ∃ f, gmw (some 3) (some 60) (.known .bandpass) (.int 2) none true = .ok f :=
  ⟨_, gmw_eq (n := .bandpass) (k := 2) none (by norm_num) (by norm_num) rfl (by simp [gmwCheckOrder]) rfl (by simp)⟩

end Ssq
