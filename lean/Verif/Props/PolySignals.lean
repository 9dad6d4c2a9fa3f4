import Verif.Props.Jumps
import Mathlib.Analysis.Calculus.MeanValue
import Mathlib.Analysis.SpecialFunctions.Pow.Deriv
import Mathlib.Analysis.SpecialFunctions.Trigonometric.Deriv
import Mathlib.Analysis.Calculus.Deriv.Pow

/-!
# C129: `packed_poly` and `poly_cubic` keep their bands for every length and never alias
-/
namespace Ssq

namespace Spec

/-- `φ` is a phase whose frequency, in cycles per second, lies from `lo` to `hi` during the ten seconds of the signal. -/
def Band (φ : ℝ → ℝ) (lo hi : ℝ) : Prop :=
  ∃ f : ℝ → ℝ, ∀ t, 0 ≤ t → t ≤ 10 → HasDerivAt φ (2 * Real.pi * f t) t ∧ lo ≤ f t ∧ f t ≤ hi

/-- From one sample to the next the phase changes by at most half a turn. -/
def NotAliased (φ : ℝ → ℝ) (t : List ℝ) : Prop := ∀ k, k + 1 < t.length → |φ (t.getD (k + 1) 0) - φ (t.getD k 0)| ≤ Real.pi

end Spec
open Spec

theorem polyT_getD (N k : ℕ) (hk : k < N) : (polyT N).getD k 0 = k * (10 / ((N - 1 : ℕ) : ℝ)) := by
  unfold polyT; rw [tVec_getD _ _ _ _ _ hk]; simp

theorem polyT_mem (N k : ℕ) (hN : 2 ≤ N) (hk : k < N) : 0 ≤ (polyT N).getD k 0 ∧ (polyT N).getD k 0 ≤ 10 := by
  rw [polyT_getD N k hk]
  have h1 : (0 : ℝ) < ((N - 1 : ℕ) : ℝ) := by exact_mod_cast (by omega : 0 < N - 1)
  refine ⟨by positivity, ?_⟩
  rw [← mul_div_assoc, div_le_iff₀ h1]
  have : (k : ℝ) ≤ ((N - 1 : ℕ) : ℝ) := by exact_mod_cast (by omega : k ≤ N - 1)
  linarith

/-- A band below half the sampling rate `(N-1)/10` is not aliased. -/
theorem band_notAliased {φ : ℝ → ℝ} {lo hi : ℝ} (h : Band φ lo hi) (N : ℕ) (hN : 2 ≤ N) (h1 : -(((N : ℝ) - 1) / 20) ≤ lo) (h2 : hi ≤ ((N : ℝ) - 1) / 20) :
    NotAliased φ (polyT N) := by
  obtain ⟨f, hf⟩ := h
  intro k hk
  have hl : (polyT N).length = N := tVec_length _ _ _ _
  rw [hl] at hk
  have hpi := Real.pi_pos
  have key := Convex.norm_image_sub_le_of_norm_hasDerivWithin_le (f := φ) (f' := fun t => 2 * Real.pi * f t) (s := Set.Icc 0 10)
    (C := 2 * Real.pi * (((N : ℝ) - 1) / 20)) (x := (polyT N).getD k 0) (y := (polyT N).getD (k + 1) 0)
    (fun t ht => (hf t ht.1 ht.2).1.hasDerivWithinAt)
    (fun t ht => by
      obtain ⟨-, a, b⟩ := hf t ht.1 ht.2
      rw [Real.norm_eq_abs, abs_mul, abs_of_pos (by positivity : 0 < 2 * Real.pi)]
      exact mul_le_mul_of_nonneg_left (abs_le.2 ⟨by linarith, by linarith⟩) (by positivity))
    (convex_Icc _ _) (polyT_mem N k hN (by omega)) (polyT_mem N (k + 1) hN hk)
  have h3 : ((N - 1 : ℕ) : ℝ) = (N : ℝ) - 1 := by push_cast [Nat.cast_sub (by omega : 1 ≤ N)]; ring
  have h4 : (0 : ℝ) < (N : ℝ) - 1 := by rw [← h3]; exact_mod_cast (by omega : 0 < N - 1)
  have hstep : (polyT N).getD (k + 1) 0 - (polyT N).getD k 0 = 10 / ((N : ℝ) - 1) := by
    rw [polyT_getD N _ hk, polyT_getD N _ (by omega), h3]; push_cast; ring
  rw [hstep, Real.norm_eq_abs, Real.norm_eq_abs, abs_of_pos (by positivity : 0 < 10 / ((N : ℝ) - 1))] at key
  refine key.trans (le_of_eq ?_)
  field_simp
  norm_num

theorem rpow_le_of {t p q : ℝ} (h0 : 0 ≤ t) (h : t ≤ 10) (hp : 0 ≤ p) (hq : (10 : ℝ) ^ p ≤ q) : t ^ p ≤ q :=
  (Real.rpow_le_rpow h0 h hp).trans hq

theorem ten_rpow_le (a b : ℕ) (hb : 0 < b) (q : ℝ) (hq : 0 ≤ q) (h : (10 : ℝ) ^ a ≤ q ^ b) : (10 : ℝ) ^ ((a : ℝ) / b) ≤ q := by
  have hb' : (b : ℝ) ≠ 0 := by exact_mod_cast hb.ne'
  rw [show (10 : ℝ) ^ ((a : ℝ) / b) = ((10 : ℝ) ^ a) ^ ((1 : ℝ) / b) by
    rw [← Real.rpow_natCast 10 a, ← Real.rpow_mul (by norm_num)]; congr 1; ring]
  calc ((10 : ℝ) ^ a) ^ ((1 : ℝ) / b) ≤ (q ^ b) ^ ((1 : ℝ) / b) := Real.rpow_le_rpow (by positivity) h (by positivity)
    _ = q := by rw [← Real.rpow_natCast, ← Real.rpow_mul hq, mul_one_div_cancel hb', Real.rpow_one]

/-- **C129**, `packed_poly`: the three bands, in proportion to `N` (but for 0.3 cycles per second of the second). -/
theorem C129_packed_bands (N : ℕ) :
    Band (packedPolyPhase N 0) (1.1 * (N / 512)) (10.3 * (N / 512)) ∧
    Band (packedPolyPhase N 1) (2.4 * (N / 512) - 0.3) (3.4 * (N / 512) + 0.3) ∧
    Band (packedPolyPhase N 2) (4.8 * (N / 512)) (5.4 * (N / 512)) := by
  have hadj : (0 : ℝ) ≤ (N : ℝ) / 512 := by positivity
  refine ⟨⟨fun t => (N / 512) * (10 - 0.3 * Real.cos t - 2.7 * t ^ (0.5 : ℝ)), fun t h0 h1 => ⟨?_, ?_, ?_⟩⟩,
    ⟨fun t => (N / 512) * (2.4 + 0.6 * t ^ (0.2 : ℝ)) + 0.3 * Real.cos t, fun t h0 h1 => ⟨?_, ?_, ?_⟩⟩,
    ⟨fun t => (N / 512) * (4.8 + 0.26 * t ^ (0.3 : ℝ)), fun t h0 h1 => ⟨?_, ?_, ?_⟩⟩⟩
  · have hp := Real.hasDerivAt_rpow_const (x := t) (p := 1.5) (Or.inr (by norm_num))
    have := ((((hasDerivAt_id t).const_mul (10 * ((N : ℝ) / 512))).sub ((Real.hasDerivAt_sin t).const_mul (0.3 * ((N : ℝ) / 512)))).sub
      (hp.const_mul (1.8 * ((N : ℝ) / 512)))).const_mul (2 * Real.pi)
    refine HasDerivAt.congr_deriv this ?_
    rw [show (1.5 : ℝ) - 1 = 0.5 by norm_num]
    ring
  · have h2 : t ^ (0.5 : ℝ) ≤ 3.17 := rpow_le_of h0 h1 (by norm_num) (by
      have := ten_rpow_le 1 2 (by norm_num) 3.17 (by norm_num) (by norm_num)
      rwa [show ((1 : ℕ) : ℝ) / (2 : ℕ) = 0.5 by norm_num] at this)
    have h3 := Real.cos_le_one t
    nlinarith
  · have h2 : 0 ≤ t ^ (0.5 : ℝ) := Real.rpow_nonneg h0 _
    have h3 := Real.neg_one_le_cos t
    nlinarith
  · have hp := Real.hasDerivAt_rpow_const (x := t) (p := 1.2) (Or.inr (by norm_num))
    have := ((((hasDerivAt_id t).const_mul (2.4 * ((N : ℝ) / 512))).add (hp.const_mul (0.5 * ((N : ℝ) / 512)))).add
      ((Real.hasDerivAt_sin t).const_mul 0.3)).const_mul (2 * Real.pi)
    refine HasDerivAt.congr_deriv this ?_
    rw [show (1.2 : ℝ) - 1 = 0.2 by norm_num]
    ring
  · have h2 : 0 ≤ t ^ (0.2 : ℝ) := Real.rpow_nonneg h0 _
    have h3 := Real.neg_one_le_cos t
    nlinarith [mul_nonneg hadj h2]
  · have h2 : t ^ (0.2 : ℝ) ≤ 1.6 := rpow_le_of h0 h1 (by norm_num) (by
      have := ten_rpow_le 1 5 (by norm_num) 1.6 (by norm_num) (by norm_num)
      rwa [show ((1 : ℕ) : ℝ) / (5 : ℕ) = 0.2 by norm_num] at this)
    have h3 := Real.cos_le_one t
    nlinarith
  · have hp := Real.hasDerivAt_rpow_const (x := t) (p := 1.3) (Or.inr (by norm_num))
    have := ((((hasDerivAt_id t).const_mul (4.8 * ((N : ℝ) / 512))).add (hp.const_mul (0.2 * ((N : ℝ) / 512))))).const_mul (2 * Real.pi)
    refine HasDerivAt.congr_deriv this ?_
    rw [show (1.3 : ℝ) - 1 = 0.3 by norm_num]
    ring
  · have h2 : 0 ≤ t ^ (0.3 : ℝ) := Real.rpow_nonneg h0 _
    nlinarith [mul_nonneg hadj h2]
  · have h2 : t ^ (0.3 : ℝ) ≤ 2 := rpow_le_of h0 h1 (by norm_num) (by
      have := ten_rpow_le 3 10 (by norm_num) 2 (by norm_num) (by norm_num)
      rwa [show ((3 : ℕ) : ℝ) / (10 : ℕ) = 0.3 by norm_num] at this)
    nlinarith

/-- **C129**, `poly_cubic`: the three bands, in proportion to `N`. -/
theorem C129_cubic_bands (N : ℕ) :
    Band (polyCubicPhase N 0) (1.6 * (N / 256)) (3.6 * (N / 256)) ∧
    Band (polyCubicPhase N 1) (0.5 * (N / 256)) (0.5 * (N / 256)) ∧
    Band (polyCubicPhase N 2) (4 * (N / 256)) (6.65 * (N / 256)) := by
  have hadj : (0 : ℝ) ≤ (N : ℝ) / 256 := by positivity
  have hpow : ∀ (n : ℕ) (t : ℝ), HasDerivAt (fun x : ℝ => x ^ (n + 1)) ((n + 1 : ℕ) * t ^ n) t := fun n t => by
    simpa using hasDerivAt_pow (n + 1) t
  have cubic : ∀ (a b c d t : ℝ), HasDerivAt (fun t => 2 * Real.pi * (((N : ℝ) / 256) * (a * t ^ 4 / 4 - b * t ^ 3 / 3 + c * t ^ 2 / 2 + d * t)))
      (2 * Real.pi * ((N / 256) * (a * t ^ 3 - b * t ^ 2 + c * t + d))) t := by
    intro a b c d t
    have := (((((((hpow 3 t).const_mul a).div_const 4).sub (((hpow 2 t).const_mul b).div_const 3)).add
      (((hpow 1 t).const_mul c).div_const 2)).add ((hasDerivAt_id t).const_mul d)).const_mul ((N : ℝ) / 256)).const_mul (2 * Real.pi)
    refine HasDerivAt.congr_deriv this ?_
    push_cast
    ring
  refine ⟨⟨fun t => (N / 256) * (0.025 * t ^ 3 - 0.36 * t ^ 2 + 1.25 * t + 2), fun t h0 h1 => ⟨cubic _ _ _ _ t, ?_, ?_⟩⟩,
    ⟨fun t => 0.5 * (N / 256), fun t h0 h1 => ⟨?_, le_rfl, le_rfl⟩⟩,
    ⟨fun t => (N / 256) * (0.01 * t ^ 3 - 0.25 * t ^ 2 + 1.5 * t + 4), fun t h0 h1 => ⟨cubic _ _ _ _ t, ?_, ?_⟩⟩⟩
  · rw [mul_comm]
    refine mul_le_mul_of_nonneg_left ?_ hadj
    nlinarith [mul_nonneg (by linarith : 0 ≤ t + 0.25) (sq_nonneg (t - 7.325))]
  · rw [mul_comm (3.6 : ℝ)]
    refine mul_le_mul_of_nonneg_left ?_ hadj
    nlinarith [mul_nonneg (by linarith : 0 ≤ 10 - t) (sq_nonneg (t - 2.25))]
  · have := (hasDerivAt_id t).const_mul (2 * Real.pi * (0.5 * (N : ℝ) / 256))
    refine HasDerivAt.congr_deriv this ?_
    ring
  · rw [mul_comm]
    refine mul_le_mul_of_nonneg_left ?_ hadj
    nlinarith [mul_nonneg (mul_nonneg h0 (by linarith : 0 ≤ 10 - t)) (by linarith : 0 ≤ 15 - t)]
  · rw [mul_comm (6.65 : ℝ)]
    refine mul_le_mul_of_nonneg_left ?_ hadj
    nlinarith [mul_nonneg (by linarith : 0 ≤ 17.15 - t) (sq_nonneg (t - 3.924))]

/-- **C129**: no component of `packed_poly` is aliased, from nine samples on, and none of `poly_cubic`, from three on. -/
theorem C129_not_aliased (N : ℕ) :
    (9 ≤ N → ∀ i, NotAliased (packedPolyPhase N i) (polyT N)) ∧ (3 ≤ N → ∀ i, NotAliased (polyCubicPhase N i) (polyT N)) := by
  obtain ⟨a0, a1, a2⟩ := C129_packed_bands N
  obtain ⟨b0, b1, b2⟩ := C129_cubic_bands N
  have hN0 : (0 : ℝ) ≤ N := by positivity
  constructor
  · intro hN i
    have h9 : (9 : ℝ) ≤ N := by exact_mod_cast hN
    fin_cases i
    · exact band_notAliased a0 N (by omega) (by linarith) (by linarith)
    · exact band_notAliased a1 N (by omega) (by linarith) (by linarith)
    · exact band_notAliased a2 N (by omega) (by linarith) (by linarith)
  · intro hN i
    have h3 : (3 : ℝ) ≤ N := by exact_mod_cast hN
    fin_cases i
    · exact band_notAliased b0 N (by omega) (by linarith) (by linarith)
    · exact band_notAliased b1 N (by omega) (by linarith) (by linarith)
    · exact band_notAliased b2 N (by omega) (by linarith) (by linarith)

/-- **C129**: the signals have `N` samples and stay within 3.5 and 3. -/
theorem C129_bounded (N : ℕ) :
    (packedPoly N).length = N ∧ (polyCubic N).length = N ∧ (∀ x ∈ polyCubic N, |x| ≤ 3) ∧ (2 ≤ N → ∀ x ∈ packedPoly N, |x| ≤ 3.5) := by
  refine ⟨by simp [packedPoly, polyT, tVec_length], by simp [polyCubic, polyT, tVec_length], ?_, ?_⟩
  · intro x hx
    obtain ⟨t, -, rfl⟩ := List.mem_map.1 hx
    have := abs_le.1 (Real.abs_cos_le_one (polyCubicPhase N 0 t))
    have := abs_le.1 (Real.abs_sin_le_one (polyCubicPhase N 1 t))
    have := abs_le.1 (Real.abs_cos_le_one (polyCubicPhase N 2 t))
    exact abs_le.2 ⟨by linarith, by linarith⟩
  · intro hN x hx
    obtain ⟨t, ht, rfl⟩ := List.mem_map.1 hx
    obtain ⟨k, hk, rfl⟩ := List.getElem_of_mem ht
    rw [← List.getD_eq_getElem _ 0 hk]
    obtain ⟨h0, -⟩ := polyT_mem N k hN (by simpa [polyT, tVec_length] using hk)
    set t := (polyT N).getD k 0
    have e0 : |packedPolyAmp 0 t| ≤ 1.3 := by
      have := abs_le.1 (Real.abs_cos_le_one t)
      simp only [packedPolyAmp]
      exact abs_le.2 ⟨by linarith, by linarith⟩
    have e1 : |packedPolyAmp 1 t| ≤ 1.2 := by
      have := abs_le.1 (Real.abs_cos_le_one (2 * t))
      simp only [packedPolyAmp]
      rw [abs_mul, abs_of_pos (Real.exp_pos _)]
      have e : Real.exp (-t / 15) ≤ 1 := Real.exp_le_one_iff.2 (by linarith)
      have e' : |1 + 0.2 * Real.cos (2 * t)| ≤ 1.2 := abs_le.2 ⟨by linarith, by linarith⟩
      calc _ ≤ (1.2 : ℝ) * 1 := mul_le_mul e' e (Real.exp_pos _).le (by norm_num)
        _ = 1.2 := by norm_num
    have bd : ∀ (A c m : ℝ), |A| ≤ m → |c| ≤ 1 → |A * c| ≤ m := by
      intro A c m h1 h2
      rw [abs_mul]
      calc _ ≤ m * 1 := mul_le_mul h1 h2 (abs_nonneg _) ((abs_nonneg _).trans h1)
        _ = m := mul_one m
    have f0 := abs_le.1 (bd _ _ _ e0 (Real.abs_cos_le_one (packedPolyPhase N 0 t)))
    have f1 := abs_le.1 (bd _ _ _ e1 (Real.abs_cos_le_one (packedPolyPhase N 1 t)))
    have f2 := abs_le.1 (bd (packedPolyAmp 2 t) _ 1 (by simp [packedPolyAmp]) (Real.abs_cos_le_one (packedPolyPhase N 2 t)))
    exact abs_le.2 ⟨by linarith, by linarith⟩

/-- A band too high is aliased: `NotAliased` can fail. -/
example : ¬ NotAliased (fun t => 2 * Real.pi * t) (polyT 3) := by
  intro h
  have := h 0 (by simp [polyT, tVec_length])
  rw [polyT_getD _ _ (by norm_num), polyT_getD _ _ (by norm_num)] at this
  have hp := Real.pi_pos
  norm_num at this
  rw [abs_of_pos (by positivity)] at this
  linarith

end Ssq
