import Verif.Props.Stft
import Verif.Lemmas.Xifn

/-! Helper lemmas: the spectrum of a window and of its derivative, and the STFT of a tone. -/
namespace Ssq
open Finset Complex

namespace Spec

/-- Fourier coefficient of a window of `m` taps at `l` cycles per `m` taps, the phase being measured from the centre tap. -/
noncomputable def winHat (m : ℕ) (w : ℕ → ℝ) (l : ℤ) : ℂ :=
  ∑ r ∈ range m, (w r : ℂ) * exp (-(2 * Real.pi * I * l * ((r : ℂ) - ((m / 2 : ℕ) : ℂ)) / m))

/-- The window has no frequencies above `B` cycles per `m` taps. -/
def WinBand (m : ℕ) (w : ℕ → ℝ) (B : ℕ) : Prop := ∀ l : ℤ, (B : ℤ) < |l| → 2 * |l| ≤ m → winHat m w l = 0

end Spec

theorem winHat_eq (m : ℕ) (w : ℕ → ℝ) (l : ℤ) : Spec.winHat m w l = ∑ r ∈ range m, (w r : ℂ) * tw m (-(l * ((r : ℤ) - (m / 2 : ℕ)))) := by
  unfold Spec.winHat tw
  refine sum_congr rfl fun r _ => ?_
  congr 2
  generalize m / 2 = c
  push_cast
  ring

theorem winHat_periodic {m : ℕ} (hm : m ≠ 0) (w : ℕ → ℝ) (l p : ℤ) : Spec.winHat m w (l + m * p) = Spec.winHat m w l := by
  rw [winHat_eq, winHat_eq]
  refine sum_congr rfl fun r _ => ?_
  congr 1
  rw [show -((l + m * p) * ((r : ℤ) - (m / 2 : ℕ))) = m * (-(p * ((r : ℤ) - (m / 2 : ℕ)))) + -(l * ((r : ℤ) - (m / 2 : ℕ))) by ring, tw_add, tw_mul_n hm, one_mul]

/-- The coefficients at `0, …, m-1` are those of the DFT, up to the phase of the centre. -/
theorem winHat_dft (m : ℕ) (w : ℕ → ℝ) (k : ℕ) : Spec.winHat m w k = tw m (k * (m / 2 : ℕ)) * dft m (fun r => (w r : ℂ)) k := by
  rw [winHat_eq]
  unfold dft
  rw [mul_sum]
  refine sum_congr rfl fun r _ => ?_
  rw [show -((k : ℤ) * ((r : ℤ) - (m / 2 : ℕ))) = k * (m / 2 : ℕ) + -((r : ℤ) * k) by ring, tw_add]
  ring

/-- A conjugate-symmetric spectrum is that of a real signal. -/
theorem idft_real {n : ℕ} (hn : n ≠ 0) (F : ℕ → ℂ) (h0 : (F 0).im = 0) (hs : ∀ k, 0 < k → k < n → F (n - k) = (starRingEnd ℂ) (F k)) (j : ℕ) :
    (((idft n F j).re : ℝ) : ℂ) = idft n F j := by
  rw [← Complex.conj_eq_iff_re]
  unfold idft
  rw [map_div₀, map_sum, Complex.conj_natCast]
  congr 1
  obtain ⟨m, rfl⟩ : ∃ m, n = m + 1 := ⟨n - 1, by omega⟩
  rw [sum_range_succ', sum_range_succ']
  congr 1
  · rw [← sum_range_reflect]
    refine sum_congr rfl fun k hk => ?_
    have hk := mem_range.1 hk
    have e1 : m - 1 - k + 1 = m - k := by omega
    rw [e1, map_mul, tw_conj]
    have h := hs (m - k) (by omega) (by omega)
    rw [show m + 1 - (m - k) = k + 1 by omega] at h
    rw [← h]
    congr 1
    have e : -((j : ℤ) * ((m - k : ℕ) : ℤ)) = ((m + 1 : ℕ) : ℤ) * (-j) + (j : ℤ) * ((k + 1 : ℕ) : ℤ) := by
      rw [Nat.cast_sub (by omega)]
      push_cast
      ring
    rw [e, tw_add, tw_mul_n hn, one_mul]
  · rw [map_mul, tw_conj]
    have : (starRingEnd ℂ) (F 0) = F 0 := Complex.conj_eq_iff_im.2 h0
    rw [this]
    simp

/-- The angular frequencies of `diff_window`. -/
noncomputable def diffXi (n k : ℕ) : ℝ := (if n % 2 = 0 then (xifn 1 n).set (n / 2) 0 else xifn 1 n).getD k 0

theorem diffXi_eq {n k : ℕ} (hk : k < n) :
    diffXi n k = if 2 * k = n then 0 else ((if 2 * k < n then (k : ℤ) else (k : ℤ) - n : ℤ) : ℝ) * (2 * Real.pi / n) := by
  unfold diffXi
  have hx := xifn_getD 1 n k hk
  rw [one_mul] at hx
  by_cases he : n % 2 = 0
  · rw [if_pos he]
    by_cases h2 : 2 * k = n
    · rw [if_pos h2, show n / 2 = k by omega, List.getD_eq_getElem _ _ (by simpa using hk), List.getElem_set_self]
    · rw [if_neg h2, List.getD_eq_getElem _ _ (by simpa using hk), List.getElem_set_ne (by omega), ← List.getD_eq_getElem (xifn 1 n) 0 (by simpa using hk), hx]
      congr 2
      by_cases h3 : 2 * k < n
      · rw [if_pos h3, if_pos (by omega)]
      · rw [if_neg h3, if_neg (by omega)]
  · rw [if_neg he, if_neg (by omega), hx]
    congr 2
    by_cases h3 : 2 * k < n
    · rw [if_pos h3, if_pos (by omega)]
    · rw [if_neg h3, if_neg (by omega)]

/-- The spectrum of the differentiated window. -/
theorem diffWindow_dft (w : List ℝ) (k : ℕ) (hk : k < w.length) :
    dft w.length (fun r => (((diffWindow w).getD r 0 : ℝ) : ℂ)) k = dft w.length (fun r => ((w.getD r 0 : ℝ) : ℂ)) k * I * ((diffXi w.length k : ℝ) : ℂ) := by
  set n := w.length with hn
  have hn0 : n ≠ 0 := by omega
  set F : ℕ → ℂ := fun k => dft n (fun i => ((w.getD i 0 : ℝ) : ℂ)) k * I * ((diffXi n k : ℝ) : ℂ) with hF
  have hx0 : diffXi n 0 = 0 := by
    rw [diffXi_eq (by omega), if_neg (by omega), if_pos (by omega)]
    simp
  have h0 : (F 0).im = 0 := by
    simp only [hF, hx0, ofReal_zero, mul_zero, zero_im]
  have hs : ∀ k, 0 < k → k < n → F (n - k) = (starRingEnd ℂ) (F k) := by
    intro k h1 h2
    simp only [hF]
    rw [dft_real_symm _ (by omega) hn0, map_mul, map_mul, conj_I, conj_ofReal]
    have : diffXi n (n - k) = -diffXi n k := by
      rw [diffXi_eq (by omega), diffXi_eq h2]
      by_cases h3 : 2 * k = n
      · rw [if_pos h3, if_pos (by omega), neg_zero]
      · rw [if_neg h3, if_neg (by omega)]
        by_cases h4 : 2 * k < n
        · rw [if_pos h4, if_neg (by omega)]
          rw [Nat.cast_sub (by omega)]
          push_cast
          ring
        · rw [if_neg h4, if_pos (by omega)]
          rw [Nat.cast_sub (by omega)]
          push_cast
          ring
    rw [this]
    push_cast
    ring
  have hd : ∀ r < n, (((diffWindow w).getD r 0 : ℝ) : ℂ) = idft n F r := by
    intro r hr
    rw [← idft_real hn0 F h0 hs r]
    congr 1
    unfold diffWindow
    simp only
    rw [getD_map_range _ _ hr]
    rfl
  rw [dft_congr hd, dft_idft F hk]

/-- Differentiation of the window multiplies its coefficients by their angular frequencies, and removes that of half the length. -/
theorem winHat_diff (w : List ℝ) (hw : w ≠ []) (l : ℤ) (hl : 2 * |l| ≤ w.length) :
    Spec.winHat w.length (fun r => (diffWindow w).getD r 0) l =
      (if 2 * |l| = w.length then 0 else I * ((2 * Real.pi * l / w.length : ℝ) : ℂ)) * Spec.winHat w.length (fun r => w.getD r 0) l := by
  have hn0 : w.length ≠ 0 := by simpa using hw
  set n := w.length with hn
  -- the bin of `l`
  obtain ⟨k, p, hk, hlk⟩ : ∃ (k : ℕ) (p : ℤ), k < n ∧ l = (k : ℤ) + n * p := by
    refine ⟨(l % n).toNat, l / n, ?_, ?_⟩
    · have := Int.emod_lt_of_pos l (show (0 : ℤ) < n by omega)
      have := Int.emod_nonneg l (show (n : ℤ) ≠ 0 by omega)
      omega
    · have := Int.emod_nonneg l (show (n : ℤ) ≠ 0 by omega)
      have h2 := Int.emod_add_mul_ediv l n
      omega
  have hp : (p = 0) ∨ (p = -1) := by
    have h1 := abs_le.1 (show |l| ≤ n by have := abs_nonneg l; omega)
    have a1 : -1 ≤ p := by
      by_contra h
      push Not at h
      have : (n : ℤ) * p ≤ n * (-2) := mul_le_mul_of_nonneg_left (by omega) (by omega)
      omega
    have a2 : p ≤ 1 := by
      by_contra h
      push Not at h
      have : (n : ℤ) * 2 ≤ n * p := mul_le_mul_of_nonneg_left (by omega) (by omega)
      omega
    have a3 : p ≠ 1 := by
      rintro rfl
      have := le_abs_self l
      omega
    omega
  rw [hlk, winHat_periodic hn0, winHat_periodic hn0, winHat_dft, winHat_dft, diffWindow_dft w k hk, ← hn, diffXi_eq hk]
  rcases hp with rfl | rfl
  · rw [mul_zero, add_zero] at hlk ⊢
    rw [hlk] at hl
    have : |(k : ℤ)| = k := abs_of_nonneg (by omega)
    rw [this] at hl ⊢
    by_cases h2 : 2 * k = n
    · rw [if_pos h2, if_pos (by omega)]
      simp
    · rw [if_neg h2, if_pos (show 2 * k < n by omega), if_neg (by omega)]
      push_cast
      ring
  · have e : (k : ℤ) + n * (-1) = k - n := by ring
    rw [e] at hlk ⊢
    rw [hlk] at hl
    have : |(k : ℤ) - n| = n - k := by rw [abs_of_nonpos (by omega)]; ring
    rw [this] at hl ⊢
    by_cases h2 : 2 * k = n
    · rw [if_pos h2, if_pos (by omega)]
      simp
    · rw [if_neg h2, if_neg (show ¬ 2 * k < n by omega), if_neg (by omega)]
      push_cast
      ring

/-- The coefficients of a window sum up to its centre tap. -/
theorem winHat_sum {m : ℕ} (hm : 0 < m) (w : ℕ → ℝ) (k0 : ℤ) : ∑ k ∈ range m, Spec.winHat m w (k - k0) = (m : ℂ) * (w (m / 2) : ℂ) := by
  have hm0 : m ≠ 0 := by omega
  have h1 : ∀ k ∈ range m, Spec.winHat m w (k - k0) = ∑ r ∈ range m, (w r : ℂ) * tw m (k0 * ((r : ℤ) - (m / 2 : ℕ))) * tw m ((k : ℤ) * (((m / 2 : ℕ) : ℤ) - r)) := by
    intro k _
    rw [winHat_eq]
    refine sum_congr rfl fun r _ => ?_
    rw [mul_assoc, ← tw_add]
    congr 2
    ring
  rw [sum_congr rfl h1, sum_comm, sum_eq_single (m / 2)]
  · rw [← mul_sum, sum_tw hm0, if_pos (by simp)]
    simp
    ring
  · intro r hr hrc
    rw [← mul_sum, sum_tw hm0, if_neg, mul_zero]
    rw [dvd_sub_iff (by omega) (mem_range.1 hr)]
    omega
  · intro h; exact absurd (mem_range.2 (by omega)) h

/-- The modulated transform of a tone. -/
theorem stft_of_tone (m hop : ℕ) (w : ℕ → ℝ) (k0 : ℕ) (A φ : ℝ) (k j : ℕ) :
    Spec.stft m hop w (fun i => A * Real.cos (2 * Real.pi * k0 * i / m + φ)) true k j =
      (A / 2 : ℝ) * exp ((2 * Real.pi * k0 * (j * hop : ℕ) / m + φ : ℝ) * I) * Spec.winHat m w ((k : ℤ) - k0) +
      (A / 2 : ℝ) * exp (-((2 * Real.pi * k0 * (j * hop : ℕ) / m + φ : ℝ) * I)) * Spec.winHat m w ((k : ℤ) + k0) := by
  unfold Spec.stft Spec.winHat
  rw [mul_sum, mul_sum, ← sum_add_distrib]
  refine sum_congr rfl fun r _ => ?_
  simp only [if_true]
  have hc : ∀ θ : ℝ, ((Real.cos θ : ℝ) : ℂ) = (exp (θ * I) + exp (-(θ * I))) / 2 := by
    intro θ
    rw [ofReal_cos, Complex.cos, neg_mul]
  rw [ofReal_mul, ofReal_mul, hc]
  have e1 : exp ((2 * Real.pi * k0 * (((j : ℤ) * hop + r - (m / 2 : ℕ) : ℤ) : ℝ) / m + φ : ℝ) * I) * exp (-(2 * Real.pi * I * k * ((r : ℂ) - ((m / 2 : ℕ) : ℂ)) / m)) =
      exp ((2 * Real.pi * k0 * (j * hop : ℕ) / m + φ : ℝ) * I) * exp (-(2 * Real.pi * I * ((k : ℤ) - k0 : ℤ) * ((r : ℂ) - ((m / 2 : ℕ) : ℂ)) / m)) := by
    rw [← exp_add, ← exp_add]
    congr 1
    generalize m / 2 = c
    push_cast
    ring
  have e2 : exp (-((2 * Real.pi * k0 * (((j : ℤ) * hop + r - (m / 2 : ℕ) : ℤ) : ℝ) / m + φ : ℝ) * I)) * exp (-(2 * Real.pi * I * k * ((r : ℂ) - ((m / 2 : ℕ) : ℂ)) / m)) =
      exp (-((2 * Real.pi * k0 * (j * hop : ℕ) / m + φ : ℝ) * I)) * exp (-(2 * Real.pi * I * ((k : ℤ) + k0 : ℤ) * ((r : ℂ) - ((m / 2 : ℕ) : ℂ)) / m)) := by
    rw [← exp_add, ← exp_add]
    congr 1
    generalize m / 2 = c
    push_cast
    ring
  have e3 : ((A / 2 : ℝ) : ℂ) = (A : ℂ) / 2 := by push_cast; ring
  rw [e3]
  linear_combination ((w r : ℂ) * (A : ℂ) / 2) * e1 + ((w r : ℂ) * (A : ℂ) / 2) * e2

/-- The tone continued beyond its samples, when it has a whole number of cycles. -/
theorem tone_ext (N m k0 : ℕ) (hm : 0 < m) (hN : m ∣ k0 * N) (A φ : ℝ) :
    Spec.IsExtension .wrap ((List.range N).map fun j : ℕ => A * Real.cos (2 * Real.pi * k0 * j / m + φ)) (fun i => A * Real.cos (2 * Real.pi * k0 * i / m + φ)) := by
  refine ⟨fun i h => ?_, fun i => ?_⟩
  · simp
  · obtain ⟨q, hq⟩ := hN
    have hm' : (m : ℝ) ≠ 0 := by exact_mod_cast hm.ne'
    have hq' : (k0 : ℝ) * N = m * q := by exact_mod_cast hq
    have : 2 * Real.pi * k0 * ((i + ((List.range N).map fun j : ℕ => A * Real.cos (2 * Real.pi * k0 * j / m + φ)).length : ℤ) : ℝ) / m + φ =
        2 * Real.pi * k0 * (i : ℝ) / m + φ + q * (2 * Real.pi) := by
      rw [List.length_map, List.length_range]
      push_cast
      field_simp
      linear_combination 2 * Real.pi * hq'
    show A * Real.cos _ = A * Real.cos _
    rw [this, Real.cos_add_nat_mul_two_pi]

end Ssq
