import Verif.Props.StftTone
import Verif.Props.LocalTone

/-!
# C167: the frequency that the synchrosqueezed STFT assigns to a frame depends on that frame only, and is that of the tone it resembles
-/
namespace Ssq
open Finset Complex

namespace Spec

/-- Weight of window tap `r` when the frame is compared, in bin `i`, with a tone of `k` cycles per `m` samples: the modulus of derivative of the window minus `2πi(i-k)fs/m` times the window. -/
noncomputable def offTap (m : ℕ) (fs : ℝ) (w dw : ℕ → ℝ) (i k r : ℕ) : ℝ := |fs| * Real.sqrt (dw r ^ 2 + (2 * Real.pi * ((i : ℝ) - k) / m * w r) ^ 2)

/-- Difference between the signals `E` and `T` in the frame of `m` samples centred at sample `p`, in units of Hz times magnitude of the transform. -/
noncomputable def frameDist (m : ℕ) (fs : ℝ) (w dw : ℕ → ℝ) (E T : ℤ → ℝ) (i k p : ℕ) : ℝ :=
  (∑ r ∈ range m, |E ((p : ℤ) + r - (m / 2 : ℕ)) - T ((p : ℤ) + r - (m / 2 : ℕ))| * offTap m fs w dw i k r) / (2 * Real.pi)

/-- The tone `A·cos(2π·k·q/m + φ)` at all integer times `q`. -/
noncomputable def toneAt (m k : ℕ) (A φ : ℝ) (q : ℤ) : ℝ := A * Real.cos (2 * Real.pi * k * q / m + φ)

end Spec

/-- The STFT is linear in the window and in the signal. -/
theorem specStft_off (m hop : ℕ) (w dw : ℕ → ℝ) (E T : ℤ → ℝ) (fs : ℝ) (c : ℂ) (i j : ℕ) :
    (Spec.stft m hop (fun r => fs * dw r) E true i j - c * Spec.stft m hop w E true i j) - (Spec.stft m hop (fun r => fs * dw r) T true i j - c * Spec.stft m hop w T true i j) =
      ∑ r ∈ range m, ((E ((j : ℤ) * hop + r - (m / 2 : ℕ)) - T ((j : ℤ) * hop + r - (m / 2 : ℕ)) : ℝ) : ℂ) * ((fs * dw r : ℝ) - c * (w r : ℝ)) *
        exp (-(2 * Real.pi * I * i * ((r : ℂ) - ((m / 2 : ℕ) : ℂ)) / m)) := by
  unfold Spec.stft
  rw [mul_sum, mul_sum, ← sum_sub_distrib, ← sum_sub_distrib, ← sum_sub_distrib]
  refine sum_congr rfl fun r _ => ?_
  simp only [if_true]
  push_cast
  ring

theorem norm_tap (fs m : ℝ) (d w l : ℝ) : ‖((fs * d : ℝ) : ℂ) - I * ((2 * Real.pi * (l * (fs / m)) : ℝ) : ℂ) * (w : ℝ)‖ = |fs| * Real.sqrt (d ^ 2 + (2 * Real.pi * l / m * w) ^ 2) := by
  have e : ((fs * d : ℝ) : ℂ) - I * ((2 * Real.pi * (l * (fs / m)) : ℝ) : ℂ) * (w : ℝ) = ((fs : ℝ) : ℂ) * (((d : ℝ) : ℂ) + ((-(2 * Real.pi * l / m * w) : ℝ) : ℂ) * I) := by
    push_cast
    ring
  rw [e, norm_mul, Complex.norm_real, Real.norm_eq_abs, Complex.norm_add_mul_I, neg_sq]

/-- The tone is annihilated by the derivative minus `2πi(i-k)fs/m` times the transform. -/
theorem specStft_tone_zero {m : ℕ} {w : List ℝ} {B k : ℕ} (hw : w.length = m) (hb : Spec.WinBand m (fun r => w.getD r 0) B) (hk : B < k) (hk2 : 2 * (k + B) < m) (hop : ℕ) (fs A φ : ℝ)
    (i j : ℕ) (hi : i < m / 2 + 1) :
    Spec.stft m hop (fun r => fs * (diffWindow w).getD r 0) (Spec.toneAt m k A φ) true i j -
      I * ((2 * Real.pi * (((i : ℝ) - k) * (fs / m)) : ℝ) : ℂ) * Spec.stft m hop (fun r => w.getD r 0) (Spec.toneAt m k A φ) true i j = 0 := by
  have hm : 0 < m := by omega
  have hwne : w ≠ [] := by intro h; rw [h] at hw; simp at hw; omega
  have hl : 2 * |(i : ℤ) - k| ≤ m := by
    rcases abs_cases ((i : ℤ) - k) with ⟨e, -⟩ | ⟨e, -⟩ <;> omega
  have hw' : ∀ l : ℤ, 2 * |l| ≤ m → _ := fun l hl => winHat_diff w hwne l (by rw [hw]; exact hl)
  rw [hw] at hw'
  have hz : Spec.winHat m (fun r => (diffWindow w).getD r 0) ((i : ℤ) + k) = 0 := by
    by_cases h : 2 * (i + k) ≤ m
    · rw [hw' _ (by rw [abs_of_nonneg (by omega)]; omega), winHat_high hb hk hk2 i hi, mul_zero]
    · have e : (i : ℤ) + k = (i : ℤ) + k - m + m * 1 := by ring
      have hz := winHat_high hb hk hk2 i hi
      rw [e, winHat_periodic (by omega)] at hz ⊢
      rw [hw' _ (by rw [abs_of_nonpos (by omega)]; omega), hz, mul_zero]
  have e1 := stft_of_tone m hop (fun r => fs * (diffWindow w).getD r 0) k A φ i j
  have e2 := stft_of_tone m hop (fun r => w.getD r 0) k A φ i j
  have ht : Spec.toneAt m k A φ = fun i : ℤ => A * Real.cos (2 * Real.pi * k * (i : ℝ) / m + φ) := rfl
  rw [ht, e1, e2, winHat_smul, winHat_smul, hz, hw' _ hl, if_neg (by rcases abs_cases ((i : ℤ) - k) with ⟨e, -⟩ | ⟨e, -⟩ <;> omega), winHat_high hb hk hk2 i hi]
  push_cast
  ring

theorem stftFreq_of_diff {S dS : ℂ} (hS : S ≠ 0) (f0 d D : ℝ) (h : ‖dS - I * ((2 * Real.pi * d : ℝ) : ℂ) * S‖ ≤ 2 * Real.pi * D) :
    |stftFreq f0 S dS - abs (f0 - d)| * ‖S‖ ≤ D := by
  have hpi : (0 : ℝ) < 2 * Real.pi := by have := Real.pi_pos; positivity
  rw [stftFreq_eq _ _ _ hS]
  have h1 := abs_abs_sub_abs_le (f0 - (dS / S).im / (2 * Real.pi)) (f0 - d)
  have h2 : f0 - (dS / S).im / (2 * Real.pi) - (f0 - d) = -((dS / S - I * ((2 * Real.pi * d : ℝ) : ℂ)).im / (2 * Real.pi)) := by
    rw [Complex.sub_im, Complex.I_mul_im, Complex.ofReal_re]
    field_simp
    ring
  rw [h2, abs_neg, abs_div, abs_of_pos hpi] at h1
  have h3 := Complex.abs_im_le_norm (dS / S - I * ((2 * Real.pi * d : ℝ) : ℂ))
  have hn : 0 < ‖S‖ := norm_pos_iff.2 hS
  have h4 : ‖dS / S - I * ((2 * Real.pi * d : ℝ) : ℂ)‖ * ‖S‖ = ‖dS - I * ((2 * Real.pi * d : ℝ) : ℂ) * S‖ := by
    rw [← norm_mul, sub_mul, div_mul_cancel₀ _ hS]
  have h5 := mul_le_mul_of_nonneg_right (h1.trans (div_le_div_of_nonneg_right h3 hpi.le)) hn.le
  refine h5.trans ?_
  rw [div_mul_eq_mul_div, div_le_iff₀ hpi, h4]
  linarith

/-- The frequency axis of `ssq_stft`. -/
theorem makeSfs_getD {m : ℕ} (hm : 2 ≤ m) (fs : ℝ) {i : ℕ} (hi : i < m / 2 + 1) : (makeSfs (m / 2 + 1) fs).getD i 0 = i * (fs / (2 * (m / 2 : ℕ))) := by
  have hl : (makeSfs (m / 2 + 1) fs).length = m / 2 + 1 := by simp [makeSfs, linspace_length]
  rw [List.getD_eq_getElem _ _ (by omega)]
  have e : (makeSfs (m / 2 + 1) fs)[i] = 0 + i * ((1 / 2 * fs - 0) / (m / 2 + 1 - 1 : ℕ)) := linspace_getElem (by rw [linspace_length]; omega)
  rw [e, Nat.add_sub_cancel]
  have : ((m / 2 : ℕ) : ℝ) ≠ 0 := by
    have : m / 2 ≠ 0 := by omega
    exact_mod_cast this
  field_simp
  ring

/-- **C167.** Take any signal and padding, any window without frequencies above `B` cycles per FFT length `m`, any hop and sampling rate; any bin and frame whose coefficient is not zero; and any tone
of `k` cycles per `m` samples, more than `B` away from 0 and half of the sampling rate. The phase transform of the cell differs from the tone's frequency by at most the difference between the (padded)
signal and the tone inside the frame, divided by the magnitude of the cell; for odd `m`, whose frequency axis is stretched by `m/(m-1)`, the tone's frequency is replaced by that of the stretched
axis. What the signal does outside of the frame does not matter. -/
theorem C167_local {lib : WinLib} {tiny : ℝ} {x : List ℝ} {a : StftArgs} {m : ℕ} {w dw : List ℝ} {t : PadType} {B : ℕ}
    (hv : StftValid lib tiny x a m w dw t) (hmod : a.modulated = true) (hdw : dw = diffWindow w) (hb : Spec.WinBand m (fun r => w.getD r 0) B)
    (E : ℤ → ℝ) (hE : Spec.IsExtension t x E) :
    ∃ S dS, stft lib tiny x a = .ok (m, S, dS) ∧ S.length = (x.length - 1) / a.hop + 1 ∧ ∀ (gamma : ℝ), ∀ i < m / 2 + 1, ∀ j < S.length, ∀ (k : ℕ) (A φ : ℝ), B < k → 2 * (k + B) < m →
      entC S i j ≠ 0 → gamma ≤ ‖entC S i j‖ →
      ∃ f, phaseStft gamma (fun i => (makeSfs (m / 2 + 1) a.fs).getD i 0) (entC S) (entC dS) i j = .fin f ∧
        |f - abs (k * (a.fs / m) + i * (a.fs / (2 * (m / 2 : ℕ)) - a.fs / m))| * ‖entC S i j‖ ≤
          Spec.frameDist m a.fs (fun r => w.getD r 0) (fun r => dw.getD r 0) E (Spec.toneAt m k A φ) i k (j * a.hop) := by
  have hm := hv.hm
  obtain ⟨S, dS, h1, h2, h3, h4, h5⟩ := C07_stft_entries hv E hE
  refine ⟨S, dS, h1, h2, fun gamma i hi j hj k A φ hk hk2 h0 hg => ⟨_, by unfold phaseStft; rw [if_neg (not_lt.2 hg)], ?_⟩⟩
  simp only
  have hm2 : 2 ≤ m := by omega
  rw [makeSfs_getD hm2 _ hi]
  have e0 : (k : ℝ) * (a.fs / m) + i * (a.fs / (2 * (m / 2 : ℕ)) - a.fs / m) = i * (a.fs / (2 * (m / 2 : ℕ))) - ((i : ℝ) - k) * (a.fs / m) := by ring
  rw [e0]
  refine stftFreq_of_diff h0 _ _ _ ?_
  have c1 : entC S i j = Spec.stft m a.hop (fun r => w.getD r 0) E true i j := by
    unfold entC
    rw [List.getD_eq_getElem S _ hj, (h4 j hj).2 i hi, hmod]
  have c2 : entC dS i j = Spec.stft m a.hop (fun r => a.fs * dw.getD r 0) E true i j := by
    unfold entC
    rw [List.getD_eq_getElem dS _ (by omega), (h5 j (by omega)).2 i hi, hmod]
    rfl
  have hz := specStft_tone_zero hv.hw hb hk hk2 a.hop a.fs A φ i j hi
  rw [← hdw] at hz
  have hd := specStft_off m a.hop (fun r => w.getD r 0) (fun r => dw.getD r 0) E (Spec.toneAt m k A φ) a.fs (I * ((2 * Real.pi * (((i : ℝ) - k) * (a.fs / m)) : ℝ) : ℂ)) i j
  rw [hz, sub_zero] at hd
  rw [c1, c2, hd]
  refine (norm_sum_le _ _).trans (le_of_eq ?_)
  unfold Spec.frameDist
  rw [mul_div_cancel₀ _ (by have := Real.pi_pos; positivity)]
  refine sum_congr rfl fun r _ => ?_
  rw [norm_mul, norm_mul, norm_tap, Complex.norm_real, Real.norm_eq_abs]
  have : ‖exp (-(2 * Real.pi * I * i * ((r : ℂ) - ((m / 2 : ℕ) : ℂ)) / m))‖ = 1 := by
    rw [show (-(2 * Real.pi * I * i * ((r : ℂ) - ((m / 2 : ℕ) : ℂ)) / m) : ℂ) = ((-(2 * Real.pi * i * ((r : ℝ) - ((m / 2 : ℕ) : ℝ)) / m) : ℝ) : ℂ) * I by push_cast; ring]
    exact Complex.norm_exp_ofReal_mul_I _
  rw [this, mul_one]
  unfold Spec.offTap
  push_cast
  rfl

/-- **C167, exact frames.** If inside one frame the (padded) signal is a tone of `k` cycles per `m` samples, then every cell of the frame that is not zero gets that tone's frequency
(of the stretched axis if `m` is odd), for every signal outside of the frame. -/
theorem C167_exact {lib : WinLib} {tiny : ℝ} {x : List ℝ} {a : StftArgs} {m : ℕ} {w dw : List ℝ} {t : PadType} {B : ℕ}
    (hv : StftValid lib tiny x a m w dw t) (hmod : a.modulated = true) (hdw : dw = diffWindow w) (hb : Spec.WinBand m (fun r => w.getD r 0) B)
    (E : ℤ → ℝ) (hE : Spec.IsExtension t x E) :
    ∃ S dS, stft lib tiny x a = .ok (m, S, dS) ∧ ∀ (gamma : ℝ), ∀ i < m / 2 + 1, ∀ j < S.length, ∀ (k : ℕ) (A φ : ℝ), B < k → 2 * (k + B) < m →
      (∀ r < m, E (((j * a.hop : ℕ) : ℤ) + r - (m / 2 : ℕ)) = A * Real.cos (2 * Real.pi * k * (((j * a.hop : ℕ) : ℤ) + r - (m / 2 : ℕ) : ℤ) / m + φ)) →
      entC S i j ≠ 0 → gamma ≤ ‖entC S i j‖ →
      phaseStft gamma (fun i => (makeSfs (m / 2 + 1) a.fs).getD i 0) (entC S) (entC dS) i j = .fin |k * (a.fs / m) + i * (a.fs / (2 * (m / 2 : ℕ)) - a.fs / m)| := by
  obtain ⟨S, dS, h1, -, h3⟩ := C167_local hv hmod hdw hb E hE
  refine ⟨S, dS, h1, fun gamma i hi j hj k A φ hk hk2 hT h0 hg => ?_⟩
  obtain ⟨f, hf, hle⟩ := h3 gamma i hi j hj k A φ hk hk2 h0 hg
  have hz : Spec.frameDist m a.fs (fun r => w.getD r 0) (fun r => dw.getD r 0) E (Spec.toneAt m k A φ) i k (j * a.hop) = 0 := by
    unfold Spec.frameDist
    rw [sum_eq_zero, zero_div]
    intro r hr
    have := hT r (mem_range.1 hr)
    unfold Spec.toneAt
    rw [this, sub_self, abs_zero, zero_mul]
  rw [hz] at hle
  have hn : 0 < ‖entC S i j‖ := norm_pos_iff.2 h0
  have : |f - abs (k * (a.fs / m) + i * (a.fs / (2 * (m / 2 : ℕ)) - a.fs / m))| = 0 := by
    refine le_antisymm ?_ (abs_nonneg _)
    by_contra hc
    push Not at hc
    have := mul_pos hc hn
    linarith
  rw [hf, sub_eq_zero.1 (abs_eq_zero.1 this)]

/-- **C167, amplitude and phase.** For a signal `a(q)·cos θ(q)` the difference is at most the deviations of amplitude and phase from the tone's, tap by tap. -/
theorem C167_laws (m : ℕ) (fs : ℝ) (w dw : ℕ → ℝ) (am θ : ℤ → ℝ) (A φ : ℝ) (i k p : ℕ) :
    Spec.frameDist m fs w dw (fun q => am q * Real.cos (θ q)) (Spec.toneAt m k A φ) i k p ≤
      (∑ r ∈ range m, (|am ((p : ℤ) + r - (m / 2 : ℕ)) - A| + |A| * |θ ((p : ℤ) + r - (m / 2 : ℕ)) - (2 * Real.pi * k * (((p : ℤ) + r - (m / 2 : ℕ) : ℤ) : ℝ) / m + φ)|) *
        Spec.offTap m fs w dw i k r) / (2 * Real.pi) := by
  have hpi : (0 : ℝ) < 2 * Real.pi := by have := Real.pi_pos; positivity
  unfold Spec.frameDist
  refine div_le_div_of_nonneg_right (sum_le_sum fun r _ => mul_le_mul_of_nonneg_right ?_ (by unfold Spec.offTap; positivity)) hpi.le
  unfold Spec.toneAt
  generalize ((p : ℤ) + r - (m / 2 : ℕ) : ℤ) = q
  set β := 2 * Real.pi * k * (q : ℝ) / m + φ
  have e : am q * Real.cos (θ q) - A * Real.cos β = (am q - A) * Real.cos (θ q) + A * (Real.cos (θ q) - Real.cos β) := by ring
  rw [e]
  refine (abs_add_le _ _).trans ?_
  rw [abs_mul, abs_mul]
  have h1 := mul_le_mul_of_nonneg_left (Real.abs_cos_le_one (θ q)) (abs_nonneg (am q - A))
  have h2 := mul_le_mul_of_nonneg_left (Real.abs_cos_sub_cos_le (θ q) β) (abs_nonneg A)
  linarith

/-- Rows of `ssq_stft` over the default frequencies: every cell goes to the row whose frequency is nearest. -/
theorem ssqStft_rows {a : SsqStftArgs} {m : ℕ} (hm : 2 ≤ m) (hsq : a.squeezing = .sum) (hfr : a.ssqFreqs = none)
    {fs : ℝ} (hfs : 2 * (m / 2 : ℕ) * eps64 ≤ fs) {Tx : ℤ → ℕ → ℂ} {S dS : List (List ℂ)} {f : List ℝ} (h : ssqueeze (ssqStftCall a fs (m / 2 + 1) S dS) = .ok (Tx, f)) :
    f = (if a.flipud then (makeSfs (m / 2 + 1) fs).reverse else makeSfs (m / 2 + 1) fs) ∧ ∃ row : ℝ → ℕ, (∀ y, Spec.Nearest f y (row y)) ∧ ∀ r < m / 2 + 1, ∀ j < S.length, Tx r j =
      Spec.squeezed (m / 2 + 1) (entC S) (fun _ => fs / (2 * (m / 2 : ℕ))) (fun i j => stftCellPhase a ((makeSfs (m / 2 + 1) fs).getD i 0) (entC S i j) (entC dS i j) (entC S i j)) row r j := by
  classical
  have hm2 : 0 < m / 2 := by omega
  have hmR : (0 : ℝ) < ((m / 2 : ℕ) : ℝ) := by exact_mod_cast hm2
  have heps : (0 : ℝ) < eps64 := by norm_num [eps64]
  set M := m / 2 + 1 with hM
  set s : ℝ := fs / (2 * (m / 2 : ℕ)) with hs
  have hseps : eps64 ≤ s := by rw [hs, le_div_iff₀ (by positivity)]; linarith
  set A' := ssqStftCall a fs M S dS with hA'
  set v := makeSfs M fs with hvdef
  have hvl : v.length = M := by simp [hvdef, makeSfs, linspace_length]
  have hvu : Spec.Uniform v 0 s := by
    intro i hi
    have := makeSfs_getD hm fs (i := i) (by omega)
    rw [← hM, ← hvdef, List.getD_eq_getElem _ _ hi] at this
    rw [this, zero_add]
  have hf : f = if a.flipud then v.reverse else v := by
    obtain ⟨dt', scl, fr, const, ls, q1, q2, q3, q4, q5, q6, q7⟩ := ssqueeze_ok h
    have hscl : scl = (none, none) := by
      have : ssqScales A' = .ok (none, none) := rfl
      rw [this] at q2
      simpa using q2.symm
    subst hscl
    have hfq : ssqFreqsOf A' dt' none none = .ok (v, .known .linear) := by
      simp [ssqFreqsOf, hA', ssqStftCall, hfr, hvdef]
    rw [hfq] at q3
    simp only [Except.ok.injEq] at q3
    have hrev : ssqReverses A'.transform A'.flipud = a.flipud := by simp [ssqReverses, hA', ssqStftCall]
    rw [hrev, ← q3] at q7
    exact q7
  have hlay : Spec.LinearLayout A' := by
    unfold Spec.LinearLayout
    simp only [hA', ssqStftCall, hfr]
    exact Or.inl trivial
  obtain ⟨c, row, hc, -, hn, hT⟩ := C27_linear_partial A' Tx f h hlay (Or.inr rfl) 0 s
    (by
      have : (if A'.flipud then f.reverse else f) = v := by
        show (if a.flipud then f.reverse else f) = v
        rw [hf]; split <;> simp
      rw [this]; exact hvu)
    (by rw [hf]; show _ = M; split <;> simp [hvl]) (by show 2 ≤ M; omega) hseps
  refine ⟨hf, row, hn, fun r hr j hj => ?_⟩
  rw [hT r hr j hj]
  have hW : applySqueezing A'.squeezing A'.M A'.Wx = entC S := by
    simp only [hA', ssqStftCall, hsq, applySqueezing]
    rfl
  rw [hW]
  unfold Spec.squeezed
  refine sum_congr rfl fun i hi => ?_
  have hph : Spec.usedPhase A' (entC S) i j = stftCellPhase a (v.getD i 0) (entC S i j) (entC dS i j) (entC S i j) := by
    unfold Spec.usedPhase stftCellPhase
    cases hg : a.getW
    · simp [hA', ssqStftCall, hg, entC]
      rfl
    · simp [hA', ssqStftCall, hg, entC, phaseStft]
      rfl
  rw [hph, hc rfl i (mem_range.1 hi)]

/-- **C167, rows of `ssq_stft`.** If in frame `j` the (padded) signal differs from a tone of `f` Hz by at most `D` times the threshold in every bin, then column `j` of `Tx` is zero except in rows whose
frequency is the nearest one to some frequency within `D` of `f` (for odd `m` within `D` plus the stretch of the axis, at most half a row). For every signal, padding, window without frequencies
above `B`, hop, device, `get_w` and `flipud`, over the default frequencies and with squeezing 'sum'. -/
theorem C167_rows {lib : WinLib} {tiny : ℝ} {x : List ℝ} {a : SsqStftArgs} {m : ℕ} {w dw : List ℝ} {t : PadType} {B : ℕ}
    (hv : StftValid lib tiny x a.stft m w dw t) (hmod : a.stft.modulated = true) (hdw : dw = diffWindow w) (hb : Spec.WinBand m (fun r => w.getD r 0) B)
    (hsq : a.squeezing = .sum) (hfr : a.ssqFreqs = none) {fs dt : ℝ} (hrate : processFsT a.fs a.t x.length = .ok (.fin fs dt)) (hfs : 2 * (m / 2 : ℕ) * eps64 ≤ fs)
    (hg : 0 < a.gamma.getD (10 * a.eps)) (E : ℤ → ℝ) (hE : Spec.IsExtension t x E)
    {Tx : ℤ → ℕ → ℂ} {S : List (List ℂ)} {f Sfs : List ℝ} (h : ssqStft lib tiny x a = .ok (Tx, S, f, Sfs)) :
    S.length = (x.length - 1) / a.stft.hop + 1 ∧ ∀ j < S.length, ∀ (k : ℕ) (A φ : ℝ), B < k → 2 * (k + B) < m → ∀ D : ℝ,
      (∀ i < m / 2 + 1, Spec.frameDist m fs (fun r => w.getD r 0) (fun r => dw.getD r 0) E (Spec.toneAt m k A φ) i k (j * a.stft.hop) ≤ D * a.gamma.getD (10 * a.eps)) →
      ∀ r < m / 2 + 1, Tx r j ≠ 0 → ∃ y, |y - k * (fs / m)| ≤ D + (m / 2 : ℕ) * (fs / (2 * (m / 2 : ℕ)) - fs / m) ∧ Spec.Nearest f y r := by
  classical
  obtain ⟨fs', dt', m', dS, h1, -, -, h4, rfl, h6⟩ := ssqStft_ok h
  rw [hrate] at h1
  simp only [Except.ok.injEq, Rate.fin.injEq] at h1
  obtain ⟨rfl, rfl⟩ := h1
  obtain ⟨S2, dS2, k1, k2, k3⟩ := C167_local (validFs hv fs) hmod hdw hb E hE
  rw [h4] at k1
  simp only [Except.ok.injEq, Prod.mk.injEq] at k1
  obtain ⟨rfl, rfl, rfl⟩ := k1
  refine ⟨k2, fun j hj k A φ hk hk2 D hD r hr hne => ?_⟩
  have hm2 : 2 ≤ m' := by omega
  obtain ⟨-, row, hn, hT⟩ := ssqStft_rows hm2 hsq hfr hfs h6
  rw [hT r hr j hj] at hne
  obtain ⟨i, hi, y, hy, hrow⟩ := squeezed_ne_zero hne
  rw [keptCell_phase] at hy
  split at hy
  · rename_i hkept
    simp only [Phase.fin.injEq] at hy
    have hge : a.gamma.getD (10 * a.eps) ≤ ‖entC S i j‖ := by
      unfold Spec.KeptCell at hkept
      split at hkept
      · exact hkept
      · exact hkept.le
    have hnz : 0 < ‖entC S i j‖ := lt_of_lt_of_le hg hge
    obtain ⟨y', hy', hle⟩ := k3 _ i hi j hj k A φ hk hk2 (norm_pos_iff.1 hnz) hge
    unfold phaseStft at hy'
    rw [if_neg (not_lt.2 hge)] at hy'
    simp only [Phase.fin.injEq] at hy'
    rw [hy'] at hy
    subst hy
    refine ⟨y', ?_, hrow ▸ hn y'⟩
    have hb' : |y' - abs (k * (fs / m') + i * (fs / (2 * (m' / 2 : ℕ)) - fs / m'))| * ‖entC S i j‖ ≤ D * a.gamma.getD (10 * a.eps) := hle.trans (hD i hi)
    have hD0 : 0 ≤ D := nonneg_of_mul_nonneg_left ((mul_nonneg (abs_nonneg _) hnz.le).trans hb') hg
    have hb2 : |y' - abs (k * (fs / m') + i * (fs / (2 * (m' / 2 : ℕ)) - fs / m'))| ≤ D :=
      le_of_mul_le_mul_right (hb'.trans (mul_le_mul_of_nonneg_left hge hD0)) hnz
    have heps : (0 : ℝ) < eps64 := by norm_num [eps64]
    have hmR : (0 : ℝ) < ((m' / 2 : ℕ) : ℝ) := by
      have : 0 < m' / 2 := by omega
      exact_mod_cast this
    have hfs0 : 0 < fs := lt_of_lt_of_le (by positivity) hfs
    have hst : 0 ≤ fs / (2 * (m' / 2 : ℕ)) - fs / m' := by
      have e1 : 2 * ((m' / 2 : ℕ) : ℝ) ≤ m' := by
        have : 2 * (m' / 2) ≤ m' := by omega
        exact_mod_cast this
      rw [sub_nonneg]
      exact div_le_div_of_nonneg_left hfs0.le (by positivity) e1
    have hi' : (i : ℝ) ≤ (m' / 2 : ℕ) := by exact_mod_cast (show i ≤ m' / 2 by omega)
    have h7 := mul_le_mul_of_nonneg_right hi' hst
    have h8 : 0 ≤ (i : ℝ) * (fs / (2 * (m' / 2 : ℕ)) - fs / m') := mul_nonneg (Nat.cast_nonneg _) hst
    have h9 : 0 ≤ (k : ℝ) * (fs / m') := by positivity
    rw [abs_of_nonneg (add_nonneg h9 h8)] at hb2
    rw [abs_le] at hb2 ⊢
    constructor <;> linarith [hb2.1, hb2.2]
  · exact absurd hy (by simp)

/-! ## Non-vacuity -/

/-- Twelve samples: one cycle per six samples, then two. -/
noncomputable def exSwitch : List ℝ := (List.range 12).map fun q : ℕ => if q < 6 then Real.cos (2 * Real.pi * 1 * q / 6 + 0) else Real.cos (2 * Real.pi * 2 * q / 6 + 0)

/-- As `ex160`, with threshold 1. -/
noncomputable def exGate : SsqStftArgs := { ex160 with gamma := some 1 }

theorem exGate_run (x : List ℝ) (hx : 0 < x.length) : ∃ Tx S f Sfs, ssqStft onesLib 0 x exGate = .ok (Tx, S, f, Sfs) := by
  set z : List ℝ := List.replicate x.length 0 with hz
  have hzl : z.length = x.length := by simp [hz]
  have hzx : 0 < z.length := by omega
  have hE : Spec.IsExtension .wrap z (fun _ => 0) := ⟨fun i h => by simp [hz], fun i => rfl⟩
  have hv : StftValid onesLib 0 z exGate.stft 6 [1, 1, 1, 1, 1, 1] (diffWindow [1, 1, 1, 1, 1, 1]) .wrap := ex160_valid z hzx
  obtain ⟨S, dS, k1, k2, k3, k4, -⟩ := C07_stft_entries (validFs hv 1) _ hE
  have hS : ∀ i < 4, ∀ j < S.length, (S.getD j []).getD i 0 = 0 := by
    intro i hi j hj
    rw [List.getD_eq_getElem S _ hj, (k4 j hj).2 i hi]
    unfold Spec.stft
    refine sum_eq_zero fun r _ => ?_
    rw [mul_zero]
    simp
  obtain ⟨Tx, f, q1, q2, q3⟩ := ssqStftCall_sum exGate 1 4 S dS (by norm_num) rfl rfl (by norm_num [exGate, ex160]) (fun i hi j hj => Or.inl (hS i hi j hj))
  have hrate : processFsT exGate.fs exGate.t z.length = .ok (.fin 1 (1 / 1)) := by simp [exGate, ex160, processFsT]
  have hrun : ssqStft onesLib 0 z exGate = .ok (Tx, S, f, makeSfs 4 1) := by
    unfold ssqStft
    rw [hrate, ok_bind]
    have hc : ∃ u, checkSsqueezingArgs false exGate.squeezing .none false none none false .cwt = .ok u := ⟨_, rfl⟩
    obtain ⟨u, hc⟩ := hc
    have hl : checkLinearFreqs exGate.ssqFreqs = .ok () := rfl
    simp only
    rw [hc, ok_bind, hl, ok_bind, k1, ok_bind]
    simp only
    rw [show 6 / 2 + 1 = 4 from rfl, q1, ok_bind]
  obtain ⟨row, k, fs, dt, e1, e2⟩ := ssqStft_values hv hrun
  rw [hrate] at e1
  simp only [Except.ok.injEq, Rate.fin.injEq] at e1
  obtain ⟨rfl, rfl⟩ := e1
  obtain ⟨E, hE'⟩ := exists_extension .wrap x hx
  obtain ⟨S', dS', l1, l2, -⟩ := C07_stft_entries (validFs (ex160_valid x hx) 1) E hE'
  obtain ⟨T', hT', -⟩ := e2 x S' dS' hzl.symm l1 (by rw [l2, k2, hzl]; rfl)
  exact ⟨_, _, _, _, hT'⟩

theorem exSwitch_frame {E : ℤ → ℝ} (hE : Spec.IsExtension .wrap exSwitch E) (c : ℕ) (hc : c < 2) (r : ℕ) (hr : r < 6) :
    E (((6 * c + 3 : ℕ) : ℤ) + r - (6 / 2 : ℕ)) = Spec.toneAt 6 (c + 1) 1 0 (((6 * c + 3 : ℕ) : ℤ) + r - (6 / 2 : ℕ)) := by
  have hl : exSwitch.length = 12 := by simp [exSwitch]
  have e : (((6 * c + 3 : ℕ) : ℤ) + r - (6 / 2 : ℕ)) = ((6 * c + r : ℕ) : ℤ) := by push_cast; ring
  rw [e, hE.1 (6 * c + r) (by omega)]
  simp only [exSwitch, List.getElem_map, List.getElem_range, Spec.toneAt]
  interval_cases c
  · rw [if_pos (by omega)]
    push_cast
    norm_num
  · rw [if_neg (by omega)]
    push_cast
    norm_num

/-- The hypotheses of `C167_rows` are met: frames 3 and 9 of that signal are exact tones; in column 3 only the row of 1/6 Hz, and in column 9 only that of 2/6 Hz, can differ from zero. -/
example : ∃ Tx S f Sfs, ssqStft onesLib 0 exSwitch exGate = .ok (Tx, S, f, Sfs) ∧ ∀ c < 2, ∀ r : ℕ, r < 4 → r ≠ c + 1 → Tx r (6 * c + 3) = 0 := by
  have hl : exSwitch.length = 12 := by simp [exSwitch]
  obtain ⟨Tx, S, f, Sfs, h⟩ := exGate_run exSwitch (by omega)
  obtain ⟨E, hE⟩ := exists_extension .wrap exSwitch (by omega)
  have hrate : processFsT exGate.fs exGate.t exSwitch.length = .ok (.fin 1 (1 / 1)) := by simp [exGate, ex160, processFsT]
  have hfs : 2 * ((6 / 2 : ℕ) : ℝ) * eps64 ≤ 1 := by norm_num [eps64]
  obtain ⟨h1, h2⟩ := C167_rows (a := exGate) (ex160_valid exSwitch (by omega)) rfl rfl (C160_windows ex160_band) rfl rfl hrate hfs (by norm_num [exGate]) E hE h
  have hlen : S.length = 12 := by rw [h1, hl]; rfl
  refine ⟨Tx, S, f, Sfs, h, fun c hc r hr hne => ?_⟩
  by_contra h0
  have hD : ∀ i < 6 / 2 + 1, Spec.frameDist 6 1 (fun r => ([1, 1, 1, 1, 1, 1] : List ℝ).getD r 0) (fun r => (diffWindow [1, 1, 1, 1, 1, 1]).getD r 0) E (Spec.toneAt 6 (c + 1) 1 0) i (c + 1)
      ((6 * c + 3) * exGate.stft.hop) ≤ 0 * exGate.gamma.getD (10 * exGate.eps) := by
    intro i _
    unfold Spec.frameDist
    rw [zero_mul, sum_eq_zero, zero_div]
    intro r hr
    have := exSwitch_frame hE c hc r (mem_range.1 hr)
    rw [show (6 * c + 3) * exGate.stft.hop = 6 * c + 3 from mul_one _, this, sub_self, abs_zero, zero_mul]
  obtain ⟨y, hy, hn⟩ := h2 (6 * c + 3) (by omega) (c + 1) 1 0 (by omega) (by omega) 0 hD r hr h0
  obtain ⟨fs', dt', m', dS, g1, -, -, g4, -, g6⟩ := ssqStft_ok h
  rw [hrate] at g1
  simp only [Except.ok.injEq, Rate.fin.injEq] at g1
  obtain ⟨rfl, rfl⟩ := g1
  obtain ⟨S2, dS2, k1, -⟩ := C07_stft_entries (validFs (ex160_valid exSwitch (by omega)) 1) E hE
  have k1' : stft onesLib 0 exSwitch { exGate.stft with fs := 1 } = .ok (6, S2, dS2) := k1
  rw [g4] at k1'
  simp only [Except.ok.injEq, Prod.mk.injEq] at k1'
  obtain ⟨rfl, rfl, rfl⟩ := k1'
  obtain ⟨hf, -⟩ := ssqStft_rows (by norm_num) rfl rfl hfs g6
  have hu : Spec.Uniform (makeSfs (6 / 2 + 1) 1) 0 (1 / 6) := by
    intro i hi
    have := makeSfs_getD (m := 6) (by norm_num) 1 (i := i) (by simpa [makeSfs, linspace_length] using hi)
    rw [List.getD_eq_getElem _ _ hi] at this
    rw [this]
    norm_num
  rw [hf] at hn
  have := nearest_row (M := 4) (k := c + 1) (b := exGate.flipud) hu (by simp [makeSfs, linspace_length]) (by norm_num) (by omega) (by
    have e : |y - ((c + 1 : ℕ) : ℝ) * (1 / ((6 : ℕ) : ℝ))| ≤ 0 := by
      refine hy.trans (le_of_eq ?_)
      norm_num
    have e2 : ((6 : ℕ) : ℝ) = 6 := by norm_num
    rw [e2] at e
    linarith) hn
  exact hne this

end Ssq
