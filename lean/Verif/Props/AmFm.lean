import Verif.Props.RidgeIf
import Mathlib.Analysis.Calculus.MeanValue

/-!
# C206: signals with slowly varying amplitude and frequency (ssqueezepy/_cwt.py:14-310, ssqueezepy/ssqueezing.py:14-276,
ssqueezepy/_ssq_cwt.py:19-305)

For `x[q] = am(q)·cos θ(q)` the frequency assigned at sample `p` is `θ'(p)/2π` times the sampling rate, up to the rates of
change of amplitude and frequency times moments of the kernel of C164.
-/
namespace Ssq
open Finset

namespace Spec

/-- Moment of order `n` about sample `p` of the kernel of `localDist`. -/
noncomputable def offMoment (f : ℝ → ℂ) (L : ℕ) (s fs f0 : ℝ) (p n : ℕ) : ℝ :=
  ∑ q ∈ range L, |(q : ℝ) - p| ^ n * ‖offKernel f L s fs f0 ((p : ℤ) - q)‖

/-- An amplitude whose rate of change is at most `α`, and a phase with derivative `ω` whose rate of change is at most `B` (per sample). -/
structure SlowlyVarying (am θ ω : ℝ → ℝ) (α B : ℝ) : Prop where
  amp : ∀ u v, |am u - am v| ≤ α * |u - v|
  phase : ∀ u, HasDerivAt θ (ω u) u
  freq : ∀ u v, |ω u - ω v| ≤ B * |u - v|

/-- How far off a slowly varying signal can be at sample `p` from a tone of `k` cycles in `L` samples, as seen by the wavelet of scale `s`. -/
noncomputable def drift (f : ℝ → ℂ) (L : ℕ) (s fs : ℝ) (k p : ℕ) (am ω : ℝ → ℝ) (α B : ℝ) : ℝ :=
  (α + |am p| * |ω p - 2 * Real.pi * k / L|) * offMoment f L s fs (k * fs / L) p 1 + |am p| * B * offMoment f L s fs (k * fs / L) p 2

end Spec

/-- First-order expansion of a phase whose frequency changes slowly. -/
theorem phase_expand {am θ ω : ℝ → ℝ} {α B : ℝ} (h : Spec.SlowlyVarying am θ ω α B) (p q : ℝ) :
    |θ q - θ p - ω p * (q - p)| ≤ B * |q - p| ^ 2 := by
  have hB : 0 ≤ B := by
    have := (abs_nonneg _).trans (h.freq 1 0)
    simpa using this
  have hd : ∀ u ∈ Set.uIcc p q, HasDerivWithinAt (fun u => θ u - ω p * u) (ω u - ω p) (Set.uIcc p q) u := by
    intro u _
    have := (h.phase u).fun_sub ((hasDerivAt_id' u).const_mul (ω p))
    simpa using this.hasDerivWithinAt
  have hb : ∀ u ∈ Set.uIcc p q, ‖ω u - ω p‖ ≤ B * |q - p| := by
    intro u hu
    rw [Real.norm_eq_abs]
    refine (h.freq u p).trans (mul_le_mul_of_nonneg_left ?_ hB)
    exact Set.abs_sub_left_of_mem_uIcc hu
  have := (convex_uIcc p q).norm_image_sub_le_of_norm_hasDerivWithin_le hd hb Set.left_mem_uIcc Set.right_mem_uIcc
  rw [Real.norm_eq_abs, Real.norm_eq_abs] at this
  calc |θ q - θ p - ω p * (q - p)| = |θ q - ω p * q - (θ p - ω p * p)| := by congr 1; ring
    _ ≤ B * |q - p| * |q - p| := this
    _ = B * |q - p| ^ 2 := by ring

/-- The distance of a slowly varying signal from a tone. -/
theorem drift_bound {am θ ω : ℝ → ℝ} {α B : ℝ} (h : Spec.SlowlyVarying am θ ω α B) (f : ℝ → ℂ) (L : ℕ) (s fs : ℝ) (k p : ℕ) :
    Spec.localDist f L s fs (k * fs / L) (fun q => am q * Real.cos (θ q)) (fun q => (Spec.tone L k (am p) (θ p - 2 * Real.pi * k * p / L)).getD q 0) p ≤
      Spec.drift f L s fs k p am ω α B := by
  refine (C164_laws f L s fs (k * fs / L) (fun q => am q) (fun q => θ q) k (am p) (θ p - 2 * Real.pi * k * p / L) p).trans ?_
  unfold Spec.drift Spec.offMoment
  rw [mul_sum, mul_sum, ← sum_add_distrib]
  refine sum_le_sum fun q _ => ?_
  rw [← mul_assoc, ← mul_assoc, ← add_mul]
  refine mul_le_mul_of_nonneg_right ?_ (norm_nonneg _)
  have h1 := h.amp q p
  have h2 : |θ q - (2 * Real.pi * k * q / L + (θ p - 2 * Real.pi * k * p / L))| ≤ |ω p - 2 * Real.pi * k / L| * |(q : ℝ) - p| + B * |(q : ℝ) - p| ^ 2 := by
    have e : θ q - (2 * Real.pi * k * q / L + (θ p - 2 * Real.pi * k * p / L)) = (ω p - 2 * Real.pi * k / L) * ((q : ℝ) - p) + (θ q - θ p - ω p * ((q : ℝ) - p)) := by ring
    rw [e]
    refine (abs_add_le _ _).trans ?_
    rw [abs_mul]
    exact add_le_add le_rfl (phase_expand h p q)
  have h3 := mul_le_mul_of_nonneg_left h2 (abs_nonneg (am p))
  calc |am q - am p| + |am p| * |θ q - (2 * Real.pi * k * q / L + (θ p - 2 * Real.pi * k * p / L))|
      ≤ α * |(q : ℝ) - p| + |am p| * (|ω p - 2 * Real.pi * k / L| * |(q : ℝ) - p| + B * |(q : ℝ) - p| ^ 2) := add_le_add h1 h3
    _ = _ := by ring

/-- **C206, frequencies.** For every slowly varying signal, analytic wavelet, positive scales, rate, norm and code path, without padding: the phase transform of every cell that is
not zero differs from the frequency of every bin `k` below Nyquist by at most the drift from that bin's tone, divided by the magnitude of the cell. -/
theorem C206_frequency (N : ℕ) (hN : 0 < N) (am θ ω : ℝ → ℝ) (α B : ℝ) (hsv : Spec.SlowlyVarying am θ ω α B) (a : CwtArgs) (ht : a.padtype = none)
    (han : Spec.Analytic a.wavelet.fn.eval) (hre : ∀ w, (a.wavelet.fn.eval w).im = 0) (W : List (List ℂ)) (scales : List ℝ) (dW : List (List ℂ))
    (h : cwt ((List.range N).map fun q : ℕ => am q * Real.cos (θ q)) a = .ok (W, scales, dW)) (hpos : ∀ s ∈ scales, 0 < s) :
    ∃ fs dt : ℝ, processFsT a.fs a.t N = .ok (.fin fs dt) ∧
      ∀ (gamma : ℝ) i (hi : i < scales.length), ∀ p < N, ∀ k : ℕ, 2 * k < N → ent W i p ≠ 0 → gamma ≤ ‖ent W i p‖ →
        ∃ w, phaseCwt gamma (ent W) (ent dW) i p = .fin w ∧
          |w - k * |fs| / N| * ‖ent W i p‖ ≤ (if a.l1Norm then 1 else Real.sqrt scales[i]) * Spec.drift a.wavelet.fn.eval N scales[i] fs k p am ω α B := by
  have hl : ((List.range N).map fun q : ℕ => am q * Real.cos (θ q)).length = N := by simp
  obtain ⟨xp, n1, fs, dt, h1, h2, h3⟩ := C164_local _ a none (by rw [ht]; rfl) (by rw [hl]; exact hN) han hre W scales dW h hpos
  obtain ⟨rfl, rfl⟩ := h1
  rw [hl] at h2 h3
  refine ⟨fs, dt, h2, fun gamma i hi p hp k hk h0 hg => ?_⟩
  obtain ⟨w, hw, hb⟩ := h3 gamma i hi p (by simpa using hp) k (am p) (θ p - 2 * Real.pi * k * p / N) hk h0 hg
  refine ⟨w, hw, hb.trans (mul_le_mul_of_nonneg_left ?_ (by split <;> positivity))⟩
  refine le_trans (le_of_eq ?_) (drift_bound hsv a.wavelet.fn.eval N scales[i] fs k p)
  simp only [Option.isSome_none, Bool.false_eq_true, and_false, if_false]
  unfold Spec.localDist
  refine sum_congr rfl fun q hq => ?_
  simp only []
  rw [getD_map_range _ _ (mem_range.1 hq)]

/-- The number of cycles in `N` samples nearest to the frequency `ω` (radians per sample). -/
theorem nearest_bin {N : ℕ} (hN : 0 < N) {ω : ℝ} (h0 : 0 ≤ ω) (h1 : ω * N < Real.pi * (N - 1)) : ∃ k : ℕ, 2 * k < N ∧ |ω - 2 * Real.pi * k / N| ≤ Real.pi / N := by
  have hpi := Real.pi_pos
  have hN' : (0 : ℝ) < N := by exact_mod_cast hN
  set y := ω * N / (2 * Real.pi) with hy
  have hy0 : 0 ≤ y := by positivity
  have hωy : ω = 2 * Real.pi * y / N := by rw [hy]; field_simp
  have hy1 : y < (N - 1) / 2 := by rw [hy, div_lt_iff₀ (by positivity)]; linarith
  have f1 := Nat.floor_le (show 0 ≤ y + 1 / 2 by linarith)
  have f2 := Nat.lt_floor_add_one (y + 1 / 2)
  refine ⟨⌊y + 1 / 2⌋₊, ?_, ?_⟩
  · have : ((2 * ⌊y + 1 / 2⌋₊ : ℕ) : ℝ) < N := by push_cast; linarith
    exact_mod_cast this
  · rw [hωy, show 2 * Real.pi * y / N - 2 * Real.pi * (⌊y + 1 / 2⌋₊ : ℝ) / N = 2 * Real.pi / N * (y - ⌊y + 1 / 2⌋₊) by ring, abs_mul, abs_of_pos (by positivity)]
    have : |y - (⌊y + 1 / 2⌋₊ : ℝ)| ≤ 1 / 2 := abs_le.2 ⟨by linarith, by linarith⟩
    calc 2 * Real.pi / N * |y - (⌊y + 1 / 2⌋₊ : ℝ)| ≤ 2 * Real.pi / N * (1 / 2) := mul_le_mul_of_nonneg_left this (by positivity)
      _ = Real.pi / N := by ring

/-- **C206, instantaneous frequency.** At every sample `p` whose frequency `ω(p)` is at least 0 and below Nyquist (by half a bin), the phase transform of every cell that is not zero
is `|fs|·ω(p)/2π`, up to half a bin, and to the rates of change of amplitude and frequency times moments of the kernel divided by the magnitude of the cell. -/
theorem C206_instantaneous (N : ℕ) (hN : 0 < N) (am θ ω : ℝ → ℝ) (α B : ℝ) (hsv : Spec.SlowlyVarying am θ ω α B) (a : CwtArgs) (ht : a.padtype = none)
    (han : Spec.Analytic a.wavelet.fn.eval) (hre : ∀ w, (a.wavelet.fn.eval w).im = 0) (W : List (List ℂ)) (scales : List ℝ) (dW : List (List ℂ))
    (h : cwt ((List.range N).map fun q : ℕ => am q * Real.cos (θ q)) a = .ok (W, scales, dW)) (hpos : ∀ s ∈ scales, 0 < s) :
    ∃ fs dt : ℝ, processFsT a.fs a.t N = .ok (.fin fs dt) ∧
      ∀ (gamma : ℝ) i (hi : i < scales.length), ∀ p < N, 0 ≤ ω p → ω p * N < Real.pi * (N - 1) → ent W i p ≠ 0 → gamma ≤ ‖ent W i p‖ →
        ∃ w, ∃ k : ℕ, phaseCwt gamma (ent W) (ent dW) i p = .fin w ∧ |ω p - 2 * Real.pi * k / N| ≤ Real.pi / N ∧
          |w - |fs| * ω p / (2 * Real.pi)| ≤ |fs| / (2 * N) + (if a.l1Norm then 1 else Real.sqrt scales[i]) *
            ((α + |am p| * (Real.pi / N)) * Spec.offMoment a.wavelet.fn.eval N scales[i] fs (k * fs / N) p 1 +
              |am p| * B * Spec.offMoment a.wavelet.fn.eval N scales[i] fs (k * fs / N) p 2) / ‖ent W i p‖ := by
  obtain ⟨fs, dt, h1, h2⟩ := C206_frequency N hN am θ ω α B hsv a ht han hre W scales dW h hpos
  refine ⟨fs, dt, h1, fun gamma i hi p hp hω0 hω1 h0 hg => ?_⟩
  obtain ⟨k, hk, hb⟩ := nearest_bin hN hω0 hω1
  obtain ⟨w, hw, hd⟩ := h2 gamma i hi p hp k hk h0 hg
  refine ⟨w, k, hw, hb, ?_⟩
  have hn : 0 < ‖ent W i p‖ := norm_pos_iff.2 h0
  have hpi := Real.pi_pos
  have hN' : (0 : ℝ) < N := by exact_mod_cast hN
  have e1 : |k * |fs| / N - |fs| * ω p / (2 * Real.pi)| ≤ |fs| / (2 * N) := by
    rw [show k * |fs| / N - |fs| * ω p / (2 * Real.pi) = -(|fs| / (2 * Real.pi) * (ω p - 2 * Real.pi * k / N)) by field_simp; ring, abs_neg, abs_mul,
      abs_of_nonneg (show 0 ≤ |fs| / (2 * Real.pi) by positivity)]
    calc |fs| / (2 * Real.pi) * |ω p - 2 * Real.pi * k / N| ≤ |fs| / (2 * Real.pi) * (Real.pi / N) := mul_le_mul_of_nonneg_left hb (by positivity)
      _ = |fs| / (2 * N) := by field_simp
  have e2 : |w - k * |fs| / N| ≤ (if a.l1Norm then 1 else Real.sqrt scales[i]) *
            ((α + |am p| * (Real.pi / N)) * Spec.offMoment a.wavelet.fn.eval N scales[i] fs (k * fs / N) p 1 +
              |am p| * B * Spec.offMoment a.wavelet.fn.eval N scales[i] fs (k * fs / N) p 2) / ‖ent W i p‖ := by
    rw [le_div_iff₀ hn]
    refine hd.trans (mul_le_mul_of_nonneg_left ?_ (by split <;> positivity))
    unfold Spec.drift
    refine add_le_add (mul_le_mul_of_nonneg_right (add_le_add le_rfl (mul_le_mul_of_nonneg_left hb (abs_nonneg _))) ?_) le_rfl
    exact sum_nonneg fun q _ => by positivity
  have := abs_sub_le w (k * |fs| / N) (|fs| * ω p / (2 * Real.pi))
  linarith

/-- **C206, ridges.** For every slowly varying signal without padding, analytic wavelet, threshold, device and `get_w`: suppose that at each time `j` the drift from the tone of some bin `k j`
is at most `E j` times the threshold for all scales, that row `r j` is the only one nearest to the frequencies within `E j` of that bin's, and that no column of `Tx` is
empty. Then the first ridge of `Tx`, for every order of the parallel iterations, is `r`. -/
theorem C206_ridge (N : ℕ) (hN : 0 < N) (am θ ω : ℝ → ℝ) (α B : ℝ) (hsv : Spec.SlowlyVarying am θ ω α B) (a : SsqCwtArgs) (ht : a.padtype = none)
    (han : Spec.Analytic a.wavelet.fn.eval) (hre : ∀ w, (a.wavelet.fn.eval w).im = 0) (hg : 0 < a.gamma.getD (10 * a.eps)) (hsq : a.squeezing = .sum) (hfl : a.flipud = true)
    (hlay : Spec.CwtLinearFreqs N a) (o : SsqCwtOut) (h : ssqCwt ((List.range N).map fun q : ℕ => am q * Real.cos (θ q)) a = .ok o) (hpos : ∀ s ∈ o.scales, 0 < s)
    (f0 d : ℝ) (hgrid : Spec.Uniform o.freqs.reverse f0 d) (hd : eps64 ≤ d) (hlen : o.freqs.length = o.scales.length) :
    ∃ fs dt : ℝ, processFsT a.fs a.t N = .ok (.fin fs dt) ∧ ∀ (k : ℕ → ℕ) (E : ℕ → ℝ) (r : ℕ → ℕ) (J : ℝ),
      (∀ j < N, 2 * k j < N ∧ (∀ i < o.scales.length, Spec.drift a.wavelet.fn.eval N (o.scales.getD i 0) fs (k j) j am ω α B ≤ E j * a.gamma.getD (10 * a.eps)) ∧
        Spec.OnlyNearest o.freqs (k j * fs / N) (E j) (r j) ∧ ∃ c : ℕ, c < o.scales.length ∧ o.Tx c j ≠ 0) →
      ∀ (b : RidgeArgs) (s : RidgeSched), Spec.RidgeSuits b s o.scales.length N o.Tx r J →
        ∀ (out : List Ridge), extractRidges b s = .ok out → ∀ h0 : 0 < out.length, ∀ j < N,
          (out[0]).idx j = r j ∧ (out[0]).f j = b.scales (r j) ∧ (out[0]).e j = ‖o.Tx (r j) j‖ ^ 2 := by
  have hl : ((List.range N).map fun q : ℕ => am q * Real.cos (θ q)).length = N := by simp
  obtain ⟨xp, n1, fs, dt, h1, h2, h3⟩ := C205_cwt_linear _ (by rw [hl]; exact hN) a none (by rw [ht]; rfl) han hre hg hsq hfl (by rw [hl]; exact hlay) o h hpos f0 d hgrid hd hlen
  obtain ⟨rfl, rfl⟩ := h1
  rw [hl] at h2 h3
  refine ⟨fs, dt, h2, fun k E r J hj => h3 k (fun j => am j) (fun j => θ j - 2 * Real.pi * k j * j / N) E r J fun j hjN => ?_⟩
  obtain ⟨j1, j2, j3⟩ := hj j hjN
  refine ⟨j1, fun i hi => le_trans ?_ (j2 i hi), j3⟩
  refine le_trans (le_of_eq ?_) (drift_bound hsv a.wavelet.fn.eval N (o.scales.getD i 0) fs (k j) j)
  rw [zero_add]
  unfold Spec.localDist
  refine sum_congr rfl fun q hq => ?_
  simp only []
  rw [getD_map_range _ _ (mem_range.1 hq)]

/-! ### `ssq_stft` -/

namespace Spec

/-- How far off a slowly varying signal can be, in the frame centred at sample `p`, from a tone of `k` cycles per `m` samples, as seen by bin `i`. -/
noncomputable def frameDrift (m : ℕ) (fs : ℝ) (w dw : ℕ → ℝ) (i k p : ℕ) (am ω : ℝ → ℝ) (α B : ℝ) : ℝ :=
  ((α + |am p| * |ω p - 2 * Real.pi * k / m|) * ∑ r ∈ range m, |(r : ℝ) - (m / 2 : ℕ)| * offTap m fs w dw i k r +
    |am p| * B * ∑ r ∈ range m, |(r : ℝ) - (m / 2 : ℕ)| ^ 2 * offTap m fs w dw i k r) / (2 * Real.pi)

end Spec

/-- The distance of a slowly varying signal from a tone inside a frame. -/
theorem frameDrift_bound {am θ ω : ℝ → ℝ} {α B : ℝ} (h : Spec.SlowlyVarying am θ ω α B) (m : ℕ) (fs : ℝ) (w dw : ℕ → ℝ) (E : ℤ → ℝ) (i k p : ℕ)
    (hE : ∀ r < m, E ((p : ℤ) + r - (m / 2 : ℕ)) = am ((p : ℝ) + r - (m / 2 : ℕ)) * Real.cos (θ ((p : ℝ) + r - (m / 2 : ℕ)))) :
    Spec.frameDist m fs w dw E (Spec.toneAt m k (am p) (θ p - 2 * Real.pi * k * p / m)) i k p ≤ Spec.frameDrift m fs w dw i k p am ω α B := by
  unfold Spec.frameDist Spec.frameDrift
  refine div_le_div_of_nonneg_right ?_ (by have := Real.pi_pos; positivity)
  rw [mul_sum, mul_sum, ← sum_add_distrib]
  refine sum_le_sum fun r hr => ?_
  rw [← mul_assoc, ← mul_assoc, ← add_mul]
  refine mul_le_mul_of_nonneg_right ?_ (by unfold Spec.offTap; positivity)
  rw [hE r (mem_range.1 hr)]
  unfold Spec.toneAt
  push_cast
  set c : ℝ := ((m / 2 : ℕ) : ℝ)
  set u : ℝ := (p : ℝ) + r - c with hu
  have hup : u - p = (r : ℝ) - c := by rw [hu]; ring
  set β := 2 * Real.pi * k * u / m + (θ p - 2 * Real.pi * k * p / m) with hβ
  have e : am u * Real.cos (θ u) - am p * Real.cos β = (am u - am p) * Real.cos (θ u) + am p * (Real.cos (θ u) - Real.cos β) := by ring
  have h1 := h.amp u p
  have h2 : |θ u - β| ≤ |ω p - 2 * Real.pi * k / m| * |u - p| + B * |u - p| ^ 2 := by
    have e : θ u - β = (ω p - 2 * Real.pi * k / m) * (u - p) + (θ u - θ p - ω p * (u - p)) := by rw [hβ]; ring
    rw [e]
    refine (abs_add_le _ _).trans ?_
    rw [abs_mul]
    exact add_le_add le_rfl (phase_expand h p u)
  have h3 : |Real.cos (θ u) - Real.cos β| ≤ |θ u - β| := Real.abs_cos_sub_cos_le _ _
  have h4 := Real.abs_cos_le_one (θ u)
  rw [hup] at h1 h2
  have : |am u * Real.cos (θ u) - am p * Real.cos β| ≤ |am u - am p| + |am p| * |θ u - β| := by
    rw [e]
    refine (abs_add_le _ _).trans ?_
    rw [abs_mul, abs_mul]
    exact add_le_add (mul_le_of_le_one_right (abs_nonneg _) h4) (mul_le_mul_of_nonneg_left h3 (abs_nonneg _))
  refine this.trans ?_
  have h5 := mul_le_mul_of_nonneg_left h2 (abs_nonneg (am p))
  calc |am u - am p| + |am p| * |θ u - β| ≤ α * |(r : ℝ) - c| + |am p| * (|ω p - 2 * Real.pi * k / m| * |(r : ℝ) - c| + B * |(r : ℝ) - c| ^ 2) := add_le_add h1 h5
    _ = _ := by ring

/-- **C206, `ssq_stft`.** For every slowly varying signal, padding, window without frequencies above `B'`, hop and rate: in every frame inside of the signal, the phase transform of every cell that is
not zero differs from the frequency of every bin `k` more than `B'` away from 0 and Nyquist by at most the drift from its tone in the frame, divided by the magnitude of the cell (odd `m`: on the
stretched axis, as in C167). -/
theorem C206_stft {lib : WinLib} {tiny : ℝ} (N : ℕ) (am θ ω : ℝ → ℝ) (α B : ℝ) (hsv : Spec.SlowlyVarying am θ ω α B) {a : StftArgs} {m : ℕ} {w dw : List ℝ} {t : PadType} {B' : ℕ}
    (hv : StftValid lib tiny ((List.range N).map fun q : ℕ => am q * Real.cos (θ q)) a m w dw t) (hmod : a.modulated = true) (hdw : dw = diffWindow w)
    (hb : Spec.WinBand m (fun r => w.getD r 0) B') :
    ∃ S dS, stft lib tiny ((List.range N).map fun q : ℕ => am q * Real.cos (θ q)) a = .ok (m, S, dS) ∧ S.length = (N - 1) / a.hop + 1 ∧
      ∀ (gamma : ℝ), ∀ i < m / 2 + 1, ∀ j < S.length, m / 2 ≤ j * a.hop → j * a.hop + (m - m / 2) ≤ N → ∀ k : ℕ, B' < k → 2 * (k + B') < m →
        entC S i j ≠ 0 → gamma ≤ ‖entC S i j‖ →
        ∃ f, phaseStft gamma (fun i => (makeSfs (m / 2 + 1) a.fs).getD i 0) (entC S) (entC dS) i j = .fin f ∧
          |f - abs (k * (a.fs / m) + i * (a.fs / (2 * (m / 2 : ℕ)) - a.fs / m))| * ‖entC S i j‖ ≤
            Spec.frameDrift m a.fs (fun r => w.getD r 0) (fun r => dw.getD r 0) i k (j * a.hop) am ω α B := by
  obtain ⟨E, hE⟩ := exists_extension t _ hv.hx
  obtain ⟨S, dS, h1, h2, h3⟩ := C167_local hv hmod hdw hb E hE
  refine ⟨S, dS, h1, by rw [h2]; simp, fun gamma i hi j hj hin1 hin2 k hk hk2 h0 hg => ?_⟩
  obtain ⟨f, hf, hd⟩ := h3 gamma i hi j hj k (am (j * a.hop : ℕ)) (θ (j * a.hop : ℕ) - 2 * Real.pi * k * (j * a.hop : ℕ) / m) hk hk2 h0 hg
  refine ⟨f, hf, hd.trans (frameDrift_bound hsv m a.fs _ _ E i k (j * a.hop) fun r hr => ?_)⟩
  obtain ⟨q, hq⟩ : ∃ q : ℕ, ((j * a.hop : ℕ) : ℤ) + r - (m / 2 : ℕ) = q := ⟨j * a.hop + r - m / 2, by omega⟩
  have hqN : q < N := by omega
  rw [hq, hE.1 q (by simpa using hqN)]
  have : ((j * a.hop : ℕ) : ℝ) + r - (m / 2 : ℕ) = q := by exact_mod_cast hq
  rw [this]
  simp

/-! ### Concrete calls -/

/-- Amplitude growing by 1 per sample and frequency by `π` radians per sample. -/
theorem chirp_slow : Spec.SlowlyVarying (fun u => 1 + u) (fun u => Real.pi / 2 * u ^ 2) (fun u => Real.pi * u) 1 Real.pi where
  amp u v := by rw [one_mul, show 1 + u - (1 + v) = u - v by ring]
  phase u := by
    have := (hasDerivAt_pow 2 u).const_mul (Real.pi / 2)
    refine this.congr_deriv ?_
    norm_num
    ring
  freq u v := by rw [← mul_sub, abs_mul, abs_of_pos Real.pi_pos]

/-- The wavelet of `exBand`, scales 1, 2, 4, rate 2, no padding. -/
noncomputable def exChirpArgs : CwtArgs := { argsR none with wavelet := exBand.wavelet }

/-- The hypotheses of `C206_frequency` and `C206_instantaneous` are met by a growing chirp, whose transform is not zero at the first sample of the second scale. -/
example : ∃ W dW, cwt ((List.range 4).map fun q : ℕ => (1 + (q : ℝ)) * Real.cos (Real.pi / 2 * (q : ℝ) ^ 2)) exChirpArgs = .ok (W, [1, 2, 4], dW) ∧
    ent W 1 0 ≠ 0 ∧ Spec.Analytic exBand.wavelet.fn.eval ∧ ∃ w, phaseCwt 0 (ent W) (ent dW) 1 0 = .fin w := by
  set x : List ℝ := (List.range 4).map fun q : ℕ => (1 + (q : ℝ)) * Real.cos (Real.pi / 2 * (q : ℝ) ^ 2) with hx
  have han : Spec.Analytic exBand.wavelet.fn.eval := exBand_band.analytic (by norm_num)
  have hre : ∀ w, (exBand.wavelet.fn.eval w).im = 0 := fun w => by simp [exBand, WFn.eval]
  have hl : x.length = 4 := by simp [hx]
  obtain ⟨W, dW, h⟩ := C37_succeeds x exChirpArgs none rfl (by omega) 2 (1 / 2) (by simp [processFsT, exChirpArgs, argsR]) (by simp [exChirpArgs, exBand])
    [1, 2, 4] .log 3 (.int 1) none (by simp [exChirpArgs, argsR, sc124]) (by simp) (process124 _ _ _ _)
  have hxv : x = [1, 0, 3, 0] := by
    have c1 : Real.cos (Real.pi / 2 * 4) = 1 := by rw [show Real.pi / 2 * 4 = 2 * Real.pi by ring]; exact Real.cos_two_pi
    have c2 : Real.cos (Real.pi / 2 * 9) = 0 := by
      rw [show Real.pi / 2 * 9 = Real.pi / 2 + 2 * Real.pi + 2 * Real.pi by ring, Real.cos_add_two_pi, Real.cos_add_two_pi, Real.cos_pi_div_two]
    simp only [hx, List.range_succ, List.range_zero, List.nil_append, List.cons_append, List.map_cons, List.map_nil]
    norm_num [c1, c2]
  have hne : ent W 1 0 ≠ 0 := by
    obtain ⟨xp, n1, fs, dt, h1, -, -, -, -, h6⟩ := C37_rows_partial x _ none rfl (by omega) hre W _ dW h
    obtain ⟨rfl, rfl⟩ := h1
    obtain ⟨-, -, h7⟩ := h6 1 (by simp)
    have h8 := (h7 0 (by simp [hl])).1
    have hpi3 := Real.pi_gt_three
    have hpi4 := Real.pi_le_four
    have g0 : Spec.wavSample exBand.wavelet.fn.eval 4 2 0 = 0 := by norm_num [Spec.wavSample, Spec.xi, exBand, WFn.eval]
    have g1 : Spec.wavSample exBand.wavelet.fn.eval 4 2 1 = 1 := by
      have : (2 : ℝ) < 2 * (2 * Real.pi * 1 / 4) ∧ 2 * (2 * Real.pi * 1 / 4) < 6 := ⟨by linarith, by linarith⟩
      simp only [Spec.wavSample, Spec.xi, exBand, WFn.eval]
      norm_num
      norm_num at this
      exact this
    have g2 : Spec.wavSample exBand.wavelet.fn.eval 4 2 2 = 0 := by
      have : ¬ (2 * (2 * Real.pi * 2 / 4) < (6 : ℝ)) := by intro h; linarith
      simp only [Spec.wavSample, Spec.xi, exBand, WFn.eval]
      norm_num
      norm_num at this
      intro _
      linarith
    have g3 : Spec.wavSample exBand.wavelet.fn.eval 4 2 3 = 0 := by
      have : ¬ ((2 : ℝ) < 2 * (2 * Real.pi * (3 - 4) / 4)) := by intro h; linarith
      simp only [Spec.wavSample, Spec.xi, exBand, WFn.eval]
      norm_num
      norm_num at this
      intro h
      linarith
    have t0 : tw 4 0 = 1 := by simp [tw]
    have t2 : tw 4 (-2) = -1 := by
      unfold tw
      rw [show (2 * Real.pi * Complex.I * ((-2 : ℤ) : ℂ) / ((4 : ℕ) : ℂ) : ℂ) = -(Real.pi * Complex.I) by push_cast; ring, Complex.exp_neg, Complex.exp_pi_mul_I]
      norm_num
    rw [h8]
    have e1 : exChirpArgs.l1Norm = true := rfl
    have e2 : exChirpArgs.wavelet = exBand.wavelet := rfl
    rw [hl, e1, e2, hxv]
    norm_num [idft, dft, sum_range_succ, g0, g1, g2, g3, t0, t2]
  refine ⟨W, dW, h, hne, han, ?_⟩
  obtain ⟨fs, dt, h1, h2⟩ := C206_frequency 4 (by norm_num) _ _ _ _ _ chirp_slow exChirpArgs rfl han hre W _ dW h (by simp)
  obtain ⟨w, hw, -⟩ := h2 0 1 (by simp) 0 (by norm_num) 1 (by norm_num) hne (norm_nonneg _)
  exact ⟨w, hw⟩

/-- The squeezed transform of a tone of 1 Hz has its row of 1 Hz, the third, not zero. -/
theorem exTone_row (o : SsqCwtOut) (h : ssqCwt (Spec.mix 8 1 fun _ => Spec.tone 8 1 8 0) exBand = .ok o) (hsc : o.scales = [1, 2, 4]) (hf : o.freqs = [3, 2, 1])
    (hgrid : Spec.Uniform o.freqs.reverse 1 1) : Spec.OnlyNearest o.freqs 1 0 2 ∧ ∀ j < 8, o.Tx (2 : ℕ) j ≠ 0 := by
  have heps : eps64 ≤ (1 : ℝ) := by norm_num [eps64]
  have hlen : o.freqs.length = o.scales.length := by rw [hf, hsc]; rfl
  have hpos : ∀ s ∈ o.scales, 0 < s := by rw [hsc]; simp
  have hgam : 0 < exBand.gamma.getD (10 * exBand.eps) := by simp [exBand, exSsqL, exSsq]
  obtain ⟨fs', dt', st, nv, i1, i2, rs, hn, hT⟩ := C154_tones_linear 8 1 (by norm_num) (fun _ => 1) (fun _ => 8) (fun _ => 0)
    (fun c _ => by omega) (fun c hc => by omega) exBand rfl 2 6 (by norm_num) exBand_band (fun w => by simp [exBand, WFn.eval])
    (fun c hc d hd hcd => by omega) hgam rfl rfl ⟨.none, infer123⟩ o h hpos 1 1 hgrid heps hlen
  have hfs' : fs' = 8 := by
    simp only [exBand, exSsqL, exSsq, processFsT] at i1
    rw [if_neg (by norm_num)] at i1
    simp only [Except.ok.injEq, Rate.fin.injEq] at i1
    exact i1.1.symm
  subst hfs'
  have honly : Spec.OnlyNearest o.freqs 1 0 2 := by
    refine onlyNearest_uniform hgrid (by rw [hf]; simp) ?_
    simp [hf]
  have hrs : rs 0 = 2 := honly 1 (by simp) _ (by simpa using hn 0 (by norm_num))
  rw [hsc] at i2
  have i2' : inferScaletype exBand.dtype [1, 2, 4] = .ok (.log, .int 1) := infer124
  rw [i2] at i2'
  simp only [Except.ok.injEq, Prod.mk.injEq] at i2'
  obtain ⟨rfl, rfl⟩ := i2'
  have hpi := Real.pi_gt_three
  have hpi' := Real.pi_lt_d2
  have hin : ∀ w : ℝ, 2 < w → w < 6 → exBand.wavelet.fn.eval w = ((1 : ℝ) : ℂ) := by
    intro w h h'
    simp only [exBand, WFn.eval, if_pos (And.intro h h')]
  have hout : ∀ w : ℝ, (w < 2 ∨ 6 < w) → exBand.wavelet.fn.eval w = ((0 : ℝ) : ℂ) := by
    intro w h
    simp only [exBand, WFn.eval]
    rw [if_neg (by rintro ⟨h1, h2⟩; rcases h with h | h <;> linarith)]
  have hkept : ∀ z : ℝ, Spec.KeptMag exBand z ↔ 1 / 100 < z := fun z => by
    simp [Spec.KeptMag, exBand, exSsqL, exSsq]
  have g0 : Spec.toneGain exBand 8 o.scales .log (.int 1) 1 8 = Real.log 2 := by
    simp only [hsc, Spec.toneGain, List.length_cons, List.length_nil, sum_range_succ, sum_range_zero, Spec.scaleMeasure, List.getD_cons_zero, List.getD_cons_succ,
      hkept]
    rw [hout _ (Or.inl (by push_cast; linarith)), hout _ (Or.inl (by push_cast; linarith)), hin _ (by push_cast; linarith) (by push_cast; linarith)]
    simp only [Complex.ofReal_re]
    norm_num
  have hTx : ∀ j < 8, o.Tx (2 : ℕ) j ≠ 0 := by
    intro j hj
    rw [hT.1 2 (by rw [hsc]; simp) j hj, sum_range_one, hrs, if_pos rfl, g0]
    refine mul_ne_zero ?_ (mul_ne_zero ?_ (Complex.exp_ne_zero _))
    · exact_mod_cast (Real.log_pos (by norm_num)).ne'
    · norm_num
  exact ⟨honly, hTx⟩

/-- The hypotheses of `C206_ridge` are met by a tone, as a signal of constant amplitude and frequency. -/
example : ∃ o, ssqCwt ((List.range 8).map fun q : ℕ => (fun _ => (8 : ℝ)) (q : ℝ) * Real.cos ((fun u => Real.pi / 4 * u) (q : ℝ))) exBand = .ok o ∧
    ∀ b : RidgeArgs, b = ⟨3, 8, fun r j => o.Tx r j, fun r => o.freqs.getD r 0, 2, 1, 1, false, 1 / 2 ^ 52⟩ →
    ∃ out, extractRidges b (serialSched 3) = .ok out ∧ ∃ h0 : 0 < out.length, ∀ j < 8, (out[0]).idx j = 2 ∧ (out[0]).f j = 1 := by
  set x : List ℝ := (List.range 8).map fun q : ℕ => (fun _ => (8 : ℝ)) (q : ℝ) * Real.cos ((fun u => Real.pi / 4 * u) (q : ℝ)) with hxdef
  have hx : x = Spec.mix 8 1 fun _ => Spec.tone 8 1 8 0 := by
    rw [hxdef, Spec.mix]
    refine List.map_congr_left fun q hq => ?_
    rw [sum_range_one, Spec.tone, getD_map_range _ _ (List.mem_range.1 hq)]
    simp only []
    congr 2
    push_cast
    ring
  have hl : x.length = 8 := by rw [hx, mix_length]
  obtain ⟨o, h, hsc, hf⟩ := exBand_ok x (by omega)
  refine ⟨o, h, ?_⟩
  have hgrid : Spec.Uniform o.freqs.reverse 1 1 := by
    rw [hf]
    intro i hi
    simp only [List.reverse_cons, List.reverse_nil, List.nil_append, List.cons_append, List.length_cons, List.length_nil] at hi
    interval_cases i <;> norm_num
  obtain ⟨honly, hTx⟩ := exTone_row o (by rw [← hx]; exact h) hsc hf hgrid
  have hsv : Spec.SlowlyVarying (fun _ => (8 : ℝ)) (fun u => Real.pi / 4 * u) (fun _ => Real.pi / 4) 0 0 :=
    ⟨fun u v => by simp, fun u => by simpa using (hasDerivAt_id' u).const_mul (Real.pi / 4), fun u v => by simp⟩
  obtain ⟨fs, dt, h2, h3⟩ := C206_ridge 8 (by norm_num) _ _ _ _ _ hsv exBand rfl (exBand_band.analytic (by norm_num)) (fun w => by simp [exBand, WFn.eval])
    (by simp [exBand, exSsqL, exSsq]) rfl rfl ⟨.none, infer123⟩ o h (by rw [hsc]; simp) 1 1 hgrid (by norm_num [eps64]) (by rw [hf, hsc]; rfl)
  have hfs : fs = 8 := by
    simp only [exBand, exSsqL, exSsq, processFsT] at h2
    rw [if_neg (by norm_num)] at h2
    simp only [Except.ok.injEq, Rate.fin.injEq] at h2
    exact h2.1.symm
  subst hfs
  rintro b rfl
  have hex : ∃ out, extractRidges ⟨3, 8, fun r j => o.Tx r j, fun r => o.freqs.getD r 0, 2, 1, 1, false, 1 / 2 ^ 52⟩ (serialSched 3) = .ok out := by
    unfold extractRidges
    rw [if_neg (by norm_num), if_neg (by norm_num), if_neg (by norm_num)]
    exact ⟨_, rfl⟩
  obtain ⟨out, ho⟩ := hex
  have hol : out.length = 1 := (extract_spec ho).1
  refine ⟨out, ho, by omega, fun j hj => ?_⟩
  have key := h3 (fun _ => 1) (fun _ => 0) (fun _ => 2) 0 (fun j hj => ⟨by norm_num, fun i _ => ?_, ?_, 2, by rw [hsc]; simp, hTx j hj⟩)
    _ (serialSched 3) ⟨serial_valid _, by rw [hsc]; rfl, rfl, fun _ _ => rfl, by rw [hsc]; simp, by norm_num, by norm_num, by norm_num, le_rfl, fun t _ => ?_, ?_⟩ out ho
    (by omega) j hj
  · refine ⟨key.1, ?_⟩
    rw [key.2.1]
    simp [hf]
  · rw [zero_mul]
    refine le_of_eq ?_
    unfold Spec.drift
    rw [show Real.pi / 4 - 2 * Real.pi * ((1 : ℕ) : ℝ) / ((8 : ℕ) : ℝ) = 0 by push_cast; ring]
    simp
  · have : ((1 : ℕ) : ℝ) * 8 / ((8 : ℕ) : ℝ) = 1 := by norm_num
    rw [this]
    exact honly
  · unfold Spec.jump
    simp
  · have : Real.log 2 ≤ Real.log ((1 + 1 / 2 ^ 52) / (1 / 2 ^ 52)) := Real.log_le_log (by norm_num) (by norm_num)
    have l2 := Real.log_two_gt_d9
    norm_num at *
    linarith

/-- The hypotheses of `C206_stft` are met by a tone of growing amplitude; frame 3 is inside of the 12 samples. -/
example : ∃ S dS, stft onesLib 0 ((List.range 12).map fun q : ℕ => (fun u : ℝ => 1 + u) q * Real.cos ((fun u => Real.pi / 3 * u) (q : ℝ))) ex160.stft = .ok (6, S, dS) ∧ S.length = 12 ∧
    6 / 2 ≤ 3 * ex160.stft.hop ∧ 3 * ex160.stft.hop + (6 - 6 / 2) ≤ 12 := by
  have hsv : Spec.SlowlyVarying (fun u => 1 + u) (fun u => Real.pi / 3 * u) (fun _ => Real.pi / 3) 1 0 :=
    ⟨fun u v => by rw [one_mul, show 1 + u - (1 + v) = u - v by ring], fun u => by simpa using (hasDerivAt_id' u).const_mul (Real.pi / 3), fun u v => by simp⟩
  obtain ⟨S, dS, h1, h2, -⟩ := C206_stft 12 _ _ _ _ _ hsv (ex160_valid _ (by simp)) rfl rfl (C160_windows ex160_band)
  exact ⟨S, dS, h1, by rw [h2]; simp [ex160], by simp [ex160], by simp [ex160]⟩

end Ssq
