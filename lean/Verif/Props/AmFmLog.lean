import Verif.Props.AmFm
import Verif.Props.MoreExamples

/-!
# C206 for logarithmic frequencies
-/
namespace Ssq
open Finset

/-- **C206, ridges, logarithmic frequencies.** For every slowly varying signal without padding, analytic wavelet, threshold, device and `get_w`: suppose that at each time `j` the drift from the tone of some bin `k j`
is at most `E j` times the threshold for all scales, that row `r j` is the only one nearest, in log-frequency, to the frequencies within `E j` of that bin's (`E j` less than it), and that no column of `Tx` is
empty. Then the first ridge of `Tx`, for every order of the parallel iterations, is `r`. -/
theorem C206_ridge_log (N : ℕ) (hN : 0 < N) (am θ ω : ℝ → ℝ) (α B : ℝ) (hsv : Spec.SlowlyVarying am θ ω α B) (a : SsqCwtArgs) (ht : a.padtype = none)
    (han : Spec.Analytic a.wavelet.fn.eval) (hre : ∀ w, (a.wavelet.fn.eval w).im = 0) (hg : 0 < a.gamma.getD (10 * a.eps)) (hsq : a.squeezing = .sum) (hfl : a.flipud = true) (hth : 0 < a.th)
    (hlay : Spec.CwtLogFreqs N a) (o : SsqCwtOut) (h : ssqCwt ((List.range N).map fun q : ℕ => am q * Real.cos (θ q)) a = .ok o) (hpos : ∀ s ∈ o.scales, 0 < s)
    (hgrid : Spec.LogGrid o.freqs.reverse) (hlen : o.freqs.length = o.scales.length) :
    ∃ fs dt : ℝ, processFsT a.fs a.t N = .ok (.fin fs dt) ∧ ∀ (k : ℕ → ℕ) (E : ℕ → ℝ) (r : ℕ → ℕ) (J : ℝ),
      (∀ j < N, 2 * k j < N ∧ E j < k j * fs / N ∧ (∀ i < o.scales.length, Spec.drift a.wavelet.fn.eval N (o.scales.getD i 0) fs (k j) j am ω α B ≤ E j * a.gamma.getD (10 * a.eps)) ∧
        Spec.OnlyNearestLog o.freqs (k j * fs / N) (E j) (r j) ∧ ∃ c : ℕ, c < o.scales.length ∧ o.Tx c j ≠ 0) →
      ∀ (b : RidgeArgs) (s : RidgeSched), Spec.RidgeSuits b s o.scales.length N o.Tx r J →
        ∀ (out : List Ridge), extractRidges b s = .ok out → ∀ h0 : 0 < out.length, ∀ j < N,
          (out[0]).idx j = r j ∧ (out[0]).f j = b.scales (r j) ∧ (out[0]).e j = ‖o.Tx (r j) j‖ ^ 2 := by
  have hl : ((List.range N).map fun q : ℕ => am q * Real.cos (θ q)).length = N := by simp
  obtain ⟨xp, n1, fs, dt, h1, h2, h3⟩ := C205_cwt_log _ (by rw [hl]; exact hN) a none (by rw [ht]; rfl) han hre hg hsq hfl hth (by rw [hl]; exact hlay) o h hpos hgrid hlen
  obtain ⟨rfl, rfl⟩ := h1
  rw [hl] at h2 h3
  refine ⟨fs, dt, h2, fun k E r J hj => h3 k (fun j => am j) (fun j => θ j - 2 * Real.pi * k j * j / N) E r J fun j hjN => ?_⟩
  obtain ⟨j1, j0, j2, j3⟩ := hj j hjN
  refine ⟨j1, j0, fun i hi => le_trans ?_ (j2 i hi), j3⟩
  refine le_trans (le_of_eq ?_) (drift_bound hsv a.wavelet.fn.eval N (o.scales.getD i 0) fs (k j) j)
  rw [zero_add]
  unfold Spec.localDist
  refine sum_congr rfl fun q hq => ?_
  simp only []
  rw [getD_map_range _ _ (mem_range.1 hq)]

theorem exToneLog_row (o : SsqCwtOut) (h : ssqCwt (Spec.mix 8 1 fun _ => Spec.tone 8 1 8 0) exBandLog = .ok o) (hsc : o.scales = [1, 2, 4]) (hf : o.freqs = [4, 2, 1]) :
    Spec.OnlyNearestLog o.freqs 1 0 2 ∧ ∀ j < 8, o.Tx (2 : ℕ) j ≠ 0 := by
  have hgrid : Spec.LogGrid o.freqs.reverse := by rw [hf]; exact loggrid124
  have hlen : o.freqs.length = o.scales.length := by rw [hf, hsc]; rfl
  have hpos : ∀ s ∈ o.scales, 0 < s := by rw [hsc]; simp
  have hgam : 0 < exBandLog.gamma.getD (10 * exBandLog.eps) := by simp [exBandLog, exSsq]
  have hth : 0 < exBandLog.th := by simp [exBandLog, exSsq]
  obtain ⟨fs', dt', st, nv, i1, i2, rs, hn, hT⟩ := C154_tones_log 8 1 (by norm_num) (fun _ => 1) (fun _ => 8) (fun _ => 0)
    (fun c _ => by omega) (fun c hc => by omega) exBandLog rfl 2 6 (by norm_num) exBand_band (fun w => by simp [exBandLog, WFn.eval])
    (fun c hc d hd hcd => by omega) hgam rfl rfl hth (exBandLog_layout _) o h hpos hgrid hlen
  obtain rfl := exBandLog_fs i1
  have honly : Spec.OnlyNearestLog o.freqs 1 0 2 := by
    intro w hw i hi
    rw [hf] at hi
    exact nearestLog_421 (hw.trans (by norm_num)) hi
  have hrs : rs 0 = 2 := honly 1 (by simp) _ (by simpa using hn 0 (by norm_num))
  rw [hsc] at i2
  have i2' : inferScaletype exBandLog.dtype [1, 2, 4] = .ok (.log, .int 1) := infer124
  rw [i2] at i2'
  simp only [Except.ok.injEq, Prod.mk.injEq] at i2'
  obtain ⟨rfl, rfl⟩ := i2'
  have hpi := Real.pi_gt_three
  have hpi' := Real.pi_lt_d2
  have hin : ∀ w : ℝ, 2 < w → w < 6 → exBandLog.wavelet.fn.eval w = ((1 : ℝ) : ℂ) := by
    intro w h h'
    simp only [exBandLog, WFn.eval, if_pos (And.intro h h')]
  have hout : ∀ w : ℝ, (w < 2 ∨ 6 < w) → exBandLog.wavelet.fn.eval w = ((0 : ℝ) : ℂ) := by
    intro w h
    simp only [exBandLog, WFn.eval]
    rw [if_neg (by rintro ⟨h1, h2⟩; rcases h with h | h <;> linarith)]
  have hkept : ∀ z : ℝ, Spec.KeptMag exBandLog z ↔ 1 / 100 < z := fun z => by
    simp [Spec.KeptMag, exBandLog, exSsq]
  have g0 : Spec.toneGain exBandLog 8 o.scales .log (.int 1) 1 8 = Real.log 2 := by
    simp only [hsc, Spec.toneGain, List.length_cons, List.length_nil, Finset.sum_range_succ, Finset.sum_range_zero, Spec.scaleMeasure, List.getD_cons_zero, List.getD_cons_succ,
      hkept]
    rw [hout _ (Or.inl (by push_cast; linarith)), hout _ (Or.inl (by push_cast; linarith)), hin _ (by push_cast; linarith) (by push_cast; linarith)]
    simp only [Complex.ofReal_re]
    norm_num
  refine ⟨honly, fun j hj => ?_⟩
  rw [hT.1 2 (by rw [hsc]; simp) j hj, Finset.sum_range_one, hrs, if_pos rfl, g0]
  refine mul_ne_zero ?_ (mul_ne_zero ?_ (Complex.exp_ne_zero _))
  · exact_mod_cast (Real.log_pos (by norm_num)).ne'
  · norm_num

/-- The hypotheses of `C206_ridge_log` are met by a tone, as a signal of constant amplitude and frequency. -/
example : ∃ o, ssqCwt ((List.range 8).map fun q : ℕ => (fun _ => (8 : ℝ)) (q : ℝ) * Real.cos ((fun u => Real.pi / 4 * u) (q : ℝ))) exBandLog = .ok o ∧
    ∀ b : RidgeArgs, b = ⟨3, 8, fun r j => o.Tx r j, fun r => o.freqs.getD r 0, 2, 1, 1, false, 1 / 2 ^ 52⟩ →
    ∃ out, extractRidges b (serialSched 3) = .ok out ∧ ∃ h0 : 0 < out.length, ∀ j < 8, (out[0]).idx j = 2 ∧ (out[0]).f j = 1 := by
  set x : List ℝ := (List.range 8).map fun q : ℕ => (fun _ => (8 : ℝ)) (q : ℝ) * Real.cos ((fun u => Real.pi / 4 * u) (q : ℝ)) with hxdef
  have hx : x = Spec.mix 8 1 fun _ => Spec.tone 8 1 8 0 := by
    rw [hxdef, Spec.mix]
    refine List.map_congr_left fun q hq => ?_
    rw [sum_range_one, Spec.tone, getD_map_range _ _ (List.mem_range.1 hq)]
    simp only []
    congr 2
    push_cast
    ring
  have hl : x.length = 8 := by rw [hx, mix_length]
  obtain ⟨o, h, hsc, hf⟩ := exBandLog_ok x (by omega)
  refine ⟨o, h, ?_⟩
  have hgrid : Spec.LogGrid o.freqs.reverse := by rw [hf]; exact loggrid124
  obtain ⟨honly, hTx⟩ := exToneLog_row o (by rw [← hx]; exact h) hsc hf
  have hsv : Spec.SlowlyVarying (fun _ => (8 : ℝ)) (fun u => Real.pi / 4 * u) (fun _ => Real.pi / 4) 0 0 :=
    ⟨fun u v => by simp, fun u => by simpa using (hasDerivAt_id' u).const_mul (Real.pi / 4), fun u v => by simp⟩
  obtain ⟨fs, dt, h2, h3⟩ := C206_ridge_log 8 (by norm_num) _ _ _ _ _ hsv exBandLog rfl (exBand_band.analytic (by norm_num)) (fun w => by simp [exBandLog, WFn.eval])
    (by simp [exBandLog, exSsq]) rfl rfl (by simp [exBandLog, exSsq]) (exBandLog_layout _) o h (by rw [hsc]; simp) hgrid (by rw [hf, hsc]; rfl)
  obtain rfl := exBandLog_fs h2
  rintro b rfl
  have hex : ∃ out, extractRidges ⟨3, 8, fun r j => o.Tx r j, fun r => o.freqs.getD r 0, 2, 1, 1, false, 1 / 2 ^ 52⟩ (serialSched 3) = .ok out := by
    unfold extractRidges
    rw [if_neg (by norm_num), if_neg (by norm_num), if_neg (by norm_num)]
    exact ⟨_, rfl⟩
  obtain ⟨out, ho⟩ := hex
  have hol : out.length = 1 := (extract_spec ho).1
  refine ⟨out, ho, by omega, fun j hj => ?_⟩
  have key := h3 (fun _ => 1) (fun _ => 0) (fun _ => 2) 0 (fun j hj => ⟨by norm_num, by norm_num, fun i _ => ?_, ?_, 2, by rw [hsc]; simp, hTx j hj⟩)
    _ (serialSched 3) ⟨serial_valid _, by rw [hsc]; rfl, rfl, fun _ _ => rfl, by rw [hsc]; simp, by norm_num, by norm_num, by norm_num, le_rfl, fun t _ => ?_, ?_⟩ out ho
    (by omega) j hj
  · refine ⟨key.1, ?_⟩
    rw [key.2.1]
    simp [hf]
  · rw [zero_mul]
    refine le_of_eq ?_
    unfold Spec.drift
    rw [show Real.pi / 4 - 2 * Real.pi * ((1 : ℕ) : ℝ) / ((8 : ℕ) : ℝ) = 0 by push_cast; ring]
    simp
  · have : ((1 : ℕ) : ℝ) * 8 / ((8 : ℕ) : ℝ) = 1 := by norm_num
    rw [this]
    exact honly
  · unfold Spec.jump
    simp
  · have : Real.log 2 ≤ Real.log ((1 + 1 / 2 ^ 52) / (1 / 2 ^ 52)) := Real.log_le_log (by norm_num) (by norm_num)
    have l2 := Real.log_two_gt_d9
    norm_num at *
    linarith

end Ssq
