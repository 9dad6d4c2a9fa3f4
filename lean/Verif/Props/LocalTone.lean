import Verif.Props.CwtTone
import Verif.Props.CwtRounding
import Verif.Props.SuperposeTones

/-!
# C164: the frequency assigned to a signal that resembles a tone near a time
-/
namespace Ssq
open Finset Complex

namespace Spec

/-- Frequency in Hz of DFT bin `m` out of `L`, at sampling rate `fs`. -/
noncomputable def binHz (L : ℕ) (fs : ℝ) (m : ℕ) : ℝ := xi L m * fs / (2 * Real.pi)

/-- The wavelet of scale `s` in time, each of its frequencies weighted by its distance from `f0` Hz, `n` samples from its centre. -/
noncomputable def offKernel (f : ℝ → ℂ) (L : ℕ) (s fs f0 : ℝ) (n : ℤ) : ℂ :=
  (∑ m ∈ range L, ((binHz L fs m - f0 : ℝ) : ℂ) * wavSample f L s m * tw L (n * m)) / L

/-- How much the samples `x` differ from `y`, as seen by that kernel around sample `p`. -/
noncomputable def localDist (f : ℝ → ℂ) (L : ℕ) (s fs f0 : ℝ) (x y : ℕ → ℝ) (p : ℕ) : ℝ :=
  ∑ q ∈ range L, |x q - y q| * ‖offKernel f L s fs f0 ((p : ℤ) - q)‖

end Spec

/-- Filtering in the frequency domain is circular convolution. -/
theorem idft_mul_dft (L : ℕ) (c : ℕ → ℂ) (r : ℕ → ℂ) (p : ℕ) :
    idft L (fun m => c m * dft L r m) p = ∑ q ∈ range L, r q * ((∑ m ∈ range L, c m * tw L (((p : ℤ) - q) * m)) / L) := by
  unfold idft dft
  have : ∀ m ∈ range L, c m * (∑ j ∈ range L, r j * tw L (-(j * m))) * tw L (p * m) = ∑ q ∈ range L, r q * (c m * tw L (((p : ℤ) - q) * m)) := by
    intro m _
    rw [mul_sum, sum_mul]
    refine sum_congr rfl fun q _ => ?_
    rw [show ((p : ℤ) - q) * m = -(q * m) + p * m by ring, tw_add]
    ring
  rw [sum_congr rfl this, sum_comm, sum_div]
  refine sum_congr rfl fun q _ => ?_
  rw [← mul_sum, mul_div_assoc]

/-- A filter without negative frequencies sees one bin of a tone. -/
theorem tone_one_bin (L k : ℕ) (A φ : ℝ) (hk : 2 * k < L) (G P : ℕ → ℂ) (hP : ∀ m < L, L < 2 * m → P m = 0) (p : ℕ) :
    idft L (fun m => G m * (P m * dft L (fun q => (((Spec.tone L k A φ).getD q 0 : ℝ) : ℂ)) m)) p =
      G k * idft L (fun m => P m * dft L (fun q => (((Spec.tone L k A φ).getD q 0 : ℝ) : ℂ)) m) p := by
  rw [← idft_smul]
  refine idft_congr (fun m hm => ?_) p
  by_cases hmk : m = k
  · rw [hmk]
  · by_cases h2m : 2 * m ≤ L
    · rw [dft_tone L k A φ hk m h2m, if_neg hmk, if_neg (by tauto)]
      simp
    · rw [hP m hm (by omega)]
      simp

theorem dft_sub' (n : ℕ) (f g : ℕ → ℂ) (k : ℕ) : dft n f k - dft n g k = dft n (fun i => f i - g i) k := by
  unfold dft
  rw [← sum_sub_distrib]
  exact sum_congr rfl fun _ _ => by ring

/-- The derivative minus the tone's multiple of the transform depends on the difference from the tone only. -/
theorem off_tone (L k : ℕ) (A φ fs : ℝ) (hk : 2 * k < L) (P : ℕ → ℂ) (hP : ∀ m < L, L < 2 * m → P m = 0) (x : ℕ → ℂ) (p : ℕ) :
    idft L (fun m => I * ((Spec.xi L m * fs : ℝ) : ℂ) * (P m * dft L x m)) p -
        (2 * Real.pi * (k * fs / L) * I) * idft L (fun m => P m * dft L x m) p =
      2 * Real.pi * I * idft L (fun m => ((Spec.binHz L fs m - k * fs / L : ℝ) : ℂ) * P m *
        dft L (fun q => x q - (((Spec.tone L k A φ).getD q 0 : ℝ) : ℂ)) m) p := by
  have hL : (L : ℝ) ≠ 0 := by
    have : L ≠ 0 := by omega
    exact_mod_cast this
  have hpi : (Real.pi : ℝ) ≠ 0 := Real.pi_ne_zero
  have hc : ∀ m, I * ((Spec.xi L m * fs : ℝ) : ℂ) = 2 * Real.pi * I * ((Spec.binHz L fs m : ℝ) : ℂ) := by
    intro m
    unfold Spec.binHz
    generalize Spec.xi L m * fs = X
    have : (Real.pi : ℂ) ≠ 0 := by exact_mod_cast hpi
    push_cast
    field_simp
  have hk' : Spec.binHz L fs k = k * fs / L := by
    unfold Spec.binHz Spec.xi
    rw [if_pos (by omega)]
    field_simp
  set y : ℕ → ℂ := fun q => (((Spec.tone L k A φ).getD q 0 : ℝ) : ℂ) with hy
  have h0 := tone_one_bin L k A φ hk (fun m => ((Spec.binHz L fs m - k * fs / L : ℝ) : ℂ)) P hP p
  rw [hk', sub_self, Complex.ofReal_zero, zero_mul] at h0
  have e1 : idft L (fun m => I * ((Spec.xi L m * fs : ℝ) : ℂ) * (P m * dft L x m)) p -
        (2 * Real.pi * (k * fs / L) * I) * idft L (fun m => P m * dft L x m) p =
      2 * Real.pi * I * idft L (fun m => ((Spec.binHz L fs m - k * fs / L : ℝ) : ℂ) * (P m * dft L x m)) p := by
    rw [← idft_smul, ← idft_smul, idft_sub]
    refine idft_congr (fun m _ => ?_) p
    rw [hc]
    push_cast
    ring
  rw [e1, ← sub_zero (idft L (fun m => ((Spec.binHz L fs m - k * fs / L : ℝ) : ℂ) * (P m * dft L x m)) p), ← h0, idft_sub]
  congr 1
  refine idft_congr (fun m _ => ?_) p
  rw [← dft_sub']
  ring

/-- From the difference to the frequency. -/
theorem freq_of_diff {V dV : ℂ} (hV : V ≠ 0) (f : ℝ) {E : ℝ} (h : ‖dV - (2 * Real.pi * f * I) * V‖ ≤ 2 * Real.pi * E) :
    |cwtFreq V dV - abs f| * ‖V‖ ≤ E := by
  have hpi : (0 : ℝ) < 2 * Real.pi := by have := Real.pi_pos; positivity
  have hn : 0 < ‖V‖ := norm_pos_iff.2 hV
  rw [cwtFreq_eq _ _ hV]
  have e1 : (dV / V).im - 2 * Real.pi * f = ((dV - (2 * Real.pi * f * I) * V) / V).im := by
    rw [sub_div, mul_div_assoc, div_self hV, mul_one, Complex.sub_im]
    congr 1
    have : (2 * Real.pi * f * I : ℂ) = ((2 * Real.pi * f : ℝ) : ℂ) * I := by push_cast; ring
    rw [this, Complex.mul_im]
    simp
  have e2 : |(dV / V).im - 2 * Real.pi * f| ≤ 2 * Real.pi * E / ‖V‖ := by
    rw [e1]
    refine (Complex.abs_im_le_norm _).trans ?_
    rw [norm_div]
    exact div_le_div_of_nonneg_right h hn.le
  have e3 : |(dV / V).im| / (2 * Real.pi) - |f| = (|(dV / V).im| - |2 * Real.pi * f|) / (2 * Real.pi) := by
    rw [abs_mul, abs_of_pos hpi]
    field_simp
  rw [e3, abs_div, abs_of_pos hpi]
  have e4 := (abs_abs_sub_abs_le_abs_sub (dV / V).im (2 * Real.pi * f)).trans e2
  rw [le_div_iff₀ hn] at e4
  rw [div_mul_eq_mul_div, div_le_iff₀ hpi]
  linarith

theorem wavSample_real {f : ℝ → ℂ} (hre : ∀ w, (f w).im = 0) (L : ℕ) (s : ℝ) (k : ℕ) : (((Spec.wavSample f L s k).re : ℝ) : ℂ) = Spec.wavSample f L s k := by
  apply Complex.ext
  · simp
  · simp only [Complex.ofReal_im]
    unfold Spec.wavSample
    split
    · have : (f (s * Spec.xi L k) / 2).im = (f (s * Spec.xi L k)).im / 2 := by
        have := Complex.div_ofNat_im (f (s * Spec.xi L k)) 2
        simpa using this
      rw [this, hre, zero_div]
    · exact (hre _).symm

theorem wavSample_neg {f : ℝ → ℂ} (han : Spec.Analytic f) {L : ℕ} {s : ℝ} (hs : 0 < s) {m : ℕ} (hm : m < L) (h : L < 2 * m) : Spec.wavSample f L s m = 0 := by
  unfold Spec.wavSample
  rw [if_neg (by omega)]
  apply han
  apply mul_neg_of_pos_of_neg hs
  unfold Spec.xi
  rw [if_neg (by omega)]
  have h1 : (m : ℝ) - L < 0 := by
    have : (m : ℝ) < L := by exact_mod_cast hm
    linarith
  have hL : (0 : ℝ) < L := by exact_mod_cast (show 0 < L by omega)
  apply div_neg_of_neg_of_pos _ hL
  have := Real.pi_pos
  nlinarith

/-- A cell of the transform and of its derivative, against any tone. -/
theorem cwt_off_tone (x : List ℝ) (a : CwtArgs) (t : Option PadType) (ht : a.padtype = t.map padName) (hx : 0 < x.length)
    (han : Spec.Analytic a.wavelet.fn.eval) (hre : ∀ w, (a.wavelet.fn.eval w).im = 0)
    (W : List (List ℂ)) (scales : List ℝ) (dW : List (List ℂ)) (h : cwt x a = .ok (W, scales, dW)) (hpos : ∀ s ∈ scales, 0 < s) :
    ∃ xp, ∃ n1 : ℕ, ∃ fs dt : ℝ, Spec.Padded t x xp n1 ∧ n1 + x.length ≤ xp.length ∧ processFsT a.fs a.t x.length = .ok (.fin fs dt) ∧
      ∀ i (hi : i < scales.length), ∀ j < a.cols x.length xp.length, ∀ (k : ℕ) (A φ : ℝ), 2 * k < xp.length →
        ent dW i j - (2 * Real.pi * (k * fs / xp.length) * I) * ent W i j = ((a.norm scales[i] : ℝ) : ℂ) * (2 * Real.pi * I *
          idft xp.length (fun m => ((Spec.binHz xp.length fs m - k * fs / xp.length : ℝ) : ℂ) * Spec.wavSample a.wavelet.fn.eval xp.length scales[i] m *
            dft xp.length (fun q => ((xp.getD q 0 : ℝ) : ℂ) - (((Spec.tone xp.length k A φ).getD q 0 : ℝ) : ℂ)) m) (a.first n1 + j)) := by
  obtain ⟨xp, n1, r, h1, h2, hr, h4⟩ := cwt_ok ht hx h
  rw [cwtRun_eq a _ _ _ _ _ h2] at h4
  simp only [Prod.mk.injEq] at h4
  obtain ⟨hm, hfs, hdt, hdd⟩ := cwtDt_mul hr
  refine ⟨xp, n1, r.1, r.2, h1, h2, cwtDt_fin hr, fun i hi j hj k A φ hk => ?_⟩
  have hs : scales.getD i 0 = scales[i] := List.getD_eq_getElem _ _ hi
  have e1 := fun g => zipWith_getD (γ := List ℂ) g scales
    (psihRows a.wavelet.fn a.vectorized xp.length scales) i (0 : ℝ) ([] : List ℂ) [] hi
    (by rw [psihRows_length]; exact hi)
  have hP : ∀ m < xp.length, ((psihRows a.wavelet.fn a.vectorized xp.length scales).getD i []).getD m 0 =
      Spec.wavSample a.wavelet.fn.eval xp.length scales[i] m := by
    intro m hm
    rcases psihRows_entry a.wavelet.fn a.vectorized xp.length scales i hi m hm with h | h
    · exact h
    · rw [h, wavSample_real hre]
  have hcell := off_tone xp.length k A φ r.1 hk (Spec.wavSample a.wavelet.fn.eval xp.length scales[i])
    (fun m hm h => wavSample_neg han (hpos _ (List.getElem_mem hi)) hm h) (fun q => ((xp.getD q 0 : ℝ) : ℂ)) (a.first n1 + j)
  rw [← hcell, mul_sub, ent, h4.2, e1, getD_map_range _ _ hj, hs, ent, h4.1, e1, getD_map_range _ _ hj, hs]
  congr 1
  · congr 1
    refine idft_congr (fun m hm => ?_) _
    rw [hP m hm, hdd]
    push_cast
    simp only [div_eq_mul_inv, one_mul, inv_inv]
    ring
  · rw [idft_congr (fun m hm => by rw [hP m hm])]
    ring

/-- **C164.** Take any signal, any analytic real-valued wavelet, positive scales, sampling rate, padding, norm and code path; any cell of the transform that is not zero; and any tone with
a whole number of cycles below Nyquist in the (padded) signal. The phase transform of the cell differs from the tone's frequency by at most the difference between signal and tone, as seen around
the cell's time by the wavelet of the cell's scale with every frequency weighted by its distance from the tone's, divided by the magnitude of the cell. What the signal does far from that time does not matter. -/
theorem C164_local (x : List ℝ) (a : CwtArgs) (t : Option PadType) (ht : a.padtype = t.map padName) (hx : 0 < x.length)
    (han : Spec.Analytic a.wavelet.fn.eval) (hre : ∀ w, (a.wavelet.fn.eval w).im = 0)
    (W : List (List ℂ)) (scales : List ℝ) (dW : List (List ℂ)) (h : cwt x a = .ok (W, scales, dW)) (hpos : ∀ s ∈ scales, 0 < s) :
    ∃ xp, ∃ n1 : ℕ, ∃ fs dt : ℝ, Spec.Padded t x xp n1 ∧ processFsT a.fs a.t x.length = .ok (.fin fs dt) ∧
      ∀ (gamma : ℝ) i (hi : i < scales.length), ∀ j < (if a.rpadded = false ∧ t.isSome then x.length else xp.length), ∀ (k : ℕ) (A φ : ℝ), 2 * k < xp.length →
        ent W i j ≠ 0 → gamma ≤ ‖ent W i j‖ →
        ∃ w, phaseCwt gamma (ent W) (ent dW) i j = .fin w ∧
          |w - k * |fs| / xp.length| * ‖ent W i j‖ ≤ (if a.l1Norm then 1 else Real.sqrt scales[i]) *
            Spec.localDist a.wavelet.fn.eval xp.length scales[i] fs (k * fs / xp.length) (fun q => xp.getD q 0) (fun q => (Spec.tone xp.length k A φ).getD q 0)
              (if a.rpadded = false ∧ t.isSome then n1 + j else j) := by
  obtain ⟨xp, n1, fs, dt, h1, h1', h2, h3⟩ := cwt_off_tone x a t ht hx han hre W scales dW h hpos
  have hcols : a.cols x.length xp.length = (if a.rpadded = false ∧ t.isSome then x.length else xp.length) := by
    unfold CwtArgs.cols CwtArgs.trimmed; rw [ht]
    cases a.rpadded <;> cases t <;> simp
  have hfirst : ∀ j, a.first n1 + j = (if a.rpadded = false ∧ t.isSome then n1 + j else j) := by
    intro j
    unfold CwtArgs.first CwtArgs.trimmed; rw [ht]
    cases a.rpadded <;> cases t <;> simp
  have hnorm : ∀ s, a.norm s = (if a.l1Norm then 1 else Real.sqrt s) := fun s => by unfold CwtArgs.norm; split <;> simp
  refine ⟨xp, n1, fs, dt, h1, h2, fun gamma i hi j hj k A φ hk h0 hg => ?_⟩
  have hd := h3 i hi j (by rw [hcols]; exact hj) k A φ hk
  rw [hfirst, idft_mul_dft] at hd
  have hpi : (0 : ℝ) < 2 * Real.pi := by have := Real.pi_pos; positivity
  have hnn : 0 ≤ a.norm scales[i] := by rw [hnorm]; split <;> positivity
  refine ⟨cwtFreq (ent W i j) (ent dW i j), by unfold phaseCwt; rw [if_neg (not_lt.2 hg)], ?_⟩
  have hL : (0 : ℝ) < xp.length := by exact_mod_cast (show 0 < xp.length by omega)
  have hf : (k * |fs| / xp.length : ℝ) = |(k * fs / xp.length : ℝ)| := by
    rw [abs_div, abs_mul, abs_of_pos hL, Nat.abs_cast]
  rw [hf, ← hnorm]
  refine freq_of_diff h0 _ ?_
  have hcast : (((k * fs / xp.length : ℝ) : ℝ) : ℂ) = (k * fs / xp.length : ℂ) := by push_cast; ring
  rw [hcast, hd, norm_mul, Complex.norm_real, Real.norm_eq_abs, abs_of_nonneg hnn, norm_mul]
  have hni : ‖(2 * Real.pi * I : ℂ)‖ = 2 * Real.pi := by
    rw [norm_mul, Complex.norm_I, mul_one, show (2 * Real.pi : ℂ) = ((2 * Real.pi : ℝ) : ℂ) by push_cast; ring, Complex.norm_real, Real.norm_eq_abs, abs_of_pos hpi]
  rw [hni]
  have key := norm_sum_le (range xp.length) fun q => (((xp.getD q 0 : ℝ) : ℂ) - (((Spec.tone xp.length k A φ).getD q 0 : ℝ) : ℂ)) *
    Spec.offKernel a.wavelet.fn.eval xp.length scales[i] fs (k * fs / xp.length) (((if a.rpadded = false ∧ t.isSome then n1 + j else j : ℕ) : ℤ) - q)
  have key2 : (∑ q ∈ range xp.length, ‖(((xp.getD q 0 : ℝ) : ℂ) - (((Spec.tone xp.length k A φ).getD q 0 : ℝ) : ℂ)) *
      Spec.offKernel a.wavelet.fn.eval xp.length scales[i] fs (k * fs / xp.length) (((if a.rpadded = false ∧ t.isSome then n1 + j else j : ℕ) : ℤ) - q)‖) =
      Spec.localDist a.wavelet.fn.eval xp.length scales[i] fs (k * fs / xp.length) (fun q => xp.getD q 0) (fun q => (Spec.tone xp.length k A φ).getD q 0)
        (if a.rpadded = false ∧ t.isSome then n1 + j else j) := by
    unfold Spec.localDist
    refine sum_congr rfl fun q _ => ?_
    rw [norm_mul, ← Complex.ofReal_sub, Complex.norm_real, Real.norm_eq_abs]
  rw [key2] at key
  have := mul_le_mul_of_nonneg_left key (mul_nonneg hnn hpi.le)
  unfold Spec.offKernel at this
  linarith

/-- **C164, in the mean.** The same with the root of the sum of squares of the difference, times the largest product of wavelet and distance of its frequency from the tone's. -/
theorem C164_noise (x : List ℝ) (a : CwtArgs) (t : Option PadType) (ht : a.padtype = t.map padName) (hx : 0 < x.length)
    (han : Spec.Analytic a.wavelet.fn.eval) (hre : ∀ w, (a.wavelet.fn.eval w).im = 0)
    (W : List (List ℂ)) (scales : List ℝ) (dW : List (List ℂ)) (h : cwt x a = .ok (W, scales, dW)) (hpos : ∀ s ∈ scales, 0 < s) :
    ∃ xp, ∃ n1 : ℕ, ∃ fs dt : ℝ, Spec.Padded t x xp n1 ∧ processFsT a.fs a.t x.length = .ok (.fin fs dt) ∧
      ∀ (gamma : ℝ) i (hi : i < scales.length), ∀ j < (if a.rpadded = false ∧ t.isSome then x.length else xp.length), ∀ (k : ℕ) (A φ : ℝ), 2 * k < xp.length →
        ent W i j ≠ 0 → gamma ≤ ‖ent W i j‖ →
        ∀ B : ℝ, (∀ m < xp.length, |Spec.binHz xp.length fs m - k * fs / xp.length| * ‖Spec.wavSample a.wavelet.fn.eval xp.length scales[i] m‖ ≤ B) →
        ∃ w, phaseCwt gamma (ent W) (ent dW) i j = .fin w ∧
          |w - k * |fs| / xp.length| * ‖ent W i j‖ ≤ (if a.l1Norm then 1 else Real.sqrt scales[i]) *
            (B * Real.sqrt (∑ q ∈ range xp.length, (xp.getD q 0 - (Spec.tone xp.length k A φ).getD q 0) ^ 2)) := by
  obtain ⟨xp, n1, fs, dt, h1, h1', h2, h3⟩ := cwt_off_tone x a t ht hx han hre W scales dW h hpos
  have hcols : a.cols x.length xp.length = (if a.rpadded = false ∧ t.isSome then x.length else xp.length) := by
    unfold CwtArgs.cols CwtArgs.trimmed; rw [ht]
    cases a.rpadded <;> cases t <;> simp
  have hnorm : ∀ s, a.norm s = (if a.l1Norm then 1 else Real.sqrt s) := fun s => by unfold CwtArgs.norm; split <;> simp
  refine ⟨xp, n1, fs, dt, h1, h2, fun gamma i hi j hj k A φ hk h0 hg B hB => ?_⟩
  have hd := h3 i hi j (by rw [hcols]; exact hj) k A φ hk
  have hp : a.first n1 + j < xp.length := by
    unfold CwtArgs.cols at hcols
    unfold CwtArgs.first
    split <;> rename_i hc
    · rw [if_pos hc] at hcols
      rw [← hcols] at hj
      omega
    · rw [if_neg hc] at hcols
      rw [← hcols] at hj
      omega
  have hpi : (0 : ℝ) < 2 * Real.pi := by have := Real.pi_pos; positivity
  have hnn : 0 ≤ a.norm scales[i] := by rw [hnorm]; split <;> positivity
  refine ⟨cwtFreq (ent W i j) (ent dW i j), by unfold phaseCwt; rw [if_neg (not_lt.2 hg)], ?_⟩
  have hL : (0 : ℝ) < xp.length := by exact_mod_cast (show 0 < xp.length by omega)
  have hf : (k * |fs| / xp.length : ℝ) = |(k * fs / xp.length : ℝ)| := by
    rw [abs_div, abs_mul, abs_of_pos hL, Nat.abs_cast]
  rw [hf, ← hnorm]
  refine freq_of_diff h0 _ ?_
  have hcast : (((k * fs / xp.length : ℝ) : ℝ) : ℂ) = (k * fs / xp.length : ℂ) := by push_cast; ring
  rw [hcast, hd, norm_mul, Complex.norm_real, Real.norm_eq_abs, abs_of_nonneg hnn, norm_mul]
  have hni : ‖(2 * Real.pi * I : ℂ)‖ = 2 * Real.pi := by
    rw [norm_mul, Complex.norm_I, mul_one, show (2 * Real.pi : ℂ) = ((2 * Real.pi : ℝ) : ℂ) by push_cast; ring, Complex.norm_real, Real.norm_eq_abs, abs_of_pos hpi]
  rw [hni]
  have hB0 : 0 ≤ B := (mul_nonneg (abs_nonneg _) (norm_nonneg _)).trans (hB 0 (by omega))
  set r : ℕ → ℂ := fun q => ((xp.getD q 0 : ℝ) : ℂ) - (((Spec.tone xp.length k A φ).getD q 0 : ℝ) : ℂ) with hr
  set F : ℕ → ℂ := fun m => ((Spec.binHz xp.length fs m - k * fs / xp.length : ℝ) : ℂ) * Spec.wavSample a.wavelet.fn.eval xp.length scales[i] m * dft xp.length r m with hF
  have k1 : ‖idft xp.length F (a.first n1 + j)‖ ≤ Spec.l2 xp.length (idft xp.length F) := le_l2 hp _
  have k2 : Spec.l2 xp.length F ≤ B * Spec.l2 xp.length (dft xp.length r) := by
    refine l2_le_mul hB0 fun m hm => ?_
    rw [hF]
    simp only [norm_mul, Complex.norm_real, Real.norm_eq_abs]
    exact mul_le_mul_of_nonneg_right (hB m hm) (norm_nonneg _)
  rw [l2_dft, l2_idft (show 0 < xp.length by omega) F] at k2
  have hsq : 0 < Real.sqrt xp.length := Real.sqrt_pos.2 hL
  have k3 : Spec.l2 xp.length (idft xp.length F) ≤ B * Spec.l2 xp.length r := by
    have : Real.sqrt xp.length * Spec.l2 xp.length (idft xp.length F) ≤ Real.sqrt xp.length * (B * Spec.l2 xp.length r) := by linarith
    exact le_of_mul_le_mul_left this hsq
  have k4 : Spec.l2 xp.length r = Real.sqrt (∑ q ∈ range xp.length, (xp.getD q 0 - (Spec.tone xp.length k A φ).getD q 0) ^ 2) := by
    unfold Spec.l2
    congr 1
    refine sum_congr rfl fun q _ => ?_
    rw [hr]
    simp only
    rw [← Complex.ofReal_sub, Complex.norm_real, Real.norm_eq_abs, sq_abs]
  rw [k4] at k3
  have := mul_le_mul_of_nonneg_left (k1.trans k3) (mul_nonneg hnn hpi.le)
  linarith

/-- **C164, amplitude and phase laws.** For a signal `a_q cos θ_q` the difference from a tone is at most the change of the amplitude, plus the amplitude times the deviation of the phase from
a straight line, each weighted by the kernel at its distance from the cell. -/
theorem C164_laws (f : ℝ → ℂ) (L : ℕ) (s fs f0 : ℝ) (am θ : ℕ → ℝ) (k : ℕ) (A φ : ℝ) (p : ℕ) :
    Spec.localDist f L s fs f0 (fun q => am q * Real.cos (θ q)) (fun q => (Spec.tone L k A φ).getD q 0) p ≤
      ∑ q ∈ range L, (|am q - A| + |A| * |θ q - (2 * Real.pi * k * q / L + φ)|) * ‖Spec.offKernel f L s fs f0 ((p : ℤ) - q)‖ := by
  unfold Spec.localDist
  refine sum_le_sum fun q hq => mul_le_mul_of_nonneg_right ?_ (norm_nonneg _)
  simp only [Spec.tone]
  rw [getD_map_range _ _ (mem_range.1 hq)]
  set β := 2 * Real.pi * k * q / L + φ
  have e : am q * Real.cos (θ q) - A * Real.cos β = (am q - A) * Real.cos (θ q) + A * (Real.cos (θ q) - Real.cos β) := by ring
  rw [e]
  refine (abs_add_le _ _).trans ?_
  rw [abs_mul, abs_mul]
  have h1 := mul_le_mul_of_nonneg_left (Real.abs_cos_le_one (θ q)) (abs_nonneg (am q - A))
  have h2 : |Real.cos (θ q) - Real.cos β| ≤ |θ q - β| := by
    rw [Real.cos_sub_cos, abs_mul, abs_mul, abs_neg, abs_two]
    have s1 := Real.abs_sin_le_one ((θ q + β) / 2)
    have s2 : |Real.sin ((θ q - β) / 2)| ≤ |(θ q - β) / 2| := Real.abs_sin_le_abs
    have s3 : |(θ q - β) / 2| = |θ q - β| / 2 := by rw [abs_div, abs_two]
    have s4 : |Real.sin ((θ q + β) / 2)| * |Real.sin ((θ q - β) / 2)| ≤ 1 * (|θ q - β| / 2) := by
      rw [← s3]
      exact mul_le_mul s1 s2 (abs_nonneg _) zero_le_one
    linarith
  have h3 := mul_le_mul_of_nonneg_left h2 (abs_nonneg A)
  linarith

open Classical in
/-- The phase used for a cell of `ssq_cwt`. -/
theorem cell_usedPhase (a : SsqCwtArgs) (hsq : a.squeezing = .sum) (fs : ℝ) (st : ScaleType) (sc : List ℝ) (N : ℕ) (W dW : List (List ℂ)) (i j : ℕ) :
    Spec.usedPhase (a.ssqArgs fs st sc N W dW) (applySqueezing a.squeezing sc.length (ent W)) i j =
      if Spec.Kept a (ent W i j) then .fin (cwtFreq (ent W i j) (ent dW i j)) else .inf := by
  rw [hsq]
  simp only [applySqueezing]
  unfold Spec.usedPhase SsqCwtArgs.ssqArgs Spec.Kept
  cases a.getW
  · simp only [Bool.false_eq_true, if_false, Option.getD_some]
  · simp only [if_true]
    unfold phaseCwt
    by_cases hge : a.gamma.getD (10 * a.eps) ≤ ‖ent W i j‖
    · rw [if_pos hge]
      exact if_neg (not_lt.2 hge)
    · rw [if_neg hge]
      exact if_pos (not_le.1 hge)

/-- Where something is squeezed to, a kept cell went. -/
theorem squeezed_ne_zero {M : ℕ} {W : ℕ → ℕ → ℂ} {c : ℕ → ℝ} {w : ℕ → ℕ → Phase} {row : ℝ → ℕ} {r j : ℕ} (h : Spec.squeezed M W c w row r j ≠ 0) :
    ∃ i < M, ∃ x, w i j = .fin x ∧ row x = r := by
  unfold Spec.squeezed at h
  obtain ⟨i, hi, hne⟩ := exists_ne_zero_of_sum_ne_zero h
  refine ⟨i, mem_range.1 hi, ?_⟩
  cases hw : w i j with
  | inf => rw [hw] at hne; exact absurd rfl hne
  | fin x =>
    rw [hw] at hne
    refine ⟨x, rfl, ?_⟩
    by_contra hr
    exact hne (if_neg hr)

/-- Every kept cell of a column has a frequency near that of the tone the signal resembles there. -/
theorem kept_near (x : List ℝ) (hx : 0 < x.length) (a : SsqCwtArgs) (t : Option PadType) (ht : a.padtype = t.map padName) (han : Spec.Analytic a.wavelet.fn.eval)
    (hre : ∀ w, (a.wavelet.fn.eval w).im = 0) (hg : 0 < a.gamma.getD (10 * a.eps)) {o : SsqCwtOut} {fs : ℝ}
    (hW : cwt x (a.cwtArgs fs o.scales) = .ok (o.Wx, o.scales, o.dWx)) (hpos : ∀ s ∈ o.scales, 0 < s) :
    ∃ xp, ∃ n1 : ℕ, Spec.Padded t x xp n1 ∧ ∀ j < x.length, ∀ (k : ℕ) (A φ : ℝ), 2 * k < xp.length → ∀ E : ℝ,
      (∀ i < o.scales.length, Spec.localDist a.wavelet.fn.eval xp.length (o.scales.getD i 0) fs (k * fs / xp.length) (fun q => xp.getD q 0)
        (fun q => (Spec.tone xp.length k A φ).getD q 0) (n1 + j) ≤ E * a.gamma.getD (10 * a.eps)) →
      ∀ i < o.scales.length, Spec.Kept a (ent o.Wx i j) → |cwtFreq (ent o.Wx i j) (ent o.dWx i j) - k * fs / xp.length| ≤ E := by
  obtain ⟨xp, n1, fs', dt, h1, h2, h3⟩ := C164_local x (a.cwtArgs fs o.scales) t ht hx han hre _ _ _ hW hpos
  have hfs : fs' = fs ∧ 0 < fs := by
    simp only [SsqCwtArgs.cwtArgs, processFsT] at h2
    split at h2
    · simp at h2
    · rename_i hf
      simp only [Except.ok.injEq, Rate.fin.injEq] at h2
      exact ⟨h2.1.symm, not_le.1 hf⟩
  obtain ⟨rfl, hfp⟩ := hfs
  refine ⟨xp, n1, h1, fun j hj k A φ hk E hE i hi hkept => ?_⟩
  have hge : a.gamma.getD (10 * a.eps) ≤ ‖ent o.Wx i j‖ := by
    unfold Spec.Kept at hkept
    split at hkept
    · exact hkept
    · exact hkept.le
  have hn : 0 < ‖ent o.Wx i j‖ := lt_of_lt_of_le hg hge
  have hlen : j < (if (a.cwtArgs fs' o.scales).rpadded = false ∧ t.isSome then x.length else xp.length) := by
    split
    · exact hj
    · rename_i hne
      cases t with
      | none => rw [h1.1]; exact hj
      | some t => exact absurd ⟨rfl, rfl⟩ hne
  have hposn : (if (a.cwtArgs fs' o.scales).rpadded = false ∧ t.isSome then n1 + j else j) = n1 + j := by
    split
    · rfl
    · rename_i hne
      cases t with
      | none => rw [h1.2]; simp
      | some t => exact absurd ⟨rfl, rfl⟩ hne
  obtain ⟨w, hw, hb⟩ := h3 _ i hi j hlen k A φ hk (norm_pos_iff.1 hn) hge
  unfold phaseCwt at hw
  rw [if_neg (not_lt.2 hge)] at hw
  simp only [Phase.fin.injEq] at hw
  subst hw
  rw [hposn, abs_of_pos hfp] at hb
  have e := hE i hi
  rw [List.getD_eq_getElem _ _ hi] at e
  have hl1 : (a.cwtArgs fs' o.scales).l1Norm = true := rfl
  rw [hl1, if_pos rfl, one_mul] at hb
  have hb' : |cwtFreq (ent o.Wx i j) (ent o.dWx i j) - k * fs' / xp.length| * ‖ent o.Wx i j‖ ≤ E * a.gamma.getD (10 * a.eps) := hb.trans e
  have hE0 : 0 ≤ E := by
    have := (mul_nonneg (abs_nonneg _) hn.le).trans hb'
    exact nonneg_of_mul_nonneg_left this hg
  have : |cwtFreq (ent o.Wx i j) (ent o.dWx i j) - k * fs' / xp.length| * ‖ent o.Wx i j‖ ≤ E * ‖ent o.Wx i j‖ := hb'.trans (mul_le_mul_of_nonneg_left hge hE0)
  exact le_of_mul_le_mul_right this hn

/-- **C164, rows of `ssq_cwt`, linear frequencies.** If around column `j` the signal differs from a tone of `f` Hz by at most `E` times the threshold (at every scale, as seen by the wavelet), then
column `j` of `Tx` is zero except in rows whose frequency is the nearest one to some frequency within `E` of `f`. For every signal, padding, device, `get_w` and other options. -/
theorem C164_rows_linear (x : List ℝ) (hx : 0 < x.length) (a : SsqCwtArgs) (t : Option PadType) (ht : a.padtype = t.map padName) (han : Spec.Analytic a.wavelet.fn.eval)
    (hre : ∀ w, (a.wavelet.fn.eval w).im = 0) (hg : 0 < a.gamma.getD (10 * a.eps)) (hsq : a.squeezing = .sum) (hfl : a.flipud = true)
    (hlay : Spec.CwtLinearFreqs x.length a) (o : SsqCwtOut) (h : ssqCwt x a = .ok o) (hpos : ∀ s ∈ o.scales, 0 < s)
    (f0 d : ℝ) (hgrid : Spec.Uniform o.freqs.reverse f0 d) (hd : eps64 ≤ d) (hlen : o.freqs.length = o.scales.length) :
    ∃ xp, ∃ n1 : ℕ, ∃ fs dt : ℝ, Spec.Padded t x xp n1 ∧ processFsT a.fs a.t x.length = .ok (.fin fs dt) ∧
      ∀ j < x.length, ∀ (k : ℕ) (A φ : ℝ), 2 * k < xp.length → ∀ E : ℝ,
        (∀ i < o.scales.length, Spec.localDist a.wavelet.fn.eval xp.length (o.scales.getD i 0) fs (k * fs / xp.length) (fun q => xp.getD q 0)
          (fun q => (Spec.tone xp.length k A φ).getD q 0) (n1 + j) ≤ E * a.gamma.getD (10 * a.eps)) →
        ∀ r : ℕ, r < o.scales.length → o.Tx r j ≠ 0 → ∃ w, |w - k * fs / xp.length| ≤ E ∧ Spec.Nearest o.freqs w r := by
  obtain ⟨fs, dt, st, na, nv, h1, h2, h3, h4⟩ := ssqCwt_ok h
  obtain ⟨xp, n1, e1, e2⟩ := kept_near x hx a t ht han hre hg h3 hpos
  obtain ⟨st', nv', hinf⟩ := ssqueeze_scales h4 rfl rfl
  have h3' := (inferScaletype_nv_length hinf).1
  obtain ⟨c, row, -, -, hn, hT⟩ := C27_linear_partial _ _ _ h4 (cwtLinear_layout hlay h2 _ _ _ _)
    (Or.inl hfl) f0 d (by simp only [SsqCwtArgs.ssqArgs, hfl, if_true]; exact hgrid) hlen
    (show 2 ≤ o.scales.length by omega) hd
  refine ⟨xp, n1, fs, dt, e1, h1, fun j hj k A φ hk E hE r hr hne => ?_⟩
  rw [hT r hr j hj] at hne
  obtain ⟨i, hi, w, hw, hrow⟩ := squeezed_ne_zero hne
  have hw' := (cell_usedPhase a hsq fs st o.scales x.length o.Wx o.dWx i j).symm.trans hw
  split at hw'
  · rename_i hk'
    simp only [Phase.fin.injEq] at hw'
    refine ⟨w, ?_, ?_⟩
    · rw [← hw']
      exact e2 j hj k A φ hk E hE i hi hk'
    · rw [← hrow]
      exact hn w
  · exact absurd hw' (by simp)

/-- **C164, rows of `ssq_cwt`, logarithmic frequencies.** The same with the nearest frequency in log-frequency, for `E` less than the frequency of the tone. -/
theorem C164_rows_log (x : List ℝ) (hx : 0 < x.length) (a : SsqCwtArgs) (t : Option PadType) (ht : a.padtype = t.map padName) (han : Spec.Analytic a.wavelet.fn.eval)
    (hre : ∀ w, (a.wavelet.fn.eval w).im = 0) (hg : 0 < a.gamma.getD (10 * a.eps)) (hsq : a.squeezing = .sum) (hfl : a.flipud = true) (hth : 0 < a.th)
    (hlay : Spec.CwtLogFreqs x.length a) (o : SsqCwtOut) (h : ssqCwt x a = .ok o) (hpos : ∀ s ∈ o.scales, 0 < s)
    (hgrid : Spec.LogGrid o.freqs.reverse) (hlen : o.freqs.length = o.scales.length) :
    ∃ xp, ∃ n1 : ℕ, ∃ fs dt : ℝ, Spec.Padded t x xp n1 ∧ processFsT a.fs a.t x.length = .ok (.fin fs dt) ∧
      ∀ j < x.length, ∀ (k : ℕ) (A φ : ℝ), 2 * k < xp.length → ∀ E < (k * fs / xp.length : ℝ),
        (∀ i < o.scales.length, Spec.localDist a.wavelet.fn.eval xp.length (o.scales.getD i 0) fs (k * fs / xp.length) (fun q => xp.getD q 0)
          (fun q => (Spec.tone xp.length k A φ).getD q 0) (n1 + j) ≤ E * a.gamma.getD (10 * a.eps)) →
        ∀ r : ℕ, r < o.scales.length → o.Tx r j ≠ 0 → ∃ w, |w - k * fs / xp.length| ≤ E ∧ Spec.NearestLog o.freqs w r := by
  obtain ⟨fs, dt, st, na, nv, h1, h2, h3, h4⟩ := ssqCwt_ok h
  obtain ⟨xp, n1, e1, e2⟩ := kept_near x hx a t ht han hre hg h3 hpos
  obtain ⟨st', nv', hinf⟩ := ssqueeze_scales h4 rfl rfl
  obtain ⟨row, hn, -, hT⟩ := C27_log_partial _ _ _ h4 (cwtLog_layout hlay h2 _ _ _ _) rfl hfl (Or.inr rfl) hth
    hgrid hlen _ _ _ rfl st' nv' hinf rfl (fun l hl => (inferScaletype_nv_length hinf).2 l hl)
  refine ⟨xp, n1, fs, dt, e1, h1, fun j hj k A φ hk E hEf hE r hr hne => ?_⟩
  rw [hT r hr j hj] at hne
  obtain ⟨i, hi, w, hw, hrow⟩ := squeezed_ne_zero hne
  have hw' := (cell_usedPhase a hsq fs st o.scales x.length o.Wx o.dWx i j).symm.trans hw
  split at hw'
  · rename_i hk'
    simp only [Phase.fin.injEq] at hw'
    have hb : |w - k * fs / xp.length| ≤ E := by
      rw [← hw']
      exact e2 j hj k A φ hk E hE i hi hk'
    refine ⟨w, hb, ?_⟩
    rw [← hrow]
    refine hn w ?_
    have := (abs_le.1 hb).1
    linarith
  · exact absurd hw' (by simp)

/-! ### A concrete call -/

/-- A tone of 1 cycle in 8 samples whose first sample is off by 1/10000. -/
noncomputable def exOff : List ℝ := (List.range 8).map fun q : ℕ => (Spec.tone 8 1 2 0).getD q 0 + if q = 0 then 1 / 10000 else 0

theorem exOff_dist (s : ℝ) (p : ℕ) :
    Spec.localDist exBand.wavelet.fn.eval 8 s 8 ((1 : ℕ) * 8 / (8 : ℕ)) (fun q => exOff.getD q 0) (fun q => (Spec.tone 8 1 2 0).getD q 0) p ≤ 1 / 20 * (1 / 100) := by
  have hk : ∀ n : ℤ, ‖Spec.offKernel exBand.wavelet.fn.eval 8 s 8 ((1 : ℕ) * 8 / (8 : ℕ)) n‖ ≤ 5 := by
    intro n
    unfold Spec.offKernel
    rw [norm_div, div_le_iff₀ (by simp)]
    refine (norm_sum_le _ _).trans ?_
    have hm : ∀ m ∈ range 8, ‖((Spec.binHz 8 8 m - (1 : ℕ) * 8 / (8 : ℕ) : ℝ) : ℂ) * Spec.wavSample exBand.wavelet.fn.eval 8 s m * tw 8 (n * m)‖ ≤ 5 := by
      intro m hm
      have hm := mem_range.1 hm
      rw [norm_mul, norm_tw, mul_one, norm_mul, Complex.norm_real, Real.norm_eq_abs]
      have h1 : |Spec.binHz 8 8 m - (1 : ℕ) * 8 / (8 : ℕ)| ≤ 5 := by
        have hpi := Real.pi_ne_zero
        have e : Spec.binHz 8 8 m = if 2 * m ≤ 8 then (m : ℝ) else (m : ℝ) - (8 : ℕ) := by
          unfold Spec.binHz Spec.xi
          split
          · field_simp
            norm_num
          · field_simp
            push_cast
            ring
        rw [e]
        interval_cases m <;> norm_num
      have h2 : ‖Spec.wavSample exBand.wavelet.fn.eval 8 s m‖ ≤ 1 := by
        have hw : ∀ w, ‖exBand.wavelet.fn.eval w‖ ≤ 1 := by
          intro w
          simp only [exBand, WFn.eval]
          split <;> simp
        unfold Spec.wavSample
        split
        · rw [norm_div]
          have := hw (s * Spec.xi 8 m)
          have e : ‖(2 : ℂ)‖ = 2 := by simp
          rw [e]
          linarith
        · exact hw _
      have := mul_le_mul h1 h2 (norm_nonneg _) (by norm_num)
      linarith
    refine (sum_le_sum hm).trans ?_
    simp
    norm_num
  unfold Spec.localDist
  have hq : ∀ q ∈ range 8, |exOff.getD q 0 - (Spec.tone 8 1 2 0).getD q 0| *
      ‖Spec.offKernel exBand.wavelet.fn.eval 8 s 8 ((1 : ℕ) * 8 / (8 : ℕ)) ((p : ℤ) - q)‖ ≤ if q = 0 then 1 / 10000 * 5 else 0 := by
    intro q hq
    rw [exOff, getD_map_range _ _ (mem_range.1 hq), add_sub_cancel_left]
    by_cases h0 : q = 0
    · rw [if_pos h0, if_pos h0, abs_of_pos (by norm_num)]
      exact mul_le_mul_of_nonneg_left (hk _) (by norm_num)
    · rw [if_neg h0, if_neg h0, abs_zero, zero_mul]
  refine (sum_le_sum hq).trans ?_
  rw [sum_ite_eq' (range 8) 0]
  norm_num

/-- The hypotheses of `C164_local` and `C164_rows_linear` are met by the disturbed tone: every kept cell of its transform is still squeezed to the row of 1 Hz, the rows of 3 and 2 Hz being empty
at all times. -/
example : ∃ o, ssqCwt exOff exBand = .ok o ∧ o.freqs = [3, 2, 1] ∧ ∀ j < 8, o.Tx (0 : ℕ) j = 0 ∧ o.Tx (1 : ℕ) j = 0 := by
  obtain ⟨o, h, hsc, hf⟩ := exBand_ok exOff (by simp [exOff])
  refine ⟨o, h, hf, ?_⟩
  have hl : exOff.length = 8 := by simp [exOff]
  obtain ⟨xp, n1, fs, dt, h1, h2, h3⟩ := C164_rows_linear exOff (by rw [hl]; norm_num) exBand none rfl (exBand_band.analytic (by norm_num))
    (fun w => by simp [exBand, WFn.eval]) (by simp [exBand, exSsqL, exSsq]) rfl rfl ⟨.none, infer123⟩ o h (by rw [hsc]; simp) 1 1 (by
      rw [hf]
      intro i hi
      simp only [List.reverse_cons, List.reverse_nil, List.nil_append, List.cons_append, List.length_cons,
        List.length_nil] at hi
      interval_cases i <;> norm_num) (by norm_num [eps64]) (by rw [hf, hsc]; rfl)
  obtain ⟨rfl, rfl⟩ := h1
  have hfs : fs = 8 := by
    simp only [exBand, exSsqL, exSsq, processFsT] at h2
    rw [if_neg (by norm_num)] at h2
    simp only [Except.ok.injEq, Rate.fin.injEq] at h2
    exact h2.1.symm
  subst hfs
  rw [hl] at h3
  have hgam : exBand.gamma.getD (10 * exBand.eps) = 1 / 100 := by simp [exBand, exSsqL, exSsq]
  have key : ∀ r < 2, ∀ j < 8, o.Tx (r : ℕ) j = 0 := by
    intro r hr j hj
    by_contra hne
    obtain ⟨w, hw, hlt, hmin⟩ := h3 j hj 1 2 0 (by norm_num) (1 / 20) (fun i _ => by rw [hgam, zero_add]; exact exOff_dist _ j) r (by rw [hsc]; simp; omega) hne
    have h2 := hmin 2 (by rw [hf]; simp)
    simp only [hf] at h2
    rw [abs_le] at hw
    norm_num at hw
    have hw1 : |w - 1| ≤ 1 / 20 := by rw [abs_le]; constructor <;> linarith
    have e2 : ([3, 2, 1] : List ℝ)[2] = 1 := rfl
    rw [e2] at h2
    interval_cases r
    · have e0 : ([3, 2, 1] : List ℝ)[0] = 3 := rfl
      rw [e0, abs_of_neg (by linarith)] at h2
      linarith
    · have e0 : ([3, 2, 1] : List ℝ)[1] = 2 := rfl
      rw [e0, abs_of_neg (by linarith)] at h2
      linarith
  exact fun j hj => ⟨key 0 (by norm_num) j hj, key 1 (by norm_num) j hj⟩

end Ssq
