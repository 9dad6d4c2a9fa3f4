import Verif.Props.MaximalBounds2

/-!
# C238: which frequencies the maximal scales cover

At the scale `s` the peak `p` of a wavelet is at the frequency `p / s` (radians per sample), and the `j`-th bin of `M` samples is at `2πj/M`.
-/
namespace Ssq
open Set Spec

/-- **C238**, `find_max_scale(wavelet, M, bin_loc=b, bin_amp=1)` for any bin `b`: the scale is that with the peak at bin `b`, or less by less than `8 v/(π b)`, where `v`
is the peak that was found. -/
theorem C238_bin (fn : ℝ → ℝ) (a p : ℝ) (hz : ∀ w, 0 ≤ w → w < a → fn w = 0) (hnn : ∀ w, 0 ≤ w → 0 ≤ fn w)
    (h : Spec.OnePeak (fun w => |fn w|) (Ici a) p) (hap : a + 1 / 1000 ≤ p) (hp1 : 1 / 100 ≤ p) (M b : ℕ) (hb0 : 1 ≤ b) (hb : b ≤ M / 2) (fuel : ℕ) (v pk mx : ℝ)
    (hf : findPeak fn fuel = some (.ok (v, pk))) (hm : findMaxScale fn M b 1 fuel = some (.ok mx)) :
    |v - p| ≤ 1 / 1000 ∧ Real.pi * b * mx ≤ p * M / 2 ∧ p * M / 2 < Real.pi * b * mx + 8 * v := by
  have hpi := Real.pi_pos
  obtain ⟨hv, -⟩ := C234_found fn (Ici a) ordConnected_Ici p (by linarith) h (fun w h0 hw => hz w h0 (by simpa using hw))
    (fun w _ hw => mem_Ici.2 (by linarith [(abs_le.1 hw).1])) fuel v pk hf
  refine ⟨hv, ?_⟩
  obtain ⟨hM0, hM2, hv0, i, m, h2, h3, h4, h5, h6, h7, h8, h9⟩ := maxScale_ok hf hm
  have hMr : (0 : ℝ) < M := by exact_mod_cast hM0
  obtain ⟨d, hd⟩ : ∃ d, d = 8 * v / M := ⟨_, rfl⟩
  have hd0 : 0 < d := by rw [hd]; positivity
  have hsd : ∀ j : ℕ, sampleFreq (4 / Real.pi * v) M j = d * j := by
    intro j; unfold sampleFreq; rw [hd]; field_simp; ring
  simp only [hsd, mul_one] at h5 h6 h7 h8
  have him : i + 1 = m := by
    by_contra hc
    have a1 := h8 (i + 1) (by omega) (by omega)
    have a2 := h6 (i + 1) (by omega)
    linarith
  have hmr : (m : ℝ) = i + 1 := by rw [← him]; push_cast; ring
  have hi0 : 0 ≤ d * (i : ℝ) := by positivity
  have hup : d * i ≤ p := by
    by_contra hc
    have hlt : d * (i : ℝ) < d * m := by rw [hmr]; linarith
    have a1 := h.falls ⟨mem_Ici.2 (by linarith), mem_Ici.2 (by linarith)⟩ ⟨mem_Ici.2 (by linarith), mem_Ici.2 (by linarith)⟩ hlt
    rw [abs_of_nonneg (hnn _ hi0), abs_of_nonneg (hnn _ (by linarith))] at a1
    linarith
  have hlo : p < d * (i + 2) := by
    by_contra hc
    have e2 : d * ((m + 1 : ℕ) : ℝ) = d * (i + 2) := by push_cast; rw [hmr]; ring
    have hm1 : m + 1 ≤ M / 2 := by
      by_contra hc2
      have : (M : ℝ) ≤ 2 * ((m + 1 : ℕ) : ℝ) := by exact_mod_cast (by omega : M ≤ 2 * (m + 1))
      have hdM : d * M = 8 * v := by rw [hd]; field_simp
      have : d * M ≤ d * (2 * ((m + 1 : ℕ) : ℝ)) := mul_le_mul_of_nonneg_left this hd0.le
      have := (abs_le.1 hv).1
      linarith
    have hlt : d * (m : ℝ) < d * ((m + 1 : ℕ) : ℝ) := by push_cast; linarith
    have hdm : 0 ≤ d * (m : ℝ) := by positivity
    have hi7 := hnn _ hi0
    rcases le_or_gt a (d * m) with hma | hma
    · have a1 := h.rises ⟨mem_Ici.2 hma, mem_Iic.2 (by linarith)⟩ ⟨mem_Ici.2 (by linarith), mem_Iic.2 (by linarith)⟩ hlt
      rw [abs_of_nonneg (hnn _ hdm), abs_of_nonneg (hnn _ (by linarith))] at a1
      have := h5 (m + 1) (by omega) hm1
      linarith
    · rw [hz _ hdm hma] at h7
      linarith
  have hbr : (0 : ℝ) < b := by exact_mod_cast hb0
  have hs : Real.pi * b * mx = 4 * v * i := by
    rw [h9, hsd, xifn_pos_getD _ _ _ (by omega) hb, hsd]
    field_simp
  rw [hs]
  rw [hd, div_mul_eq_mul_div, div_le_iff₀ hMr] at hup
  rw [hd, div_mul_eq_mul_div, lt_div_iff₀ hMr] at hlo
  constructor <;> linarith

/-- **C238.** For every nonnegative wavelet with one peak `p`, if `cwt_scalebounds(preset='maximal')` returns and the wavelet is sampled at `M` points, four or more:
at `min_scale` the peak is at the greatest frequency `π` or beyond it (up to the search step); at `max_scale` it is at the second bin `4π/M` or above it, and
`max_scale` is less than the scale `p M/(4π)` with the peak at the second bin by less than `4 (p + 0.001)/π`, whatever `M`. -/
theorem C238_covers (fn : ℝ → ℝ) (wv : ScaleWavelet) (hs : Searches fn wv) (a p : ℝ) (hz : ∀ w, 0 ≤ w → w < a → fn w = 0)
    (hnn : ∀ w, 0 ≤ w → 0 ≤ fn w) (hp : Spec.OnePeak (fun w => |fn w|) (Ici a) p) (hap : a + 1 / 1000 ≤ p) (hp1 : 1 / 100 ≤ p) (N : ℕ) (minC maxC cutoff : Option ℝ) (padded : Bool)
    (M : ℕ) (hM : M = if padded then (p2up N).1 else N) (hM4 : 4 ≤ M) (mn mx : ℝ)
    (h : cwtScalebounds wv N (some .maximal) minC maxC cutoff padded = .ok (mn, mx)) :
    0 ≤ mn ∧ Real.pi * mn ≤ p + 1 / 1000 ∧ 4 * Real.pi / M * mx ≤ p ∧ p * M / (4 * Real.pi) - mx < 4 * (p + 1 / 1000) / Real.pi := by
  have hpi := Real.pi_pos
  unfold cwtScalebounds at h
  simp only [scaleboundsArgs, ok_bind] at h
  rw [if_neg (by simp)] at h
  obtain ⟨mn', h1, h⟩ := bind_ok h
  rw [if_pos trivial, ← hM] at h
  obtain ⟨mx', h2, h⟩ := bind_ok h
  simp only [pure_eq_ok, Except.ok.injEq, Prod.mk.injEq] at h
  obtain ⟨rfl, rfl⟩ := h
  obtain ⟨f1, hs1⟩ := hs.1 (-1 / 2)
  obtain ⟨f2, hs2⟩ := hs.2 M 2 1
  push_cast at hs2
  rw [h1] at hs1
  rw [h2] at hs2
  obtain ⟨⟨wc, pk⟩, hpk, -⟩ := andThen_ok hs1
  obtain ⟨⟨wc', pk'⟩, hpk', -⟩ := andThen_ok hs2
  obtain ⟨hc, hx1, hx2⟩ := C238_bin fn a p hz hnn hp hap hp1 M 2 (by norm_num) (by omega) f2 wc' pk' mx' hpk' hs2
  obtain ⟨hc', -⟩ := C234_found fn (Ici a) ordConnected_Ici p (by linarith) hp (fun w h0 hw => hz w h0 (by simpa using hw))
    (fun w _ hw => mem_Ici.2 (by linarith [(abs_le.1 hw).1])) f1 wc pk hpk
  obtain ⟨-, hv, -⟩ := C111_value fn (-1 / 2) f1 wc pk mn' hpk hs1
  obtain ⟨hv1, hv2⟩ := hv (by norm_num)
  have hMr : (0 : ℝ) < M := by exact_mod_cast (by omega : 0 < M)
  have := (abs_le.1 hc).2
  have := (abs_le.1 hc').2
  push_cast at hx1 hx2
  refine ⟨nonneg_of_mul_nonneg_right hv1 hpi, by linarith, ?_, ?_⟩
  · rw [div_mul_eq_mul_div, div_le_iff₀ hMr]
    linarith
  · rw [sub_lt_iff_lt_add, div_lt_iff₀ (by positivity)]
    have : (4 * (p + 1 / 1000) / Real.pi + mx') * (4 * Real.pi) = 16 * (p + 1 / 1000) + 4 * Real.pi * mx' := by field_simp; ring
    rw [this]
    linarith

theorem morlet_nonneg (μ : ℝ) (hμ : 0 < μ) (w : ℝ) (hw : 0 ≤ w) : 0 ≤ morletFn μ w := by
  have hn := morlet_norm_pos μ hμ.ne'
  simp only [morletFn]
  refine mul_nonneg (by have := Real.pi_pos; positivity) (sub_nonneg.2 ?_)
  rw [← Real.exp_add]
  refine Real.exp_le_exp.2 ?_
  nlinarith [mul_nonneg hμ.le hw]

/-- The default `morlet` sampled at 1024 points: the hypotheses are met. -/
example : ∃ wv p mn mx, Searches (morletFn 13.4) wv ∧ Spec.OnePeak (fun w => |morletFn 13.4 w|) (Ici 0) p ∧
    cwtScalebounds wv 1024 (some .maximal) none none none false = .ok (mn, mx) ∧ 4 * Real.pi / (1024 : ℕ) * mx ≤ p := by
  obtain ⟨wv, hs⟩ := searches_exist (morletFn 13.4)
  obtain ⟨p, -, g1, g2, h⟩ := C234_morlet 13.4 (by norm_num)
  obtain ⟨mn, mx, e, _, _⟩ := C237_morlet 13.4 1 (by norm_num) (by norm_num) (by norm_num) wv hs 1024 none none none false (by norm_num)
  refine ⟨wv, p, mn, mx, hs, h, e, (C238_covers _ wv hs 0 p (fun w h1 h2 => by linarith) (fun w hw => morlet_nonneg 13.4 (by norm_num) w hw) h
    (by norm_num at g1 ⊢; linarith) (by norm_num at g1 ⊢; linarith) 1024 none none none false 1024 rfl (by norm_num) mn mx e).2.2.1⟩

end Ssq
