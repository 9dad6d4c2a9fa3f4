import Verif.Props.PeakFreq
import Verif.Props.Peaks

/-!
# C235: the sampled peak of a wavelet is next to its peak
-/
namespace Ssq
open Set Spec

/-- **C235.** `center_frequency(wavelet, scale, N, kind='peak')`, for a wavelet with one peak at `p`, is `p / scale` to within one bin, if that is between
the first bin and the Nyquist frequency. -/
theorem C235_bin (f : ℝ → ℝ) (S : Set ℝ) (hS : S.OrdConnected) (p scale : ℝ) (N : ℕ) (hN : 2 ≤ N) (hs : 0 < scale) (h : Spec.OnePeak (fun w => |f w|) S p)
    (hz : ∀ w, 0 ≤ w → w ∉ S → f w = 0) (hneg : ∀ w < 0, f w = 0 ∨ |f w| < |f (-w)|)
    (hnear : ∀ w, 0 ≤ w → |w - p| ≤ scale * (2 * Real.pi / N) → w ∈ S) (hlo : 2 * Real.pi / N ≤ p / scale) (hhi : p / scale ≤ Real.pi) :
    |peakWc (.real f) scale N - p / scale| ≤ 2 * Real.pi / N := by
  obtain ⟨⟨q, hq1, hq2, hq⟩, hmax⟩ := C123_peak f scale N hN
  have hpi := Real.pi_pos
  have hN0 : (0 : ℝ) < N := by positivity
  set d := 2 * Real.pi / N with hd
  have hd0 : 0 < d := by positivity
  set r := p / scale with hr
  have hpr : p = scale * r := by rw [hr]; field_simp
  have hval : ∀ j : ℤ, 2 * Real.pi * j / N = j * d := fun j => by rw [hd]; ring
  have hx1 : 1 ≤ r / d := by rw [le_div_iff₀ hd0]; linarith
  have hx0 : 0 ≤ r / d := by linarith
  set Q : ℤ := ⌊r / d⌋ with hQ
  have hQ1 : 1 ≤ Q := Int.le_floor.2 (by exact_mod_cast hx1)
  have hQa : (Q : ℝ) * d ≤ r := by rw [← le_div_iff₀ hd0]; exact Int.floor_le _
  have hQb : r < ((Q : ℝ) + 1) * d := by rw [← div_lt_iff₀ hd0]; exact Int.lt_floor_add_one _
  have hQ2 : Q ≤ (N / 2 : ℕ) := by
    have h1 : (Q : ℝ) * d ≤ Real.pi := hQa.trans hhi
    rw [hd, mul_div_assoc', div_le_iff₀ hN0] at h1
    have h2 : (Q : ℝ) * 2 ≤ N := by nlinarith
    have h3 : Q * 2 ≤ N := by exact_mod_cast h2
    omega
  have hsamp : ∀ j : ℤ, 0 ≤ j → j ≤ (N / 2 : ℕ) → |f (scale * (j * d))| ≤ |f (scale * peakWc (.real f) scale N)| := by
    intro j h0 h1
    refine hmax (j * d) ⟨j, by omega, by omega, (hval j).symm⟩
  rw [hval] at hq
  have hv0 : scale * ((Q : ℝ) * d) ∈ S := by
    refine hnear _ (by have : (0 : ℝ) ≤ Q := by exact_mod_cast (by omega : (0 : ℤ) ≤ Q)
                       positivity) ?_
    rw [hpr, ← mul_sub, abs_mul, abs_of_pos hs]
    refine mul_le_mul_of_nonneg_left ?_ hs.le
    rw [abs_le]; constructor <;> linarith
  have hv0p : scale * ((Q : ℝ) * d) ≤ p := by rw [hpr]; exact mul_le_mul_of_nonneg_left hQa hs.le
  have hpos : 0 < |f (scale * (Q * d))| := by
    have hm : scale * (r - d) ∈ S := by
      refine hnear _ (mul_nonneg hs.le (by linarith)) ?_
      rw [hpr, ← mul_sub, abs_mul, abs_of_pos hs, show r - d - r = -d by ring, abs_neg, abs_of_pos hd0]
    refine (abs_nonneg _).trans_lt (h.rises ⟨hm, ?_⟩ ⟨hv0, hv0p⟩ ?_)
    · rw [mem_Iic, hpr]; exact mul_le_mul_of_nonneg_left (by linarith) hs.le
    · exact mul_lt_mul_of_pos_left (by linarith) hs
  have hbest := hsamp Q (by omega) hQ2
  rw [hq] at hbest hsamp ⊢
  have hfq : f (scale * (q * d)) ≠ 0 := fun e => by rw [e, abs_zero] at hbest; linarith
  have hq0 : 0 ≤ q := by
    by_contra hc
    have hqr : (q : ℝ) < 0 := by exact_mod_cast not_le.1 hc
    rcases hneg (scale * (q * d)) (mul_neg_of_pos_of_neg hs (mul_neg_of_neg_of_pos hqr hd0)) with e | e
    · exact hfq e
    · have := hsamp (-q) (by omega) (by omega)
      push_cast at this
      rw [show scale * (-(q : ℝ) * d) = -(scale * (q * d)) by ring] at this
      linarith
  have hqr : (0 : ℝ) ≤ q := by exact_mod_cast hq0
  have hvS : scale * ((q : ℝ) * d) ∈ S := by
    by_contra hc
    exact hfq (hz _ (by positivity) hc)
  have hge : Q ≤ q := by
    by_contra hc
    have h1 : (q : ℝ) + 1 ≤ Q := by exact_mod_cast (by omega : q + 1 ≤ Q)
    have hlt : scale * ((q : ℝ) * d) < scale * (Q * d) := mul_lt_mul_of_pos_left (mul_lt_mul_of_pos_right (by linarith) hd0) hs
    have := h.rises ⟨hvS, mem_Iic.2 (hlt.le.trans hv0p)⟩ ⟨hv0, hv0p⟩ hlt
    linarith
  have hle : q ≤ Q + 1 := by
    by_contra hc
    have h1 : (Q : ℝ) + 1 < q := by exact_mod_cast (by omega : Q + 1 < q)
    have hp1 : p ≤ scale * (((Q : ℝ) + 1) * d) := by rw [hpr]; exact mul_le_mul_of_nonneg_left hQb.le hs.le
    have hlt : scale * (((Q : ℝ) + 1) * d) < scale * (q * d) := mul_lt_mul_of_pos_left (mul_lt_mul_of_pos_right h1 hd0) hs
    have hv1 : scale * (((Q : ℝ) + 1) * d) ∈ S := hS.out h.mem hvS ⟨hp1, hlt.le⟩
    have := h.falls ⟨hv1, hp1⟩ ⟨hvS, mem_Ici.2 (hp1.trans hlt.le)⟩ hlt
    have h2 := hsamp (Q + 1) (by omega) (by omega)
    push_cast at h2
    linarith
  have h3 : (Q : ℝ) ≤ q := by exact_mod_cast hge
  have h4 : (q : ℝ) ≤ Q + 1 := by exact_mod_cast hle
  rw [abs_le]
  constructor <;> nlinarith

/-- Negative frequencies of `morlet` are weaker than positive ones. -/
theorem morlet_neg (μ : ℝ) (hμ : 0 < μ) (w : ℝ) (hw : w < 0) : |morletFn μ w| < |morletFn μ (-w)| := by
  have hk : ∀ w, Real.exp (-(1 / 2) * μ ^ 2) * Real.exp (-(1 / 2) * w ^ 2) = Real.exp (-(1 / 2) * (w - μ) ^ 2) * Real.exp (-(μ * w)) := by
    intro w
    rw [← Real.exp_add, ← Real.exp_add]
    congr 1
    ring
  set c : ℝ := Real.sqrt 2 * (1 + Real.exp (-μ ^ 2) - 2 * Real.exp (-(3 / 4) * μ ^ 2)) ^ (-(1 / 2) : ℝ) * Real.pi ^ (1 / 4 : ℝ) with hc
  have hc0 : 0 < c := by
    have := Real.rpow_pos_of_pos (morlet_norm_pos μ hμ.ne') (-(1 / 2))
    have := Real.pi_pos
    positivity
  have hval : ∀ w, morletFn μ w = c * (Real.exp (-(1 / 2) * (w - μ) ^ 2) * (1 - Real.exp (-(μ * w)))) := by
    intro w
    simp only [morletFn]
    rw [hk]
    ring
  have hμw : 0 < μ * -w := mul_pos hμ (by linarith)
  have g1 : 0 < 1 - Real.exp (-(μ * -w)) := by
    have := Real.exp_lt_one_iff.2 (by linarith : -(μ * -w) < 0)
    linarith
  have g2 : 1 - Real.exp (-(μ * w)) = -(Real.exp (μ * -w) * (1 - Real.exp (-(μ * -w)))) := by
    rw [mul_sub, mul_one, ← Real.exp_add, add_neg_cancel, Real.exp_zero]
    rw [show -(μ * w) = μ * -w by ring]
    ring
  rw [hval, hval, g2, mul_neg, mul_neg, abs_neg, abs_of_pos (by positivity), abs_of_pos (by positivity), ← mul_assoc (Real.exp _) (Real.exp _), ← Real.exp_add]
  refine mul_lt_mul_of_pos_left (mul_lt_mul_of_pos_right (Real.exp_lt_exp.2 ?_) g1) hc0
  nlinarith

/-- **C235** for `cmhat`, if the bins are finer than the distance of the peak from `mu`. -/
theorem C235_cmhat (μ s scale : ℝ) (N : ℕ) (hμ : 0 ≤ μ) (hs : 0 < s) (hN : 2 ≤ N) (hsc : 0 < scale) (hd : scale * (2 * Real.pi / N) ≤ Real.sqrt 2 / s)
    (hhi : μ + Real.sqrt 2 / s ≤ scale * Real.pi) :
    |peakWc (.real (cmhatFn μ s)) scale N - (μ + Real.sqrt 2 / s) / scale| ≤ 2 * Real.pi / N := by
  obtain ⟨h, hz⟩ := C234_cmhat μ s hs
  refine C235_bin _ (Ici μ) ordConnected_Ici _ scale N hN hsc h (fun w _ hw => hz w (by simpa using hw)) (fun w hw => .inl (hz w (by linarith)))
    (fun w _ hw => mem_Ici.2 (by linarith [(abs_le.1 hw).1])) ?_ ?_
  · rw [le_div_iff₀ hsc]; linarith
  · rw [div_le_iff₀ hsc]; linarith

/-- **C235** for `hhhat`. -/
theorem C235_hhhat (μ scale : ℝ) (N : ℕ) (hμ : 0 ≤ μ) (hN : 2 ≤ N) (hsc : 0 < scale) (hd : scale * (2 * Real.pi / N) ≤ 2 * Real.cos (2 * Real.pi / 7))
    (hhi : μ + 2 * Real.cos (2 * Real.pi / 7) ≤ scale * Real.pi) :
    |peakWc (.real (hhhatFn μ)) scale N - (μ + 2 * Real.cos (2 * Real.pi / 7)) / scale| ≤ 2 * Real.pi / N := by
  obtain ⟨h, hz⟩ := C234_hhhat μ
  refine C235_bin _ (Ici μ) ordConnected_Ici _ scale N hN hsc h (fun w _ hw => hz w (by simpa using hw)) (fun w hw => .inl (hz w (by linarith)))
    (fun w _ hw => mem_Ici.2 (by linarith [(abs_le.1 hw).1])) ?_ ?_
  · rw [le_div_iff₀ hsc]; linarith
  · rw [div_le_iff₀ hsc]; linarith

/-- **C235** for `morlet`: between `mu / scale` less a bin and `(mu + 1 / mu) / scale` and a bin. -/
theorem C235_morlet (μ scale : ℝ) (N : ℕ) (hμ : 0 < μ) (hN : 2 ≤ N) (hsc : 0 < scale) (hd : scale * (2 * Real.pi / N) ≤ μ) (hhi : μ + 1 / μ ≤ scale * Real.pi) :
    μ / scale - 2 * Real.pi / N ≤ peakWc (.real (morletFn μ)) scale N ∧ peakWc (.real (morletFn μ)) scale N ≤ (μ + 1 / μ) / scale + 2 * Real.pi / N := by
  obtain ⟨p, -, h1, h2, h⟩ := C234_morlet μ hμ
  have := C235_bin _ (Ici 0) ordConnected_Ici p scale N hN hsc h (fun w hw hw' => absurd hw hw') (fun w hw => .inr (morlet_neg μ hμ w hw)) (fun w hw _ => hw)
    (by rw [le_div_iff₀ hsc]; linarith) (by rw [div_le_iff₀ hsc]; linarith)
  have g1 : μ / scale ≤ p / scale := div_le_div_of_nonneg_right h1.le hsc.le
  have g2 : p / scale ≤ (μ + 1 / μ) / scale := div_le_div_of_nonneg_right h2.le hsc.le
  obtain ⟨a, b⟩ := abs_le.1 this
  constructor <;> linarith

/-- **C235, the default scale.** With `scale=None`, `4 / π` times the peak that was found, the sampled peak is `π/4` to within a bin and 0.001: for every
wavelet with one peak above 1. -/
theorem C235_default (f : ℝ → ℝ) (S : Set ℝ) (hS : S.OrdConnected) (p : ℝ) (N : ℕ) (hN : 16 ≤ N) (hp : 1 ≤ p) (h : Spec.OnePeak (fun w => |f w|) S p)
    (hz : ∀ w, 0 ≤ w → w ∉ S → f w = 0) (hneg : ∀ w < 0, f w = 0 ∨ |f w| < |f (-w)|) (hnear : ∀ w, 0 ≤ w → |w - p| ≤ 9 * p / N → w ∈ S)
    (hnear' : ∀ w, 0 ≤ w → |w - p| ≤ 1 / 1000 → w ∈ S) (fuel : ℕ) (v mx : ℝ) (hf : findPeak f fuel = some (.ok (v, mx))) :
    |peakWc (.real f) (4 / Real.pi * v) N - Real.pi / 4| ≤ 2 * Real.pi / N + 1 / 1000 := by
  obtain ⟨hv, -⟩ := C234_found f S hS p (by linarith) h hz hnear' fuel v mx hf
  obtain ⟨hv1, hv2⟩ := abs_le.1 hv
  have hpi := Real.pi_pos
  have hpi4 := Real.pi_lt_four
  have hv0 : 0 < v := by linarith
  have hN0 : (16 : ℝ) ≤ N := by exact_mod_cast hN
  have hsc : 0 < 4 / Real.pi * v := by positivity
  have e1 : 4 / Real.pi * v * (2 * Real.pi / N) = 8 * v / N := by field_simp; ring
  have hb := C235_bin f S hS p (4 / Real.pi * v) N (by omega) hsc h hz hneg (fun w hw hd => hnear w hw (hd.trans (by
      rw [e1]; exact div_le_div_of_nonneg_right (by linarith) (by linarith)))) (by
      rw [le_div_iff₀ hsc, mul_comm, e1, div_le_iff₀ (by linarith)]; nlinarith) (by
      rw [div_le_iff₀ hsc, show Real.pi * (4 / Real.pi * v) = 4 * v by field_simp]; linarith)
  have e2 : p / (4 / Real.pi * v) = Real.pi / 4 * (p / v) := by field_simp
  have h3 : |p / v - 1| ≤ 1 / 999 := by
    rw [show p / v - 1 = (p - v) / v by field_simp, abs_div, abs_of_pos hv0, div_le_iff₀ hv0, abs_le]
    constructor <;> linarith
  have h4 : |Real.pi / 4 * (p / v) - Real.pi / 4| ≤ 1 / 1000 := by
    rw [show Real.pi / 4 * (p / v) - Real.pi / 4 = Real.pi / 4 * (p / v - 1) by ring, abs_mul, abs_of_pos (by positivity)]
    have := Real.pi_lt_d2
    have := abs_nonneg (p / v - 1)
    nlinarith
  rw [e2] at hb
  have := abs_sub_le (peakWc (.real f) (4 / Real.pi * v) N) (Real.pi / 4 * (p / v)) (Real.pi / 4)
  linarith

/-- The default `morlet` at scale 10 of 1024 samples: its peak at 1.34 is found to within a bin and `1 / 134`. -/
example : 13.4 / 10 - 2 * Real.pi / 1024 ≤ peakWc (.real (morletFn 13.4)) 10 1024 := by
  have h3 := Real.pi_gt_three
  have h4 := Real.pi_lt_four
  have := (C235_morlet 13.4 10 1024 (by norm_num) (by norm_num) (by norm_num) (by norm_num; linarith) (by norm_num; linarith)).1
  simpa using this

/-- It also meets the hypotheses at the default scale. -/
example : ∃ v mx, findPeak (morletFn 13.4) 101 = some (.ok (v, mx)) ∧
    |peakWc (.real (morletFn 13.4)) (4 / Real.pi * v) 1024 - Real.pi / 4| ≤ 2 * Real.pi / (1024 : ℕ) + 1 / 1000 := by
  obtain ⟨p, -, h1, h2, h⟩ := C234_morlet 13.4 (by norm_num)
  obtain ⟨v, e, -⟩ := C234_finds (morletFn 13.4) (Ici 0) ordConnected_Ici p (by linarith) (by norm_num at h2; linarith) h (fun w hw hw' => absurd hw hw') (fun w hw _ => hw) 0
  exact ⟨v, _, e, C235_default _ (Ici 0) ordConnected_Ici p 1024 (by norm_num) (by linarith) h (fun w hw hw' => absurd hw hw')
    (fun w hw => .inr (morlet_neg _ (by norm_num) w hw)) (fun w hw _ => hw) (fun w hw _ => hw) _ v _ e⟩

end Ssq
