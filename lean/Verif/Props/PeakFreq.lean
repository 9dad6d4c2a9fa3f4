import Verif.Props.TimeRes
import Verif.Props.FreqGrid

/-!
# C123: `center_frequency(kind='peak')`
-/
namespace Ssq
open Spec

namespace Spec

/-- The frequencies at which a wavelet of length `N` is sampled: `2πq/N`, greater than `-π`, at most `π`. -/
def SampledAt (N : ℕ) (w : ℝ) : Prop := ∃ q : ℤ, -(N : ℤ) < 2 * q ∧ 2 * q ≤ N ∧ w = 2 * Real.pi * q / N

end Spec

theorem mem_xifn (N : ℕ) (w : ℝ) : w ∈ xifn 1 N ↔ SampledAt N w := by
  constructor
  · intro h
    obtain ⟨i, hi, rfl⟩ := List.getElem_of_mem h
    have hi' : i < N := by simpa using hi
    refine ⟨if i ≤ N / 2 then (i : ℤ) else (i : ℤ) - N, ?_, ?_, ?_⟩
    · split <;> omega
    · split <;> omega
    · rw [← List.getD_eq_getElem _ 0 hi, xifn_getD _ _ _ hi']
      ring
  · rintro ⟨q, h1, h2, rfl⟩
    have hN : 0 < N := by omega
    by_cases hq : 0 ≤ q
    · have hi : q.toNat < N := by omega
      have e := xifn_getD 1 N q.toNat hi
      rw [if_pos (by omega), Int.toNat_of_nonneg hq] at e
      rw [show 2 * Real.pi * q / N = (q : ℝ) * (1 * (2 * Real.pi) / N) by ring, ← e, List.getD_eq_getElem _ _ (by simpa using hi)]
      exact List.getElem_mem _
    · have hi : (q + N).toNat < N := by omega
      have e := xifn_getD 1 N (q + N).toNat hi
      rw [if_neg (by omega), Int.toNat_of_nonneg (by omega), show q + N - (N : ℤ) = q by ring] at e
      rw [show 2 * Real.pi * q / N = (q : ℝ) * (1 * (2 * Real.pi) / N) by ring, ← e, List.getD_eq_getElem _ _ (by simpa using hi)]
      exact List.getElem_mem _

theorem mem_shiftedXi (N : ℕ) (hN : 2 ≤ N) (w : ℝ) : w ∈ shiftedXi N ↔ SampledAt N w := by
  by_cases he : N % 2 = 0
  · obtain ⟨hl, hg, -⟩ := C50_sorted_partial 1 one_pos N hN he
    unfold shiftedXi
    constructor
    · intro h
      obtain ⟨i, hi, rfl⟩ := List.getElem_of_mem h
      rw [hl] at hi
      refine ⟨(i : ℤ) + 1 - (N / 2 : ℕ), by omega, by omega, ?_⟩
      rw [← List.getD_eq_getElem _ 0, hg i hi]
      ring
    · rintro ⟨q, h1, h2, rfl⟩
      have hi : (q - 1 + (N / 2 : ℕ)).toNat < N := by omega
      have e := hg _ hi
      rw [Int.toNat_of_nonneg (by omega), show q - 1 + (N / 2 : ℕ) + 1 - ((N / 2 : ℕ) : ℤ) = q by ring] at e
      rw [show 2 * Real.pi * q / N = 2 * Real.pi * 1 / N * (q : ℝ) by ring, ← e, List.getD_eq_getElem _ _ (by omega)]
      exact List.getElem_mem _
  · rw [← mem_xifn]
    unfold shiftedXi aifftshift
    rw [if_neg (by simpa using he)]
    exact List.mem_rotate

theorem apsih2_real (f : ℝ → ℝ) (scale : ℝ) (w : List ℝ) : apsih2 (.real f) scale w = w.map fun x => f (scale * x) ^ 2 := by
  unfold apsih2 waveletAt
  simp only [List.map_map]
  refine List.map_congr_left fun x _ => ?_
  simp [WFn.eval, pow_two]

/-- **C123**: the peak is a sampled frequency, and the modulus of the wavelet at no sampled frequency exceeds that at the peak. -/
theorem C123_peak (f : ℝ → ℝ) (scale : ℝ) (N : ℕ) (hN : 2 ≤ N) :
    SampledAt N (peakWc (.real f) scale N) ∧ ∀ w, SampledAt N w → |f (scale * w)| ≤ |f (scale * peakWc (.real f) scale N)| := by
  have hne : shiftedXi N ≠ [] := by
    have : (0 : ℝ) ∈ shiftedXi N := (mem_shiftedXi N hN 0).2 ⟨0, by omega, by omega, by simp⟩
    exact List.ne_nil_of_mem this
  have hne' : apsih2 (.real f) scale (shiftedXi N) ≠ [] := by rw [apsih2_real]; simpa using hne
  have hlt := argmaxL_lt _ hne'
  have hspec := argmaxL_spec _ hne'
  have hlt' : argmaxL (apsih2 (.real f) scale (shiftedXi N)) < (shiftedXi N).length := by rwa [apsih2_length] at hlt
  have hp : peakWc (.real f) scale N = (shiftedXi N)[argmaxL (apsih2 (.real f) scale (shiftedXi N))] := by
    unfold peakWc; rw [List.getD_eq_getElem _ _ hlt']
  constructor
  · rw [hp, ← mem_shiftedXi N hN]; exact List.getElem_mem _
  · intro w hw
    have hmem : f (scale * w) ^ 2 ∈ apsih2 (.real f) scale (shiftedXi N) := by
      rw [apsih2_real]; exact List.mem_map_of_mem (f := fun x => f (scale * x) ^ 2) ((mem_shiftedXi N hN w).2 hw)
    have := hspec _ hmem
    have e : (apsih2 (.real f) scale (shiftedXi N))[argmaxL (apsih2 (.real f) scale (shiftedXi N))] = f (scale * peakWc (.real f) scale N) ^ 2 := by
      rw [hp, ← List.getD_eq_getElem _ 0 hlt]
      conv_lhs => arg 1; rw [apsih2_real]
      rw [map_getD_lt (d := 0) hlt', List.getD_eq_getElem _ _ hlt']
    rw [e] at this
    exact sq_le_sq.1 this

/-- The documentation: 'constrained 0 to pi'. -/
def C123_range_full : Prop := ∀ (f : ℝ → ℝ) (scale : ℝ) (N : ℕ), 2 ≤ N → 0 < scale → 0 ≤ peakWc (.real f) scale N ∧ peakWc (.real f) scale N ≤ Real.pi

/-- An even wavelet never peaks between 0 and `π` if `N` is even: its maxima come in pairs and the negative one is met first. -/
theorem C123_even (f : ℝ → ℝ) (hf : ∀ w, f (-w) = f w) (scale : ℝ) (N : ℕ) (hN : 2 ≤ N) (he : N % 2 = 0) :
    ¬ (0 < peakWc (.real f) scale N ∧ peakWc (.real f) scale N < Real.pi) := by
  rintro ⟨h0, h1⟩
  obtain ⟨hl, hg, -⟩ := C50_sorted_partial 1 one_pos N hN he
  obtain ⟨-, hm⟩ := C123_peak f scale N hN
  have hN' : (0 : ℝ) < N := by positivity
  have hne' : apsih2 (.real f) scale (shiftedXi N) ≠ [] := by
    rw [← List.length_pos_iff, apsih2_length]; unfold shiftedXi; omega
  have hlt := argmaxL_lt _ hne'
  rw [apsih2_length, shiftedXi, hl] at hlt
  have hp : peakWc (.real f) scale N = 2 * Real.pi * 1 / N * (((argmaxL (apsih2 (.real f) scale (aifftshift (xifn 1 N))) : ℤ) + 1 - (N / 2 : ℕ) : ℤ) : ℝ) := by
    unfold peakWc shiftedXi; exact hg _ hlt
  set a := argmaxL (apsih2 (.real f) scale (aifftshift (xifn 1 N))) with ha
  have hpi := Real.pi_pos
  have hc : 0 < 2 * Real.pi * 1 / N := by positivity
  have q0 : 0 < (a : ℤ) + 1 - (N / 2 : ℕ) := by
    have : (0 : ℝ) < (((a : ℤ) + 1 - (N / 2 : ℕ) : ℤ) : ℝ) := by
      rw [hp] at h0; exact (pos_iff_pos_of_mul_pos h0).1 hc
    exact_mod_cast this
  have q1 : 2 * ((a : ℤ) + 1 - (N / 2 : ℕ)) < N := by
    have : (2 * (((a : ℤ) + 1 - (N / 2 : ℕ) : ℤ) : ℝ)) < N := by
      rw [hp, div_mul_eq_mul_div, div_lt_iff₀ hN'] at h1; nlinarith
    exact_mod_cast this
  have hb : N - 2 - a < a := by omega
  have hb' : N - 2 - a < N := by omega
  have hneg : (aifftshift (xifn 1 N)).getD (N - 2 - a) 0 = - peakWc (.real f) scale N := by
    rw [hg _ hb', hp, ← mul_neg]
    congr 1
    have : ((N - 2 - a : ℕ) : ℤ) + 1 - (N / 2 : ℕ) = -((a : ℤ) + 1 - (N / 2 : ℕ)) := by omega
    rw [this]; push_cast; ring
  have hnot := List.not_of_lt_findIdx (xs := apsih2 (.real f) scale (aifftshift (xifn 1 N))) (show N - 2 - a < List.findIdx _ _ from by rw [ha] at hb ⊢; exact hb)
  refine of_decide_eq_false hnot ?_
  intro y hy
  rw [← List.getD_eq_getElem _ 0]
  rw [apsih2_real] at hy ⊢
  rw [map_getD_lt (d := 0) (by omega), hneg, mul_neg, hf]
  obtain ⟨w, hw, rfl⟩ := List.mem_map.1 hy
  exact sq_le_sq.2 (hm w ((mem_shiftedXi N hN w).1 hw))

/-- An even wavelet that is greatest at `±π/2`, with four points. -/
theorem C123_range_refuted : ¬ C123_range_full := by
  intro h
  have hp := Real.pi_pos
  set f : ℝ → ℝ := fun w => if |w| = Real.pi / 2 then 1 else 0 with hf
  obtain ⟨h0, h1⟩ := h f 1 4 (by norm_num) one_pos
  obtain ⟨hs, hm⟩ := C123_peak f 1 4 (by norm_num)
  have hmax := hm (2 * Real.pi * (1 : ℤ) / (4 : ℕ)) ⟨1, by norm_num, by norm_num, rfl⟩
  have e1 : f (1 * (2 * Real.pi * (1 : ℤ) / (4 : ℕ))) = 1 := by
    rw [hf]; simp only [one_mul]
    rw [if_pos]
    rw [abs_of_pos (by push_cast; positivity)]; push_cast; ring
  rw [e1] at hmax
  have hpk : |peakWc (.real f) 1 4| = Real.pi / 2 := by
    by_contra hc
    rw [one_mul, hf] at hmax
    simp only [] at hmax
    rw [← hf, if_neg hc] at hmax
    norm_num at hmax
  rw [abs_of_nonneg h0] at hpk
  exact C123_even f (fun w => by rw [hf]; simp only [abs_neg]) 1 4 (by norm_num) (by norm_num) ⟨by rw [hpk]; positivity, by rw [hpk]; linarith⟩

/-- It is at most `π` always, and not negative if the wavelet is greater at some frequency from 0 to `π` than at all negative ones. -/
theorem C123_range_partial (f : ℝ → ℝ) (scale : ℝ) (N : ℕ) (hN : 2 ≤ N) :
    peakWc (.real f) scale N ≤ Real.pi ∧
      ((∃ w, SampledAt N w ∧ 0 ≤ w ∧ ∀ w', SampledAt N w' → w' < 0 → |f (scale * w')| < |f (scale * w)|) → 0 ≤ peakWc (.real f) scale N) := by
  obtain ⟨hs, hm⟩ := C123_peak f scale N hN
  constructor
  · obtain ⟨q, h1, h2, e⟩ := hs
    rw [e, div_le_iff₀ (by positivity)]
    have : ((2 * q : ℤ) : ℝ) ≤ N := by exact_mod_cast h2
    push_cast at this
    nlinarith [Real.pi_pos]
  · rintro ⟨w, h1, h2, h3⟩
    by_contra hc
    have := h3 _ hs (not_le.1 hc)
    have := hm w h1
    linarith

/-- The case of a wavelet that is zero at negative frequencies, but not at `π`. -/
example : ∃ w, SampledAt 4 w ∧ 0 ≤ w ∧ ∀ w', SampledAt 4 w' → w' < 0 → |(fun x : ℝ => if 0 ≤ x then x else 0) (1 * w')| < |(fun x : ℝ => if 0 ≤ x then x else 0) (1 * w)| := by
  refine ⟨2 * Real.pi * (2 : ℤ) / (4 : ℕ), ⟨2, by norm_num, by norm_num, rfl⟩, by positivity, fun w' _ hw' => ?_⟩
  simp only [one_mul]
  rw [if_neg (by linarith), if_pos (by positivity), abs_zero]
  positivity

end Ssq
