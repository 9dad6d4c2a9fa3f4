import Verif.Props.MaximalBounds

/-!
# C237: the scale bounds of wavelets that vanish up to some frequency
-/
namespace Ssq
open Set Spec

/-- Both searches succeed for a wavelet that vanishes up to `a`, and the lesser scale is less than the greater. -/
theorem bothScales_from (fn : ℝ → ℝ) (a p : ℝ) (ha : 0 ≤ a) (hz : ∀ w ≤ a, fn w = 0) (hnn : ∀ w, 0 ≤ fn w) (h : Spec.OnePeak (fun w => |fn w|) (Ici a) p)
    (hap : a + 1 / 1000 ≤ p) (hp1 : 1 / 10 ≤ p) (hp2 : p ≤ 9.99) (N : ℕ) (hN : 32 ≤ N) (hNa : 16 * p ≤ N * (p - a)) (k : ℕ) :
    ∃ mn mx, findMinScale fn (-1 / 2) (k + 101) = some (.ok mn) ∧ findMaxScale fn N 2 1 (k + 101) = some (.ok mx) ∧ 0 ≤ mn ∧ mn < mx := by
  have hpi := Real.pi_pos
  have h0 : fn 0 = 0 := hz 0 ha
  obtain ⟨v, e, hv⟩ := C234_finds fn (Ici a) ordConnected_Ici p (by linarith) (by norm_num at hp2; linarith) h (fun w _ hw => hz w (by simp only [mem_Ici, not_le] at hw; exact hw.le))
    (fun w _ hw => mem_Ici.2 (by linarith [(abs_le.1 hw).1])) k
  obtain ⟨hv1, hv2⟩ := abs_le.1 hv
  norm_num at hp2
  have hv0 : 0 < v := by linarith
  have hN0 : (32 : ℝ) ≤ N := by exact_mod_cast hN
  -- the lesser scale
  obtain ⟨w, o, ew⟩ := C236_block_partial fn (|(-1 / 2 : ℝ)| * |fn v|) 0 v 0 0 9999 (by norm_num) (by norm_num) (.inl rfl)
    (by norm_num; rw [min_eq_left hv0.le, h0, abs_zero]; positivity)
    (by norm_num; rw [min_eq_right (by linarith)]; linarith [abs_nonneg (fn v)]) (k + 100)
  have hmn : findMinScale fn (-1 / 2) (k + 101) = some (.ok (w / Real.pi)) := by
    unfold findMinScale
    rw [e, andThen_some]
    simp only
    rw [if_neg (by norm_num)]
    simp only
    rw [show k + 101 = k + 100 + (0 + 1) by omega, ew, andThen_some]
  obtain ⟨-, hle, -, -⟩ := C111_value fn (-1 / 2) _ v _ _ e hmn
  obtain ⟨hmn0, hmnv⟩ := hle (by norm_num)
  rw [mul_div_cancel₀ _ hpi.ne'] at hmn0 hmnv
  -- the greater scale
  have hsf : ∀ j : ℕ, sampleFreq (4 / Real.pi * v) N j = 8 * v * j / N := by
    intro j; unfold sampleFreq; field_simp; ring
  have hN1 : (0 : ℝ) < N := by linarith
  obtain ⟨d, hd⟩ : ∃ d, d = 8 * v / N := ⟨_, rfl⟩
  have hd0 : 0 < d := by rw [hd]; positivity
  have hdp : d < p - a := by
    rw [hd, div_lt_iff₀ hN1]
    linarith
  have hsd : ∀ j : ℕ, sampleFreq (4 / Real.pi * v) N j = d * j := by
    intro j; rw [hsf, hd]; ring
  obtain ⟨j, hj1, hj2⟩ : ∃ j : ℕ, a < d * j ∧ d * j < p := by
    refine ⟨⌊a / d⌋₊ + 1, ?_, ?_⟩
    · have := Nat.lt_floor_add_one (a / d)
      rw [div_lt_iff₀ hd0] at this
      push_cast
      linarith
    · have := Nat.floor_le (div_nonneg ha hd0.le)
      rw [le_div_iff₀ hd0] at this
      push_cast
      linarith
  have hjN : j ≤ N / 2 := by
    have : (j : ℝ) * 2 < N := by
      rw [hd, div_mul_eq_mul_div, div_lt_iff₀ hN1] at hj2
      have : 2 * p < 8 * v := by linarith
      by_contra hc
      nlinarith
    have : j * 2 < N := by exact_mod_cast this
    omega
  have hpos : 0 < fn (sampleFreq (4 / Real.pi * v) N j) := by
    rw [hsd]
    have := h.rises ⟨mem_Ici.2 le_rfl, mem_Iic.2 (by linarith)⟩ ⟨mem_Ici.2 hj1.le, mem_Iic.2 hj2.le⟩ hj1
    simp only [hz a le_rfl, abs_zero] at this
    rwa [abs_of_nonneg (hnn _)] at this
  obtain ⟨mx, hmx⟩ := maxScale_succeeds (b := 2) e (by omega) (by omega) h0 one_pos j hjN hpos
  refine ⟨_, mx, hmn, hmx, div_nonneg hmn0 hpi.le, ?_⟩
  obtain ⟨-, -, -, i, m, h2, h3, h4, h5, h6, h7, h8, h9⟩ := maxScale_ok e hmx
  have him : i + 1 = m := by
    by_contra hc
    have a1 := h8 (i + 1) (by omega) (by omega)
    have a2 := h6 (i + 1) (by omega)
    rw [mul_one] at a1
    linarith
  have hm3 : 4 ≤ m + 1 := by
    by_contra hc
    have hlt : 8 * v * ((m + 1 : ℕ) : ℝ) / N ≤ p := by
      have : ((m + 1 : ℕ) : ℝ) ≤ 3 := by exact_mod_cast (by omega : m + 1 ≤ 3)
      rw [div_le_iff₀ (by linarith)]
      nlinarith
    have hlt2 : 8 * v * (m : ℝ) / N < 8 * v * ((m + 1 : ℕ) : ℝ) / N := by
      refine div_lt_div_of_pos_right ?_ (by linarith)
      push_cast
      nlinarith
    have a0 := h5 j (by omega) hjN
    rcases le_or_gt a (8 * v * (m : ℝ) / N) with hma | hma
    · have a1 := h.rises ⟨mem_Ici.2 hma, mem_Iic.2 (hlt2.le.trans hlt)⟩ ⟨mem_Ici.2 (hma.trans hlt2.le), mem_Iic.2 hlt⟩ hlt2
      rw [abs_of_nonneg (hnn _), abs_of_nonneg (hnn _), ← hsf, ← hsf] at a1
      have a2 := h5 (m + 1) (by omega) (by omega)
      linarith
    · rw [← hsf] at hma
      rw [hz _ hma.le] at a0
      linarith
  have hi2 : (2 : ℝ) ≤ i := by exact_mod_cast (by omega : 2 ≤ i)
  have hs : mx = 4 / Real.pi * v * (i / 2) := by
    rw [h9, hsf, xifn_getD _ _ _ (by omega), if_pos (by omega)]
    push_cast
    field_simp
    norm_num
  rw [hs, div_lt_iff₀ hpi]
  have : 4 / Real.pi * v * ((i : ℝ) / 2) * Real.pi = 2 * v * i := by field_simp; ring
  rw [this]
  nlinarith

/-- **C237**, wavelets that vanish up to some frequency `a`: `cwt_scalebounds(preset='maximal')` succeeds, with bounds in order, if the wavelet is sampled at 32
points or more and at `16 p / (p - a)` or more, where `p` is its peak. -/
theorem C237_from (fn : ℝ → ℝ) (wv : ScaleWavelet) (hs : Searches fn wv) (a p : ℝ) (ha : 0 ≤ a) (hz : ∀ w ≤ a, fn w = 0) (hnn : ∀ w, 0 ≤ fn w)
    (h : Spec.OnePeak (fun w => |fn w|) (Ici a) p) (hap : a + 1 / 1000 ≤ p) (hp1 : 1 / 10 ≤ p) (hp2 : p ≤ 9.99) (N : ℕ) (minC maxC cutoff : Option ℝ) (padded : Bool)
    (hM : 32 ≤ if padded then (p2up N).1 else N) (hNa : 16 * p ≤ ((if padded then (p2up N).1 else N : ℕ) : ℝ) * (p - a)) :
    ∃ mn mx, cwtScalebounds wv N (some .maximal) minC maxC cutoff padded = .ok (mn, mx) ∧ 0 ≤ mn ∧ mn < mx := by
  obtain ⟨mn, mx, q1, q2, hmn, hlt⟩ := bothScales_from fn a p ha hz hnn h hap hp1 hp2 _ hM hNa 0
  obtain ⟨f1, h1⟩ := hs.1 (-1 / 2)
  obtain ⟨f2, h2⟩ := hs.2 (if padded then (p2up N).1 else N) 2 1
  have e1 := findMinScale_det h1 q1
  have e2 := findMaxScale_det h2 q2
  push_cast at e2
  refine ⟨mn, mx, ?_, hmn, hlt⟩
  unfold cwtScalebounds
  simp only [scaleboundsArgs, ok_bind]
  rw [if_neg (by simp), e1, ok_bind, if_pos trivial, e2]
  rfl

theorem cmhat_nonneg (μ s w : ℝ) (hs : 0 < s) : 0 ≤ cmhatFn μ s w := by
  have := Real.pi_pos
  simp only [cmhatFn]
  split_ifs <;> positivity

theorem hhhat_nonneg (μ w : ℝ) : 0 ≤ hhhatFn μ w := by
  have := Real.pi_pos
  rcases le_or_gt w μ with hw | hw
  · rcases hw.lt_or_eq with hw | rfl
    · exact ((C234_hhhat μ).2 w hw).ge
    · simp [hhhatFn]
  · simp only [hhhatFn]
    rw [Real.sign_of_pos (by linarith)]
    have h1 : 0 < w - μ := by linarith
    positivity

/-- **C237 for `cmhat`** with its default `mu = 1`, `s = 1`. -/
theorem C237_cmhat (wv : ScaleWavelet) (hs : Searches (cmhatFn 1 1) wv) (N : ℕ) (minC maxC cutoff : Option ℝ) (padded : Bool)
    (hM : 32 ≤ if padded then (p2up N).1 else N) :
    ∃ mn mx, cwtScalebounds wv N (some .maximal) minC maxC cutoff padded = .ok (mn, mx) ∧ 0 ≤ mn ∧ mn < mx := by
  obtain ⟨h, hz⟩ := C234_cmhat 1 1 one_pos
  rw [div_one] at h
  have r1 : (1.4 : ℝ) ≤ Real.sqrt 2 := Real.le_sqrt_of_sq_le (by norm_num)
  have r2 : Real.sqrt 2 ≤ 1.5 := Real.sqrt_le_iff.2 (by norm_num)
  norm_num at r1 r2
  have hMr : (32 : ℝ) ≤ ((if padded then (p2up N).1 else N : ℕ) : ℝ) := by exact_mod_cast hM
  refine C237_from _ wv hs 1 _ (by norm_num) (fun w hw => ?_) (fun w => cmhat_nonneg 1 1 w one_pos) h (by linarith) (by linarith) (by norm_num; linarith)
    N minC maxC cutoff padded hM (by nlinarith)
  rcases hw.lt_or_eq with hw | rfl
  · exact hz w hw
  · simp [cmhatFn]

/-- **C237 for `hhhat`** with its default `mu = 5`, sampled at 100 points or more. -/
theorem C237_hhhat (wv : ScaleWavelet) (hs : Searches (hhhatFn 5) wv) (N : ℕ) (minC maxC cutoff : Option ℝ) (padded : Bool)
    (hM : 100 ≤ if padded then (p2up N).1 else N) :
    ∃ mn mx, cwtScalebounds wv N (some .maximal) minC maxC cutoff padded = .ok (mn, mx) ∧ 0 ≤ mn ∧ mn < mx := by
  have hpi := Real.pi_pos
  obtain ⟨h, hz⟩ := C234_hhhat 5
  have r1 : (1 : ℝ) ≤ 2 * Real.cos (2 * Real.pi / 7) := by
    have : Real.cos (Real.pi / 3) ≤ Real.cos (2 * Real.pi / 7) := Real.cos_le_cos_of_nonneg_of_le_pi (by positivity) (by linarith) (by linarith)
    rw [Real.cos_pi_div_three] at this
    linarith
  have r2 : 2 * Real.cos (2 * Real.pi / 7) ≤ 2 := by linarith [Real.cos_le_one (2 * Real.pi / 7)]
  have hMr : (100 : ℝ) ≤ ((if padded then (p2up N).1 else N : ℕ) : ℝ) := by exact_mod_cast hM
  refine C237_from _ wv hs 5 _ (by norm_num) (fun w hw => ?_) (hhhat_nonneg 5) h (by linarith) (by linarith) (by norm_num; linarith)
    N minC maxC cutoff padded (by omega) (by nlinarith)
  rcases hw.lt_or_eq with hw | rfl
  · exact hz w hw
  · simp [hhhatFn]

/-- Both, for a signal of 128 samples. -/
example : ∃ wv wv', Searches (cmhatFn 1 1) wv ∧ Searches (hhhatFn 5) wv' ∧ (∃ mn mx, cwtScalebounds wv 128 (some .maximal) none none none false = .ok (mn, mx) ∧ mn < mx) ∧
    ∃ mn mx, cwtScalebounds wv' 128 (some .maximal) none none none false = .ok (mn, mx) ∧ mn < mx := by
  obtain ⟨wv, hs⟩ := searches_exist (cmhatFn 1 1)
  obtain ⟨wv', hs'⟩ := searches_exist (hhhatFn 5)
  obtain ⟨mn, mx, a, _, b⟩ := C237_cmhat wv hs 128 none none none false (by norm_num)
  obtain ⟨mn', mx', a', _, b'⟩ := C237_hhhat wv' hs' 128 none none none false (by norm_num)
  exact ⟨wv, wv', hs, hs', ⟨mn, mx, a, b⟩, mn', mx', a', b'⟩

end Ssq
