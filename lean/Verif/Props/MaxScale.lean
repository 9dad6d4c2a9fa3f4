import Verif.Props.ScaleBounds

/-!
# C112: `find_max_scale`
-/
namespace Ssq
open Spec

theorem xifn_pos_getD (c : ℝ) (N j : ℕ) (hj : j < N) (hj2 : j ≤ N / 2) : (xifn c N).getD j 0 = sampleFreq c N j := by
  rw [xifn_getD _ _ _ hj, if_pos hj2, sampleFreq]
  push_cast
  ring

theorem psih_getD (fn : ℝ → ℝ) (c : ℝ) (N j : ℕ) (hN : 0 < N) (hj : j < min (N / 2 + 1) N) :
    (((xifn c N).map fn).take (N / 2 + 1)).getD j 0 = fn (sampleFreq c N j) := by
  have h1 : j < N / 2 + 1 := lt_of_lt_of_le hj (min_le_left _ _)
  have h2 : j < N := lt_of_lt_of_le hj (min_le_right _ _)
  rw [← xifn_pos_getD c N j h2 (by omega)]
  rw [List.getD_eq_getElem?_getD, List.getElem?_take, if_pos h1, List.getElem?_map, List.getD_eq_getElem?_getD,
    List.getElem?_eq_getElem (by simpa using h2)]
  rfl

theorem psih_length (fn : ℝ → ℝ) (c : ℝ) (N : ℕ) : (((xifn c N).map fn).take (N / 2 + 1)).length = min (N / 2 + 1) N := by simp

/-- The index selected by `find_max_scale`, and the index of the peak sample. -/
theorem maxScale_ok {fn : ℝ → ℝ} {N binLoc : ℕ} {amp : ℝ} {fuel : ℕ} {wc pk s : ℝ} (hp : findPeak fn fuel = some (.ok (wc, pk)))
    (h : findMaxScale fn N binLoc amp fuel = some (.ok s)) :
    0 < N ∧ binLoc < N ∧ 0 < wc ∧ ∃ i m, i < m ∧ m ≤ N / 2 ∧ m < N ∧
      (∀ j, j < N → j ≤ N / 2 → fn (sampleFreq (4 / Real.pi * wc) N j) ≤ fn (sampleFreq (4 / Real.pi * wc) N m)) ∧
      (∀ j < m, fn (sampleFreq (4 / Real.pi * wc) N j) < fn (sampleFreq (4 / Real.pi * wc) N m)) ∧
      fn (sampleFreq (4 / Real.pi * wc) N i) < fn (sampleFreq (4 / Real.pi * wc) N m) * amp ∧
      (∀ j, i < j → j < m → fn (sampleFreq (4 / Real.pi * wc) N m) * amp ≤ fn (sampleFreq (4 / Real.pi * wc) N j)) ∧
      s = 4 / Real.pi * wc * (sampleFreq (4 / Real.pi * wc) N i / (xifn (4 / Real.pi * wc) N).getD binLoc 0) := by
  unfold findMaxScale at h
  rw [hp, andThen_some] at h
  simp only at h
  by_cases hN : N = 0
  · rw [if_pos hN] at h; simp at h
  rw [if_neg hN] at h
  set c := 4 / Real.pi * wc with hc
  set psih := ((xifn c N).map fn).take (N / 2 + 1) with hps
  have hlen : psih.length = min (N / 2 + 1) N := psih_length fn c N
  have hN' : 0 < N := Nat.pos_of_ne_zero hN
  have hlen0 : 0 < psih.length := by rw [hlen]; omega
  have hne : psih ≠ [] := List.ne_nil_of_length_pos hlen0
  have hm := argmaxL_lt psih hne
  have hpg : ∀ j, j < min (N / 2 + 1) N → psih.getD j 0 = fn (sampleFreq c N j) := fun j hj => psih_getD fn c N j hN' hj
  have hmax : rowMax psih = fn (sampleFreq c N (argmaxL psih)) := by
    unfold rowMax
    exact hpg _ (by omega)
  split at h
  · simp at h
  · rename_i i hi
    obtain ⟨h1, h2, h3⟩ := whereIdx_last _ _ _ hi
    rw [List.length_take] at h1
    have him : i < argmaxL psih := by omega
    have htk : ∀ j, j < argmaxL psih → (psih.take (argmaxL psih)).getD j 0 = fn (sampleFreq c N j) := by
      intro j hj
      rw [← hpg j (by omega), List.getD_eq_getElem?_getD, List.getElem?_take, if_pos hj, List.getD_eq_getElem?_getD]
    rw [htk i him, hmax] at h2
    by_cases hb : binLoc < N
    swap
    · rw [if_neg hb] at h; simp at h
    rw [if_pos hb] at h
    simp only [Option.some.injEq, Except.ok.injEq] at h
    have hge : ∀ j, j < N → j ≤ N / 2 → fn (sampleFreq c N j) ≤ fn (sampleFreq c N (argmaxL psih)) := by
      intro j hj hj2
      rw [← hpg j (by omega), ← hmax]
      apply le_rowMax
      rw [List.getD_eq_getElem _ _ (by omega)]
      exact List.getElem_mem _
    have hgt : ∀ j < argmaxL psih, fn (sampleFreq c N j) < fn (sampleFreq c N (argmaxL psih)) := by
      intro j hj
      rw [← hpg j (by omega), ← hmax, rowMax_getElem psih hne, List.getD_eq_getElem _ _ (by omega)]
      exact argmaxL_first psih hne j hj
    have hwc : 0 < wc := by
      rcases lt_or_eq_of_le (peak_nonneg _ _ _ _ hp).1 with e | e
      · exact e
      · exfalso
        have := hgt i him
        have hc0 : c = 0 := by rw [hc, ← e, mul_zero]
        rw [hc0] at this
        simp [sampleFreq] at this
    refine ⟨hN', hb, hwc, i, argmaxL psih, him, by omega, by omega, hge, hgt, h2, ?_, ?_⟩
    · intro j hj1 hj2
      have := h3 j hj1 (by rw [List.length_take]; omega)
      rw [htk j hj2, hmax] at this
      exact not_lt.1 this
    · rw [← h, xifn_pos_getD c N i (by omega) (by omega)]

/-- `scale * xi[bin_loc]` of the scale found. -/
theorem maxScale_bin {c : ℝ} {N binLoc : ℕ} (hc : c ≠ 0) (hN : 0 < N) (h1 : 1 ≤ binLoc) (hb : binLoc < N) (w : ℝ) :
    (c * (w / (xifn c N).getD binLoc 0)) * (xifn 1 N).getD binLoc 0 = w := by
  have hN' : (N : ℝ) ≠ 0 := by exact_mod_cast hN.ne'
  have hk : ((if binLoc ≤ N / 2 then (binLoc : ℤ) else (binLoc : ℤ) - N : ℤ) : ℝ) ≠ 0 := by
    refine Int.cast_ne_zero.2 ?_
    split_ifs <;> omega
  rw [xifn_getD _ _ _ hb, xifn_getD _ _ _ hb]
  have := Real.pi_ne_zero
  field_simp

/-- **C112**: `find_max_scale` samples the wavelet at the scale `4/π` times its peak frequency; the scale it returns places the bin
`bin_loc` of the scale-1 frequencies at a sampled frequency left of the greatest sample: the last one at which the wavelet is below
`bin_amp` of that greatest sample. -/
theorem C112_value (fn : ℝ → ℝ) (N binLoc : ℕ) (amp : ℝ) (fuel : ℕ) (wc pk s : ℝ) (hp : findPeak fn fuel = some (.ok (wc, pk)))
    (h1 : 1 ≤ binLoc) (h : findMaxScale fn N binLoc amp fuel = some (.ok s)) :
    let g : ℕ → ℝ := sampleFreq (4 / Real.pi * wc) N
    ∃ i m, i < m ∧ m ≤ N / 2 ∧ (∀ j, j < N → j ≤ N / 2 → fn (g j) ≤ fn (g m)) ∧
      s * (xifn 1 N).getD binLoc 0 = g i ∧
      fn (s * (xifn 1 N).getD binLoc 0) < fn (g m) * amp ∧
      ∀ j, i < j → j < m → fn (g m) * amp ≤ fn (g j) := by
  obtain ⟨hN, hb, hwc, i, m, h2, h3, h4, h5, -, h6, h7, h8⟩ := maxScale_ok hp h
  have hc : 4 / Real.pi * wc ≠ 0 := by have := Real.pi_pos; positivity
  have e : s * (xifn 1 N).getD binLoc 0 = sampleFreq (4 / Real.pi * wc) N i := by
    rw [h8]; exact maxScale_bin hc hN h1 hb _
  exact ⟨i, m, h2, h3, h5, e, by rw [e]; exact h6, h7⟩

/-- The search always ends. -/
theorem C112_terminates (fn : ℝ → ℝ) (N binLoc : ℕ) (amp : ℝ) : ∃ fuel r, findMaxScale fn N binLoc amp fuel = some r := by
  obtain ⟨f1, r1, h1⟩ := findPeak_ends fn
  refine ⟨f1, ?_⟩
  unfold findMaxScale
  rw [h1]
  rcases r1 with e | ⟨wp, pk⟩
  · exact ⟨_, rfl⟩
  · rw [andThen_some]
    simp only
    split_ifs
    · exact ⟨_, rfl⟩
    · split <;> exact ⟨_, rfl⟩
    · split <;> exact ⟨_, rfl⟩

theorem sampleFreq_nonneg (c : ℝ) (hc : 0 ≤ c) (N j : ℕ) : 0 ≤ sampleFreq c N j := by
  unfold sampleFreq
  have := Real.pi_pos
  positivity

theorem sampleFreq_mono (c : ℝ) (hc : 0 ≤ c) (N i j : ℕ) (h : i ≤ j) : sampleFreq c N i ≤ sampleFreq c N j := by
  unfold sampleFreq
  have := Real.pi_pos
  have : (i : ℝ) ≤ j := by exact_mod_cast h
  gcongr

/-- The scale found for a non-negative bin. -/
theorem maxScale_pos_bin {fn : ℝ → ℝ} {N binLoc : ℕ} {amp : ℝ} {fuel : ℕ} {wc pk s : ℝ} (hp : findPeak fn fuel = some (.ok (wc, pk)))
    (h1 : 1 ≤ binLoc) (h2 : binLoc ≤ N / 2) (h : findMaxScale fn N binLoc amp fuel = some (.ok s)) :
    ∃ i m, i < m ∧ m ≤ N / 2 ∧ m < N ∧ 0 < N ∧ 0 < 4 / Real.pi * wc ∧
      (∀ j < m, fn (sampleFreq (4 / Real.pi * wc) N j) < fn (sampleFreq (4 / Real.pi * wc) N m)) ∧
      (∀ j, j < N → j ≤ N / 2 → fn (sampleFreq (4 / Real.pi * wc) N j) ≤ fn (sampleFreq (4 / Real.pi * wc) N m)) ∧
      fn (sampleFreq (4 / Real.pi * wc) N i) < fn (sampleFreq (4 / Real.pi * wc) N m) * amp ∧
      (∀ j, i < j → j < m → fn (sampleFreq (4 / Real.pi * wc) N m) * amp ≤ fn (sampleFreq (4 / Real.pi * wc) N j)) ∧
      s = 4 / Real.pi * wc * ((i : ℝ) / binLoc) := by
  obtain ⟨hN, hb, hwc, i, m, h3, h4, h5, h5', h6, h7, h8, h9⟩ := maxScale_ok hp h
  have hpi := Real.pi_pos
  have hc : 0 < 4 / Real.pi * wc := by positivity
  refine ⟨i, m, h3, h4, h5, hN, hc, h6, h5', h7, h8, ?_⟩
  rw [h9, xifn_pos_getD _ _ _ hb h2]
  unfold sampleFreq
  have : (binLoc : ℝ) ≠ 0 := by
    have : binLoc ≠ 0 := by omega
    exact_mod_cast this
  have : (N : ℝ) ≠ 0 := by exact_mod_cast hN.ne'
  field_simp

/-- "Greater `bin_loc` -> lesser `max_scale`": the scale is inversely proportional to `bin_loc`, for the bins of positive frequency. -/
theorem C112_bin_loc (fn : ℝ → ℝ) (N b b' : ℕ) (amp : ℝ) (fuel : ℕ) (s s' : ℝ) (h1 : 1 ≤ b) (hbb : b ≤ b') (h2 : b' ≤ N / 2)
    (h : findMaxScale fn N b amp fuel = some (.ok s)) (h' : findMaxScale fn N b' amp fuel = some (.ok s')) :
    s * b = s' * b' ∧ s' ≤ s := by
  obtain ⟨⟨wc, pk⟩, hp, -⟩ := andThen_ok h
  obtain ⟨i, m, a1, a2, a3, a4, a5, a6, a7, a8, a9, a10⟩ := maxScale_pos_bin hp h1 (by omega) h
  obtain ⟨i', m', b1, b2, b3, b4, b5, b6, b7, b8, b9, b10⟩ := maxScale_pos_bin hp (by omega) h2 h'
  have hm : m = m' := by
    rcases lt_trichotomy m m' with e | e | e
    · have := b6 m e
      have := a7 m' b3 b2
      linarith
    · exact e
    · have := a6 m' e
      have := b7 m a3 a2
      linarith
  subst hm
  have hi : i = i' := by
    rcases lt_trichotomy i i' with e | e | e
    · have := a9 i' e b1; linarith
    · exact e
    · have := b9 i e a1; linarith
  subst hi
  have hb0 : (0 : ℝ) < b := by exact_mod_cast h1
  have hb0' : (0 : ℝ) < b' := by exact_mod_cast (by omega : 0 < b')
  have hble : (b : ℝ) ≤ b' := by exact_mod_cast hbb
  constructor
  · rw [a10, b10]
    field_simp
  · rw [a10, b10]
    gcongr

/-- "Lesser `bin_amp` -> lesser `max_scale`", for a wavelet that is nowhere negative. -/
theorem C112_bin_amp (fn : ℝ → ℝ) (hfn : ∀ w, 0 ≤ fn w) (N b : ℕ) (amp amp' : ℝ) (fuel : ℕ) (s s' : ℝ) (h1 : 1 ≤ b) (h2 : b ≤ N / 2)
    (ha : amp ≤ amp') (h : findMaxScale fn N b amp fuel = some (.ok s)) (h' : findMaxScale fn N b amp' fuel = some (.ok s')) :
    s ≤ s' := by
  obtain ⟨⟨wc, pk⟩, hp, -⟩ := andThen_ok h
  obtain ⟨i, m, a1, a2, a3, a4, a5, a6, a7, a8, a9, a10⟩ := maxScale_pos_bin hp h1 h2 h
  obtain ⟨i', m', b1, b2, b3, b4, b5, b6, b7, b8, b9, b10⟩ := maxScale_pos_bin hp h1 h2 h'
  have hm : m = m' := by
    rcases lt_trichotomy m m' with e | e | e
    · have := b6 m e
      have := a7 m' b3 b2
      linarith
    · exact e
    · have := a6 m' e
      have := b7 m a3 a2
      linarith
  subst hm
  have hi : i ≤ i' := by
    by_contra e
    push Not at e
    have := b9 i e a1
    have hh := mul_le_mul_of_nonneg_left ha (hfn (sampleFreq (4 / Real.pi * wc) N m))
    linarith
  have hii : (i : ℝ) ≤ i' := by exact_mod_cast hi
  have hb0 : (0 : ℝ) < b := by exact_mod_cast h1
  rw [a10, b10]
  gcongr

/-- A usable maximal scale is positive. -/
def C112_full : Prop := ∀ (fn : ℝ → ℝ) (N binLoc : ℕ) (amp : ℝ) (fuel : ℕ) (s : ℝ), 1 ≤ binLoc →
  findMaxScale fn N binLoc amp fuel = some (.ok s) → 0 < s

/-- The triangle sampled at the scale of `find_max_scale`. -/
theorem tri_freq (N j : ℕ) : sampleFreq (4 / Real.pi * 1) N j = 8 * j / N := by
  unfold sampleFreq
  have := Real.pi_ne_zero
  field_simp
  ring

/-- `find_max_scale` of the triangle for `N = 8n`: the sample below the peak. -/
theorem tri_max (n b : ℕ) (hn : 0 < n) (hb : 1 ≤ b) (hb2 : b ≤ 4 * n) (k : ℕ) :
    findMaxScale tri (8 * n) b 1 (k + 2) = some (.ok (4 / Real.pi * (((n - 1 : ℕ) : ℝ) / b))) := by
  have hok : ∃ s, findMaxScale tri (8 * n) b 1 (k + 2) = some (.ok s) := by
    unfold findMaxScale
    rw [tri_peak, andThen_some]
    simp only
    rw [if_neg (by omega)]
    have hl : (((xifn (4 / Real.pi * 1) (8 * n)).map tri).take (8 * n / 2 + 1)).length = min (8 * n / 2 + 1) (8 * n) := psih_length _ _ _
    set psih := ((xifn (4 / Real.pi * 1) (8 * n)).map tri).take (8 * n / 2 + 1) with hps
    have hpg : ∀ j, j < 4 * n + 1 → psih.getD j 0 = tri ((j : ℝ) / n) := by
      intro j hj
      rw [hps, psih_getD tri _ _ j (by omega) (by omega), tri_freq]
      congr 1
      have : (n : ℝ) ≠ 0 := by exact_mod_cast hn.ne'
      push_cast
      field_simp
    have hne : psih ≠ [] := List.ne_nil_of_length_pos (by omega)
    have hmax : rowMax psih = 1 := by
      apply rowMax_eq
      · have : psih.getD n 0 = 1 := by
          rw [hpg n (by omega), div_self (by exact_mod_cast hn.ne'), tri_left 1 (by norm_num) le_rfl]
        rw [← this, List.getD_eq_getElem _ _ (by omega)]
        exact List.getElem_mem _
      · intro y hy
        obtain ⟨j, hj, rfl⟩ := List.mem_iff_getElem.1 hy
        rw [← List.getD_eq_getElem _ 0 hj, hpg j (by omega)]
        exact tri_le _
    have h0 : 0 < argmaxL psih := by
      by_contra e
      have e : argmaxL psih = 0 := by omega
      unfold rowMax at hmax
      rw [e, hpg 0 (by omega)] at hmax
      simp only [Nat.cast_zero, zero_div] at hmax
      rw [tri_left 0 le_rfl (by norm_num)] at hmax
      norm_num at hmax
    have hmem : 0 ∈ whereIdx (psih.take (argmaxL psih)) fun p => p < rowMax psih * 1 := by
      rw [whereIdx_mem]
      refine ⟨by rw [List.length_take]; omega, ?_⟩
      rw [List.getD_eq_getElem?_getD, List.getElem?_take, if_pos h0, ← List.getD_eq_getElem?_getD, hpg 0 (by omega), hmax]
      simp only [Nat.cast_zero, zero_div]
      rw [tri_left 0 le_rfl (by norm_num)]
      norm_num
    rcases hw : (whereIdx (psih.take (argmaxL psih)) fun p => p < rowMax psih * 1).getLast? with _ | i
    · rw [List.getLast?_eq_none_iff.1 hw] at hmem
      simp at hmem
    · simp only
      rw [if_pos (by omega)]
      exact ⟨_, rfl⟩
  obtain ⟨s, hs⟩ := hok
  obtain ⟨i, m, a1, a2, a3, a4, a5, a6, a7, a8, a9, a10⟩ := maxScale_pos_bin (tri_peak k) hb (by omega) hs
  have hn' : (n : ℝ) ≠ 0 := by exact_mod_cast hn.ne'
  have hf : ∀ j : ℕ, sampleFreq (4 / Real.pi * 1) (8 * n) j = (j : ℝ) / n := by
    intro j
    rw [tri_freq]
    push_cast
    field_simp
  have hm1 : tri ((m : ℝ) / n) = 1 := by
    refine le_antisymm (tri_le _) ?_
    have := a7 n (by omega) (by omega)
    rw [hf, hf, div_self hn', tri_left 1 (by norm_num) le_rfl] at this
    exact this
  have hmn : m = n := by
    have := tri_eq_one _ hm1
    rw [div_eq_one_iff_eq hn'] at this
    exact_mod_cast this
  subst hmn
  have hi : i = m - 1 := by
    by_contra e
    have := a9 (m - 1) (by omega) (by omega)
    rw [hf, hf, div_self hn', tri_left 1 (by norm_num) le_rfl] at this
    have h1 : tri (((m - 1 : ℕ) : ℝ) / m) = 1 := le_antisymm (tri_le _) (by linarith)
    have h2 := tri_eq_one _ h1
    rw [div_eq_one_iff_eq hn'] at h2
    have : m - 1 = m := by exact_mod_cast h2
    omega
  rw [hs, a10, hi, mul_one]

/-- For `N = 8` the maximal scale found is zero. -/
theorem C112_refuted : ¬ C112_full := fun h => by
  have := h tri (8 * 1) 1 1 2 _ le_rfl (tri_max 1 1 one_pos le_rfl (by norm_num) 0)
  simp at this

/-- What does hold: the scale is positive exactly if some sample strictly between zero frequency and the greatest sample is below
`bin_amp` of the latter. For a bin of negative frequency the result is never positive. -/
theorem C112_positive_partial (fn : ℝ → ℝ) (N b : ℕ) (amp : ℝ) (fuel : ℕ) (wc pk s : ℝ) (hp : findPeak fn fuel = some (.ok (wc, pk)))
    (h1 : 1 ≤ b) (h : findMaxScale fn N b amp fuel = some (.ok s)) :
    let g : ℕ → ℝ := sampleFreq (4 / Real.pi * wc) N
    (N / 2 < b → s ≤ 0) ∧
    (b ≤ N / 2 → 0 ≤ s ∧ ∃ m, m ≤ N / 2 ∧ (∀ j, j < N → j ≤ N / 2 → fn (g j) ≤ fn (g m)) ∧
      (0 < s ↔ ∃ j, 0 < j ∧ j < m ∧ fn (g j) < fn (g m) * amp)) := by
  intro g
  constructor
  · intro hb
    obtain ⟨hN, hbN, hwc, i, m, h2, h3, h4, h5, -, h6, h7, h8⟩ := maxScale_ok hp h
    have hpi := Real.pi_pos
    have hc : 0 < 4 / Real.pi * wc := by positivity
    have hx : (xifn (4 / Real.pi * wc) N).getD b 0 ≤ 0 := by
      rw [xifn_getD _ _ _ hbN, if_neg (by omega)]
      apply mul_nonpos_of_nonpos_of_nonneg
      · have : (b : ℝ) ≤ N := by exact_mod_cast hbN.le
        push_cast
        linarith
      · positivity
    rw [h8]
    exact mul_nonpos_of_nonneg_of_nonpos hc.le (div_nonpos_of_nonneg_of_nonpos (sampleFreq_nonneg _ hc.le _ _) hx)
  · intro hb
    obtain ⟨i, m, a1, a2, a3, a4, a5, a6, a7, a8, a9, a10⟩ := maxScale_pos_bin hp h1 hb h
    have hb0 : (0 : ℝ) < b := by exact_mod_cast h1
    refine ⟨by rw [a10]; positivity, m, a2, a7, ?_, ?_⟩
    · intro hs
      refine ⟨i, ?_, a1, a8⟩
      by_contra e
      have e : i = 0 := by omega
      rw [a10, e] at hs
      simp at hs
    · rintro ⟨j, j1, j2, j3⟩
      have : j ≤ i := by
        by_contra e
        push Not at e
        have := a9 j e j2
        simp only [g] at j3
        linarith
      have hi : (0 : ℝ) < i := by exact_mod_cast (by omega : 0 < i)
      rw [a10]
      positivity

/-- Witnesses: `N = 32`, bins 1 and 2. -/
example : findPeak tri 2 = some (.ok (1, 1)) ∧ findMaxScale tri 32 1 1 2 = some (.ok (4 / Real.pi * (((3 : ℕ) : ℝ) / (1 : ℕ)))) ∧
    findMaxScale tri 32 2 1 2 = some (.ok (4 / Real.pi * (((3 : ℕ) : ℝ) / (2 : ℕ)))) ∧ (∀ w, 0 ≤ tri w) :=
  ⟨tri_peak 0, tri_max 4 1 (by norm_num) le_rfl (by norm_num) 0, tri_max 4 2 (by norm_num) (by norm_num) (by norm_num) 0, tri_nonneg⟩

end Ssq
