import Verif.Props.Resolution

/-!
# The centre frequency and the frequency width stay in the band (C192)
-/
namespace Ssq

/-- A weighted average with weights of one sign lies between the bounds of the averaged values. -/
theorem trapz_weighted_le (x p : List ℝ) (hl : x.length = p.length) (hp : ∀ i, 0 ≤ p.getD i 0) (g : ℝ → ℝ) (B : ℝ)
    (hB : ∀ i, i < x.length → g (x.getD i 0) ≤ B) :
    trapz (List.zipWith (fun a b => g a * b) x p) ≤ B * trapz p := by
  unfold trapz
  rw [List.length_zipWith, hl, min_self, ← List.sum_map_mul_left]
  refine List.sum_le_sum fun i hi => ?_
  rw [List.mem_range] at hi
  have e : ∀ j, j < x.length → (List.zipWith (fun a b => g a * b) x p).getD j 0 = g (x.getD j 0) * p.getD j 0 := by
    intro j hj
    simp only [List.getD_eq_getElem?_getD, List.getElem?_zipWith]
    rw [List.getElem?_eq_getElem hj, List.getElem?_eq_getElem (by omega)]; simp
  rw [e i (by omega), e (i + 1) (by omega)]
  have h1 := mul_le_mul_of_nonneg_right (hB i (by omega)) (hp i)
  have h2 := mul_le_mul_of_nonneg_right (hB (i + 1) (by omega)) (hp (i + 1))
  linarith

/-- The frequencies of odd length: the highest comes first, then they rise from the lowest. -/
theorem shiftedXi_odd (M : ℕ) :
    (shiftedXi (2 * M + 1)).length = 2 * M + 1 ∧
    (shiftedXi (2 * M + 1)).getD 0 0 = 2 * Real.pi / (2 * M + 1) * M ∧
    ∀ i, 1 ≤ i → i < 2 * M + 1 → (shiftedXi (2 * M + 1)).getD i 0 = 2 * Real.pi / (2 * M + 1) * ((i : ℝ) - 1 - M) := by
  have e : shiftedXi (2 * M + 1) = (xifn 1 (2 * M + 1)).rotate M := by
    unfold shiftedXi aifftshift ifftshiftL
    rw [if_neg (by rw [xifn_length]; omega), xifn_length]
    congr 1; omega
  have hg : ∀ i, i < 2 * M + 1 → (shiftedXi (2 * M + 1)).getD i 0 = (xifn 1 (2 * M + 1)).getD ((i + M) % (2 * M + 1)) 0 := by
    intro i hi
    rw [e, List.getD_eq_getElem _ _ (by simpa using hi), List.getElem_rotate]
    simp only [xifn_length]
    rw [List.getD_eq_getElem]
  refine ⟨by rw [e]; simp, ?_, fun i h1 h2 => ?_⟩
  · rw [hg 0 (by omega), Nat.zero_add, Nat.mod_eq_of_lt (by omega), xifn_getD _ _ _ (by omega), if_pos (by omega)]
    push_cast; ring
  · rw [hg i h2]
    by_cases h : i + M < 2 * M + 1
    · rw [Nat.mod_eq_of_lt h, xifn_getD _ _ _ (by omega), if_neg (by omega)]
      push_cast; ring
    · rw [Nat.mod_eq_sub_mod (by omega), Nat.mod_eq_of_lt (by omega), xifn_getD _ _ _ (by omega), if_pos (by omega)]
      rw [show (i + M - (2 * M + 1) : ℕ) = i - (M + 1) by omega]
      push_cast [Nat.cast_sub (show M + 1 ≤ i by omega)]; ring

/-- Every frequency is at most the Nyquist frequency. -/
theorem shiftedXi_abs (N : ℕ) (hN : 1 ≤ N) (i : ℕ) (hi : i < N) : |(shiftedXi N).getD i 0| ≤ Real.pi := by
  have hpi := Real.pi_pos
  rcases Nat.even_or_odd' N with ⟨M, rfl | rfl⟩
  · obtain ⟨_, h2, _⟩ := C50_sorted_partial 1 one_pos (2 * M) (by omega) (by omega)
    unfold shiftedXi
    rw [h2 i hi, show (2 * M / 2 : ℕ) = M by omega]
    have hM : (1 : ℝ) ≤ M := by exact_mod_cast (by omega : 1 ≤ M)
    have hi' : (i : ℝ) + 1 ≤ 2 * M := by exact_mod_cast hi
    have hi0 : (0 : ℝ) ≤ i := Nat.cast_nonneg i
    push_cast
    rw [show 2 * Real.pi * 1 / (2 * (M : ℝ)) * ((i : ℝ) + 1 - M) = Real.pi * (((i : ℝ) + 1 - M) / M) by field_simp, abs_mul, abs_of_pos hpi]
    refine mul_le_of_le_one_right hpi.le ?_
    rw [abs_div, abs_of_pos (show (0 : ℝ) < M by linarith), div_le_one (by linarith), abs_le]
    constructor <;> linarith
  · obtain ⟨_, h0, h1⟩ := shiftedXi_odd M
    have hM : (0 : ℝ) ≤ M := Nat.cast_nonneg M
    have key : ∀ t : ℝ, |t| ≤ M → |2 * Real.pi / (2 * M + 1) * t| ≤ Real.pi := by
      intro t ht
      rw [abs_mul, abs_of_pos (by positivity), div_mul_eq_mul_div, div_le_iff₀ (by linarith)]
      nlinarith
    rcases Nat.eq_zero_or_pos i with rfl | hp
    · rw [h0]; exact key _ (by rw [abs_of_nonneg hM])
    · rw [h1 i hp hi]
      refine key _ ?_
      have hi' : (i : ℝ) ≤ 2 * M := by exact_mod_cast (by omega : i ≤ 2 * M)
      have hi1 : (1 : ℝ) ≤ i := by exact_mod_cast hp
      rw [abs_le]; constructor <;> linarith

theorem shiftedXi_len (N : ℕ) (hN : 1 ≤ N) : (shiftedXi N).length = N := by
  rcases Nat.even_or_odd' N with ⟨M, rfl | rfl⟩
  · exact shiftedXi_length _ (by omega) (by omega)
  · exact (shiftedXi_odd M).1

/-- **C192**, centre: the energy centre frequency, at every length, even or odd, lies between minus and plus the Nyquist
frequency. -/
theorem C192_centre (f : WFn) (peakCt : ℝ) (scale : Option ℝ) (N : ℕ) (hN : 1 ≤ N) (fi : Option Bool) :
    |centerEnergy f peakCt scale N fi| ≤ Real.pi := by
  rw [C86_ignored]
  set s := scale.getD (4 / Real.pi * peakCt)
  unfold energyMean
  have hp := apsih2_nonneg f s (shiftedXi N)
  have hl : (shiftedXi N).length = (apsih2 f s (shiftedXi N)).length := (apsih2_length _ _ _).symm
  have h0 := trapz_nonneg _ hp
  have hlen := shiftedXi_len N hN
  rw [List.zipWith_comm]
  simp only [mul_comm]
  have h1 := trapz_weighted_le _ _ hl hp (fun a => a) Real.pi fun i hi => (abs_le.1 (shiftedXi_abs N hN i (by omega))).2
  have h2 := trapz_weighted_le _ _ hl hp (fun a => -a) Real.pi fun i hi => by
    have := (abs_le.1 (shiftedXi_abs N hN i (by omega))).1
    linarith
  have h3 : trapz (List.zipWith (fun a b => -a * b) (shiftedXi N) (apsih2 f s (shiftedXi N))) =
      - trapz (List.zipWith (fun a b => a * b) (shiftedXi N) (apsih2 f s (shiftedXi N))) := by
    unfold trapz
    rw [← neg_one_mul, ← List.sum_map_mul_left]
    simp only [List.length_zipWith]
    congr 1
    refine List.map_congr_left fun i _ => ?_
    rw [zipWith_getD0 _ _ _ hl (by simp), zipWith_getD0 _ _ _ hl (by simp), zipWith_getD0 _ _ _ hl (by simp),
      zipWith_getD0 _ _ _ hl (by simp)]
    ring
  rw [h3] at h2
  rcases h0.eq_or_lt with h | h
  · rw [← h, div_zero, abs_zero]; exact Real.pi_pos.le
  · rw [abs_div, abs_of_pos h, div_le_iff₀ h, abs_le]
    constructor <;> linarith

/-- C192 in full: the frequency width is at most the width of the band, at every length. -/
def C192_full : Prop := ∀ (f : WFn) (peakCt scale : ℝ) (N : ℕ), 0 < scale → 2 ≤ N →
  freqResolution f peakCt scale N ≤ 2 * Real.pi

/-- **C192**, width: for even length the frequency width is at most the width of the band. Missing: odd lengths, for which it
is false. -/
theorem C192_width_partial (f : WFn) (peakCt scale : ℝ) (N : ℕ) (hN : 2 ≤ N) (he : N % 2 = 0) :
    freqResolution f peakCt scale N ≤ 2 * Real.pi := by
  have hc := C192_centre f peakCt (some scale) 1024 (by norm_num) (some true)
  unfold freqResolution
  simp only
  set c := centerEnergy f peakCt (some scale) 1024 (some true)
  have hpi := Real.pi_pos
  have hlen := shiftedXi_length N hN he
  have hl : (shiftedXi N).length = (apsih2 f scale (shiftedXi N)).length := (apsih2_length _ _ _).symm
  have hp := apsih2_nonneg f scale (shiftedXi N)
  have h0 := trapz_nonneg _ hp
  have hd : (0 : ℝ) < 2 * Real.pi * 1 / N := by
    have : (0 : ℝ) < N := by exact_mod_cast (by omega : 0 < N)
    positivity
  rw [trapzX_uniform _ _ (2 * Real.pi * 1 / N), trapzX_uniform _ _ (2 * Real.pi * 1 / N), mul_div_mul_left _ _ hd.ne']
  · refine Real.sqrt_le_iff.2 ⟨by linarith, ?_⟩
    have h1 := trapz_weighted_le _ _ hl hp (fun a => (a - c) ^ 2) ((2 * Real.pi) ^ 2) fun i hi => by
      have h := shiftedXi_abs N (by omega) i (by omega)
      rw [abs_le] at h hc
      refine sq_le_sq' ?_ ?_ <;> linarith [h.1, h.2, hc.1, hc.2]
    rcases h0.eq_or_lt with h | h
    · rw [← h, div_zero]; positivity
    · rw [div_le_iff₀ h]; exact h1
  · intro i hi
    exact shiftedXi_step N hN he i (by rw [apsih2_length, hlen] at hi; exact hi)
  · intro i hi
    refine shiftedXi_step N hN he i ?_
    rw [List.length_zipWith, apsih2_length, hlen, min_self] at hi
    exact hi

/-- The trapezoid rule for a parabola over `m` equal steps. -/
theorem trap_parabola (u h : ℝ) (m : ℕ) :
    ((List.range m).map fun k : ℕ => ((u + k * h) ^ 2 + (u + (k + 1) * h) ^ 2) / 2).sum =
      m * u ^ 2 + u * h * m ^ 2 + h ^ 2 * (m ^ 3 / 3 + m / 6) := by
  induction m with
  | zero => simp
  | succ m ih =>
    rw [List.range_succ, List.map_append, List.sum_append, ih]
    simp only [List.map_cons, List.map_nil, List.sum_cons, List.sum_nil]
    push_cast
    ring

/-- The integral over the frequencies of odd length: the step from the highest frequency to the lowest counts backwards. -/
theorem trapzX_odd (M : ℕ) (hM : 1 ≤ M) (y : ℕ → ℝ) (l : List ℝ) (hl : l.length = 2 * M + 1) (hy : ∀ i, i < 2 * M + 1 → l.getD i 0 = y i) :
    trapzX l (shiftedXi (2 * M + 1)) = 2 * Real.pi / (2 * M + 1) *
      (((List.range (2 * M - 1)).map fun k : ℕ => (y (k + 1) + y (k + 2)) / 2).sum - 2 * M * ((y 0 + y 1) / 2)) := by
  obtain ⟨_, h0, h1⟩ := shiftedXi_odd M
  unfold trapzX
  rw [hl, show 2 * M + 1 - 1 = (2 * M - 1) + 1 by omega, List.range_succ_eq_map, List.map_cons, List.sum_cons, List.map_map,
    mul_sub, ← List.sum_map_mul_left, h0, h1 1 le_rfl (by omega), hy 0 (by omega), hy 1 (by omega)]
  have : ((List.range (2 * M - 1)).map ((fun i : ℕ => ((shiftedXi (2 * M + 1)).getD (i + 1) 0 - (shiftedXi (2 * M + 1)).getD i 0) *
      ((l.getD i 0 + l.getD (i + 1) 0) / 2)) ∘ Nat.succ)) = (List.range (2 * M - 1)).map fun k : ℕ =>
        2 * Real.pi / (2 * M + 1) * ((y (k + 1) + y (k + 2)) / 2) := by
    refine List.map_congr_left fun k hk => ?_
    rw [List.mem_range] at hk
    simp only [Function.comp, Nat.succ_eq_add_one]
    rw [h1 (k + 1) (by omega) (by omega), h1 (k + 1 + 1) (by omega) (by omega), hy (k + 1) (by omega), hy (k + 1 + 1) (by omega)]
    push_cast
    ring
  rw [this]
  push_cast
  ring

/-- A flat spectrum of odd length `N = 2 M + 1`: the square of the width grows with the length. -/
theorem C192_odd_flat (peakCt scale : ℝ) (M : ℕ) (hM : 2 ≤ M) :
    M * Real.pi ^ 2 / 2 ≤ freqResolution (.real fun _ => 1) peakCt scale (2 * M + 1) ^ 2 := by
  have hpi := Real.pi_pos
  have hMr : (2 : ℝ) ≤ M := by exact_mod_cast hM
  obtain ⟨hlen, h0, h1⟩ := shiftedXi_odd M
  have hc : centerEnergy (.real fun _ => 1) peakCt (some scale) 1024 (some true) = Real.pi / 1024 := by
    have := mean_flat 1024 (by norm_num) (by norm_num)
    rw [C86_ignored]
    unfold energyMean
    rw [apsih2_const, shiftedXi_length 1024 (by norm_num) (by norm_num), List.zipWith_comm]
    unfold Spec.trapMean at this
    simp only [mul_comm] at this ⊢
    rw [this]
    norm_num
  unfold freqResolution
  simp only
  rw [hc, apsih2_const, hlen]
  set h := 2 * Real.pi / (2 * M + 1) with hh
  set c := Real.pi / 1024 with hcc
  have hhp : 0 < h := by rw [hh]; positivity
  have hden : trapzX (List.replicate (2 * M + 1) 1) (shiftedXi (2 * M + 1)) = -h := by
    rw [trapzX_odd M (by omega) (fun _ => 1) _ (by simp) fun i hi => List.getD_replicate _ hi, ← hh]
    simp only [List.map_const', List.length_range, List.sum_replicate, nsmul_eq_mul]
    rw [Nat.cast_sub (by omega)]
    push_cast
    ring
  have hm : ((2 * M - 1 : ℕ) : ℝ) = 2 * M - 1 := by rw [Nat.cast_sub (by omega)]; push_cast; ring
  have hnum : trapzX (List.zipWith (fun x p => (x - c) ^ 2 * p) (shiftedXi (2 * M + 1)) (List.replicate (2 * M + 1) 1)) (shiftedXi (2 * M + 1)) =
      -h * (2 * M ^ 3 * h ^ 2 + 2 * M * c ^ 2 - (2 * M - 1) * (c + h / 2) ^ 2 - h ^ 2 * ((2 * M - 1) ^ 3 / 12 + (2 * M - 1) / 6)) := by
    have hl : (shiftedXi (2 * M + 1)).length = (List.replicate (2 * M + 1) (1 : ℝ)).length := by rw [hlen, List.length_replicate]
    rw [trapzX_odd M (by omega) (fun i => if i = 0 then (M * h - c) ^ 2 else ((-M * h - c) + ((i - 1 : ℕ) : ℝ) * h) ^ 2) _
      (by rw [List.length_zipWith, hlen, List.length_replicate, min_self]), ← hh]
    · simp only [Nat.add_eq_zero_iff, one_ne_zero, and_false, if_false, if_true, OfNat.ofNat_ne_zero, Nat.add_sub_cancel, Nat.sub_self,
        Nat.cast_zero, zero_mul, add_zero]
      have e : ∀ k : ℕ, ((k + 2 - 1 : ℕ) : ℝ) = k + 1 := fun k => by rw [show k + 2 - 1 = k + 1 by omega]; push_cast; rfl
      simp only [e]
      rw [trap_parabola, hm]
      ring
    · intro i hi
      rw [zipWith_getD0 _ _ _ hl (by simp), List.getD_replicate _ hi, mul_one]
      rcases Nat.eq_zero_or_pos i with rfl | hp
      · rw [h0, if_pos rfl]; ring
      · rw [h1 i hp hi, if_neg (by omega), Nat.cast_sub hp]
        push_cast
        ring
  have hb : (M : ℝ) * h ^ 2 * M ≥ 16 / 25 * Real.pi ^ 2 := by
    have : h * M ≥ 4 / 5 * Real.pi := by
      rw [hh, div_mul_eq_mul_div, ge_iff_le, le_div_iff₀ (by linarith)]
      nlinarith
    nlinarith
  have hb2 : h ≤ 2 / 5 * Real.pi := by
    rw [hh, div_le_iff₀ (by linarith)]
    nlinarith
  have hvar : M * Real.pi ^ 2 / 2 ≤ 2 * M ^ 3 * h ^ 2 + 2 * M * c ^ 2 - (2 * M - 1) * (c + h / 2) ^ 2 - h ^ 2 * ((2 * M - 1) ^ 3 / 12 + (2 * M - 1) / 6) := by
    have hc2 : c ^ 2 = Real.pi ^ 2 / 1024 ^ 2 := by rw [hcc]; ring
    have h2 : (c + h / 2) ^ 2 ≤ 2 * c ^ 2 + h ^ 2 / 2 := by nlinarith [sq_nonneg (c - h / 2)]
    have h3 : (2 * (M : ℝ) - 1) * (c + h / 2) ^ 2 ≤ 2 * M * (2 * c ^ 2 + h ^ 2 / 2) :=
      mul_le_mul (by linarith) h2 (sq_nonneg _) (by linarith)
    have h4 : (2 * (M : ℝ) - 1) ^ 3 / 12 + (2 * M - 1) / 6 ≤ 2 / 3 * M ^ 3 + M / 3 := by nlinarith [sq_nonneg ((M : ℝ) - 1)]
    have h5 : h ^ 2 * ((2 * (M : ℝ) - 1) ^ 3 / 12 + (2 * M - 1) / 6) ≤ h ^ 2 * (2 / 3 * M ^ 3 + M / 3) :=
      mul_le_mul_of_nonneg_left h4 (sq_nonneg _)
    have h6 : (M : ℝ) ^ 3 * h ^ 2 ≥ M * (16 / 25 * Real.pi ^ 2) := by
      have := mul_le_mul_of_nonneg_left hb (show (0 : ℝ) ≤ M by linarith)
      nlinarith
    have h7 : (M : ℝ) * h ^ 2 ≤ M * (4 / 25 * Real.pi ^ 2) := by
      refine mul_le_mul_of_nonneg_left ?_ (by linarith)
      nlinarith
    rw [hc2] at h3 ⊢
    have hp2 : 0 ≤ M * Real.pi ^ 2 := by positivity
    nlinarith
  rw [hnum, hden, mul_div_cancel_left₀ _ (neg_ne_zero.2 hhp.ne'), Real.sq_sqrt (le_trans (by positivity) hvar)]
  exact hvar

/-- At length 19 a flat spectrum is wider than the band. -/
theorem C192_refuted : ¬ C192_full := fun h => by
  have h1 := h (.real fun _ => 1) 0 1 (2 * 9 + 1) one_pos (by norm_num)
  have h2 := C192_odd_flat 0 1 9 (by norm_num)
  have h3 : 0 ≤ freqResolution (.real fun _ => 1) 0 1 (2 * 9 + 1) := Real.sqrt_nonneg _
  have hpi := Real.pi_pos
  have h4 := pow_le_pow_left₀ h3 h1 2
  have h5 : 0 < Real.pi ^ 2 := by positivity
  push_cast at h2
  nlinarith

/-- The partial theorem at an even length: a flat spectrum with nonzero integral. -/
example : trapz (apsih2 (.real fun _ => 1) 1 (shiftedXi 8)) ≠ 0 ∧ freqResolution (.real fun _ => 1) 0 1 8 ≤ 2 * Real.pi := by
  refine ⟨?_, C192_width_partial _ _ _ 8 (by norm_num) (by norm_num)⟩
  rw [apsih2_const, shiftedXi_length 8 (by norm_num) (by norm_num), trapz_ones]
  norm_num

end Ssq
