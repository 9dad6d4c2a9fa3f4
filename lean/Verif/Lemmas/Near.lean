import Verif.Lemmas.Grid

/-! The index function on both devices as "nearest integer in `[0, omax]`". -/
namespace Ssq

/-- nearest integer in `[0, omax]` with the device's tie rule -/
noncomputable def nr (d : Device) (omax : ℤ) (t : ℝ) : ℤ :=
  match d with
  | .cpu => min (roundHalfEven (max t 0)) omax
  | .gpu => clampG omax (roundHalfAway t)

theorem nr_range (d : Device) {omax : ℤ} (ho : 0 ≤ omax) (t : ℝ) :
    0 ≤ nr d omax t ∧ nr d omax t ≤ omax := by
  rcases d with _ | _
  · exact clampEven_range t ho
  · exact clampG_range _ ho

theorem nr_near (d : Device) (t : ℝ) {omax i : ℤ} (ho : 0 ≤ omax) (hi0 : 0 ≤ i) (hi : i ≤ omax) :
    |t - (nr d omax t : ℤ)| ≤ |t - i| := by
  rcases d with _ | _
  · exact clampEven_near t ho hi0 hi
  · exact clampG_near t hi0 hi

theorem nr_tie (d : Device) (t : ℝ) {omax i : ℤ} (ho : 0 ≤ omax) (hi0 : 0 ≤ i) (hi : i ≤ omax)
    (hne : i ≠ nr d omax t) (ht : |t - (nr d omax t : ℤ)| = |t - i|) :
    Spec.TieRule d (nr d omax t) i := by
  rcases d with _ | _
  · exact clampEven_tie t ho hi0 hi hne ht
  · exact clampG_tie t hi0 hi hne ht

theorem rha_mono {t s : ℝ} (h : t ≤ s) : roundHalfAway t ≤ roundHalfAway s := by
  unfold roundHalfAway
  split_ifs with h1 h2 h2
  · exact Int.floor_le_floor (by linarith)
  · linarith
  · have a : (0 : ℤ) ≤ ⌊s + 1/2⌋ := Int.floor_nonneg.mpr (by linarith)
    have b : (0 : ℤ) ≤ ⌊-t + 1/2⌋ := Int.floor_nonneg.mpr (by linarith)
    omega
  · have : ⌊-s + 1/2⌋ ≤ ⌊-t + 1/2⌋ := Int.floor_le_floor (by linarith)
    omega

theorem nr_mono (d : Device) {omax : ℤ} (ho : 0 ≤ omax) {t s : ℝ} (h : t ≤ s) :
    nr d omax t ≤ nr d omax s := by
  rcases d with _ | _
  · exact min_le_min_right _ (rhe_mono (max_le_max_right _ h))
  · have := rha_mono h
    simp only [nr, clampG]
    split_ifs <;> omega

theorem nr_nonpos (d : Device) {omax : ℤ} (ho : 0 ≤ omax) {t : ℝ} (h : t ≤ 0) :
    nr d omax t = 0 := by
  have h1 := nr_near d t ho le_rfl ho
  have h2 := nr_range d ho t
  have h3 : (0 : ℝ) ≤ (nr d omax t : ℤ) := by exact_mod_cast h2.1
  rw [abs_of_nonpos (by linarith), abs_of_nonpos (by push_cast; linarith)] at h1
  push_cast at h1
  have : ((nr d omax t : ℤ) : ℝ) ≤ 0 := by linarith
  have : nr d omax t ≤ 0 := by exact_mod_cast this
  omega

theorem log2E_pos {x : ℝ} (h : 0 < x) : log2E x = ((Real.logb 2 x : ℝ) : WithBot ℝ) := by
  unfold log2E; rw [if_neg h.ne']

theorem log2E_zero : log2E 0 = ⊥ := by unfold log2E; rw [if_pos rfl]

theorem bin_lin (d : Device) (a s : ℝ) (omax : ℤ) (x : ℝ) :
    binTP d (.lin a s) omax x = nr d omax ((x - a) / s) := by
  rcases d with _ | _ <;> rfl

theorem bin_log (d : Device) (a s : ℝ) (omax : ℤ) {x : ℝ} (hx : 0 < x) :
    binTP d (.log a s) omax x = nr d omax ((Real.logb 2 x - a) / s) := by
  rcases d with _ | _
  · simp only [binTP, binTwoPass, log2E_pos hx, relPos, nr]
  · simp only [binTP, binGpu, log2E_pos hx, nr]; rfl

theorem bin_log_zero (d : Device) (a s : ℝ) {omax : ℤ} (ho : 0 ≤ omax) :
    binTP d (.log a s) omax 0 = 0 := by
  rcases d with _ | _
  · simp only [binTP, binTwoPass, log2E_zero, relPos, rhe_zero]; omega
  · simp only [binTP, binGpu, log2E_zero]

theorem bin_piece_zero (d : Device) (a b s t : ℝ) (k : ℤ) (omax : ℤ) :
    binTP d (.logPiecewise a b s t k) omax 0 = 0 := by
  rcases d with _ | _
  · simp only [binTP, binTwoPass, log2E_zero, rhe_zero]
  · simp only [binTP, binGpu, log2E_zero]

theorem bin_piece (d : Device) {v0 v1 d0 d1 : ℝ} {k omax : ℤ} (hk : 0 ≤ k)
    (hd1 : 0 < d1) (hd0 : 0 < d0) (hv : (v1 - v0) / d0 ≤ k) {x : ℝ} (hx : 0 < x) :
    binTP d (.logPiecewise v0 v1 d0 d1 k) omax x =
      if v1 < Real.logb 2 x then nr d (omax - k) ((Real.logb 2 x - v1) / d1) + k
      else nr d k ((Real.logb 2 x - v0) / d0) := by
  have hk' : (0 : ℝ) ≤ k := by exact_mod_cast hk
  rcases d with _ | _
  · simp only [binTP, binTwoPass, log2E_pos hx, nr]
    split_ifs with h
    · have : (0 : ℝ) ≤ (Real.logb 2 x - v1) / d1 := div_nonneg (by linarith) hd1.le
      rw [max_eq_left this]
      omega
    · have h1 : (Real.logb 2 x - v0) / d0 ≤ k :=
        (div_le_div_of_nonneg_right (by linarith) hd0.le).trans hv
      have h2 := rhe_mono (max_le h1 hk')
      rw [rhe_intCast] at h2
      omega
  · simp only [binTP, binGpu, log2E_pos hx, nr, clampG]
    by_cases h : v1 < Real.logb 2 x
    · simp only [h, if_true]
      have h1 : (0 : ℝ) ≤ (Real.logb 2 x - v1) / d1 := div_nonneg (by linarith) hd1.le
      have h2 : 0 ≤ roundHalfAway ((Real.logb 2 x - v1) / d1) := by
        unfold roundHalfAway; rw [if_pos h1]; exact Int.floor_nonneg.mpr (by linarith)
      split_ifs <;> omega
    · simp only [h, if_false]
      have h1 : (Real.logb 2 x - v0) / d0 ≤ k :=
        (div_le_div_of_nonneg_right (by linarith) hd0.le).trans hv
      have h2 : roundHalfAway ((Real.logb 2 x - v0) / d0) ≤ k := by
        have h3 := abs_le.mp (rha_abs ((Real.logb 2 x - v0) / d0))
        by_contra hlt
        have h2 : (k : ℝ) + 1 ≤ (roundHalfAway ((Real.logb 2 x - v0) / d0) : ℤ) := by
          exact_mod_cast (not_le.mp hlt)
        linarith
      split_ifs <;> omega

/-- distances on a uniform grid scale with the step -/
theorem abs_grid {x a s : ℝ} (hs : 0 < s) (i : ℝ) : |x - (a + i * s)| = |(x - a) / s - i| * s := by
  rw [← abs_of_pos hs, ← abs_mul, abs_of_pos hs]
  congr 1
  field_simp
  ring

theorem grid_near (d : Device) {x a s : ℝ} (hs : 0 < s) {omax i : ℤ} (ho : 0 ≤ omax) (hi0 : 0 ≤ i)
    (hi : i ≤ omax) :
    |x - (a + (nr d omax ((x - a) / s) : ℤ) * s)| ≤ |x - (a + i * s)| := by
  rw [abs_grid hs, abs_grid hs]
  exact mul_le_mul_of_nonneg_right (nr_near d _ ho hi0 hi) hs.le

theorem grid_tie (d : Device) {x a s : ℝ} (hs : 0 < s) {omax i : ℤ} (ho : 0 ≤ omax) (hi0 : 0 ≤ i)
    (hi : i ≤ omax) (hne : i ≠ nr d omax ((x - a) / s))
    (ht : |x - (a + (nr d omax ((x - a) / s) : ℤ) * s)| = |x - (a + i * s)|) :
    Spec.TieRule d (nr d omax ((x - a) / s)) i := by
  rw [abs_grid hs, abs_grid hs] at ht
  exact nr_tie d _ ho hi0 hi hne (mul_right_cancel₀ hs.ne' ht)

end Ssq
