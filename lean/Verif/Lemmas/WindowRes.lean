import Verif.Model.WindowRes
import Verif.Lemmas.Dft
import Verif.Lemmas.Xifn
import Mathlib.Tactic.Linarith
import Mathlib.Tactic.FieldSimp

/-!
# Trapezoidal rule on the meshes of `window_area`, Parseval's identity
-/
namespace Ssq
open Finset

/-- Parseval's identity. -/
theorem dft_parseval {n : ℕ} (f : ℕ → ℂ) : ∑ k ∈ range n, ‖dft n f k‖ ^ 2 = n * ∑ j ∈ range n, ‖f j‖ ^ 2 := by
  rcases Nat.eq_zero_or_pos n with rfl | hn
  · simp
  have hn' : (n : ℂ) ≠ 0 := by
    have : n ≠ 0 := by omega
    exact_mod_cast this
  have e : ∀ z : ℂ, ((‖z‖ ^ 2 : ℝ) : ℂ) = z * (starRingEnd ℂ) z := by
    intro z; rw [Complex.mul_conj, Complex.normSq_eq_norm_sq]
  have : ((∑ k ∈ range n, ‖dft n f k‖ ^ 2 : ℝ) : ℂ) = ((n * ∑ j ∈ range n, ‖f j‖ ^ 2 : ℝ) : ℂ) := by
    rw [Complex.ofReal_sum, Complex.ofReal_mul, Complex.ofReal_sum, Complex.ofReal_natCast, mul_sum]
    simp only [e]
    have h1 : ∀ k ∈ range n, dft n f k * (starRingEnd ℂ) (dft n f k) =
        ∑ j ∈ range n, (starRingEnd ℂ) (f j) * (dft n f k * tw n (j * k)) := by
      intro k _
      conv_lhs => rw [dft.eq_def n f k]
      rw [← dft.eq_def n f k, show (starRingEnd ℂ) (dft n f k) = ∑ j ∈ range n, (starRingEnd ℂ) (f j) * tw n (j * k) from by
        unfold dft
        rw [map_sum]
        refine sum_congr rfl fun j _ => ?_
        rw [map_mul, tw_conj, neg_neg], mul_sum]
      refine sum_congr rfl fun j _ => ?_
      ring
    rw [sum_congr rfl h1, sum_comm]
    refine sum_congr rfl fun j hj => ?_
    rw [← mul_sum]
    have h2 := idft_dft f (mem_range.1 hj)
    unfold idft at h2
    rw [div_eq_iff hn'] at h2
    rw [h2]
    ring
  exact_mod_cast this

theorem fftshiftL_length {α : Type} (l : List α) : (fftshiftL l).length = l.length := by simp [fftshiftL]

theorem fftshiftL_getD {α : Type} (l : List α) (d : α) (i : ℕ) (hi : i < l.length) :
    (fftshiftL l).getD i d = l.getD ((i + (l.length - l.length / 2)) % l.length) d := by
  rw [List.getD_eq_getElem _ _ (by rw [fftshiftL_length]; exact hi), List.getD_eq_getElem _ _ (Nat.mod_lt _ (by omega))]
  unfold fftshiftL
  rw [List.getElem_rotate]

theorem getD_sum (l : List ℝ) : l.sum = ∑ i ∈ range l.length, l.getD i 0 := by
  induction l with
  | nil => simp
  | cons a l ih => rw [List.sum_cons, List.length_cons, sum_range_succ', ih, add_comm]; simp

theorem sum_map_range (f : ℕ → ℝ) (n : ℕ) : ((List.range n).map f).sum = ∑ i ∈ range n, f i := by
  induction n with
  | zero => simp
  | succ n ih => rw [List.range_succ, List.map_append, List.sum_append, ih, sum_range_succ]; simp

theorem sum_pairs_adj (y : ℕ → ℝ) (m : ℕ) :
    ∑ i ∈ range (m + 1), (y i + y (i + 1)) / 2 = ∑ i ∈ range (m + 2), y i - (y 0 + y (m + 1)) / 2 := by
  induction m with
  | zero => simp [sum_range_succ]; ring
  | succ m ih => rw [sum_range_succ, ih, sum_range_succ _ (m + 2)]; ring

/-- The rule on a mesh that is uniform from its second point on. -/
theorem trapzX_shifted (y x : List ℝ) (a h : ℝ) (m : ℕ) (hl : y.length = m + 2) (hx : ∀ i, 1 ≤ i → i < m + 2 → x.getD i 0 = a + i * h) :
    trapzX y x = h * (y.sum - (y.getD 0 0 + y.getD (m + 1) 0) / 2) + (a - x.getD 0 0) * ((y.getD 0 0 + y.getD 1 0) / 2) := by
  unfold trapzX
  rw [hl, show m + 2 - 1 = m + 1 from rfl, sum_map_range, getD_sum, hl, ← sum_pairs_adj (fun i => y.getD i 0) m, sum_range_succ', sum_range_succ', mul_add,
    mul_sum]
  have e : ∀ i ∈ range m, (x.getD (i + 1 + 1) 0 - x.getD (i + 1) 0) * ((y.getD (i + 1) 0 + y.getD (i + 1 + 1) 0) / 2) =
      h * ((y.getD (i + 1) 0 + y.getD (i + 1 + 1) 0) / 2) := by
    intro i hi
    rw [mem_range] at hi
    rw [hx (i + 1 + 1) (by omega) (by omega), hx (i + 1) (by omega) (by omega)]
    push_cast
    ring
  rw [sum_congr rfl e, hx (0 + 1) (by omega) (by omega)]
  push_cast
  ring

/-- On a uniform mesh. -/
theorem trapzX_grid (y x : List ℝ) (a h : ℝ) (m : ℕ) (hl : y.length = m + 2) (hx : ∀ i, i < m + 2 → x.getD i 0 = a + i * h) :
    trapzX y x = h * (y.sum - (y.getD 0 0 + y.getD (m + 1) 0) / 2) := by
  rw [trapzX_shifted y x a h m hl (fun i _ hi => hx i hi), hx 0 (by omega)]
  push_cast
  ring

theorem windowT_getD (N i : ℕ) (hi : i < N) : (windowT N).getD i 0 = -(N : ℝ) / 2 + i * 1 := by
  unfold windowT
  rw [getD_map_range _ _ hi, mul_one]

theorem windowWs_length (N : ℕ) : (windowWs N).length = N := by rw [windowWs, fftshiftL_length, xifn_length]

/-- The frequencies, for an odd length, from `-π + π/N` to `π - π/N`. -/
theorem windowWs_odd (m i : ℕ) (hi : i < 2 * m + 1) :
    (windowWs (2 * m + 1)).getD i 0 = -(m : ℝ) * (2 * Real.pi / (2 * m + 1 : ℕ)) + i * (2 * Real.pi / (2 * m + 1 : ℕ)) := by
  unfold windowWs
  rw [fftshiftL_getD _ _ _ (by simpa using hi), xifn_length]
  have h1 : 2 * m + 1 - (2 * m + 1) / 2 = m + 1 := by omega
  rw [h1]
  rcases Nat.lt_or_ge i m with h | h
  · rw [Nat.mod_eq_of_lt (by omega), xifn_getD _ _ _ (by omega), if_neg (by omega)]
    push_cast
    ring
  · have e : i + (m + 1) = (i - m) + (2 * m + 1) := by omega
    rw [e, Nat.add_mod_right, Nat.mod_eq_of_lt (by omega), xifn_getD _ _ _ (by omega), if_pos (by omega)]
    push_cast [Nat.cast_sub h]
    ring

/-- For an even length the first one is `π`, not `-π`. -/
theorem windowWs_even_zero (m : ℕ) (hm : 0 < m) : (windowWs (2 * m)).getD 0 0 = m * (2 * Real.pi / (2 * m : ℕ)) := by
  unfold windowWs
  rw [fftshiftL_getD _ _ _ (by simpa using hm), xifn_length]
  have h1 : 2 * m - 2 * m / 2 = m := by omega
  rw [h1, Nat.mod_eq_of_lt (by omega), xifn_getD _ _ _ (by omega), if_pos (by omega)]
  push_cast
  ring

theorem windowWs_even (m i : ℕ) (h0 : 1 ≤ i) (hi : i < 2 * m) :
    (windowWs (2 * m)).getD i 0 = -(m : ℝ) * (2 * Real.pi / (2 * m : ℕ)) + i * (2 * Real.pi / (2 * m : ℕ)) := by
  unfold windowWs
  rw [fftshiftL_getD _ _ _ (by simpa using hi), xifn_length]
  have h1 : 2 * m - 2 * m / 2 = m := by omega
  rw [h1]
  rcases Nat.lt_or_ge i m with h | h
  · rw [Nat.mod_eq_of_lt (by omega), xifn_getD _ _ _ (by omega), if_neg (by omega)]
    push_cast
    ring
  · have e : i + m = (i - m) + 2 * m := by omega
    rw [e, Nat.add_mod_right, Nat.mod_eq_of_lt (by omega), xifn_getD _ _ _ (by omega), if_pos (by omega)]
    push_cast [Nat.cast_sub h]
    ring

theorem windowPowW_length (w : List ℝ) : (windowPowW w).length = w.length := by
  simp [windowPowW, fftshiftL_length, fftL]

/-- Bin `k` of the power spectrum. -/
noncomputable def specPow (w : List ℝ) (k : ℕ) : ℝ := ‖dft w.length (fun j => ((w.getD j 0 : ℝ) : ℂ)) k‖ ^ 2

theorem windowPowW_getD (w : List ℝ) (i : ℕ) (hi : i < w.length) :
    (windowPowW w).getD i 0 = specPow w ((i + (w.length - w.length / 2)) % w.length) := by
  unfold windowPowW
  have hl : (fftL (w.map fun x : ℝ => (x : ℂ))).length = w.length := by simp [fftL]
  rw [List.getD_eq_getElem _ _ (by simpa [fftshiftL_length, fftL] using hi), List.getElem_map,
    ← List.getD_eq_getElem _ 0 (by simpa [fftshiftL_length, fftL] using hi), fftshiftL_getD _ _ _ (by rw [hl]; exact hi), hl]
  unfold fftL specPow
  rw [List.length_map, getD_map_range _ _ (Nat.mod_lt _ (by omega))]
  congr 2
  apply dft_congr
  intro j hj
  rw [List.getD_eq_getElem _ _ (by simpa using hj), List.getElem_map, List.getD_eq_getElem _ _ hj]

/-- The energy: Parseval's identity for the shifted spectrum. -/
theorem windowPowW_sum (w : List ℝ) : (windowPowW w).sum = w.length * (windowPow w).sum := by
  have h1 : (windowPowW w).sum = ((fftL (w.map fun x : ℝ => (x : ℂ))).map fun z => ‖z‖ ^ 2).sum := by
    unfold windowPowW fftshiftL
    exact ((List.rotate_perm _ _).map _).sum_eq
  rw [h1]
  unfold fftL
  rw [List.length_map, List.map_map, sum_map_range]
  simp only [Function.comp]
  rw [dft_parseval]
  congr 1
  rw [getD_sum]
  unfold windowPow
  rw [List.length_map]
  refine sum_congr rfl fun j hj => ?_
  rw [mem_range] at hj
  rw [List.getD_eq_getElem _ _ (by simpa using hj), List.getD_eq_getElem _ _ (by simpa using hj), List.getElem_map, List.getElem_map]
  simp

/-- The spectrum of a real window is symmetric. -/
theorem specPow_symm (w : List ℝ) (k : ℕ) (hk : k ≤ w.length) (h0 : w ≠ []) : specPow w (w.length - k) = specPow w k := by
  unfold specPow
  rw [dft_real_symm _ hk (by simpa using h0), Complex.norm_conj]

theorem specPow_nonneg (w : List ℝ) (k : ℕ) : 0 ≤ specPow w k := by unfold specPow; positivity

/-- Comparison of two rules on an increasing mesh. -/
theorem trapzX_mono (y z x : List ℝ) (c : ℝ) (hl : y.length = z.length) (hx : ∀ i, i + 1 < y.length → x.getD i 0 ≤ x.getD (i + 1) 0)
    (h : ∀ i, i < y.length → y.getD i 0 ≤ c * z.getD i 0) : trapzX y x ≤ c * trapzX z x := by
  unfold trapzX
  rw [sum_map_range, sum_map_range, mul_sum, hl]
  refine sum_le_sum fun i hi => ?_
  rw [mem_range] at hi
  have h1 := h i (by omega)
  have h2 := h (i + 1) (by omega)
  have h3 := hx i (by omega)
  have : (x.getD (i + 1) 0 - x.getD i 0) * ((y.getD i 0 + y.getD (i + 1) 0) / 2) ≤
      (x.getD (i + 1) 0 - x.getD i 0) * ((c * z.getD i 0 + c * z.getD (i + 1) 0) / 2) :=
    mul_le_mul_of_nonneg_left (by linarith) (by linarith)
  refine le_trans this (le_of_eq ?_)
  ring

theorem trapzX_nonneg (y x : List ℝ) (hx : ∀ i, i + 1 < y.length → x.getD i 0 ≤ x.getD (i + 1) 0) (h : ∀ i, i < y.length → 0 ≤ y.getD i 0) :
    0 ≤ trapzX y x := by
  unfold trapzX
  rw [sum_map_range]
  refine sum_nonneg fun i hi => ?_
  rw [mem_range] at hi
  have h1 := h i (by omega)
  have h2 := h (i + 1) (by omega)
  have h3 := hx i (by omega)
  exact mul_nonneg (by linarith) (by linarith)

theorem trapzX_smul (y z x : List ℝ) (c : ℝ) (hl : y.length = z.length) (h : ∀ i, i < y.length → y.getD i 0 = c * z.getD i 0) :
    trapzX y x = c * trapzX z x := by
  unfold trapzX
  rw [sum_map_range, sum_map_range, mul_sum, hl]
  refine sum_congr rfl fun i hi => ?_
  rw [mem_range] at hi
  rw [h i (by omega), h (i + 1) (by omega)]
  ring

end Ssq
