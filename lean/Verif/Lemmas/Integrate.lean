import Verif.Model.Integrate
import Verif.Props.Search
import Mathlib.MeasureTheory.Integral.IntervalIntegral.Basic
import Mathlib.Topology.EMetricSpace.Lipschitz
import Mathlib.Tactic.Linarith
import Mathlib.Tactic.Positivity

/-! The error of the trapezoidal rule for Lipschitz functions, and the meshes of `integrate_analytic`. -/
namespace Ssq

theorem lip_continuousOn (f : ℝ → ℝ) (A B K : ℝ) (hK0 : 0 ≤ K)
    (hK : ∀ x y, A ≤ x → x ≤ B → A ≤ y → y ≤ B → |f x - f y| ≤ K * |x - y|) : ContinuousOn f (Set.Icc A B) := by
  have : LipschitzOnWith (Real.toNNReal K) f (Set.Icc A B) := by
    apply LipschitzOnWith.of_dist_le_mul
    intro x hx y hy
    rw [Real.dist_eq, Real.dist_eq, Real.coe_toNNReal K hK0]
    exact hK x y hx.1 hx.2 hy.1 hy.2
  exact this.continuousOn

theorem lip_integrable (f : ℝ → ℝ) (A B K : ℝ) (hK0 : 0 ≤ K)
    (hK : ∀ x y, A ≤ x → x ≤ B → A ≤ y → y ≤ B → |f x - f y| ≤ K * |x - y|) (a b : ℝ) (ha : A ≤ a) (hab : a ≤ b) (hb : b ≤ B) :
    IntervalIntegrable f MeasureTheory.volume a b := by
  apply ContinuousOn.intervalIntegrable
  rw [Set.uIcc_of_le hab]
  exact (lip_continuousOn f A B K hK0 hK).mono (Set.Icc_subset_Icc ha hb)

/-- One panel. -/
theorem panel_error (f : ℝ → ℝ) (A B K : ℝ) (hK0 : 0 ≤ K)
    (hK : ∀ x y, A ≤ x → x ≤ B → A ≤ y → y ≤ B → |f x - f y| ≤ K * |x - y|) (a b : ℝ) (ha : A ≤ a) (hab : a ≤ b) (hb : b ≤ B) :
    |(b - a) * ((f a + f b) / 2) - ∫ x in a..b, f x| ≤ K * (b - a) / 2 * (b - a) := by
  have hint := lip_integrable f A B K hK0 hK a b ha hab hb
  have e : (b - a) * ((f a + f b) / 2) - ∫ x in a..b, f x = ∫ x in a..b, ((f a + f b) / 2 - f x) := by
    rw [intervalIntegral.integral_sub intervalIntegrable_const hint, intervalIntegral.integral_const, smul_eq_mul]
  rw [e]
  have := intervalIntegral.norm_integral_le_of_norm_le_const (a := a) (b := b) (C := K * (b - a) / 2)
    (f := fun x => (f a + f b) / 2 - f x) (by
      intro x hx
      rw [Set.uIoc_of_le hab] at hx
      have h1 := hK a x ha (by linarith) (by linarith [hx.1]) (by linarith [hx.2])
      have h2 := hK b x (by linarith) hb (by linarith [hx.1]) (by linarith [hx.2])
      rw [abs_of_nonpos (by linarith [hx.1] : a - x ≤ 0)] at h1
      rw [abs_of_nonneg (by linarith [hx.2] : 0 ≤ b - x)] at h2
      rw [Real.norm_eq_abs]
      have : (f a + f b) / 2 - f x = ((f a - f x) + (f b - f x)) / 2 := by ring
      rw [this, abs_div, abs_two]
      have := abs_add_le (f a - f x) (f b - f x)
      rw [div_le_div_iff_of_pos_right (by norm_num)]
      nlinarith)
  rwa [Real.norm_eq_abs, abs_of_nonneg (by linarith : 0 ≤ b - a)] at this

/-- The composite rule on a mesh `x 0 ≤ … ≤ x n` with steps of at most `δ`. -/
theorem trap_error (f : ℝ → ℝ) (A B K δ : ℝ) (hK0 : 0 ≤ K)
    (hK : ∀ x y, A ≤ x → x ≤ B → A ≤ y → y ≤ B → |f x - f y| ≤ K * |x - y|) (x : ℕ → ℝ) (n : ℕ)
    (hmem : ∀ i ≤ n, A ≤ x i ∧ x i ≤ B) (hmono : ∀ i < n, x i ≤ x (i + 1)) (hstep : ∀ i < n, x (i + 1) - x i ≤ δ) :
    x 0 ≤ x n ∧ |((List.range n).map fun i : ℕ => (x (i + 1) - x i) * ((f (x i) + f (x (i + 1))) / 2)).sum - ∫ t in (x 0)..(x n), f t| ≤
      K * δ / 2 * (x n - x 0) := by
  induction n with
  | zero => simp
  | succ n ih =>
    obtain ⟨h0, h1⟩ := ih (fun i hi => hmem i (by omega)) (fun i hi => hmono i (by omega)) (fun i hi => hstep i (by omega))
    have m0 := hmem 0 (by omega)
    have mn := hmem n (by omega)
    have mn1 := hmem (n + 1) le_rfl
    have hm := hmono n (by omega)
    have hs := hstep n (by omega)
    refine ⟨by linarith, ?_⟩
    rw [List.range_succ, List.map_append, List.sum_append, List.map_singleton, List.sum_singleton]
    rw [← intervalIntegral.integral_add_adjacent_intervals
      (lip_integrable f A B K hK0 hK (x 0) (x n) m0.1 h0 mn.2) (lip_integrable f A B K hK0 hK (x n) (x (n + 1)) mn.1 hm mn1.2)]
    have hp := panel_error f A B K hK0 hK (x n) (x (n + 1)) mn.1 hm mn1.2
    have hp' : K * (x (n + 1) - x n) / 2 * (x (n + 1) - x n) ≤ K * δ / 2 * (x (n + 1) - x n) := by
      apply mul_le_mul_of_nonneg_right _ (by linarith)
      have := mul_le_mul_of_nonneg_left hs hK0
      linarith
    have e : ∀ a b c d : ℝ, a + b - (c + d) = (a - c) + (b - d) := fun _ _ _ _ => by ring
    rw [e]
    refine le_trans (abs_add_le _ _) ?_
    have : K * δ / 2 * (x (n + 1) - x 0) = K * δ / 2 * (x n - x 0) + K * δ / 2 * (x (n + 1) - x n) := by ring
    rw [this]
    linarith

/-! ### The meshes -/

theorem mainMesh_length (L : ℝ) (N : ℕ) : (mainMesh L N).length = N := by simp [mainMesh]

/-- The `k`-th point of the main mesh: it starts one step *after* `0.1`. -/
theorem mainMesh_getD (L : ℝ) (N k : ℕ) (hk : k < N) : (mainMesh L N).getD k 0 = 1 / 10 + (k + 1) * ((L - 1 / 10) / N) := by
  have hN : (N : ℝ) ≠ 0 := by
    have : N ≠ 0 := by omega
    exact_mod_cast this
  rw [List.getD_eq_getElem _ _ (by rw [mainMesh_length]; exact hk)]
  unfold mainMesh
  rw [List.getElem_reverse]
  simp only [List.length_map, List.length_range, List.getElem_map, List.getElem_range]
  rw [Nat.sub_sub, Nat.cast_sub (by omega)]
  push_cast
  field_simp
  ring

theorem nearMesh_length : nearMesh.length = 1000 := by simp [nearMesh]

theorem nearMesh_getD (k : ℕ) (hk : k < 1000) : nearMesh.getD k 0 = (10 : ℝ) ^ (-15 + (k : ℝ) * (14 / 999)) := by
  rw [List.getD_eq_getElem _ _ (by rw [nearMesh_length]; exact hk)]
  simp [nearMesh]

theorem near_first : (10 : ℝ) ^ (-15 + ((0 : ℕ) : ℝ) * (14 / 999)) = 1 / 10 ^ 15 := by
  rw [Nat.cast_zero, zero_mul, add_zero, Real.rpow_neg (by norm_num), one_div]
  congr 1
  exact_mod_cast Real.rpow_natCast 10 15

theorem near_last : (10 : ℝ) ^ (-15 + ((999 : ℕ) : ℝ) * (14 / 999)) = 1 / 10 := by
  have : (-15 + ((999 : ℕ) : ℝ) * (14 / 999)) = -1 := by norm_num
  rw [this, Real.rpow_neg (by norm_num), Real.rpow_one, one_div]

theorem near_mono (i j : ℕ) (h : i ≤ j) : (10 : ℝ) ^ (-15 + (i : ℝ) * (14 / 999)) ≤ (10 : ℝ) ^ (-15 + (j : ℝ) * (14 / 999)) := by
  apply Real.rpow_le_rpow_of_exponent_le (by norm_num)
  have : (i : ℝ) ≤ j := by exact_mod_cast h
  linarith

theorem near_ratio : (29 : ℝ) / 30 ≤ (10 : ℝ) ^ (-(14 / 999) : ℝ) := by
  have h : ((29 : ℝ) / 30) ^ (999 : ℕ) ≤ ((10 : ℝ) ^ (-(14 / 999) : ℝ)) ^ (999 : ℕ) := by
    rw [← Real.rpow_natCast ((10 : ℝ) ^ _), ← Real.rpow_mul (by norm_num)]
    have e : (-(14 / 999) : ℝ) * ((999 : ℕ) : ℝ) = -((14 : ℕ) : ℝ) := by norm_num
    rw [e, Real.rpow_neg (by norm_num), Real.rpow_natCast]
    have h1 : ((29 : ℝ) / 30) ^ 111 ≤ 1 / 40 := by norm_num
    calc ((29 : ℝ) / 30) ^ 999 = (((29 : ℝ) / 30) ^ 111) ^ 9 := by rw [← pow_mul]
      _ ≤ (1 / 40) ^ 9 := pow_le_pow_left₀ (by positivity) h1 9
      _ ≤ _ := by norm_num
  exact le_of_pow_le_pow_left₀ (by norm_num) (by positivity) h

theorem near_step (i : ℕ) (h : i < 999) :
    (10 : ℝ) ^ (-15 + ((i + 1 : ℕ) : ℝ) * (14 / 999)) - (10 : ℝ) ^ (-15 + (i : ℝ) * (14 / 999)) ≤ 1 / 300 := by
  have e : (10 : ℝ) ^ (-15 + (i : ℝ) * (14 / 999)) =
      (10 : ℝ) ^ (-15 + ((i + 1 : ℕ) : ℝ) * (14 / 999)) * (10 : ℝ) ^ (-(14 / 999) : ℝ) := by
    rw [← Real.rpow_add (by norm_num)]
    congr 1
    push_cast
    ring
  have h1 := near_mono (i + 1) 999 (by omega)
  rw [near_last] at h1
  have h2 := near_ratio
  have h3 : (0 : ℝ) < (10 : ℝ) ^ (-15 + ((i + 1 : ℕ) : ℝ) * (14 / 999)) := by positivity
  rw [e]
  nlinarith

/-- The trapezoidal rule on values `f` of a mesh given by a function. -/
theorem trapzX_map (f : ℝ → ℝ) (t : List ℝ) (x : ℕ → ℝ) (hx : ∀ i < t.length, t.getD i 0 = x i) :
    trapzX (t.map f) t = ((List.range (t.length - 1)).map fun i : ℕ => (x (i + 1) - x i) * ((f (x i) + f (x (i + 1))) / 2)).sum := by
  unfold trapzX
  rw [List.length_map]
  congr 1
  apply List.map_congr_left
  intro i hi
  rw [List.mem_range] at hi
  have hf : ∀ j < t.length, (t.map f).getD j 0 = f (x j) := by
    intro j hj
    rw [List.getD_eq_getElem _ _ (by simpa using hj), List.getElem_map, ← List.getD_eq_getElem _ 0 hj, hx j hj]
  rw [hx _ (by omega), hx _ (by omega), hf _ (by omega), hf _ (by omega)]

/-- The part near zero. -/
theorem near_error (f : ℝ → ℝ) (B K : ℝ) (hB : 1 / 10 ≤ B) (hK0 : 0 ≤ K)
    (hK : ∀ x y, 1 / 10 ^ 15 ≤ x → x ≤ B → 1 / 10 ^ 15 ≤ y → y ≤ B → |f x - f y| ≤ K * |x - y|) :
    |integrateNearZero f - ∫ t in (1 / 10 ^ 15 : ℝ)..(1 / 10), f t| ≤ K / 6000 := by
  unfold integrateNearZero
  rw [trapzX_map f nearMesh (fun k : ℕ => (10 : ℝ) ^ (-15 + (k : ℝ) * (14 / 999))) (by rw [nearMesh_length]; exact nearMesh_getD)]
  rw [nearMesh_length]
  have := (trap_error f (1 / 10 ^ 15) B K (1 / 300) hK0 hK (fun k : ℕ => (10 : ℝ) ^ (-15 + (k : ℝ) * (14 / 999))) 999 (by
    intro i hi
    constructor
    · rw [← near_first]; exact near_mono 0 i (by omega)
    · refine le_trans (near_mono i 999 hi) ?_
      rw [near_last]; exact hB) (fun i _ => near_mono i (i + 1) (by omega)) (fun i hi => near_step i hi)).2
  rw [near_first, near_last] at this
  refine le_trans this ?_
  nlinarith

end Ssq
