import Verif.Lemmas.Hump
import Verif.Lemmas.Integrate

/-!
# The trapezoidal rule for functions that rise to a peak and fall
-/
namespace Ssq
open MeasureTheory Spec

variable {f : ℝ → ℝ} {p P : ℝ}

theorem flat_bounds (h : Hump f p P) {a b m K : ℝ} (ha : 0 < a) (hab : a ≤ b) (hm : ∀ w, a ≤ w → w ≤ b → m ≤ f w)
    (hK : ∀ w, a ≤ w → w ≤ b → f w ≤ K) : (b - a) * m ≤ ∫ w in a..b, f w ∧ ∫ w in a..b, f w ≤ (b - a) * K := by
  have hb : 0 < b := ha.trans_le hab
  have e : ∀ c : ℝ, ∫ _ in a..b, c = (b - a) * c := fun c => by rw [intervalIntegral.integral_const, smul_eq_mul]
  constructor
  · rw [← e]
    exact intervalIntegral.integral_mono_on hab intervalIntegrable_const (h.integrable ha hb) fun w hw => hm w hw.1 hw.2
  · rw [← e]
    exact intervalIntegral.integral_mono_on hab (h.integrable ha hb) intervalIntegrable_const fun w hw => hK w hw.1 hw.2

/-- The trapezoidal rule over an increasing mesh of steps at most `H` misses the integral of a function that rises to `P` and falls by at most `H P`. -/
theorem hump_trap (h : Hump f p P) (x : ℕ → ℝ) (H : ℝ) (hH0 : 0 ≤ H) (M : ℕ) (hs : ∀ i ≤ M, 0 < x i) (hinc : ∀ i < M, x i ≤ x (i + 1))
    (hH : ∀ i < M, x (i + 1) - x i ≤ H) :
    |((List.range M).map fun i : ℕ => (x (i + 1) - x i) * ((f (x i) + f (x (i + 1))) / 2)).sum - ∫ w in (x 0)..(x M), f w| ≤ H * P := by
  have hPn := h.P_nonneg
  have key : ∀ m ≤ M,
      (x m ≤ p → |((List.range m).map fun i : ℕ => (x (i + 1) - x i) * ((f (x i) + f (x (i + 1))) / 2)).sum - ∫ w in (x 0)..(x m), f w| ≤
        H / 2 * f (x m)) ∧
      (p ≤ x m → |((List.range m).map fun i : ℕ => (x (i + 1) - x i) * ((f (x i) + f (x (i + 1))) / 2)).sum - ∫ w in (x 0)..(x m), f w| ≤
        H * P - H / 2 * f (x m)) := by
    intro m
    induction m with
    | zero =>
      intro _
      have h0 := h.nonneg (x 0)
      have h1 := h.le (x 0)
      simp only [List.range_zero, List.map_nil, List.sum_nil, intervalIntegral.integral_same, sub_zero, abs_zero]
      exact ⟨fun _ => by positivity, fun _ => by nlinarith⟩
    | succ m ih =>
      intro hm
      have ih := ih (by omega)
      have ha : 0 < x m := hs m (by omega)
      have hab : x m ≤ x (m + 1) := hinc m (by omega)
      have hdH := hH m (by omega)
      rw [List.range_succ, List.map_append, List.sum_append, List.map_singleton, List.sum_singleton,
        ← intervalIntegral.integral_add_adjacent_intervals (h.integrable (hs 0 (by omega)) ha) (h.integrable ha (hs (m + 1) hm))]
      generalize ((List.range m).map fun i : ℕ => (x (i + 1) - x i) * ((f (x i) + f (x (i + 1))) / 2)).sum = S at *
      generalize (∫ w in (x 0)..(x m), f w) = J at *
      have n0 := h.nonneg (x m)
      have n1 := h.nonneg (x (m + 1))
      have l0 := h.le (x m)
      have l1 := h.le (x (m + 1))
      have hd0 : 0 ≤ x (m + 1) - x m := by linarith
      have tri : ∀ {B C I c : ℝ}, |S - J| ≤ B → c - I ≤ C → I - c ≤ C → |S + c - (J + I)| ≤ B + C := by
        intro B C I c h1 h2 h3
        rw [abs_le] at h1 ⊢
        constructor <;> linarith [h1.1, h1.2]
      rcases le_total (x (m + 1)) p with hp | hp
      · have hr := h.rise (x m) (x (m + 1)) ha hab hp
        obtain ⟨c1, c2⟩ := flat_bounds h (m := f (x m)) (K := f (x (m + 1))) ha hab
          (fun w h1 h2 => h.rise _ _ ha h1 (h2.trans hp)) (fun w h1 h2 => h.rise _ _ (ha.trans_le h1) h2 hp)
        have i1 := ih.1 (hab.trans hp)
        have hC : (x (m + 1) - x m) / 2 * (f (x (m + 1)) - f (x m)) ≤ H / 2 * (f (x (m + 1)) - f (x m)) :=
          mul_le_mul_of_nonneg_right (by linarith) (by linarith)
        have A := tri (C := H / 2 * (f (x (m + 1)) - f (x m))) (I := ∫ w in (x m)..(x (m + 1)), f w)
          (c := (x (m + 1) - x m) * ((f (x m) + f (x (m + 1))) / 2)) i1 (by linarith) (by linarith)
        refine ⟨fun _ => by linarith, fun hp' => ?_⟩
        have hpe : x (m + 1) = p := le_antisymm hp hp'
        have hfe : f (x (m + 1)) = P := by rw [hpe, h.top]
        rw [hfe] at A ⊢
        linarith
      · rcases le_total (x m) p with hp0 | hp0
        · obtain ⟨c1, c2⟩ := flat_bounds h (m := min (f (x m)) (f (x (m + 1)))) (K := P) ha hab
            (fun w h1 h2 => by
              rcases le_total w p with h3 | h3
              · exact (min_le_left _ _).trans (h.rise _ _ ha h1 h3)
              · exact (min_le_right _ _).trans (h.fall _ _ h3 h2)) (fun w _ _ => h.le w)
          have i1 := ih.1 hp0
          have hC1 : (x (m + 1) - x m) * (P - (f (x m) + f (x (m + 1))) / 2) ≤ H * (P - (f (x m) + f (x (m + 1))) / 2) :=
            mul_le_mul_of_nonneg_right hdH (by linarith)
          have hC2 : (x (m + 1) - x m) * ((f (x m) + f (x (m + 1))) / 2 - min (f (x m)) (f (x (m + 1)))) ≤
              H * ((f (x m) + f (x (m + 1))) / 2 - min (f (x m)) (f (x (m + 1)))) :=
            mul_le_mul_of_nonneg_right hdH (by
              rcases min_le_iff.1 (le_refl (min (f (x m)) (f (x (m + 1))))) with h | h <;>
                linarith [min_le_left (f (x m)) (f (x (m + 1))), min_le_right (f (x m)) (f (x (m + 1)))])
          have hC3 : H * ((f (x m) + f (x (m + 1))) / 2 - min (f (x m)) (f (x (m + 1)))) ≤ H * (P - (f (x m) + f (x (m + 1))) / 2) := by
            refine mul_le_mul_of_nonneg_left ?_ hH0
            rcases le_total (f (x m)) (f (x (m + 1))) with h | h
            · rw [min_eq_left h]; linarith
            · rw [min_eq_right h]; linarith
          have A := tri (C := H * (P - (f (x m) + f (x (m + 1))) / 2)) (I := ∫ w in (x m)..(x (m + 1)), f w)
            (c := (x (m + 1) - x m) * ((f (x m) + f (x (m + 1))) / 2)) i1 (by linarith) (by linarith)
          have B : |S + (x (m + 1) - x m) * ((f (x m) + f (x (m + 1))) / 2) - (J + ∫ w in (x m)..(x (m + 1)), f w)| ≤
              H * P - H / 2 * f (x (m + 1)) := by linarith
          refine ⟨fun hp' => ?_, fun _ => B⟩
          have hpe : x (m + 1) = p := le_antisymm hp' hp
          have hfe : f (x (m + 1)) = P := by rw [hpe, h.top]
          rw [hfe] at B ⊢
          linarith
        · have hr := h.fall (x m) (x (m + 1)) hp0 hab
          obtain ⟨c1, c2⟩ := flat_bounds h (m := f (x (m + 1))) (K := f (x m)) ha hab
            (fun w h1 h2 => h.fall _ _ (hp0.trans h1) h2) (fun w h1 h2 => h.fall _ _ hp0 h1)
          have i1 := ih.2 hp0
          have hC : (x (m + 1) - x m) / 2 * (f (x m) - f (x (m + 1))) ≤ H / 2 * (f (x m) - f (x (m + 1))) :=
            mul_le_mul_of_nonneg_right (by linarith) (by linarith)
          have A := tri (C := H / 2 * (f (x m) - f (x (m + 1)))) (I := ∫ w in (x m)..(x (m + 1)), f w)
            (c := (x (m + 1) - x m) * ((f (x m) + f (x (m + 1))) / 2)) i1 (by linarith) (by linarith)
          have B : |S + (x (m + 1) - x m) * ((f (x m) + f (x (m + 1))) / 2) - (J + ∫ w in (x m)..(x (m + 1)), f w)| ≤
              H * P - H / 2 * f (x (m + 1)) := by linarith
          refine ⟨fun hp' => ?_, fun _ => B⟩
          have hpe : x (m + 1) = p := le_antisymm hp' hp
          have hfe : f (x (m + 1)) = P := by rw [hpe, h.top]
          rw [hfe] at B ⊢
          linarith
  rcases le_total (x M) p with hp | hp
  · have := (key M le_rfl).1 hp
    have := mul_le_mul_of_nonneg_left (h.le (x M)) hH0
    have := mul_nonneg hH0 (h.nonneg (x M))
    linarith
  · have := (key M le_rfl).2 hp
    have := mul_nonneg hH0 (h.nonneg (x M))
    linarith

theorem near_hump (h : Hump f p P) : |integrateNearZero f - ∫ t in (1 / 10 ^ 15 : ℝ)..(1 / 10), f t| ≤ 1 / 300 * P := by
  unfold integrateNearZero
  rw [trapzX_map f nearMesh (fun k : ℕ => (10 : ℝ) ^ (-15 + (k : ℝ) * (14 / 999))) (by rw [nearMesh_length]; exact nearMesh_getD)]
  rw [nearMesh_length]
  have := hump_trap h (fun k : ℕ => (10 : ℝ) ^ (-15 + (k : ℝ) * (14 / 999))) (1 / 300) (by norm_num) 999 (fun i _ => by positivity)
    (fun i _ => near_mono i (i + 1) (by omega)) (fun i hi => near_step i hi)
  rw [near_first, near_last] at this
  exact this

end Ssq
