import Mathlib.Analysis.SpecialFunctions.Integrals.Basic
import Mathlib.MeasureTheory.Integral.IntervalIntegral.Basic
import Mathlib.Analysis.SpecialFunctions.Log.Basic
import Mathlib.Algebra.BigOperators.Intervals

/-!
# Sums over logarithmic meshes of functions that rise to a peak and fall
-/
namespace Ssq
open MeasureTheory

namespace Spec

/-- `f` is zero up to frequency zero, is never negative, rises up to `p` and falls from there, with `f p = P`. -/
structure Hump (f : ℝ → ℝ) (p P : ℝ) : Prop where
  peak_pos : 0 < p
  zero : ∀ w ≤ 0, f w = 0
  nonneg : ∀ w, 0 ≤ f w
  rise : ∀ v w, 0 < v → v ≤ w → w ≤ p → f v ≤ f w
  fall : ∀ v w, p ≤ v → v ≤ w → f w ≤ f v
  top : f p = P

end Spec
open Spec

variable {f : ℝ → ℝ} {p P : ℝ}

theorem Spec.Hump.le (h : Hump f p P) (w : ℝ) : f w ≤ P := by
  rcases le_or_gt w 0 with h0 | h0
  · rw [h.zero w h0, ← h.top]; exact h.nonneg p
  rcases le_total w p with h1 | h1
  · rw [← h.top]; exact h.rise w p h0 h1 le_rfl
  · rw [← h.top]; exact h.fall p w le_rfl h1

theorem Spec.Hump.P_nonneg (h : Hump f p P) : 0 ≤ P := (h.nonneg p).trans (h.le p)

theorem Spec.Hump.integrable (h : Hump f p P) {a b : ℝ} (ha : 0 < a) (hb : 0 < b) : IntervalIntegrable f volume a b := by
  have key : ∀ c, 0 < c → IntervalIntegrable f volume c p := by
    intro c hc
    rcases le_total c p with h1 | h1
    · refine MonotoneOn.intervalIntegrable fun v hv w hw hvw => ?_
      rw [Set.uIcc_of_le h1] at hv hw
      exact h.rise v w (hc.trans_le hv.1) hvw hw.2
    · refine AntitoneOn.intervalIntegrable fun v hv w hw hvw => ?_
      rw [Set.uIcc_of_ge h1] at hv hw
      exact h.fall v w hv.1 hvw
  exact (key a ha).trans (key b hb).symm

theorem Spec.Hump.integrable_div (h : Hump f p P) {a b : ℝ} (ha : 0 < a) (hb : 0 < b) :
    IntervalIntegrable (fun w => f w / w) volume a b := by
  simp only [div_eq_mul_inv]
  refine (h.integrable ha hb).mul_continuousOn ?_
  refine continuousOn_inv₀.mono fun w hw => ?_
  have := lt_of_lt_of_le (lt_min ha hb) hw.1
  exact this.ne'

theorem integral_const_div {a b : ℝ} (ha : 0 < a) (hb : 0 < b) (m : ℝ) :
    ∫ w in a..b, m / w = m * (Real.log b - Real.log a) := by
  simp only [div_eq_mul_inv]
  rw [intervalIntegral.integral_const_mul, integral_inv_of_pos ha hb, Real.log_div hb.ne' ha.ne']

theorem cell_bounds (h : Hump f p P) {a b m K : ℝ} (ha : 0 < a) (hab : a ≤ b) (hm : ∀ w, a ≤ w → w ≤ b → m ≤ f w)
    (hK : ∀ w, a ≤ w → w ≤ b → f w ≤ K) :
    m * (Real.log b - Real.log a) ≤ ∫ w in a..b, f w / w ∧ ∫ w in a..b, f w / w ≤ K * (Real.log b - Real.log a) := by
  have hb : 0 < b := ha.trans_le hab
  have hc : ∀ c : ℝ, IntervalIntegrable (fun w => c / w) volume a b := by
    intro c
    simp only [div_eq_mul_inv]
    refine ContinuousOn.intervalIntegrable ?_
    rw [Set.uIcc_of_le hab]
    exact continuousOn_const.mul (continuousOn_inv₀.mono fun w hw => (ha.trans_le hw.1).ne')
  constructor
  · rw [← integral_const_div ha hb]
    exact intervalIntegral.integral_mono_on hab (hc m) (h.integrable_div ha hb)
      fun w hw => div_le_div_of_nonneg_right (hm w hw.1 hw.2) (ha.trans_le hw.1).le
  · rw [← integral_const_div ha hb]
    exact intervalIntegral.integral_mono_on hab (h.integrable_div ha hb) (hc K)
      fun w hw => div_le_div_of_nonneg_right (hK w hw.1 hw.2) (ha.trans_le hw.1).le

/-- The weighted sum over an increasing mesh, each weight being the logarithmic length of the cell before the point, differs from the integral of
`f w / w` by at most the largest weight times the largest value. -/
theorem mesh_sum (h : Hump f p P) (s q : ℕ → ℝ) (H : ℝ) (M : ℕ) (hs : ∀ i ≤ M, 0 < s i) (hinc : ∀ i < M, s i ≤ s (i + 1))
    (hq0 : 0 ≤ q 0) (hq0' : q 0 ≤ H) (hq : ∀ i < M, q (i + 1) = Real.log (s (i + 1)) - Real.log (s i)) (hH : ∀ i < M, q (i + 1) ≤ H) :
    |∑ i ∈ Finset.range (M + 1), q i * f (s i) - ∫ w in (s 0)..(s M), f w / w| ≤ H * P := by
  have hPn := h.P_nonneg
  have hH0 : 0 ≤ H := hq0.trans hq0'
  have key : ∀ m ≤ M,
      (s m ≤ p → 0 ≤ ∑ i ∈ Finset.range (m + 1), q i * f (s i) - ∫ w in (s 0)..(s m), f w / w ∧
        ∑ i ∈ Finset.range (m + 1), q i * f (s i) - ∫ w in (s 0)..(s m), f w / w ≤ H * f (s m)) ∧
      (p ≤ s m → H * f (s m) - H * P ≤ ∑ i ∈ Finset.range (m + 1), q i * f (s i) - ∫ w in (s 0)..(s m), f w / w ∧
        ∑ i ∈ Finset.range (m + 1), q i * f (s i) - ∫ w in (s 0)..(s m), f w / w ≤ H * P) := by
    intro m
    induction m with
    | zero =>
      intro _
      have e : ∑ i ∈ Finset.range (0 + 1), q i * f (s i) - ∫ w in (s 0)..(s 0), f w / w = q 0 * f (s 0) := by simp
      rw [e]
      have h0 := h.nonneg (s 0)
      have h1 := h.le (s 0)
      exact ⟨fun _ => ⟨mul_nonneg hq0 h0, mul_le_mul_of_nonneg_right hq0' h0⟩,
        fun _ => ⟨by nlinarith, by nlinarith⟩⟩
    | succ m ih =>
      intro hm
      have ih := ih (by omega)
      have ha : 0 < s m := hs m (by omega)
      have hab : s m ≤ s (m + 1) := hinc m (by omega)
      have hd : 0 ≤ Real.log (s (m + 1)) - Real.log (s m) := sub_nonneg.2 (Real.log_le_log ha hab)
      have hdH := hH m (by omega)
      have e : ∑ i ∈ Finset.range (m + 1 + 1), q i * f (s i) - ∫ w in (s 0)..(s (m + 1)), f w / w =
          (∑ i ∈ Finset.range (m + 1), q i * f (s i) - ∫ w in (s 0)..(s m), f w / w) +
            ((Real.log (s (m + 1)) - Real.log (s m)) * f (s (m + 1)) - ∫ w in (s m)..(s (m + 1)), f w / w) := by
        rw [Finset.sum_range_succ, ← intervalIntegral.integral_add_adjacent_intervals
          (h.integrable_div (hs 0 (by omega)) ha) (h.integrable_div ha (hs (m + 1) hm)), hq m (by omega)]
        ring
      rw [e]
      rw [hq m (by omega)] at hdH
      set d := Real.log (s (m + 1)) - Real.log (s m) with hdd
      set S := ∑ i ∈ Finset.range (m + 1), q i * f (s i) - ∫ w in (s 0)..(s m), f w / w with hS
      set I := ∫ w in (s m)..(s (m + 1)), f w / w with hI
      have n0 := h.nonneg (s m)
      have n1 := h.nonneg (s (m + 1))
      have l0 := h.le (s m)
      have l1 := h.le (s (m + 1))
      rcases le_total (s (m + 1)) p with hp | hp
      · -- rising cell
        have hr := h.rise (s m) (s (m + 1)) ha hab hp
        obtain ⟨c1, c2⟩ := cell_bounds h (m := f (s m)) (K := f (s (m + 1))) ha hab
          (fun w h1 h2 => h.rise _ _ ha h1 (h2.trans hp)) (fun w h1 h2 => h.rise _ _ (ha.trans_le h1) h2 hp)
        obtain ⟨i1, i2⟩ := ih.1 (hab.trans hp)
        have A : 0 ≤ S + (d * f (s (m + 1)) - I) := by nlinarith
        have B : S + (d * f (s (m + 1)) - I) ≤ H * f (s (m + 1)) := by
          have : (H - d) * (f (s (m + 1)) - f (s m)) ≥ 0 := mul_nonneg (by linarith) (by linarith)
          nlinarith
        refine ⟨fun _ => ⟨A, B⟩, fun hp' => ?_⟩
        have hpe : s (m + 1) = p := le_antisymm hp hp'
        have hfe : f (s (m + 1)) = P := by rw [hpe, h.top]
        rw [hfe] at A B ⊢
        exact ⟨by linarith, B⟩
      · rcases le_total (s m) p with hp0 | hp0
        · -- the cell of the peak
          obtain ⟨c1, c2⟩ := cell_bounds h (m := min (f (s m)) (f (s (m + 1)))) (K := P) ha hab
            (fun w h1 h2 => by
              rcases le_total w p with h3 | h3
              · exact (min_le_left _ _).trans (h.rise _ _ ha h1 h3)
              · exact (min_le_right _ _).trans (h.fall _ _ h3 h2)) (fun w _ _ => h.le w)
          obtain ⟨i1, i2⟩ := ih.1 hp0
          have A : H * f (s (m + 1)) - H * P ≤ S + (d * f (s (m + 1)) - I) := by
            have : (H - d) * (P - f (s (m + 1))) ≥ 0 := mul_nonneg (by linarith) (by linarith)
            nlinarith
          have B' : S + (d * f (s (m + 1)) - I) ≤ H * max (f (s m)) (f (s (m + 1))) := by
            rcases le_total (f (s m)) (f (s (m + 1))) with h3 | h3
            · rw [min_eq_left h3] at c1
              rw [max_eq_right h3]
              have : (H - d) * (f (s (m + 1)) - f (s m)) ≥ 0 := mul_nonneg (by linarith) (by linarith)
              nlinarith
            · rw [min_eq_right h3] at c1
              rw [max_eq_left h3]
              nlinarith
          have B : S + (d * f (s (m + 1)) - I) ≤ H * P :=
            B'.trans (mul_le_mul_of_nonneg_left (max_le l0 l1) hH0)
          refine ⟨fun hp' => ?_, fun _ => ⟨A, B⟩⟩
          have hpe : s (m + 1) = p := le_antisymm hp' hp
          have hfe : f (s (m + 1)) = P := by rw [hpe, h.top]
          rw [hfe] at A B ⊢
          exact ⟨by linarith, B⟩
        · -- falling cell
          have hr := h.fall (s m) (s (m + 1)) hp0 hab
          obtain ⟨c1, c2⟩ := cell_bounds h (m := f (s (m + 1))) (K := f (s m)) ha hab
            (fun w h1 h2 => h.fall _ _ (hp0.trans h1) h2) (fun w h1 h2 => h.fall _ _ hp0 h1)
          obtain ⟨i1, i2⟩ := ih.2 hp0
          have A : H * f (s (m + 1)) - H * P ≤ S + (d * f (s (m + 1)) - I) := by
            have : (H - d) * (f (s m) - f (s (m + 1))) ≥ 0 := mul_nonneg (by linarith) (by linarith)
            nlinarith
          have B : S + (d * f (s (m + 1)) - I) ≤ H * P := by nlinarith
          refine ⟨fun hp' => ?_, fun _ => ⟨A, B⟩⟩
          have hpe : s (m + 1) = p := le_antisymm hp' hp
          have hfe : f (s (m + 1)) = P := by rw [hpe, h.top]
          rw [hfe] at A B ⊢
          exact ⟨by linarith, B⟩
  rw [abs_le]
  have n1 := h.nonneg (s M)
  have l1 := h.le (s M)
  rcases le_total (s M) p with hp | hp
  · obtain ⟨a1, a2⟩ := (key M le_rfl).1 hp
    exact ⟨by nlinarith, by nlinarith⟩
  · obtain ⟨a1, a2⟩ := (key M le_rfl).2 hp
    exact ⟨by nlinarith, a2⟩

end Ssq
