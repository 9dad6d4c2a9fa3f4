import Verif.Model.Toolkit
import Mathlib.Data.List.GetD
import Mathlib.Algebra.BigOperators.Group.List.Lemmas
import Mathlib.Algebra.Order.BigOperators.Group.List
import Mathlib.Algebra.Order.Chebyshev
import Mathlib.Tactic.NormNum
import Mathlib.Tactic.Linarith
import Mathlib.Tactic.FieldSimp
import Mathlib.Tactic.Positivity
import Mathlib.Tactic.Ring

/-!
# C117, C118: `mad`, `est_riskshrink_thresh`, `find_closest_parallel_is_faster`
-/
namespace Ssq

namespace Spec

/-- The mean absolute deviation of the numbers of a list from their mean. -/
noncomputable def meanAbsDev (x : List ℝ) : ℝ := (x.map fun y => |y - x.sum / x.length|).sum / x.length

/-- A 2D array: every row has length `n`. -/
def Rect {α : Type} (n : ℕ) (x : List (List α)) : Prop := ∀ r ∈ x, r.length = n

/-- Column `j`. -/
def column (x : List (List ℝ)) (j : ℕ) : List ℝ := x.map fun r => r.getD j 0

end Spec
open Spec

/-- **C117**, no axis: the mean absolute deviation of all entries. -/
theorem C117_all (n : ℕ) (data : List (List ℝ)) : mad n data none = .ok [meanAbsDev data.flatten] := by
  simp only [mad, meanAbsDev, meanL]
  rw [← List.map_flatten, List.length_map]

theorem zipWith_getD_lt {f : ℝ → ℝ → ℝ} {r v : List ℝ} {j : ℕ} (h1 : j < r.length) (h2 : j < v.length) :
    (List.zipWith f r v).getD j 0 = f (r.getD j 0) (v.getD j 0) := by
  rw [List.getD_eq_getElem _ _ (by simp; omega), List.getD_eq_getElem _ _ h1, List.getD_eq_getElem _ _ h2]
  simp

theorem map_getD_lt {α β : Type} {f : α → β} {r : List α} {j : ℕ} {d : α} {e : β} (h1 : j < r.length) :
    (r.map f).getD j e = f (r.getD j d) := by
  rw [List.getD_eq_getElem _ _ (by simpa using h1), List.getD_eq_getElem _ _ h1]
  simp

theorem map_range_getD {β : Type} {f : ℕ → β} {n j : ℕ} {e : β} (h : j < n) : ((List.range n).map f).getD j e = f j := by
  rw [List.getD_eq_getElem _ _ (by simpa using h)]; simp

/-- **C117**, `axis=0`: the mean absolute deviation of each column. -/
theorem C117_columns (n : ℕ) (data : List (List ℝ)) (hr : Rect n data) :
    mad n data (some 0) = .ok ((List.range n).map fun j => meanAbsDev (column data j)) := by
  simp only [mad, subRow]
  rw [if_pos (by simp [meanCols])]
  simp only [Except.bind, Except.ok.injEq, meanCols]
  apply List.map_congr_left
  intro j hj
  rw [List.mem_range] at hj
  simp only [meanAbsDev, meanL, column, absRows, List.map_map, List.length_map]
  congr 2
  apply List.map_congr_left
  intro r hrm
  have hl := hr r hrm
  simp only [Function.comp]
  rw [map_getD_lt (d := 0) (by simp; omega), zipWith_getD_lt (by omega) (by simpa using hj), map_range_getD hj]

/-- The property for `axis=1`: the mean absolute deviation of each row. -/
def C117_rows_full : Prop :=
  ∀ (n : ℕ) (data : List (List ℝ)), 1 ≤ n → data ≠ [] → Rect n data → mad n data (some 1) = .ok (data.map meanAbsDev)

/-- With `axis=1` the means of the rows are subtracted from the columns. -/
theorem C117_rows_refuted : ¬ C117_rows_full := by
  intro h
  have := h 2 [[0, 0], [2, 2]] (by norm_num) (by simp) (by simp [Rect])
  simp [mad, subRow, meanRows, meanL, absRows, meanAbsDev, Except.bind] at this

/-- And arrays that are not square, with more than one row and column, are refused. -/
theorem C117_rows_fails (n : ℕ) (data : List (List ℝ)) (h1 : n ≠ 1) (h2 : data.length ≠ 1) (h3 : data.length ≠ n) :
    mad n data (some 1) = .error .valueError := by
  simp only [mad, subRow, meanRows, List.length_map]
  rw [if_neg h3, if_neg h2, if_neg h1]
  rfl

/-- The rows are right for a single row. -/
theorem C117_rows_partial (r : List ℝ) : mad r.length [r] (some 1) = .ok [meanAbsDev r] := by
  simp only [mad, subRow, meanRows, List.map_cons, List.map_nil, List.length_cons, List.length_nil]
  by_cases hr : 0 + 1 = r.length
  · obtain ⟨a, rfl⟩ := List.length_eq_one_iff.1 hr.symm
    simp [Except.bind, absRows, meanAbsDev, meanL]
  · rw [if_neg hr, if_pos (by trivial)]
    simp [Except.bind, absRows, meanAbsDev, meanL, Function.comp_def]

theorem meanAbsDev_nonneg (x : List ℝ) : 0 ≤ meanAbsDev x := by
  unfold meanAbsDev
  apply div_nonneg _ (by positivity)
  apply List.sum_nonneg
  intro y hy
  obtain ⟨z, -, rfl⟩ := List.mem_map.1 hy
  exact abs_nonneg _

theorem meanAbsDev_smul (c : ℝ) (hc : 0 ≤ c) (x : List ℝ) : meanAbsDev (x.map fun y => c * y) = c * meanAbsDev x := by
  unfold meanAbsDev
  rw [List.sum_map_mul_left, List.map_map, List.length_map]
  simp only [List.map_id']
  have : ((fun y => |y - c * x.sum / x.length|) ∘ fun y => c * y) = fun y => c * |y - x.sum / x.length| := by
    funext y
    simp only [Function.comp]
    rw [mul_div_assoc, ← mul_sub, abs_mul, abs_of_nonneg hc]
  rw [this, List.sum_map_mul_left, mul_div_assoc]

theorem sum_eq_zero_of_nonneg {l : List ℝ} (h : ∀ x ∈ l, 0 ≤ x) (hs : l.sum = 0) : ∀ x ∈ l, x = 0 := by
  induction l with
  | nil => simp
  | cons a l ih =>
    have h1 : 0 ≤ l.sum := List.sum_nonneg fun x hx => h x (List.mem_cons_of_mem _ hx)
    have h2 := h a (by simp)
    rw [List.sum_cons] at hs
    intro x hx
    rcases List.mem_cons.1 hx with rfl | hx
    · linarith
    · exact ih (fun x hx => h x (List.mem_cons_of_mem _ hx)) (by linarith) x hx

theorem meanAbsDev_eq_zero (x : List ℝ) (hx : x ≠ []) : meanAbsDev x = 0 ↔ ∃ c, ∀ y ∈ x, y = c := by
  have hl : (x.length : ℝ) ≠ 0 := by simpa using hx
  constructor
  · intro h
    unfold meanAbsDev at h
    rw [div_eq_zero_iff, or_iff_left hl] at h
    refine ⟨x.sum / x.length, fun y hy => ?_⟩
    have := sum_eq_zero_of_nonneg (by
      intro z hz
      obtain ⟨w, -, rfl⟩ := List.mem_map.1 hz
      exact abs_nonneg _) h _ (List.mem_map_of_mem hy)
    linarith [abs_eq_zero.1 this]
  · rintro ⟨c, hc⟩
    have e : x = List.replicate x.length c := List.eq_replicate_of_mem hc
    have hm : x.sum / x.length = c := by
      conv_lhs => rw [e]
      simp
      field_simp
    unfold meanAbsDev
    rw [hm]
    have : (x.map fun y => |y - c|).sum = 0 := by
      apply List.sum_eq_zero
      intro z hz
      obtain ⟨w, hw, rfl⟩ := List.mem_map.1 hz
      rw [hc w hw]; simp
    rw [this, zero_div]

/-- **C117**, the threshold: `1.4826 √(2 ln N)` times the mean absolute deviation of the moduli of the first `nv` rows, whatever the other rows. -/
theorem C117_threshold (N : ℕ) (Wx : List (List ℂ)) (nv : ℕ) :
    estRiskshrinkThresh N Wx nv =
      .ok (14826 / 10000 * Real.sqrt (2 * Real.log N) * meanAbsDev ((Wx.take nv).flatten.map fun z => ‖z‖)) := by
  simp only [estRiskshrinkThresh, C117_all, Except.bind, ← List.map_flatten]
  rfl

/-- **C117**, the threshold is nonnegative, follows the scale of the transform, and vanishes just when the moduli of the rows used are all the same or there is
only one sample. -/
theorem C117_scaling (N : ℕ) (hN : 1 ≤ N) (Wx : List (List ℂ)) (nv : ℕ) (hne : (Wx.take nv).flatten ≠ []) (c : ℂ) :
    ∃ g, estRiskshrinkThresh N Wx nv = .ok g ∧ 0 ≤ g ∧
      estRiskshrinkThresh N (Wx.map fun r => r.map fun z => c * z) nv = .ok (‖c‖ * g) ∧
      (g = 0 ↔ N = 1 ∨ ∃ a : ℝ, ∀ r ∈ Wx.take nv, ∀ z ∈ r, ‖z‖ = a) := by
  refine ⟨_, C117_threshold N Wx nv, ?_, ?_, ?_⟩
  · have := meanAbsDev_nonneg ((Wx.take nv).flatten.map fun z => ‖z‖)
    positivity
  · rw [C117_threshold]
    have : ((Wx.map fun r => r.map fun z => c * z).take nv).flatten.map (fun z => ‖z‖) =
        ((Wx.take nv).flatten.map fun z => ‖z‖).map fun y => ‖c‖ * y := by
      rw [← List.map_take, ← List.map_flatten, List.map_map, List.map_map]
      apply List.map_congr_left
      intro z _
      simp
    rw [this, meanAbsDev_smul _ (norm_nonneg c)]
    congr 1; ring
  · have hs : (14826 / 10000 * Real.sqrt (2 * Real.log N) = 0) ↔ N = 1 := by
      have h1 : (1 : ℝ) ≤ N := by exact_mod_cast hN
      have hlog := Real.log_nonneg h1
      rw [mul_eq_zero, or_iff_right (by norm_num), Real.sqrt_eq_zero (by linarith)]
      constructor
      · intro h
        have : Real.log N = 0 := by linarith
        rcases Real.log_eq_zero.1 this with h | h | h
        · linarith
        · exact_mod_cast h
        · linarith
      · rintro rfl; simp
    rw [mul_eq_zero, hs, meanAbsDev_eq_zero _ (by rwa [ne_eq, List.map_eq_nil_iff])]
    constructor
    · rintro (h | ⟨a, ha⟩)
      · exact .inl h
      · exact .inr ⟨a, fun r hr z hz => ha _ (List.mem_map_of_mem (List.mem_flatten_of_mem hr hz))⟩
    · rintro (h | ⟨a, ha⟩)
      · exact .inl h
      · refine .inr ⟨a, fun y hy => ?_⟩
        obtain ⟨z, hz, rfl⟩ := List.mem_map.1 hy
        obtain ⟨r, hr, hz⟩ := List.mem_flatten.1 hz
        exact ha r hr z hz

/-- The hypotheses are met, with a threshold that is not zero. -/
example : (([[1, 2], [3, 4]] : List (List ℂ)).take 1).flatten ≠ [] := by simp
example : Rect 2 ([[1, 2], [3, 4], [5, 6]] : List (List ℝ)) ∧ (2 : ℕ) ≠ 1 ∧ ([[1, 2], [3, 4], [5, 6]] : List (List ℝ)).length ≠ 1 ∧
    ([[1, 2], [3, 4], [5, 6]] : List (List ℝ)).length ≠ 2 := by simp [Rect]

/-- The documentation: True if the parallel run takes less time. -/
def C118_full : Prop := ∀ timeit : Bool → ℝ, findClosestParallelIsFaster timeit = true ↔ timeit true < timeit false

/-- The answer is the wrong way round. -/
theorem C118_refuted : ¬ C118_full := by
  intro h
  have := h fun b => if b then 1 else 2
  simp [findClosestParallelIsFaster] at this

/-- What it says: True just when the parallel run takes more time; so that `not` of it is right unless the times are the same. -/
theorem C118_partial (timeit : Bool → ℝ) :
    (findClosestParallelIsFaster timeit = true ↔ timeit false < timeit true) ∧
      (timeit true ≠ timeit false → (findClosestParallelIsFaster timeit = false ↔ timeit true < timeit false)) := by
  simp only [findClosestParallelIsFaster, decide_eq_true_eq, decide_eq_false_iff_not, not_lt, gt_iff_lt]
  refine ⟨trivial, fun h => ⟨fun h' => lt_of_le_of_ne h' h, le_of_lt⟩⟩

example : ∃ timeit : Bool → ℝ, timeit true ≠ timeit false ∧ findClosestParallelIsFaster timeit = true :=
  ⟨fun b => if b then 2 else 1, by norm_num, by simp [findClosestParallelIsFaster]⟩

end Ssq
