import Verif.Props.Toolkit
import Verif.Lemmas.PyM
import Mathlib.Algebra.Order.Ring.Star
import Mathlib.Data.List.FinRange
import Mathlib.Tactic.NormNum.RealSqrt

/-!
# C119–C121: `mad_rms`, `where_amax`, `cos_f`, `sin_f`
-/
namespace Ssq
open Spec

namespace Spec

/-- The root mean square. -/
noncomputable def rms (x : List ℝ) : ℝ := Real.sqrt ((x.map fun y => y ^ 2).sum / x.length)

end Spec

theorem rms_pos (x : List ℝ) (hx : ∃ y ∈ x, y ≠ 0) : 0 < rms x := by
  obtain ⟨y, hy, h0⟩ := hx
  have hl : 0 < (x.length : ℝ) := by
    have := List.length_pos_of_mem hy
    exact_mod_cast this
  apply Real.sqrt_pos.2
  apply div_pos _ hl
  have h1 : 0 ≤ (x.map fun y => y ^ 2).sum := List.sum_nonneg (by
    intro z hz
    obtain ⟨w, -, rfl⟩ := List.mem_map.1 hz
    positivity)
  refine lt_of_le_of_ne h1 fun h => ?_
  have := sum_eq_zero_of_nonneg (by
    intro z hz
    obtain ⟨w, -, rfl⟩ := List.mem_map.1 hz
    positivity) h.symm _ (List.mem_map_of_mem (f := fun y : ℝ => y ^ 2) hy)
  exact h0 (by simpa using this)

theorem madRms_eq (x xrec : List ℝ) (hl : x.length = xrec.length) :
    madRms x xrec = .ok (((List.zipWith (· - ·) x xrec).map fun y => |y|).sum / x.length / rms x) := by
  simp only [madRms, subL]
  rw [if_pos hl]
  simp only [Except.bind, meanL, rms, List.length_map, List.length_zipWith, hl, min_self]

theorem zipWith_sub_zero : ∀ (x y : List ℝ), x.length = y.length → (∀ z ∈ List.zipWith (· - ·) x y, z = 0) → y = x
  | [], [], _, _ => rfl
  | a :: x, b :: y, hl, h => by
    simp only [List.zipWith_cons_cons, List.mem_cons, forall_eq_or_imp] at h
    rw [zipWith_sub_zero x y (by simpa using hl) h.2, sub_eq_zero.1 h.1]

/-- **C119**, the error is nonnegative, and zero just when the reconstruction is exact. -/
theorem C119_zero (x xrec : List ℝ) (hl : x.length = xrec.length) (hx : ∃ y ∈ x, y ≠ 0) :
    ∃ e, madRms x xrec = .ok e ∧ 0 ≤ e ∧ (e = 0 ↔ xrec = x) := by
  refine ⟨_, madRms_eq x xrec hl, ?_, ?_⟩
  · have := rms_pos x hx
    have h1 : 0 ≤ ((List.zipWith (· - ·) x xrec).map fun y => |y|).sum := List.sum_nonneg (by
      intro z hz
      obtain ⟨w, -, rfl⟩ := List.mem_map.1 hz
      exact abs_nonneg _)
    positivity
  · have hr := (rms_pos x hx).ne'
    have hl0 : (x.length : ℝ) ≠ 0 := by
      obtain ⟨y, hy, -⟩ := hx
      have := List.length_pos_of_mem hy
      exact_mod_cast this.ne'
    rw [div_eq_zero_iff, or_iff_left hr, div_eq_zero_iff, or_iff_left hl0]
    constructor
    · intro h
      apply zipWith_sub_zero x xrec hl
      intro z hz
      have := sum_eq_zero_of_nonneg (by
        intro z hz
        obtain ⟨w, -, rfl⟩ := List.mem_map.1 hz
        exact abs_nonneg _) h _ (List.mem_map_of_mem (f := fun y : ℝ => |y|) hz)
      simpa using this
    · rintro rfl
      simp

theorem rms_smul (c : ℝ) (x : List ℝ) : rms (x.map fun y => c * y) = |c| * rms x := by
  unfold rms
  rw [List.map_map, List.length_map]
  have : ((fun y : ℝ => y ^ 2) ∘ fun y => c * y) = fun y => c ^ 2 * y ^ 2 := by funext y; simp [mul_pow]
  rw [this, List.sum_map_mul_left, mul_div_assoc, Real.sqrt_mul (by positivity), Real.sqrt_sq_eq_abs]

/-- **C119**, scale invariance: signal and reconstruction in other units give the same error. -/
theorem C119_scale (x xrec : List ℝ) (hl : x.length = xrec.length) (c : ℝ) (hc : c ≠ 0) :
    madRms (x.map fun y => c * y) (xrec.map fun y => c * y) = madRms x xrec := by
  rw [madRms_eq _ _ (by simpa using hl), madRms_eq _ _ hl, rms_smul, List.length_map, List.zipWith_map, List.map_zipWith]
  have : (List.zipWith (fun a b => |c * a - c * b|) x xrec) = (List.zipWith (fun a b => |a - b|) x xrec).map fun y => |c| * y := by
    rw [List.map_zipWith]
    congr 1
    funext a b
    rw [← mul_sub, abs_mul]
  rw [this, List.sum_map_mul_left, List.map_id', List.map_zipWith]
  have := abs_ne_zero.2 hc
  congr 1
  rw [mul_div_assoc, mul_div_mul_left _ _ this]

theorem sum_sq_le (x : List ℝ) : (x.map fun y => |y|).sum ^ 2 ≤ x.length * (x.map fun y => y ^ 2).sum := by
  have h := sq_sum_le_card_mul_sum_sq (s := (Finset.univ : Finset (Fin x.length))) (f := fun i => |x[i]|)
  simp only [sq_abs, Finset.card_univ, Fintype.card_fin] at h
  have e1 : ∀ g : ℝ → ℝ, (x.map g).sum = ∑ i : Fin x.length, g x[i] := by
    intro g
    rw [← List.sum_ofFn]
    congr 1
    apply List.ext_getElem <;> simp
  rw [e1, e1]
  exact h

/-- **C119**, the error is at most the relative root mean square error. -/
theorem C119_rms_partial (x xrec : List ℝ) (hl : x.length = xrec.length) :
    ∃ e, madRms x xrec = .ok e ∧ e ≤ rms (List.zipWith (· - ·) x xrec) / rms x := by
  refine ⟨_, madRms_eq x xrec hl, ?_⟩
  apply div_le_div_of_nonneg_right _ (Real.sqrt_nonneg _)
  have hz : (List.zipWith (· - ·) x xrec).length = x.length := by simp [hl]
  have := sum_sq_le (List.zipWith (· - ·) x xrec)
  unfold rms
  apply Real.le_sqrt_of_sq_le
  rw [hz] at this ⊢
  rcases Nat.eq_zero_or_pos x.length with h0 | h0
  · rw [h0]; simp
  · have h1 : (0 : ℝ) < x.length := by exact_mod_cast h0
    rw [div_pow, div_le_div_iff₀ (by positivity) h1]
    nlinarith

/-- A signal and a reconstruction of other lengths, neither a single number, are refused. -/
theorem C119_fails (x xrec : List ℝ) (h : x.length ≠ xrec.length) (h1 : x.length ≠ 1) (h2 : xrec.length ≠ 1) :
    madRms x xrec = .error .valueError := by
  simp only [madRms, subL]
  rw [if_neg h, if_neg h2, if_neg h1]
  rfl

example : ([1, 2] : List ℝ).length = ([1, 3] : List ℝ).length ∧ ∃ y ∈ ([1, 2] : List ℝ), y ≠ 0 := by simp

/-- Scale invariance for complex signals. -/
def C119_complex_full : Prop := ∀ (x xrec : List ℂ) (c : ℂ), x.length = xrec.length → c ≠ 0 →
  madRmsC (x.map fun y => c * y) (xrec.map fun y => c * y) = madRmsC x xrec

/-- It does not hold: the square of the signal is not its modulus squared. -/
theorem C119_complex_refuted : ¬ C119_complex_full := by
  intro h
  have := h [1] [0] Complex.I rfl Complex.I_ne_zero
  simp [madRmsC, subL, Except.bind, meanL] at this
  have e : (-1 : ℂ) ^ (2⁻¹ : ℂ) = Complex.I := by
    rw [Complex.cpow_def_of_ne_zero (by norm_num), Complex.log_neg_one]
    rw [show (Real.pi : ℂ) * Complex.I * 2⁻¹ = Real.pi / 2 * Complex.I by ring]
    rw [Complex.exp_mul_I]
    simp
  rw [e] at this
  have h2 := congrArg Complex.re this
  simp at h2

end Ssq
