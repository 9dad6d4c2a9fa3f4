import Verif.Model.Py
import Mathlib.Tactic.Ring

/-! Helper lemmas on Python slices. -/
namespace Ssq
variable {α : Type}

theorem sliceBound_nonneg {n : ℕ} {i : ℤ} (h : 0 ≤ i) : sliceBound n i = min i.toNat n := by
  unfold sliceBound; rw [if_neg (by omega)]

theorem sliceBound_neg {n : ℕ} {i : ℤ} (h : i < 0) : sliceBound n i = (i + n).toNat := by
  unfold sliceBound; rw [if_pos h]

@[simp] theorem sliceBound_zero {n : ℕ} : sliceBound n 0 = 0 := by simp [sliceBound]

theorem sliceBound_le {n : ℕ} {i : ℤ} : sliceBound n i ≤ n := by
  unfold sliceBound; split <;> omega

theorem pySlice_nat (l : List α) (a b : ℕ) :
    pySlice l (some a) (some b) = (l.drop a).take (b - a) := by
  unfold pySlice
  simp only [sliceBound_nonneg (Int.natCast_nonneg _), Int.toNat_natCast]
  rcases le_total a l.length with h | h
  · rw [min_eq_left h]
    rcases le_total b l.length with h' | h'
    · rw [min_eq_left h']
    · rw [min_eq_right h', List.take_of_length_le (by simp),
        List.take_of_length_le (by simp; omega)]
  · rw [min_eq_right h, List.drop_of_length_le h, List.drop_of_length_le le_rfl]; simp

theorem pyFrom_nat (l : List α) (a : ℕ) : pyFrom l (a : ℤ) = l.drop a := by
  unfold pyFrom pySlice
  simp only [sliceBound_nonneg (Int.natCast_nonneg _), Int.toNat_natCast]
  rcases le_total a l.length with h | h
  · rw [min_eq_left h, List.take_of_length_le (by simp)]
  · rw [min_eq_right h, List.drop_of_length_le h]; simp

theorem pyUpto_nat (l : List α) (b : ℕ) : pyUpto l (b : ℤ) = l.take b := by
  unfold pyUpto pySlice
  simp only [sliceBound_nonneg (Int.natCast_nonneg _), Int.toNat_natCast, List.drop_zero,
    Nat.sub_zero]
  rcases le_total b l.length with h | h
  · rw [min_eq_left h]
  · rw [min_eq_right h, List.take_of_length_le h, List.take_of_length_le le_rfl]

/-- `l[-k:]` for `1 ≤ k ≤ len(l)`: the last `k` elements. -/
theorem pyFrom_neg (l : List α) (k : ℕ) (h1 : 1 ≤ k) : pyFrom l (-(k : ℤ)) = l.drop (l.length - k) := by
  unfold pyFrom pySlice
  simp only
  rw [sliceBound_neg (by omega)]
  have : (-(k : ℤ) + l.length).toNat = l.length - k := by omega
  rw [this, List.take_of_length_le (by simp)]

end Ssq
