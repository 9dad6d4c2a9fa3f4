import Verif.Model.Py
import Mathlib.Tactic.Linarith
import Mathlib.Tactic.Push
import Mathlib.Tactic.FieldSimp
import Mathlib.Tactic.Ring
import Mathlib.Tactic.NormNum

/-! Helper lemmas on rounding. -/
namespace Ssq
variable {K : Type} [Field K] [LinearOrder K] [IsStrictOrderedRing K] [FloorRing K]

theorem rhe_le (x : K) : ((roundHalfEven x : ℤ) : K) ≤ x + 1/2 := by
  have h1 := Int.floor_le x
  have h2 := Int.lt_floor_add_one x
  unfold roundHalfEven
  simp only
  split_ifs with a b c <;> push_cast <;> linarith

theorem le_rhe (x : K) : x - 1/2 ≤ ((roundHalfEven x : ℤ) : K) := by
  have h1 := Int.floor_le x
  have h2 := Int.lt_floor_add_one x
  unfold roundHalfEven
  simp only
  split_ifs with a b c <;> push_cast <;> linarith

theorem rhe_abs (x : K) : |x - (roundHalfEven x : ℤ)| ≤ 1/2 := by
  have := rhe_le x; have := le_rhe x
  rw [abs_le]; constructor <;> linarith

theorem rhe_unique {x : K} {n : ℤ} (h1 : x - 1/2 < n) (h2 : (n : K) < x + 1/2) :
    roundHalfEven x = n := by
  have h3 := rhe_le x; have h4 := le_rhe x
  have a : ((roundHalfEven x : ℤ) : K) < (n + 1 : ℤ) := by push_cast; linarith
  have b : ((n - 1 : ℤ) : K) < (roundHalfEven x : ℤ) := by push_cast; linarith
  have a' := Int.cast_lt.mp a
  have b' := Int.cast_lt.mp b
  omega

@[simp] theorem rhe_intCast (n : ℤ) : roundHalfEven (n : K) = n :=
  rhe_unique (by linarith) (by linarith)

theorem rhe_mono {x y : K} (h : x ≤ y) : roundHalfEven x ≤ roundHalfEven y := by
  rcases eq_or_lt_of_le h with rfl | h
  · exact le_rfl
  by_contra hlt
  push Not at hlt
  have h1 := rhe_le x; have h2 := le_rhe y
  have : ((roundHalfEven y + 1 : ℤ) : K) ≤ (roundHalfEven x : ℤ) := Int.cast_le.mpr hlt
  push_cast at this
  linarith

/-- Ties go to the even neighbour. -/
theorem rhe_tie (n : ℤ) : roundHalfEven ((n : K) + 1/2) = if n % 2 = 0 then n else n + 1 := by
  have hf : ⌊(n : K) + 1/2⌋ = n := by
    rw [Int.floor_eq_iff]; constructor <;> linarith
  unfold roundHalfEven
  simp only [hf]
  simp

theorem rhe_even_of_tie {x : K} (h : |x - (roundHalfEven x : ℤ)| = 1/2) :
    roundHalfEven x % 2 = 0 := by
  have h1 := Int.floor_le x
  have h2 := Int.lt_floor_add_one x
  unfold roundHalfEven at *
  simp only at *
  split_ifs at * with a b c
  · rw [abs_of_nonneg (by linarith)] at h; linarith
  · rw [abs_of_nonpos (by push_cast; linarith)] at h; push_cast at h; linarith
  · exact c
  · omega

theorem rha_abs (x : K) : |x - (roundHalfAway x : ℤ)| ≤ 1/2 := by
  unfold roundHalfAway
  split_ifs with h
  · have h1 := Int.floor_le (x + 1/2)
    have h2 := Int.lt_floor_add_one (x + 1/2)
    rw [abs_le]; constructor <;> linarith
  · have h1 := Int.floor_le (-x + 1/2)
    have h2 := Int.lt_floor_add_one (-x + 1/2)
    push_cast
    rw [abs_le]; constructor <;> linarith

end Ssq
