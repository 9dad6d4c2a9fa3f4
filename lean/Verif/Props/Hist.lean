import Verif.Model.Hist
import Mathlib.Algebra.BigOperators.Group.List.Basic
import Mathlib.Algebra.Order.BigOperators.Group.List
import Mathlib.Data.List.MinMax
import Mathlib.Tactic.Linarith
import Mathlib.Tactic.FieldSimp
import Mathlib.Tactic.Ring
import Mathlib.Tactic.Positivity

/-!
# C233: statistics of a histogram
-/
namespace Ssq

/-- What `(mean, std, min, max)` of the values `x` mean. -/
structure Spec.Stats (x : List ℝ) (mu sd mn mx : ℝ) : Prop where
  mean : x.length * mu = x.sum
  nonneg : 0 ≤ sd
  std : x.length * sd ^ 2 = (x.map fun a => (a - mu) ^ 2).sum
  mn_mem : mn ∈ x
  mn_le : ∀ a ∈ x, mn ≤ a
  mx_mem : mx ∈ x
  le_mx : ∀ a ∈ x, a ≤ mx

theorem foldl_min_mem (x : List ℝ) (a : ℝ) : x.foldl min a ∈ a :: x ∧ ∀ b ∈ a :: x, x.foldl min a ≤ b := by
  induction x generalizing a with
  | nil => simp
  | cons c x ih =>
    rw [List.foldl_cons]
    obtain ⟨h1, h2⟩ := ih (min a c)
    refine ⟨?_, fun b hb => ?_⟩
    · rcases List.mem_cons.1 h1 with h | h
      · rw [h]
        rcases min_choice a c with e | e <;> rw [e] <;> simp
      · simp [h]
    · have h0 := h2 _ List.mem_cons_self
      rcases List.mem_cons.1 hb with rfl | hb
      · exact h0.trans (min_le_left _ _)
      · rcases List.mem_cons.1 hb with rfl | hb
        · exact h0.trans (min_le_right _ _)
        · exact h2 b (List.mem_cons_of_mem _ hb)

theorem foldl_max_mem (x : List ℝ) (a : ℝ) : x.foldl max a ∈ a :: x ∧ ∀ b ∈ a :: x, b ≤ x.foldl max a := by
  induction x generalizing a with
  | nil => simp
  | cons c x ih =>
    rw [List.foldl_cons]
    obtain ⟨h1, h2⟩ := ih (max a c)
    refine ⟨?_, fun b hb => ?_⟩
    · rcases List.mem_cons.1 h1 with h | h
      · rw [h]
        rcases max_choice a c with e | e <;> rw [e] <;> simp
      · simp [h]
    · have h0 := h2 _ List.mem_cons_self
      rcases List.mem_cons.1 hb with rfl | hb
      · exact (le_max_left _ _).trans h0
      · rcases List.mem_cons.1 hb with rfl | hb
        · exact (le_max_right _ _).trans h0
        · exact h2 b (List.mem_cons_of_mem _ hb)

theorem histSum_sq_nonneg (x : List ℝ) (m : ℝ) : 0 ≤ (x.map fun a => (a - m) ^ 2).sum :=
  List.sum_nonneg fun b hb => by obtain ⟨a, -, rfl⟩ := List.mem_map.1 hb; positivity

/-- The four numbers are the mean, standard deviation, minimum and maximum; an empty array raises ValueError. -/
theorem C233_stats (x : List ℝ) : (x = [] → histStats x = .error .valueError) ∧ (x ≠ [] → ∃ mu sd mn mx, histStats x = .ok (mu, sd, mn, mx) ∧ Spec.Stats x mu sd mn mx) := by
  refine ⟨fun h => by rw [h]; rfl, fun h => ?_⟩
  cases x with
  | nil => exact absurd rfl h
  | cons a x =>
    have hn : ((a :: x).length : ℝ) ≠ 0 := by simp; positivity
    have hp : (0 : ℝ) < ((a :: x).length : ℝ) := lt_of_le_of_ne (by positivity) (Ne.symm hn)
    refine ⟨_, _, _, _, rfl, ?_, Real.sqrt_nonneg _, ?_, (foldl_min_mem x a).1, (foldl_min_mem x a).2, (foldl_max_mem x a).1, (foldl_max_mem x a).2⟩
    · unfold histMean; field_simp
    · unfold histStd
      rw [Real.sq_sqrt]
      · conv_lhs => rw [histMean, List.length_map]
        field_simp
      · rw [histMean, List.length_map]
        exact div_nonneg (histSum_sq_nonneg _ _) hp.le

/-- They are determined by what they mean. -/
theorem C233_unique (x : List ℝ) (mu sd mn mx mu' sd' mn' mx' : ℝ) (h : Spec.Stats x mu sd mn mx) (h' : Spec.Stats x mu' sd' mn' mx') : mu = mu' ∧ sd = sd' ∧ mn = mn' ∧ mx = mx' := by
  have hx : x.length ≠ 0 := by
    intro e
    have := List.length_eq_zero_iff.1 e
    subst this
    exact absurd h.mn_mem (by simp)
  have hn : (x.length : ℝ) ≠ 0 := by exact_mod_cast hx
  have e1 : mu = mu' := mul_left_cancel₀ hn (h.mean.trans h'.mean.symm)
  subst e1
  have e2 : sd ^ 2 = sd' ^ 2 := mul_left_cancel₀ hn (h.std.trans h'.std.symm)
  exact ⟨rfl, (pow_left_inj₀ h.nonneg h'.nonneg (by norm_num)).1 e2, le_antisymm (h.mn_le _ h'.mn_mem) (h'.mn_le _ h.mn_mem), le_antisymm (h'.le_mx _ h.mx_mem) (h.le_mx _ h'.mx_mem)⟩

theorem histStats_iff (x : List ℝ) (mu sd mn mx : ℝ) : histStats x = .ok (mu, sd, mn, mx) ↔ Spec.Stats x mu sd mn mx := by
  by_cases hx : x = []
  · refine ⟨fun h => ?_, fun h => ?_⟩
    · rw [(C233_stats x).1 hx] at h; cases h
    · subst hx; exact absurd h.mn_mem (by simp)
  · obtain ⟨a, b, c, d, e, hs⟩ := (C233_stats x).2 hx
    refine ⟨fun h => ?_, fun h => ?_⟩
    · rw [e] at h; cases h; exact hs
    · obtain ⟨rfl, rfl, rfl, rfl⟩ := C233_unique _ _ _ _ _ _ _ _ _ hs h
      exact e

/-- The order of the values (how the array is laid out) does not matter. -/
theorem C233_perm (x y : List ℝ) (h : x.Perm y) : histStats x = histStats y := by
  by_cases hx : x = []
  · subst hx; rw [List.nil_perm.1 h]
  · obtain ⟨a, b, c, d, e, hs⟩ := (C233_stats x).2 hx
    rw [e]
    symm
    rw [histStats_iff]
    exact ⟨by rw [← h.length_eq, ← h.sum_eq]; exact hs.mean, hs.nonneg, by rw [← h.length_eq, ← (h.map _).sum_eq]; exact hs.std, h.mem_iff.1 hs.mn_mem,
      fun a ha => hs.mn_le a (h.mem_iff.2 ha), h.mem_iff.1 hs.mx_mem, fun a ha => hs.le_mx a (h.mem_iff.2 ha)⟩

theorem sum_affine (x : List ℝ) (c b : ℝ) : (x.map fun a => c * a + b).sum = c * x.sum + x.length * b := by
  induction x with
  | nil => simp
  | cons a x ih => simp [ih]; ring

theorem sum_sq_affine (x : List ℝ) (c b m : ℝ) : ((x.map fun a => c * a + b).map fun a => (a - (c * m + b)) ^ 2).sum = c ^ 2 * (x.map fun a => (a - m) ^ 2).sum := by
  induction x with
  | nil => simp
  | cons a x ih =>
    simp only [List.map_cons, List.sum_cons, ih]
    ring

/-- Values in other units, `c * x + b`: the mean changes alike, the deviation by `|c|`, and minimum and maximum change alike, trading places if `c` is negative. -/
theorem C233_affine (x : List ℝ) (c b mu sd mn mx : ℝ) (h : histStats x = .ok (mu, sd, mn, mx)) :
    histStats (x.map fun a => c * a + b) = .ok (c * mu + b, |c| * sd, if 0 ≤ c then c * mn + b else c * mx + b, if 0 ≤ c then c * mx + b else c * mn + b) := by
  rw [histStats_iff] at h ⊢
  have hm := h.mean
  have hs := h.std
  refine ⟨?_, mul_nonneg (abs_nonneg _) h.nonneg, ?_, ?_, ?_, ?_, ?_⟩
  · rw [sum_affine, ← hm, List.length_map]; ring
  · rw [sum_sq_affine, ← hs, List.length_map, mul_pow, sq_abs]; ring
  · split_ifs
    · exact List.mem_map.2 ⟨_, h.mn_mem, rfl⟩
    · exact List.mem_map.2 ⟨_, h.mx_mem, rfl⟩
  · intro a0 ha0
    obtain ⟨a, ha, rfl⟩ := List.mem_map.1 ha0
    have h1 := h.mn_le a ha
    have h2 := h.le_mx a ha
    split_ifs with hc
    · nlinarith
    · nlinarith
  · split_ifs
    · exact List.mem_map.2 ⟨_, h.mx_mem, rfl⟩
    · exact List.mem_map.2 ⟨_, h.mn_mem, rfl⟩
  · intro a0 ha0
    obtain ⟨a, ha, rfl⟩ := List.mem_map.1 ha0
    have h1 := h.mn_le a ha
    have h2 := h.le_mx a ha
    split_ifs with hc
    · nlinarith
    · nlinarith

theorem sum_between (x : List ℝ) (lo hi : ℝ) (h : ∀ a ∈ x, lo ≤ a ∧ a ≤ hi) : x.length * lo ≤ x.sum ∧ x.sum ≤ x.length * hi := by
  induction x with
  | nil => simp
  | cons a x ih =>
    obtain ⟨i1, i2⟩ := ih fun b hb => h b (List.mem_cons_of_mem _ hb)
    obtain ⟨j1, j2⟩ := h a List.mem_cons_self
    simp only [List.sum_cons, List.length_cons, Nat.cast_add, Nat.cast_one]
    constructor <;> linarith

theorem sum_popoviciu (x : List ℝ) (m lo hi : ℝ) (h : ∀ a ∈ x, lo ≤ a ∧ a ≤ hi) :
    (x.map fun a => (a - m) ^ 2).sum ≤ (lo + hi - 2 * m) * x.sum + x.length * (m ^ 2 - lo * hi) := by
  induction x with
  | nil => simp
  | cons a x ih =>
    have i1 := ih fun b hb => h b (List.mem_cons_of_mem _ hb)
    obtain ⟨j1, j2⟩ := h a List.mem_cons_self
    simp only [List.map_cons, List.sum_cons, List.length_cons, Nat.cast_add, Nat.cast_one]
    nlinarith [mul_nonneg (sub_nonneg.2 j1) (sub_nonneg.2 j2)]

/-- The mean lies between minimum and maximum, and the deviation is at most half their distance. -/
theorem C233_bounds (x : List ℝ) (mu sd mn mx : ℝ) (h : histStats x = .ok (mu, sd, mn, mx)) : mn ≤ mu ∧ mu ≤ mx ∧ 0 ≤ sd ∧ sd ^ 2 ≤ (mx - mu) * (mu - mn) ∧ sd ≤ (mx - mn) / 2 := by
  rw [histStats_iff] at h
  have hx : 0 < x.length := List.length_pos_of_mem h.mn_mem
  have hn : (0 : ℝ) < x.length := by exact_mod_cast hx
  obtain ⟨b1, b2⟩ := sum_between x mn mx fun a ha => ⟨h.mn_le a ha, h.le_mx a ha⟩
  have b3 := sum_popoviciu x mu mn mx fun a ha => ⟨h.mn_le a ha, h.le_mx a ha⟩
  rw [← h.mean] at b1 b2 b3
  rw [← h.std] at b3
  have c1 : mn ≤ mu := le_of_mul_le_mul_left b1 hn
  have c2 : mu ≤ mx := le_of_mul_le_mul_left b2 hn
  have c3 : sd ^ 2 ≤ (mx - mu) * (mu - mn) := by
    refine le_of_mul_le_mul_left (b3.trans (le_of_eq ?_)) hn
    ring
  refine ⟨c1, c2, h.nonneg, c3, abs_le_of_sq_le_sq' (by nlinarith [sq_nonneg ((mx - mu) - (mu - mn))]) (by linarith) |>.2⟩

/-- The deviation is 0 exactly for constant values. -/
theorem C233_constant (x : List ℝ) (mu sd mn mx : ℝ) (h : histStats x = .ok (mu, sd, mn, mx)) : sd = 0 ↔ mn = mx := by
  obtain ⟨b1, b2, b3, b4, b5⟩ := C233_bounds _ _ _ _ _ h
  rw [histStats_iff] at h
  refine ⟨fun e => ?_, fun e => le_antisymm (by rw [e] at b5; linarith) b3⟩
  have hs := h.std
  rw [e] at hs
  have hz : ∀ a ∈ x, a = mu := by
    intro a ha
    have h0 : (x.map fun a => (a - mu) ^ 2).sum = 0 := by rw [← hs]; ring
    have h1 := (List.single_le_sum (l := x.map fun a => (a - mu) ^ 2) (fun b hb => by obtain ⟨a, -, rfl⟩ := List.mem_map.1 hb; positivity)) _ (List.mem_map.2 ⟨a, ha, rfl⟩)
    rw [h0] at h1
    have := pow_eq_zero_iff (two_ne_zero) |>.1 (le_antisymm h1 (sq_nonneg _))
    linarith
  rw [hz _ h.mn_mem, hz _ h.mx_mem]

/-- Chebyshev: at most `1/k²` of the values are `k` deviations or more away from the mean. -/
theorem C233_tail (x : List ℝ) (mu sd mn mx : ℝ) (h : histStats x = .ok (mu, sd, mn, mx)) (d : ℝ) (hd : 0 ≤ d) :
    ((x.filter fun a => decide (d ≤ |a - mu|)).length : ℝ) * d ^ 2 ≤ x.length * sd ^ 2 := by
  rw [histStats_iff] at h
  rw [h.std]
  clear h
  induction x with
  | nil => simp
  | cons a x ih =>
    simp only [List.map_cons, List.sum_cons, List.filter_cons]
    split_ifs with hc
    · have hc' : d ≤ |a - mu| := by simpa using hc
      have : d ^ 2 ≤ (a - mu) ^ 2 := by rw [← sq_abs (a - mu)]; exact pow_le_pow_left₀ hd hc' 2
      simp only [List.length_cons, Nat.cast_add, Nat.cast_one]
      linarith
    · linarith [sq_nonneg (a - mu)]

/-- The values 0, 2: mean 1, deviation 1. -/
example : histStats [0, 2] = .ok (1, 1, 0, 2) := by
  rw [histStats_iff]
  exact ⟨by norm_num, by norm_num, by norm_num, by simp, by simp, by simp, by simp⟩

end Ssq
