import Verif.Model.Dft
import Mathlib.Algebra.BigOperators.Field
import Mathlib.Data.List.GetD

/-! Facts about the exact DFT. -/
namespace Ssq
open Finset Complex

theorem tw_add (n : ℕ) (a b : ℤ) : tw n (a + b) = tw n a * tw n b := by
  unfold tw; rw [← exp_add]; congr 1; push_cast; ring

@[simp] theorem tw_zero (n : ℕ) : tw n 0 = 1 := by simp [tw]

theorem tw_neg_mul (n : ℕ) (a : ℤ) : tw n (-a) * tw n a = 1 := by
  rw [← tw_add]; simp

theorem tw_ne_zero (n : ℕ) (a : ℤ) : tw n a ≠ 0 := exp_ne_zero _

theorem tw_neg (n : ℕ) (a : ℤ) : tw n (-a) = (tw n a)⁻¹ := by
  exact eq_inv_of_mul_eq_one_left (tw_neg_mul n a)

theorem tw_conj (n : ℕ) (a : ℤ) : (starRingEnd ℂ) (tw n a) = tw n (-a) := by
  unfold tw; rw [← exp_conj]; congr 1; simp [Complex.conj_ofNat]

theorem norm_tw (n : ℕ) (a : ℤ) : ‖tw n a‖ = 1 := by
  unfold tw
  have : (2 * Real.pi * I * a / n : ℂ) = ((2 * Real.pi * a / n : ℝ) : ℂ) * I := by
    push_cast; ring
  rw [this, norm_exp_ofReal_mul_I]

theorem tw_mul_n {n : ℕ} (hn : n ≠ 0) (a : ℤ) : tw n (n * a) = 1 := by
  unfold tw
  have : (2 * Real.pi * I * ((n * a : ℤ) : ℂ) / n : ℂ) = a * (2 * Real.pi * I) := by
    have : (n : ℂ) ≠ 0 := by exact_mod_cast hn
    push_cast; field_simp
  rw [this]; exact exp_int_mul_two_pi_mul_I a

theorem tw_eq_one_iff {n : ℕ} (hn : n ≠ 0) (a : ℤ) : tw n a = 1 ↔ (n : ℤ) ∣ a := by
  constructor
  · intro h
    unfold tw at h
    rw [exp_eq_one_iff] at h
    obtain ⟨m, hm⟩ := h
    refine ⟨m, ?_⟩
    have h1 : (n : ℂ) ≠ 0 := by exact_mod_cast hn
    have h2 : (2 * Real.pi * I : ℂ) ≠ 0 := by
      simp [Real.pi_ne_zero]
    have : (a : ℂ) = n * m := by
      field_simp at hm
      have := mul_left_cancel₀ h2 (by linear_combination (2 * Real.pi * I : ℂ) * hm : (2 * Real.pi * I : ℂ) * a = (2 * Real.pi * I : ℂ) * (n * m))
      exact this
    exact_mod_cast this
  · rintro ⟨m, rfl⟩; exact tw_mul_n hn m

theorem tw_pow (n : ℕ) (a : ℤ) (k : ℕ) : tw n a ^ k = tw n (k * a) := by
  induction k with
  | zero => simp
  | succ k ih => rw [pow_succ, ih, ← tw_add]; congr 1; push_cast; ring

/-- Orthogonality. -/
theorem sum_tw {n : ℕ} (hn : n ≠ 0) (a : ℤ) :
    ∑ k ∈ range n, tw n (k * a) = if (n : ℤ) ∣ a then (n : ℂ) else 0 := by
  split
  · rename_i h
    obtain ⟨m, rfl⟩ := h
    have : ∀ k ∈ range n, tw n (k * (n * m)) = 1 := by
      intro k _
      rw [show (k : ℤ) * (n * m) = n * (k * m) by ring]; exact tw_mul_n hn _
    rw [sum_congr rfl this]; simp
  · rename_i h
    have h1 : tw n a ≠ 1 := fun h' => h ((tw_eq_one_iff hn a).1 h')
    have h2 : ∑ k ∈ range n, tw n (k * a) = ∑ k ∈ range n, tw n a ^ k :=
      sum_congr rfl fun k _ => (tw_pow n a k).symm
    rw [h2, geom_sum_eq h1, tw_pow, tw_mul_n hn]; simp

theorem dvd_sub_iff {n i j : ℕ} (hi : i < n) (hj : j < n) : (n : ℤ) ∣ (i : ℤ) - j ↔ i = j := by
  constructor
  · intro h
    have := Int.eq_zero_of_abs_lt_dvd h (by rw [abs_lt]; omega)
    omega
  · rintro rfl; simp

/-- DFT inversion. -/
theorem idft_dft {n : ℕ} (f : ℕ → ℂ) {j : ℕ} (hj : j < n) : idft n (dft n f) j = f j := by
  have hn : n ≠ 0 := by omega
  have hn' : (n : ℂ) ≠ 0 := by exact_mod_cast hn
  unfold idft dft
  rw [div_eq_iff hn']
  have : ∀ k ∈ range n, (∑ i ∈ range n, f i * tw n (-(i * k))) * tw n (j * k)
      = ∑ i ∈ range n, f i * tw n (k * ((j : ℤ) - i)) := by
    intro k _
    rw [sum_mul]
    refine sum_congr rfl fun i _ => ?_
    rw [mul_assoc, ← tw_add]; congr 2; ring
  rw [sum_congr rfl this, sum_comm]
  have : ∀ i ∈ range n, ∑ k ∈ range n, f i * tw n (k * ((j : ℤ) - i))
      = if j = i then f i * n else 0 := by
    intro i hi
    rw [← mul_sum, sum_tw hn]
    simp only [dvd_sub_iff hj (mem_range.1 hi)]
    split <;> simp
  rw [sum_congr rfl this, sum_ite_eq, if_pos (mem_range.2 hj)]

theorem dft_idft {n : ℕ} (F : ℕ → ℂ) {k : ℕ} (hk : k < n) : dft n (idft n F) k = F k := by
  have hn : n ≠ 0 := by omega
  have hn' : (n : ℂ) ≠ 0 := by exact_mod_cast hn
  unfold idft dft
  have : ∀ j ∈ range n, (∑ i ∈ range n, F i * tw n (j * i)) / n * tw n (-(j * k))
      = ∑ i ∈ range n, F i * tw n (j * ((i : ℤ) - k)) / n := by
    intro j _
    rw [sum_div, sum_mul]
    refine sum_congr rfl fun i _ => ?_
    rw [show (j : ℤ) * ((i : ℤ) - k) = j * i + -(j * k) by ring, tw_add]; ring
  rw [sum_congr rfl this, sum_comm]
  have : ∀ i ∈ range n, ∑ j ∈ range n, F i * tw n (j * ((i : ℤ) - k)) / n
      = if k = i then F i else 0 := by
    intro i hi
    rw [← sum_div, ← mul_sum, sum_tw hn]
    simp only [dvd_sub_iff (mem_range.1 hi) hk, eq_comm (a := i)]
    split
    · field_simp
    · simp
  rw [sum_congr rfl this, sum_ite_eq, if_pos (mem_range.2 hk)]

theorem dft_congr {n : ℕ} {f g : ℕ → ℂ} (h : ∀ j < n, f j = g j) (k : ℕ) :
    dft n f k = dft n g k :=
  sum_congr rfl fun j hj => by rw [h j (mem_range.1 hj)]

theorem idft_congr {n : ℕ} {f g : ℕ → ℂ} (h : ∀ j < n, f j = g j) (k : ℕ) :
    idft n f k = idft n g k := by
  unfold idft
  rw [sum_congr rfl fun j hj => by rw [h j (mem_range.1 hj)]]

theorem dft_add (n : ℕ) (f g : ℕ → ℂ) (k : ℕ) :
    dft n (fun j => f j + g j) k = dft n f k + dft n g k := by
  unfold dft; rw [← sum_add_distrib]; exact sum_congr rfl fun _ _ => by ring

theorem dft_smul (n : ℕ) (c : ℂ) (f : ℕ → ℂ) (k : ℕ) :
    dft n (fun j => c * f j) k = c * dft n f k := by
  unfold dft; rw [mul_sum]; exact sum_congr rfl fun _ _ => by ring

theorem idft_add (n : ℕ) (f g : ℕ → ℂ) (k : ℕ) :
    idft n (fun j => f j + g j) k = idft n f k + idft n g k := by
  unfold idft; rw [← add_div, ← sum_add_distrib]; congr 1; exact sum_congr rfl fun _ _ => by ring

theorem idft_smul (n : ℕ) (c : ℂ) (f : ℕ → ℂ) (k : ℕ) :
    idft n (fun j => c * f j) k = c * idft n f k := by
  unfold idft; rw [← mul_div_assoc, mul_sum]; congr 1; exact sum_congr rfl fun _ _ => by ring

theorem idft_sum {ι : Type} (s : Finset ι) (n : ℕ) (f : ι → ℕ → ℂ) (k : ℕ) :
    idft n (fun j => ∑ i ∈ s, f i j) k = ∑ i ∈ s, idft n (f i) k := by
  unfold idft
  rw [← sum_div]; congr 1
  rw [sum_comm]
  exact sum_congr rfl fun _ _ => by rw [sum_mul]

/-- Hermitian symmetry of the DFT of a real signal. -/
theorem dft_real_symm {n : ℕ} (x : ℕ → ℝ) {k : ℕ} (hk : k ≤ n) (hn : n ≠ 0) :
    dft n (fun j => (x j : ℂ)) (n - k) = (starRingEnd ℂ) (dft n (fun j => (x j : ℂ)) k) := by
  unfold dft
  rw [map_sum]
  refine sum_congr rfl fun j _ => ?_
  rw [map_mul, conj_ofReal, tw_conj]
  congr 1
  rw [show (-((j : ℤ) * ((n - k : ℕ) : ℤ))) = n * (-j) + - -(j * k) by
    rw [Nat.cast_sub hk]; ring, tw_add, tw_mul_n hn, one_mul]

/-- Splitting a full-period sum into conjugate pairs. -/
theorem sum_pairs {M : Type*} [AddCommMonoid M] (T : ℕ → M) {n : ℕ} (hn : 0 < n) :
    ∑ k ∈ range n, T k = T 0 + ∑ k ∈ Icc 1 ((n - 1) / 2), (T k + T (n - k))
      + (if n % 2 = 0 then T (n / 2) else 0) := by
  have hsplit : range n = insert 0 (Icc 1 ((n - 1) / 2) ∪ (Icc ((n - 1) / 2 + 1) (n - 1))) := by
    ext a; simp only [mem_range, mem_insert, mem_union, mem_Icc]; omega
  have hd : Disjoint (Icc 1 ((n - 1) / 2)) (Icc ((n - 1) / 2 + 1) (n - 1)) := by
    rw [disjoint_left]; intro a; simp only [mem_Icc]; omega
  rw [hsplit, sum_insert (by simp), sum_union hd, sum_add_distrib, add_assoc, add_assoc]
  congr 2
  have hrefl : ∑ k ∈ Icc 1 ((n - 1) / 2), T (n - k) = ∑ k ∈ Icc (n - (n - 1) / 2) (n - 1), T k := by
    refine sum_bij' (fun k _ => n - k) (fun k _ => n - k) ?_ ?_ ?_ ?_ ?_
    · intro a; simp only [mem_Icc]; omega
    · intro a; simp only [mem_Icc]; omega
    · intro a; simp only [mem_Icc]; omega
    · intro a; simp only [mem_Icc]; omega
    · intros; rfl
  rw [hrefl]
  split
  · rename_i he
    have : Icc ((n - 1) / 2 + 1) (n - 1) = insert (n / 2) (Icc (n - (n - 1) / 2) (n - 1)) := by
      ext a; simp only [mem_insert, mem_Icc]; omega
    rw [this, sum_insert (by simp only [mem_Icc]; omega), add_comm]
  · rename_i he
    rw [add_zero]
    congr 1
    ext a; simp only [mem_Icc]; omega

theorem getD_map_range {β : Type} (f : ℕ → β) (d : β) {m k : ℕ} (hk : k < m) :
    ((List.range m).map f).getD k d = f k := by
  rw [List.getD_eq_getElem _ _ (by simpa using hk)]; simp

/-- `irfft(rfft(x), n) = x`. -/
theorem irfftL_rfftL (x : List ℝ) : irfftL x.length (rfftL x) = x := by
  apply List.ext_getElem
  · simp [irfftL]
  intro j h1 h2
  have hn : 0 < x.length := by omega
  have hn0 : x.length ≠ 0 := by omega
  set n := x.length with hnd
  have hn' : (n : ℝ) ≠ 0 := by exact_mod_cast hn0
  simp only [irfftL, List.getElem_map, List.getElem_range]
  set X := dft n (fun j => ((x.getD j 0 : ℝ) : ℂ)) with hX
  have hS : ∀ k, k < n / 2 + 1 → (rfftL x).getD k 0 = X k := by
    intro k hk
    unfold rfftL; rw [← hnd]
    rw [getD_map_range _ _ hk]
  have key := idft_dft (fun j => ((x.getD j 0 : ℝ) : ℂ)) (n := n) (j := j) h2
  unfold idft at key
  rw [← hX, sum_pairs (fun k => X k * tw n (j * k)) hn] at key
  have hre := congrArg Complex.re key
  rw [hS 0 (by omega)]
  have hpair : ∀ k ∈ Icc 1 ((n - 1) / 2),
      2 * ((rfftL x).getD k 0 * tw n (j * k)).re
        = (X k * tw n (j * k) + X (n - k) * tw n (j * ((n - k : ℕ) : ℤ))).re := by
    intro k hk
    rw [mem_Icc] at hk
    rw [hS k (by omega)]
    have : X (n - k) * tw n (j * ((n - k : ℕ) : ℤ)) = (starRingEnd ℂ) (X k * tw n (j * k)) := by
      rw [map_mul, tw_conj, hX, dft_real_symm (fun j => x.getD j 0) (by omega) hn0]
      congr 1
      rw [Nat.cast_sub (by omega), show (j : ℤ) * ((n : ℤ) - k) = n * j + -(j * k) by ring,
        tw_add, tw_mul_n hn0, one_mul]
    rw [this, add_re, conj_re]; ring
  rw [sum_congr rfl hpair]
  have hmid : (if n % 2 = 0 then ((rfftL x).getD (n / 2) 0 * tw n (j * (n / 2 : ℕ))).re else 0)
      = (if n % 2 = 0 then X (n / 2) * tw n (j * (n / 2 : ℕ)) else 0 : ℂ).re := by
    split
    · rw [hS _ (by omega)]
    · simp
  rw [hmid, ← re_sum]
  simp only [Nat.cast_zero, mul_zero, tw_zero, mul_one] at hre
  rw [← add_re, ← add_re]
  have h3 : ∀ z : ℂ, (z / (n : ℂ)).re = z.re / n := by
    intro z; rw [Complex.div_natCast_re]
  rw [h3] at hre
  rw [hre, ofReal_re, List.getD_eq_getElem _ _ (by omega)]

end Ssq
