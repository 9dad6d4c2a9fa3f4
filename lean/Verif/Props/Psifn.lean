import Verif.Model.Psifn
import Verif.Lemmas.Cwt
import Verif.Lemmas.Dft
import Verif.Lemmas.Xifn
import Verif.Props.Replace
import Mathlib.Analysis.Real.Pi.Bounds

/-!
# Time-domain wavelets (C108), NaN checks of `cwt` (C109)
-/
namespace Ssq
open Complex Finset

/-! ## C108 -/

theorem psifn_row (f : WFn) (N : ℕ) (scales : List ℝ) (i : ℕ) (hi : i < scales.length) :
    (psifn f N scales).getD i [] = (List.range N).map fun j : ℕ =>
      (∑ k ∈ range N, ((psihCall f N scales).getD i []).getD k 0 * (-1) ^ k * tw N (j * k)) / N := by
  have hlen : (psihCall f N scales).length = scales.length := by
    unfold psihCall; rw [dropImag_length, List.length_map]
  have hi' : i < (psihCall f N scales).length := by rw [hlen]; exact hi
  have hrow : ((psihCall f N scales).getD i []).length = N := by
    rw [List.getD_eq_getElem _ _ hi']
    exact psihCall_rows f N scales _ (List.getElem_mem hi')
  unfold psifn
  rw [List.getD_eq_getElem _ _ (by rw [List.length_map]; exact hi'), List.getElem_map, ← List.getD_eq_getElem _ [] hi']
  set row := (psihCall f N scales).getD i [] with hr
  rw [hrow]
  have hz : (List.zipWith (fun a b : ℂ => a * b) row (psifnSigns N)).length = N := by
    rw [List.length_zipWith, hrow, psifnSigns, List.length_map, List.length_range, Nat.min_self]
  unfold ifftL
  rw [hz]
  refine List.map_congr_left fun j hj => ?_
  unfold idft
  congr 1
  refine sum_congr rfl fun k hk => ?_
  have hk' : k < N := mem_range.mp hk
  simp only
  rw [zipWith_getD _ row (psifnSigns N) k (0 : ℂ) (0 : ℂ) 0 (by rw [hrow]; exact hk') (by simpa [psifnSigns] using hk'), psifnSigns,
    getD_map_range _ _ hk']

theorem neg_one_tw {N : ℕ} (hN : 0 < N) (he : N % 2 = 0) (k : ℕ) : ((-1 : ℂ)) ^ k = tw N ((N / 2 : ℕ) * k) := by
  have h : tw N ((N / 2 : ℕ) : ℤ) = -1 := by
    unfold tw
    have hc : (2 * Real.pi * I * (((N / 2 : ℕ) : ℤ) : ℂ) / (N : ℂ)) = Real.pi * I := by
      obtain ⟨M, rfl⟩ : ∃ M, N = 2 * M := ⟨N / 2, by omega⟩
      have hM : (M : ℂ) ≠ 0 := by
        have : M ≠ 0 := by omega
        exact_mod_cast this
      rw [show 2 * M / 2 = M by omega]
      push_cast
      field_simp
    rw [hc, exp_pi_mul_I]
  rw [← h, tw_pow]
  congr 1
  ring

/-- **C108**, even length: `psifn` is the inverse FFT of the sampled wavelet, moved circularly by `N/2`, so that time 0 is at index `N/2`. -/
theorem C108_centered (f : WFn) (N : ℕ) (hN : 0 < N) (he : N % 2 = 0) (scales : List ℝ) (i : ℕ) (hi : i < scales.length) :
    (psifn f N scales).getD i [] = ifftshiftL (ifftL ((psihCall f N scales).getD i [])) := by
  have hlen : (psihCall f N scales).length = scales.length := by
    unfold psihCall; rw [dropImag_length, List.length_map]
  have hi' : i < (psihCall f N scales).length := by rw [hlen]; exact hi
  have hrow : ((psihCall f N scales).getD i []).length = N := by
    rw [List.getD_eq_getElem _ _ hi']
    exact psihCall_rows f N scales _ (List.getElem_mem hi')
  rw [psifn_row f N scales i hi]
  set row := (psihCall f N scales).getD i [] with hr
  unfold ifftshiftL ifftL
  rw [List.length_map, List.length_range, hrow]
  refine List.ext_getElem (by simp) fun j h1 h2 => ?_
  have hj : j < N := by simpa using h1
  rw [List.getElem_map, List.getElem_range, List.getElem_rotate, List.getElem_map, List.getElem_range]
  simp only [List.length_map, List.length_range]
  unfold idft
  congr 1
  refine sum_congr rfl fun k _ => ?_
  rw [neg_one_tw hN he, mul_assoc, ← tw_add]
  congr 1
  have h3 : (((j + N / 2) % N : ℕ) : ℤ) = j + (N / 2 : ℕ) - N * ((j + N / 2) / N : ℕ) := by
    have := Nat.mod_add_div (j + N / 2) N
    have h4 : (((j + N / 2) % N : ℕ) : ℤ) + N * ((j + N / 2) / N : ℕ) = ((j + N / 2 : ℕ) : ℤ) := by exact_mod_cast this
    push_cast at h4 ⊢
    linarith
  rw [h3]
  have h5 : ((j : ℤ) + (N / 2 : ℕ) - N * ((j + N / 2) / N : ℕ)) * k = ((N / 2 : ℕ) * k + j * k) + N * (-(((j + N / 2) / N : ℕ) * k)) := by ring
  rw [h5, tw_add N _ (N * _), tw_mul_n (by omega), mul_one, tw_add]

/-- The samples of a wavelet with real values have zero imaginary part. -/
theorem psih_im (f : ℝ → ℝ) (N : ℕ) (scales : List ℝ) (i : ℕ) (hi : i < scales.length) (k : ℕ) (hk : k < N) :
    ∃ r : ℝ, ((psihCall (.real f) N scales).getD i []).getD k 0 = (r : ℂ) ∧ ((∀ w, 0 ≤ f w) → 0 ≤ r) := by
  have e : (psihCall (.real f) N scales).getD i [] = halveNyquist (sampleRow (.real f) N (scales.getD i 0)) := by
    unfold psihCall dropImag
    rw [List.getD_eq_getElem _ _ (by simpa using hi), List.getElem_map, List.getD_eq_getElem _ _ hi]
  rw [e]
  have hs : (sampleRow (.real f) N (scales.getD i 0)).length = N := sampleRow_length _ _ _
  have hval : ∀ j, j < N → (sampleRow (.real f) N (scales.getD i 0)).getD j 0 = ((f (scales.getD i 0 * (xifn 1 N).getD j 0) : ℝ) : ℂ) := by
    intro j hj
    unfold sampleRow
    rw [getD_map_c _ _ _ 0 (by rw [xifn_length]; exact hj)]
    rfl
  unfold halveNyquist
  rw [hs]
  split_ifs with h2
  · by_cases hkn : k = N / 2
    · refine ⟨f (scales.getD i 0 * (xifn 1 N).getD (N / 2) 0) / 2, ?_, fun h => div_nonneg (h _) (by norm_num)⟩
      have hlt : N / 2 < N := by omega
      rw [hkn, List.getD_eq_getElem _ _ (by rw [List.length_set, hs]; exact hlt), List.getElem_set_self, hval _ hlt]
      push_cast; rfl
    · refine ⟨f (scales.getD i 0 * (xifn 1 N).getD k 0), ?_, fun h => h _⟩
      rw [List.getD_eq_getElem _ _ (by rw [List.length_set, hs]; exact hk), List.getElem_set_ne (Ne.symm hkn),
        ← List.getD_eq_getElem _ 0 (by rw [hs]; exact hk), hval _ hk]
  · exact ⟨f (scales.getD i 0 * (xifn 1 N).getD k 0), hval _ hk, fun h => h _⟩

/-- **C108**, symmetry: the time-domain wavelet of a wavelet with real values is conjugate symmetric about `N/2`, for every length. -/
theorem C108_symmetric (f : ℝ → ℝ) (N : ℕ) (scales : List ℝ) (i : ℕ) (hi : i < scales.length) (j : ℕ) (hj : 0 < j) (hjN : j < N) :
    ((psifn (.real f) N scales).getD i []).getD (N - j) 0 = (starRingEnd ℂ) (((psifn (.real f) N scales).getD i []).getD j 0) := by
  rw [psifn_row _ _ _ _ hi, getD_map_range _ _ hjN, getD_map_range _ _ (by omega), map_div₀, map_sum, Complex.conj_natCast]
  congr 1
  refine sum_congr rfl fun k hk => ?_
  obtain ⟨r, hr, -⟩ := psih_im f N scales i hi k (mem_range.mp hk)
  rw [hr, map_mul, map_mul, conj_ofReal, tw_conj, map_pow, map_neg, map_one]
  congr 1
  have h1 : (((N - j : ℕ) : ℤ)) * k = -(j * k) + N * k := by
    rw [Nat.cast_sub hjN.le]; ring
  rw [h1, tw_add, tw_mul_n (by omega), mul_one]

/-- **C108**, in full: the largest sample of the time-domain wavelet of a nonnegative wavelet is at index `N//2`. -/
def C108_full : Prop := ∀ (f : ℝ → ℝ), (∀ w, 0 ≤ f w) → (∀ w, w < 0 → f w = 0) → ∀ (N : ℕ), 0 < N → ∀ (s : ℝ) (j : ℕ), j < N →
  ‖((psifn (.real f) N [s]).getD 0 []).getD j 0‖ ≤ ‖((psifn (.real f) N [s]).getD 0 []).getD (N / 2) 0‖

/-- **C108**, even length: the largest sample is at `N/2`, and it is the mean of the samples in frequency. -/
theorem C108_peak_partial (f : ℝ → ℝ) (hf : ∀ w, 0 ≤ f w) (N : ℕ) (hN : 0 < N) (he : N % 2 = 0) (scales : List ℝ) (i : ℕ)
    (hi : i < scales.length) :
    (∀ j < N, ‖((psifn (.real f) N scales).getD i []).getD j 0‖ ≤ ‖((psifn (.real f) N scales).getD i []).getD (N / 2) 0‖) ∧
    ((psifn (.real f) N scales).getD i []).getD (N / 2) 0 =
      (∑ k ∈ range N, ((psihCall (.real f) N scales).getD i []).getD k 0) / N := by
  have hmid : ((psifn (.real f) N scales).getD i []).getD (N / 2) 0 =
      (∑ k ∈ range N, ((psihCall (.real f) N scales).getD i []).getD k 0) / N := by
    rw [psifn_row _ _ _ _ hi, getD_map_range _ _ (by omega)]
    congr 1
    refine sum_congr rfl fun k _ => ?_
    rw [← neg_one_tw hN he, mul_assoc, ← mul_pow]
    norm_num
  refine ⟨fun j hj => ?_, hmid⟩
  rw [hmid, psifn_row _ _ _ _ hi, getD_map_range _ _ hj, norm_div, norm_div]
  refine div_le_div_of_nonneg_right ?_ (norm_nonneg _)
  have hre : ∀ k ∈ range N, ∃ r : ℝ, ((psihCall (.real f) N scales).getD i []).getD k 0 = (r : ℂ) ∧ 0 ≤ r := by
    intro k hk
    obtain ⟨r, h1, h2⟩ := psih_im f N scales i hi k (mem_range.mp hk)
    exact ⟨r, h1, h2 hf⟩
  have hsum : ‖∑ k ∈ range N, ((psihCall (.real f) N scales).getD i []).getD k 0‖ =
      ∑ k ∈ range N, ‖((psihCall (.real f) N scales).getD i []).getD k 0‖ := by
    have h1 : ∑ k ∈ range N, ((psihCall (.real f) N scales).getD i []).getD k 0 =
        ((∑ k ∈ range N, ‖((psihCall (.real f) N scales).getD i []).getD k 0‖ : ℝ) : ℂ) := by
      rw [ofReal_sum]
      refine sum_congr rfl fun k hk => ?_
      obtain ⟨r, h1, h2⟩ := hre k hk
      rw [h1, norm_real, Real.norm_of_nonneg h2]
    rw [h1, norm_real, Real.norm_of_nonneg (sum_nonneg fun _ _ => norm_nonneg _)]
  rw [hsum]
  refine (norm_sum_le _ _).trans (le_of_eq (sum_congr rfl fun k _ => ?_))
  rw [norm_mul, norm_mul, norm_pow, norm_neg, norm_one, one_pow, mul_one, norm_tw, mul_one]

theorem psih5 (f : ℝ → ℝ) : (psihCall (.real f) 5 [1]).getD 0 [] = sampleRow (.real f) 5 1 := by
  unfold psihCall dropImag
  simp only [List.map_cons, List.map_nil, List.getD_cons_zero]
  unfold halveNyquist
  rw [sampleRow_length, if_neg (by norm_num)]

/-- With 5 samples and a wavelet that is 1 at frequency 0 and on the upper part of the band, the largest sample is the first, not the middle one. -/
theorem C108_refuted : ¬ C108_full := by
  intro h
  let f : ℝ → ℝ := fun w => if w = 0 ∨ 2 < w then 1 else 0
  have hp1 := Real.pi_gt_d2
  have hp2 := Real.pi_lt_d2
  have hval : ∀ k < 5, ((psihCall (.real f) 5 [1]).getD 0 []).getD k 0 = if k = 0 ∨ k = 2 then 1 else 0 := by
    intro k hk
    rw [psih5]
    unfold sampleRow
    rw [getD_map_c _ _ _ 0 (by rw [xifn_length]; exact hk)]
    change ((f (1 * (xifn 1 5).getD k 0) : ℝ) : ℂ) = _
    rw [xifn_getD _ _ _ hk]
    have hpos := Real.pi_pos
    have : k = 0 ∨ k = 1 ∨ k = 2 ∨ k = 3 ∨ k = 4 := by omega
    rcases this with rfl | rfl | rfl | rfl | rfl
    · simp [f]
    · norm_num [f]
      linarith
    · norm_num [f]
      linarith
    · norm_num [f]
      linarith
    · norm_num [f]
      linarith
  have hsum : ∀ j < 5, ((psifn (.real f) 5 [1]).getD 0 []).getD j 0 = (1 + tw 5 (j * 2)) / 5 := by
    intro j hj
    rw [psifn_row _ _ _ _ (by norm_num), getD_map_range _ _ hj]
    congr 1
    simp only [sum_range_succ, sum_range_zero]
    rw [hval 0 (by norm_num), hval 1 (by norm_num), hval 2 (by norm_num), hval 3 (by norm_num), hval 4 (by norm_num)]
    norm_num
  have hle := h f (fun w => by simp only [f]; split_ifs <;> norm_num) (fun w hw => by
    simp only [f]; rw [if_neg]; rintro (h | h) <;> linarith) 5 (by norm_num) 1 0 (by norm_num)
  rw [hsum 0 (by norm_num), hsum (5 / 2) (by norm_num), norm_div, norm_div] at hle
  have h5 : (0 : ℝ) < ‖((5 : ℕ) : ℂ)‖ := by simp
  have hle2 : ‖(1 : ℂ) + tw 5 ((0 : ℕ) * 2)‖ ≤ ‖1 + tw 5 (((5 / 2 : ℕ) : ℤ) * 2)‖ := by
    have h6 : (0 : ℝ) < ‖(5 : ℂ)‖ := by norm_num
    exact (div_le_div_iff_of_pos_right h6).mp hle
  have e0 : tw 5 (((0 : ℕ) : ℤ) * 2) = 1 := by simp
  rw [e0] at hle2
  set z := tw 5 (((5 / 2 : ℕ) : ℤ) * 2) with hz
  have hz1 : ‖z‖ = 1 := norm_tw _ _
  have hz2 : z ≠ 1 := by
    rw [hz, Ne, tw_eq_one_iff (by norm_num)]
    norm_num
  have hz3 : z.re < 1 := by
    refine lt_of_le_of_ne ((Complex.re_le_norm z).trans hz1.le) fun hre => hz2 ?_
    have := Complex.sq_norm z
    rw [hz1, Complex.normSq_apply, hre] at this
    have him : z.im = 0 := by
      have : z.im * z.im = 0 := by linarith
      exact mul_self_eq_zero.mp this
    exact Complex.ext hre him
  have hn : ‖1 + z‖ ^ 2 = 2 + 2 * z.re := by
    have h1 := Complex.sq_norm z
    rw [hz1, Complex.normSq_apply] at h1
    rw [Complex.sq_norm, Complex.normSq_apply]
    simp only [add_re, one_re, add_im, one_im, zero_add]
    nlinarith
  have h2 : ‖(1 : ℂ) + 1‖ = 2 := by norm_num
  rw [h2] at hle2
  nlinarith [norm_nonneg (1 + z)]

example (f : ℝ → ℝ) (hf : ∀ w, 0 ≤ f w) : ∀ j < 8, ‖((psifn (.real f) 8 [3]).getD 0 []).getD j 0‖ ≤
    ‖((psifn (.real f) 8 [3]).getD 0 []).getD 4 0‖ :=
  (C108_peak_partial f hf 8 (by norm_num) rfl [3] 0 (by norm_num)).1

/-- The hypotheses are met by a Gaussian bump with 6 samples at scale 2. -/
example : ‖((psifn (.real fun w => Real.exp (-(w - 3) ^ 2)) 6 [2]).getD 0 []).getD 1 0‖ ≤
    ‖((psifn (.real fun w => Real.exp (-(w - 3) ^ 2)) 6 [2]).getD 0 []).getD 3 0‖ :=
  (C108_peak_partial _ (fun _ => (Real.exp_pos _).le) 6 (by norm_num) (by norm_num) [2] 0 (by norm_num)).1 1 (by norm_num)

/-! ## C109 -/

namespace Spec

/-- A value that is neither infinite nor NaN. -/
def IsFin (v : FVal) : Prop := ∃ a, v = .fin a

/-- Memory after the entries of `x` that are not finite have been set to 0, and nothing else. -/
def Zeroed (x : NdView) (m m' : ℕ → FVal) : Prop :=
  (∀ p, InShape x.shape p → (IsFin (m (x.addr p)) → m' (x.addr p) = m (x.addr p)) ∧ (¬ IsFin (m (x.addr p)) → m' (x.addr p) = .fin 0)) ∧
  ∀ a, (∀ p, InShape x.shape p → a ≠ x.addr p) → m' a = m a

end Spec
open Spec

theorem mem_ndIndices : ∀ (s p : List ℕ), p ∈ ndIndices s ↔ InShape s p
  | [], p => by
    cases p <;> simp [ndIndices, InShape]
  | a :: s, p => by
    simp only [ndIndices, List.mem_flatMap, List.mem_map, List.mem_range]
    constructor
    · rintro ⟨i, hi, q, hq, rfl⟩
      exact ⟨hi, (mem_ndIndices s q).1 hq⟩
    · intro h
      match p, h with
      | i :: q, h => exact ⟨i, h.1, q, (mem_ndIndices s q).2 h.2, rfl⟩

theorem not_finite_iff (v : FVal) : ¬ IsFin v ↔ v.isInf ∨ v.isNan := by
  cases v <;> simp [IsFin, FVal.isInf, FVal.isNan]

theorem npMaxStep_fin (x y : ℝ) : ∃ z, npMaxStep (.fin x) (.fin y) = .fin z := by
  unfold npMaxStep
  split_ifs
  exacts [⟨_, rfl⟩, ⟨_, rfl⟩, ⟨_, rfl⟩, ⟨_, rfl⟩]

theorem npMinStep_fin (x y : ℝ) : ∃ z, npMinStep (.fin x) (.fin y) = .fin z := by
  unfold npMinStep
  split_ifs
  exacts [⟨_, rfl⟩, ⟨_, rfl⟩, ⟨_, rfl⟩, ⟨_, rfl⟩]

/-- The fold finds NaN and +inf: if the maximum is finite or -inf, no entry is NaN or +inf; if it is not, some entry is not finite. -/
theorem foldl_max (l : List FVal) : ∀ a : FVal,
    ((l.foldl npMaxStep a = .nan ∨ l.foldl npMaxStep a = .pinf) ↔ (∃ v ∈ a :: l, v = .nan ∨ v = .pinf)) ∧
    (l.foldl npMaxStep a = .ninf ↔ ∀ v ∈ a :: l, v = .ninf) := by
  induction l with
  | nil => intro a; simp
  | cons b l ih =>
    intro a
    obtain ⟨h1, h2⟩ := ih (npMaxStep a b)
    rw [List.foldl_cons]
    constructor
    · rw [h1]
      simp only [List.mem_cons, exists_eq_or_imp]
      rw [← or_assoc]
      refine or_congr ?_ Iff.rfl
      clear h1 h2 ih
      cases a <;> cases b
      · obtain ⟨z, hz⟩ := npMaxStep_fin _ _
        rw [hz]
        simp
      all_goals simp [npMaxStep, FVal.isNan, FVal.lt]
    · rw [h2]
      simp only [List.mem_cons, forall_eq_or_imp]
      rw [← and_assoc]
      refine and_congr ?_ Iff.rfl
      clear h1 h2 ih
      cases a <;> cases b
      · obtain ⟨z, hz⟩ := npMaxStep_fin _ _
        rw [hz]
        simp
      all_goals simp [npMaxStep, FVal.isNan, FVal.lt]

theorem foldl_min (l : List FVal) : ∀ a : FVal, (∀ v ∈ a :: l, v ≠ .nan) →
    (l.foldl npMinStep a = .ninf ↔ ∃ v ∈ a :: l, v = .ninf) ∧ (l.foldl npMinStep a = .pinf ↔ ∀ v ∈ a :: l, v = .pinf) := by
  induction l with
  | nil => intro a _; constructor <;> simp [eq_comm]
  | cons b l ih =>
    intro a hn
    have hb := hn b (by simp)
    have ha := hn a (by simp)
    have hs : npMinStep a b = a ∨ npMinStep a b = b := by
      unfold npMinStep
      split_ifs <;> simp
    obtain ⟨h1, h2⟩ := ih (npMinStep a b) (by
      intro v hv
      rcases List.mem_cons.mp hv with rfl | hv
      · rcases hs with h | h <;> rw [h] <;> assumption
      · exact hn v (by simp [hv]))
    rw [List.foldl_cons]
    constructor
    · rw [h1]
      simp only [List.mem_cons, exists_eq_or_imp]
      rw [← or_assoc]
      refine or_congr ?_ Iff.rfl
      clear h1 h2 ih
      cases a <;> cases b
      · obtain ⟨z, hz⟩ := npMinStep_fin _ _
        rw [hz]
        simp
      all_goals simp_all [npMinStep, FVal.isNan, FVal.lt]
    · rw [h2]
      simp only [List.mem_cons, forall_eq_or_imp]
      rw [← and_assoc]
      refine and_congr ?_ Iff.rfl
      clear h1 h2 ih
      cases a <;> cases b
      · obtain ⟨z, hz⟩ := npMinStep_fin _ _
        rw [hz]
        simp
      all_goals simp_all [npMinStep, FVal.isNan, FVal.lt]

/-- **C109**, the checks. With `nan_checks` left at its default or True, for a 1D or 2D numpy array that is not empty, `cwt` sets exactly the entries that are
not finite to 0, in the caller's array, and touches nothing else. -/
theorem C109_zeroes (nan : Option Bool) (hnan : nan ≠ some false) (x : NdView) (hx : x.shape.length = 1 ∨ x.shape.length = 2)
    (hpos : ∃ p, InShape x.shape p) (hd : DistinctCells x) (m : ℕ → FVal) :
    ∃ m', cwtNanChecks nan (.arr x) m = .ok m' ∧ Zeroed x m m' := by
  have hflag : nan.getD true = true := by
    rcases nan with _ | b
    · rfl
    · cases b
      · exact absurd rfl hnan
      · rfl
  obtain ⟨p0, hp0⟩ := hpos
  have hrep : ∃ m', (replaceAtInfOrNan (.fin 0) m (.arr x) .none).map (·.2) = .ok m' ∧ Zeroed x m m' := by
    obtain ⟨r, hr, h1, h2, -⟩ := C63_self (fun v => v.isInf ∨ v.isNan) (.fin 0) m x (by omega) hd
    refine ⟨r.2, by unfold replaceAtInfOrNan; rw [hr]; rfl, fun p hp => ?_, h2⟩
    obtain ⟨h3, h4⟩ := h1 p hp
    refine ⟨fun h => h4 fun h' => ((not_finite_iff _).mpr h') h, fun h => h3 ((not_finite_iff _).mp h)⟩
  have hsame : (∀ p, InShape x.shape p → IsFin (m (x.addr p))) → Zeroed x m m := fun h =>
    ⟨fun p hp => ⟨fun _ => rfl, fun h' => absurd (h p hp) h'⟩, fun _ _ => rfl⟩
  unfold cwtNanChecks
  simp only
  rw [if_neg (by omega), if_pos hflag]
  have hmem : ∀ v, v ∈ (ndIndices x.shape).map (fun p => m (x.addr p)) ↔ ∃ p, InShape x.shape p ∧ m (x.addr p) = v := by
    intro v
    simp only [List.mem_map, mem_ndIndices]
  rcases hl : (ndIndices x.shape).map (fun p => m (x.addr p)) with _ | ⟨a, l⟩
  · have : m (x.addr p0) ∈ (ndIndices x.shape).map (fun p => m (x.addr p)) := (hmem _).mpr ⟨p0, hp0, rfl⟩
    rw [hl] at this
    simp at this
  rw [hl] at hmem
  obtain ⟨f1, f2⟩ := foldl_max l a
  simp only [npMax, npMin, Except.bind]
  by_cases hmx : (l.foldl npMaxStep a).isNan ∨ (l.foldl npMaxStep a).isInf
  · rw [if_pos hmx]; exact hrep
  · rw [if_neg hmx]
    have hnn : ∀ v ∈ a :: l, v ≠ .nan ∧ v ≠ .pinf := by
      intro v hv
      refine ⟨fun h => hmx ?_, fun h => hmx ?_⟩
      · rcases f1.mpr ⟨v, hv, Or.inl h⟩ with h | h <;> rw [h] <;> simp [FVal.isNan, FVal.isInf]
      · rcases f1.mpr ⟨v, hv, Or.inr h⟩ with h | h <;> rw [h] <;> simp [FVal.isNan, FVal.isInf]
    obtain ⟨g1, g2⟩ := foldl_min l a (fun v hv => (hnn v hv).1)
    by_cases hmn : (l.foldl npMinStep a).isInf
    · rw [if_pos hmn]; exact hrep
    · rw [if_neg hmn]
      refine ⟨m, rfl, hsame fun p hp => ?_⟩
      have hv := (hmem _).mpr ⟨p, hp, rfl⟩
      by_contra hf
      rcases (not_finite_iff _).mp hf with h | h
      · rcases hmv : m (x.addr p) with _ | _ | _ | _
        · rw [hmv] at h; exact h
        · exact (hnn _ hv).2 hmv
        · exact hmn (by rw [g1.mpr ⟨_, hv, hmv⟩]; trivial)
        · rw [hmv] at h; exact h
      · rcases hmv : m (x.addr p) with _ | _ | _ | _
        · rw [hmv] at h; exact h
        · exact (hnn _ hv).2 hmv
        · rw [hmv] at h; exact h
        · exact (hnn _ hv).1 hmv

/-- **C109**, the caller's array. It is unchanged exactly when it is finite. -/
theorem C109_unchanged (nan : Option Bool) (hnan : nan ≠ some false) (x : NdView) (hx : x.shape.length = 1 ∨ x.shape.length = 2)
    (hpos : ∃ p, InShape x.shape p) (hd : DistinctCells x) (m : ℕ → FVal) :
    cwtNanChecks nan (.arr x) m = .ok m ↔ ∀ p, InShape x.shape p → IsFin (m (x.addr p)) := by
  obtain ⟨m', h1, h2, h3⟩ := C109_zeroes nan hnan x hx hpos hd m
  rw [h1]
  constructor
  · intro h p hp
    injection h with h
    subst h
    by_contra hf
    exact hf ⟨0, (h2 p hp).2 hf⟩
  · intro h
    congr 1
    funext a
    by_cases ha : ∃ p, InShape x.shape p ∧ a = x.addr p
    · obtain ⟨p, hp, rfl⟩ := ha
      exact (h2 p hp).1 (h p hp)
    · exact h3 a fun p hp h => ha ⟨p, hp, h⟩

/-- **C109**, `nan_checks=False` reads and writes nothing, and tensors are never changed: True is refused for them. -/
theorem C109_off (x : NdView) (m : ℕ → FVal) :
    (cwtNanChecks (some false) (.arr x) m = if x.shape.length = 1 ∨ x.shape.length = 2 then .ok m else .error .valueError) ∧
    (∀ nan, cwtNanChecks nan .other m = if nan = some true then .error .valueError else .ok m) := by
  refine ⟨?_, fun _ => rfl⟩
  unfold cwtNanChecks
  simp only [Option.getD_some, Bool.false_eq_true, if_false]
  by_cases h : x.shape.length = 1 ∨ x.shape.length = 2
  · rw [if_neg (by omega), if_pos h]
  · rw [if_pos (by omega), if_neg h]

/-- **C109**, in full: for every order, `nan_checks=False` leaves the caller's array alone. -/
def C109_full : Prop := ∀ (order0 : Bool) (x : NdView) (m m' : ℕ → FVal), cwtChecks order0 (some false) (.arr x) m = .ok m' → m' = m

/-- `cwt(x, order=1, nan_checks=False)` still zeroes: the flag is not passed on for orders other than 0. -/
theorem C109_refuted : ¬ C109_full := by
  intro h
  let x : NdView := ⟨[1], fun _ => 0⟩
  let m : ℕ → FVal := fun _ => .nan
  have hin : InShape x.shape [0] := ⟨by norm_num, trivial⟩
  have hd : DistinctCells x := by
    intro p q hp hq _
    match p, q, hp, hq with
    | [a], [b], hp, hq =>
      have h1 : a < 1 := hp.1
      have h2 : b < 1 := hq.1
      congr 1
      omega
  obtain ⟨m', h1, h2, -⟩ := C109_zeroes none (by simp) x (Or.inl rfl) ⟨[0], hin⟩ hd m
  have h3 := h false x m m' h1
  have h4 := (h2 [0] hin).2 (by rintro ⟨a, ha⟩; exact nomatch ha)
  rw [h3] at h4
  exact nomatch h4

/-- **C109**, order 0: `nan_checks` is honoured. -/
theorem C109_order0_partial (nan : Option Bool) (x : RArg) (m : ℕ → FVal) :
    cwtChecks true nan x m = cwtNanChecks nan x m ∧ cwtChecks false nan x m = cwtNanChecks none x m := ⟨rfl, rfl⟩

example : ∃ m', cwtNanChecks none (.arr ⟨[2, 2], fun p => p.getD 0 0 * 2 + p.getD 1 0⟩) (fun a => if a = 3 then .ninf else .fin a) = .ok m' ∧
    m' 3 = .fin 0 ∧ m' 1 = .fin 1 := by
  have hd : DistinctCells ⟨[2, 2], fun p => p.getD 0 0 * 2 + p.getD 1 0⟩ := by
    intro p q hp hq h
    match p, q, hp, hq with
    | [a, b], [c, d], hp, hq =>
      have h1 : a < 2 := hp.1
      have h2 : b < 2 := hp.2.1
      have h3 : c < 2 := hq.1
      have h4 : d < 2 := hq.2.1
      have h5 : a * 2 + b = c * 2 + d := h
      have : a = c ∧ b = d := by omega
      rw [this.1, this.2]
  obtain ⟨m', h1, h2, -⟩ := C109_zeroes none (by simp) ⟨[2, 2], fun p => p.getD 0 0 * 2 + p.getD 1 0⟩ (Or.inr rfl)
    ⟨[0, 0], by norm_num [InShape]⟩ hd (fun a => if a = 3 then .ninf else .fin a)
  refine ⟨m', h1, ?_, ?_⟩
  · refine (h2 [1, 1] (by norm_num [InShape])).2 ?_
    rintro ⟨a, ha⟩
    exact nomatch (show FVal.ninf = .fin a from ha)
  · have := (h2 [0, 1] (by norm_num [InShape])).1 ⟨1, by simp⟩
    simpa using this

end Ssq
