import Verif.Model.Harea
import Verif.Props.TimeRes
import Verif.Props.FreqGrid
import Mathlib.Analysis.Real.Pi.Bounds
import Mathlib.Analysis.SpecialFunctions.Trigonometric.Bounds

/-!
# C141, C142: the Heisenberg area of a wavelet
-/
namespace Ssq
open Spec Finset

namespace Spec

/-- `|f|` is greatest at `p` and nowhere else: what `find_maximum(wavelet.fn)` looks for. -/
def PeaksAt (f : WFn) (p : ℝ) : Prop := ∀ w, w ≠ p → ‖f.eval w‖ < ‖f.eval p‖

end Spec

/-- C141 in full: the Heisenberg area is at least one half, as its documentation says. -/
def C141_full : Prop := ∀ (f : WFn) (p : ℝ) (N : ℕ) (v : ℝ), 0 < p → PeaksAt f p → harea f p N true = .ok v → 1 / 2 ≤ v

/-- C142 in full: the Heisenberg area is the same for the dimensional and the nondimensional resolutions. -/
def C142_full : Prop := ∀ (f : WFn) (p : ℝ) (N : ℕ) (v : ℝ), 0 < p → PeaksAt f p → harea f p N false = .ok v → harea f p N true = .ok v

/-- **C142** for the general case: the two areas differ by the ratio of the discrete peak at the length of the wavelet to that at length 1024. -/
theorem C142_ratio (f : WFn) (p : ℝ) (N : ℕ) :
    harea f p N true = (harea f p N false).map fun v => v * (peakWc f (4 / Real.pi * p) N / peakWc f (4 / Real.pi * p) 1024) := by
  unfold harea stdT
  rw [C122_nondim]
  cases timeResolution f p (scalecCt p) N 1000 2 2 true false with
  | error e => rfl
  | ok t =>
    simp only [Except.bind, Except.map, stdW, freqResolutionFull, scalecCt]
    congr 1
    simp
    ring

/-- **C142** where it holds: the discrete peak at the length of the wavelet is that at length 1024, and not 0. In particular for wavelets of length 1024. -/
theorem C142_partial (f : WFn) (p : ℝ) (N : ℕ) (h : peakWc f (4 / Real.pi * p) N = peakWc f (4 / Real.pi * p) 1024)
    (h0 : peakWc f (4 / Real.pi * p) 1024 ≠ 0) : harea f p N true = harea f p N false := by
  rw [C142_ratio, h, div_self h0]
  cases harea f p N false <;> simp [Except.map]

/-! ### A continuous wavelet with a peak of the width of a frequency bin -/

/-- A triangle about 1 of half width `8 / M`. -/
noncomputable def triBin (M : ℕ) (w : ℝ) : ℝ := max 0 (1 - |w - 1| * (M / 8))

theorem triBin_peaks (M : ℕ) (hM : 0 < M) : PeaksAt (.real (triBin M)) 1 := by
  intro w hw
  have hM' : (0 : ℝ) < M := by exact_mod_cast hM
  have h1 : 0 < |w - 1| * ((M : ℝ) / 8) := mul_pos (abs_pos.2 (sub_ne_zero.2 hw)) (by positivity)
  have e1 : triBin M 1 = 1 := by simp [triBin]
  have e2 : triBin M w < 1 := by unfold triBin; exact max_lt one_pos (by linarith)
  have e3 : 0 ≤ triBin M w := le_max_left _ _
  simp only [WFn.eval, Complex.norm_real, Real.norm_eq_abs]
  rw [abs_of_nonneg e3, e1]
  simpa using e2

theorem triBin_nonneg (M : ℕ) (w : ℝ) : 0 ≤ triBin M w := le_max_left _ _

theorem scaled (N : ℕ) (j : ℤ) : 4 / Real.pi * 1 * (2 * Real.pi * 1 / N * (j : ℝ)) = 8 * j / N := by
  have := Real.pi_ne_zero
  field_simp
  ring

theorem triBin_apsih2 (M N : ℕ) (hN : 2 ≤ N) (he : N % 2 = 0) (i : ℕ) (hi : i < N) :
    (apsih2 (.real (triBin M)) (4 / Real.pi * 1) (shiftedXi N)).getD i 0 = triBin M (8 * (((i : ℤ) + 1 - (N / 2 : ℕ) : ℤ) : ℝ) / N) ^ 2 := by
  obtain ⟨_, h2, _⟩ := C50_sorted_partial 1 one_pos N hN he
  have hl := shiftedXi_length N hN he
  unfold apsih2 waveletAt
  simp only [List.map_map]
  rw [map_getD_lt (d := 0) (by omega)]
  simp only [Function.comp, WFn.eval, Complex.normSq_ofReal]
  have := h2 i hi
  rw [show (shiftedXi N).getD i 0 = _ from this, scaled, pow_two]

/-- Bin `j` of `N` is not on the triangle if it is at least the half width away. -/
theorem triBin_zero (M N : ℕ) (hN : 0 < N) (j : ℤ) (h : (8 * N : ℤ) ≤ M * |8 * j - N|) : triBin M (8 * (j : ℝ) / N) = 0 := by
  have hN' : (0 : ℝ) < N := by exact_mod_cast hN
  have h' : (8 * N : ℝ) ≤ M * |8 * (j : ℝ) - N| := by exact_mod_cast h
  unfold triBin
  apply max_eq_left
  have : |8 * (j : ℝ) / N - 1| = |8 * (j : ℝ) - N| / N := by
    rw [← abs_of_pos hN', ← abs_div, abs_of_pos hN']
    congr 1
    field_simp
  rw [this, sub_nonpos, div_mul_div_comm, le_div_iff₀ (by positivity)]
  linarith

theorem triBin_val (M N : ℕ) (hN : 0 < N) (j : ℤ) (v : ℝ) (hv : 0 ≤ v) (h : 8 * N * (1 - v) = M * |8 * (j : ℝ) - N|) :
    triBin M (8 * (j : ℝ) / N) = v := by
  have hN' : (0 : ℝ) < N := by exact_mod_cast hN
  unfold triBin
  have : |8 * (j : ℝ) / N - 1| = |8 * (j : ℝ) - N| / N := by
    rw [← abs_of_pos hN', ← abs_div, abs_of_pos hN']
    congr 1
    field_simp
  have e : 1 - |8 * (j : ℝ) / N - 1| * (M / 8) = v := by
    rw [this]
    field_simp
    linarith
  rw [e, max_eq_right hv]

/-- In time the triangle, `M` a multiple of 4, is a Hann window over `2M` samples. -/
theorem triBin_power2 (c : ℕ) (hc : 2 ≤ c) (j : ℕ) (hj : j < 2 * (4 * c)) :
    power2 (.real (triBin (4 * c))) (4 / Real.pi * 1) (2 * (4 * c)) j = ((1 - Real.cos (2 * Real.pi * j / (2 * (4 * c) : ℕ))) / (2 * (4 * c) : ℕ)) ^ 2 := by
  set Nt := 2 * (4 * c) with hNt
  have hNt0 : 0 < Nt := by omega
  have hNt' : (Nt : ℝ) ≠ 0 := by exact_mod_cast hNt0.ne'
  unfold power2
  rw [psifn_row _ _ _ _ (by simp), getD_map_range _ _ hj]
  have hval : ∀ k < Nt, ((psihCall (.real (triBin (4 * c))) Nt [4 / Real.pi * 1]).getD 0 []).getD k 0 =
      (if k = c then (1 : ℂ) else 0) + (if k = c - 1 then 1 / 2 else 0) + (if k = c + 1 then 1 / 2 else 0) := by
    intro k hk
    rw [psih_real_getD _ _ _ _ hk, xifn_getD _ _ _ hk]
    obtain ⟨q, hq⟩ : ∃ q : ℤ, q = if k ≤ Nt / 2 then (k : ℤ) else (k : ℤ) - Nt := ⟨_, rfl⟩
    rw [← hq]
    have e : 4 / Real.pi * 1 * ((q : ℝ) * (1 * (2 * Real.pi) / Nt)) = 8 * (q : ℝ) / Nt := by
      have := Real.pi_ne_zero
      field_simp
      ring
    rw [e]
    have hNtr : (Nt : ℝ) = 8 * c := by rw [hNt]; push_cast; ring
    have hny : ∀ x : ℝ, (x = 0 ∨ k ≤ c + 1) → x * (if Nt % 2 = 0 ∧ k = Nt / 2 then 1 / 2 else 1) = x := by
      rintro x (rfl | h)
      · simp
      · rw [if_neg (by omega), mul_one]
    have hqk : k ≤ c + 1 → (q : ℝ) = k := by
      intro h
      rw [hq, if_pos (by omega)]; simp
    have key : ∀ d : ℝ, 0 ≤ d → d ≤ 1 → k ≤ c + 1 → |(k : ℝ) - c| = 2 * (1 - d) → triBin (4 * c) (8 * (q : ℝ) / Nt) = d := by
      intro d h0 h1 h2 h3
      refine triBin_val _ _ hNt0 _ d h0 ?_
      rw [hqk h2, hNtr, ← mul_sub, abs_mul, h3, abs_of_pos (by norm_num : (0 : ℝ) < 8)]
      push_cast
      ring
    by_cases h1 : k = c
    · rw [key 1 zero_le_one le_rfl (by omega) (by rw [h1]; simp), hny _ (.inr (by omega)), if_pos h1, if_neg (fun h : k = c - 1 => by omega),
        if_neg (fun h : k = c + 1 => by omega)]
      simp
    · by_cases h2 : k = c - 1
      · have hkr : (k : ℝ) = c - 1 := by rw [h2, Nat.cast_sub (by omega)]; simp
        rw [key (1 / 2) (by norm_num) (by norm_num) (by omega) (by rw [hkr]; norm_num), hny _ (.inr (by omega)), if_neg h1, if_pos h2,
          if_neg (fun h : k = c + 1 => by omega)]
        simp
      · by_cases h3 : k = c + 1
        · have hkr : (k : ℝ) = c + 1 := by rw [h3]; simp
          rw [key (1 / 2) (by norm_num) (by norm_num) (by omega) (by rw [hkr]; norm_num), hny _ (.inr (by omega)), if_neg h1, if_neg h2, if_pos h3]
          simp
        · have hz : triBin (4 * c) (8 * (q : ℝ) / Nt) = 0 := by
            refine triBin_zero _ _ hNt0 _ ?_
            have h5 : (2 : ℤ) * 8 ≤ |8 * q - (Nt : ℤ)| := by
              rw [le_abs, hq]
              split <;> omega
            have h4 : (4 * c : ℤ) * (2 * 8) ≤ (4 * c : ℤ) * |8 * q - (Nt : ℤ)| := mul_le_mul_of_nonneg_left h5 (by omega)
            have : (Nt : ℤ) = 8 * c := by omega
            push_cast
            linarith
          rw [hz, hny _ (.inl rfl), if_neg h1, if_neg h2, if_neg h3]
          simp
  have hsum : ∑ k ∈ range Nt, ((psihCall (.real (triBin (4 * c))) Nt [4 / Real.pi * 1]).getD 0 []).getD k 0 * (-1) ^ k * tw Nt (j * k) =
      (-1) ^ c * tw Nt (j * c) * ((1 - Real.cos (2 * Real.pi * j / Nt) : ℝ) : ℂ) := by
    have h1 : ∀ k ∈ range Nt, ((psihCall (.real (triBin (4 * c))) Nt [4 / Real.pi * 1]).getD 0 []).getD k 0 * (-1) ^ k * tw Nt (j * k) =
        (if k = c then (-1) ^ k * tw Nt (j * k) else 0) + (if k = c - 1 then 1 / 2 * ((-1) ^ k * tw Nt (j * k)) else 0) +
          (if k = c + 1 then 1 / 2 * ((-1) ^ k * tw Nt (j * k)) else 0) := by
      intro k hk
      rw [hval k (mem_range.1 hk), add_mul, add_mul, add_mul, add_mul]
      congr 1
      · congr 1
        · split <;> simp
        · split <;> simp [mul_assoc]
      · split <;> simp [mul_assoc]
    rw [sum_congr rfl h1, sum_add_distrib, sum_add_distrib, sum_ite_eq', sum_ite_eq', sum_ite_eq', if_pos (mem_range.2 (by omega)),
      if_pos (mem_range.2 (by omega)), if_pos (mem_range.2 (by omega))]
    have hcos : ((Real.cos (2 * Real.pi * j / Nt) : ℝ) : ℂ) = (tw Nt j + tw Nt (-j)) / 2 := by
      unfold tw
      rw [Complex.ofReal_cos, Complex.cos]
      congr 2
      · push_cast; ring_nf
      · push_cast; ring_nf
    obtain ⟨b, rfl⟩ : ∃ b, c = b + 1 := ⟨c - 1, by omega⟩
    have t1 : tw Nt ((j : ℤ) * ((b + 1 : ℕ) : ℤ)) = tw Nt (j * b) * tw Nt j := by rw [← tw_add]; congr 1
    have t2 : tw Nt ((j : ℤ) * ((b + 1 + 1 : ℕ) : ℤ)) = tw Nt (j * b) * tw Nt j * tw Nt j := by rw [← tw_add, ← tw_add]; congr 1
    have t3 : tw Nt j * tw Nt (-j) = 1 := by rw [← tw_add]; simp
    rw [Complex.ofReal_sub, hcos, Nat.add_sub_cancel, t1, t2, pow_succ, pow_succ]
    push_cast
    linear_combination (-(1 / 2) * (-1) ^ b * tw Nt (j * b)) * t3
  rw [hsum, norm_div, norm_mul, norm_mul, norm_tw, norm_pow, norm_neg, norm_one, one_pow, one_mul, one_mul, Complex.norm_real, Complex.norm_natCast,
    Real.norm_eq_abs, ← abs_of_nonneg (Nat.cast_nonneg (α := ℝ) Nt), ← abs_div, sq_abs, abs_of_nonneg (Nat.cast_nonneg (α := ℝ) Nt)]

theorem triBin_psi2 (c : ℕ) (hc : 2 ≤ c) (j : ℕ) (hj : j < 2 * (4 * c)) :
    (psi2 (.real (triBin (4 * c))) (4 / Real.pi * 1) (2 * (4 * c))).getD j 0 =
      ((1 - Real.cos (2 * Real.pi * j / (2 * (4 * c) : ℕ))) / (2 * (4 * c) : ℕ)) ^ 2 := by
  rw [psi2_getD, triBin_power2 c hc j hj]

theorem hann_start (x : ℝ) (h0 : 0 ≤ x) (h1 : x ≤ 7 / 100) : 1 - Real.cos x ≤ 1 / 100 := by
  have h3 := Real.one_sub_sq_div_two_le_cos (x := x)
  nlinarith

/-- Samples of a Hann window have decayed. -/
theorem hann_decayed (c : ℕ) (hc : 128 ≤ c) (a : List ℝ) (hl : a.length = 8 * c)
    (ha : ∀ j < 8 * c, a.getD j 0 = ((1 - Real.cos (2 * Real.pi * j / (8 * c : ℕ))) / (8 * c : ℕ)) ^ 2) : DecayedBy 1000 a := by
  have hc' : (128 : ℝ) ≤ c := by exact_mod_cast hc
  have hcp : (0 : ℝ) < 8 * c := by linarith
  have hNt : ((8 * c : ℕ) : ℝ) = 8 * c := by push_cast; ring
  rw [hNt] at ha
  have hpi := Real.pi_pos
  have hpi4 := Real.pi_lt_d2
  have hmid : a.getD (4 * c) 0 = (2 / (8 * c)) ^ 2 := by
    rw [ha _ (by omega)]
    have : 2 * Real.pi * ((4 * c : ℕ) : ℝ) / (8 * c) = Real.pi := by push_cast; field_simp; norm_num
    rw [this, Real.cos_pi]; norm_num
  refine ⟨4 * c, by omega, ?_, ?_, ?_⟩
  · intro j hj
    rw [hl] at hj
    rw [hmid, ha j hj]
    have h1 := Real.neg_one_le_cos (2 * Real.pi * j / (8 * c))
    have h2 := Real.cos_le_one (2 * Real.pi * j / (8 * c))
    exact pow_le_pow_left₀ (div_nonneg (by linarith) hcp.le) (div_le_div_of_nonneg_right (by linarith) hcp.le) 2
  · rw [hmid]; exact pow_pos (div_pos two_pos hcp) 2
  · simp only []
    rw [hl, hmid]
    obtain ⟨n, hn⟩ : ∃ n, n = min (max 10 (8 * c / 100)) (8 * c) := ⟨_, rfl⟩
    rw [← hn]
    have hn1 : 1 ≤ n := by omega
    have hn2 : 100 * n ≤ 8 * c := by omega
    have hn' : (0 : ℝ) < n := by exact_mod_cast hn1
    have hb : ∀ j ∈ range n, a.getD j 0 ≤ (1 / 100 / (8 * c)) ^ 2 := by
      intro j hj
      rw [mem_range] at hj
      rw [ha j (by omega)]
      have h2 := Real.cos_le_one (2 * Real.pi * j / (8 * c))
      have h4 : 2 * Real.pi * j / (8 * c) ≤ 7 / 100 := by
        rw [div_le_iff₀ hcp]
        have h5 : (100 * j : ℝ) ≤ 8 * c := by exact_mod_cast (by omega : 100 * j ≤ 8 * c)
        have h6 : Real.pi * j ≤ 3.15 * j := mul_le_mul_of_nonneg_right hpi4.le (Nat.cast_nonneg _)
        have h7 : (0 : ℝ) ≤ j := Nat.cast_nonneg _
        linarith
      have h5 : 0 ≤ 2 * Real.pi * j / (8 * c) := by positivity
      exact pow_le_pow_left₀ (div_nonneg (by linarith) hcp.le) (div_le_div_of_nonneg_right (hann_start _ h5 h4) hcp.le) 2
    have hs := sum_le_sum hb
    rw [sum_const, card_range, nsmul_eq_mul] at hs
    have h1 : (∑ j ∈ range n, a.getD j 0) / n ≤ (1 / 100 / (8 * c)) ^ 2 := by
      rw [div_le_iff₀ hn']; linarith
    have h2 : (1 / 100 / (8 * (c : ℝ))) ^ 2 * 1000 < (2 / (8 * c)) ^ 2 := by
      rw [div_pow, div_pow (2 : ℝ), div_mul_eq_mul_div]
      exact div_lt_div_of_pos_right (by norm_num) (pow_pos hcp 2)
    linarith

/-- It has decayed over these samples. -/
theorem triBin_decayed (c : ℕ) (hc : 128 ≤ c) : DecayedBy 1000 (psi2 (.real (triBin (4 * c))) (4 / Real.pi * 1) (2 * (4 * c))) := by
  refine hann_decayed c hc _ (by rw [psi2_length]; ring) fun j hj => ?_
  rw [triBin_psi2 c (by omega) j (by omega), show 2 * (4 * c) = 8 * c by ring]

theorem triBin_stdT (c : ℕ) (hc : 128 ≤ c) :
    stdT (.real (triBin (4 * c))) 1 (4 * c) false =
      .ok (Real.sqrt (timeVar (psi2 (.real (triBin (4 * c))) (4 / Real.pi * 1) (2 * (4 * c))))) :=
  (C122_value _ 1 _ (4 * c) (by omega) 1000 2 2 (by norm_num) (by omega) _).2 ⟨2, le_rfl, le_rfl, triBin_decayed c hc, by omega, rfl⟩

/-! ### At length 1024 only one sample of the triangle is not zero -/

theorem triBin_one_bin (M : ℕ) (hM : 1024 ≤ M) (i : ℕ) (hi : i < 1024) (hne : i ≠ 639) :
    (apsih2 (.real (triBin M)) (4 / Real.pi * 1) (shiftedXi 1024)).getD i 0 = 0 := by
  rw [triBin_apsih2 M 1024 (by norm_num) (by norm_num) i hi, triBin_zero M 1024 (by norm_num)]
  · simp
  · have h : (8 : ℤ) ≤ |8 * ((i : ℤ) + 1 - (1024 / 2 : ℕ)) - (1024 : ℕ)| := by
      rw [le_abs]; push_cast; omega
    have : (1024 : ℤ) * 8 ≤ M * |8 * ((i : ℤ) + 1 - (1024 / 2 : ℕ)) - (1024 : ℕ)| := mul_le_mul (by exact_mod_cast hM) h (by norm_num) (by omega)
    push_cast at this ⊢
    linarith

theorem triBin_the_bin (M : ℕ) : (apsih2 (.real (triBin M)) (4 / Real.pi * 1) (shiftedXi 1024)).getD 639 0 = 1 := by
  rw [triBin_apsih2 M 1024 (by norm_num) (by norm_num) 639 (by norm_num), triBin_val M 1024 (by norm_num) _ 1 zero_le_one]
  · norm_num
  · push_cast; norm_num

theorem xi_the_bin : (shiftedXi 1024).getD 639 0 = Real.pi / 4 := by
  obtain ⟨_, h2, _⟩ := C50_sorted_partial 1 one_pos 1024 (by norm_num) (by norm_num)
  rw [show (shiftedXi 1024).getD 639 0 = _ from h2 639 (by norm_num)]
  push_cast; norm_num; ring

theorem trapz_scale (y p : List ℝ) (c : ℝ) (hl : y.length = p.length) (h : ∀ i, i < p.length → y.getD i 0 = c * p.getD i 0) : trapz y = c * trapz p := by
  unfold trapz
  rw [hl, ← List.sum_map_mul_left]
  congr 1
  refine List.map_congr_left fun i hi => ?_
  rw [List.mem_range] at hi
  rw [h i (by omega), h (i + 1) (by omega)]
  ring

theorem trapz_pos (y : List ℝ) (h : ∀ i, 0 ≤ y.getD i 0) (k : ℕ) (hk : k + 1 < y.length) (hp : 0 < y.getD k 0) : 0 < trapz y := by
  unfold trapz
  refine lt_of_lt_of_le ?_ (List.single_le_sum (l := (List.range (y.length - 1)).map fun i : ℕ => (y.getD i 0 + y.getD (i + 1) 0) / 2) ?_ _
    (List.mem_map.2 ⟨k, List.mem_range.2 (by omega), rfl⟩))
  · have := h (k + 1)
    linarith
  · intro x hx
    obtain ⟨i, -, rfl⟩ := List.mem_map.1 hx
    have := h i
    have := h (i + 1)
    linarith

/-- The standard deviation in frequency is then zero. -/
theorem triBin_freq (M : ℕ) (hM : 1024 ≤ M) : freqResolution (.real (triBin M)) 1 (4 / Real.pi * 1) 1024 = 0 := by
  have hlx := shiftedXi_length 1024 (by norm_num) (by norm_num)
  have hla : (apsih2 (.real (triBin M)) (4 / Real.pi * 1) (shiftedXi 1024)).length = 1024 := by rw [apsih2_length, hlx]
  have hpos : 0 < trapz (apsih2 (.real (triBin M)) (4 / Real.pi * 1) (shiftedXi 1024)) :=
    trapz_pos _ (fun i => apsih2_nonneg _ _ _ i) 639 (by omega) (by rw [triBin_the_bin]; norm_num)
  have hw : ∀ i, i < 1024 → (shiftedXi 1024).getD i 0 * (apsih2 (.real (triBin M)) (4 / Real.pi * 1) (shiftedXi 1024)).getD i 0 =
      Real.pi / 4 * (apsih2 (.real (triBin M)) (4 / Real.pi * 1) (shiftedXi 1024)).getD i 0 := by
    intro i hi
    by_cases h : i = 639
    · rw [h, xi_the_bin]
    · rw [triBin_one_bin M hM i hi h, mul_zero, mul_zero]
  have hmean : centerEnergy (.real (triBin M)) 1 (some (4 / Real.pi * 1)) 1024 (some true) = Real.pi / 4 := by
    unfold centerEnergy energyWc energyMean
    simp only [Option.getD_some, Bool.or_self, if_true]
    rw [trapz_scale _ (apsih2 (.real (triBin M)) (4 / Real.pi * 1) (shiftedXi 1024)) (Real.pi / 4) (by rw [List.length_zipWith, hla, hlx, min_self])]
    · rw [mul_div_assoc, div_self hpos.ne', mul_one]
    · intro i hi
      rw [hla] at hi
      rw [zipWith_getD0 _ _ _ (by omega) (by simp), mul_comm, hw i hi]
  unfold freqResolution
  simp only []
  rw [hmean, trapzX_uniform _ _ (2 * Real.pi * 1 / (1024 : ℕ)), trapz_scale _ (apsih2 (.real (triBin M)) (4 / Real.pi * 1) (shiftedXi 1024)) 0 (by rw [List.length_zipWith, hla, hlx, min_self])]
  · simp
  · intro i hi
    rw [hla] at hi
    rw [zipWith_getD0 _ _ _ (by omega) (by simp), zero_mul]
    by_cases h : i = 639
    · rw [h, xi_the_bin]; simp
    · rw [triBin_one_bin M hM i hi h, mul_zero]
  · intro i hi
    refine shiftedXi_step 1024 (by norm_num) (by norm_num) i ?_
    rw [List.length_zipWith, hla, hlx, min_self] at hi
    exact hi

theorem stdW_false (f : WFn) (p : ℝ) (N : ℕ) : stdW f p N false = freqResolution f p (4 / Real.pi * p) N := by
  unfold stdW freqResolutionFull
  simp only [Bool.true_eq_false, and_false, if_false, Bool.false_eq_true]
  rfl

/-- A continuous wavelet with Heisenberg area zero, at the default length. -/
theorem C141_zero : harea (.real (triBin 1024)) 1 1024 true = .ok 0 := by
  rw [C142_ratio]
  unfold harea
  have h := triBin_stdT 256 (by norm_num)
  norm_num only at h
  rw [h]
  simp only [Except.bind, Except.map]
  rw [stdW_false, triBin_freq 1024 le_rfl]
  simp

theorem C141_refuted : ¬ C141_full := fun h => by
  have := h _ 1 1024 0 one_pos (triBin_peaks 1024 (by norm_num)) C141_zero
  norm_num at this

/-! ### At length 1028 the peak is not on the grid -/

/-- The bin of the discrete peak is one where the wavelet is not zero, if there is one. -/
theorem peak_bin (f : WFn) (s : ℝ) (N : ℕ) (hN : 2 ≤ N) (he : N % 2 = 0) (k : ℕ) (hk : k < N) (h : 0 < (apsih2 f s (shiftedXi N)).getD k 0) :
    ∃ i < N, peakWc f s N = (shiftedXi N).getD i 0 ∧ 0 < (apsih2 f s (shiftedXi N)).getD i 0 := by
  have hl : (apsih2 f s (shiftedXi N)).length = N := by rw [apsih2_length, shiftedXi_length N hN he]
  have hne : apsih2 f s (shiftedXi N) ≠ [] := by rw [← List.length_pos_iff]; omega
  have hlt := argmaxL_lt _ hne
  refine ⟨argmaxL (apsih2 f s (shiftedXi N)), by omega, rfl, h.trans_le ?_⟩
  rw [List.getD_eq_getElem _ _ hlt, List.getD_eq_getElem _ _ (by omega : k < (apsih2 f s (shiftedXi N)).length)]
  exact argmaxL_spec _ hne _ (List.getElem_mem _)

theorem triBin_1028_zero (i : ℕ) (hi : i < 1028) (h1 : i ≠ 641) (h2 : i ≠ 642) :
    (apsih2 (.real (triBin 1028)) (4 / Real.pi * 1) (shiftedXi 1028)).getD i 0 = 0 := by
  rw [triBin_apsih2 1028 1028 (by norm_num) (by norm_num) i hi, triBin_zero 1028 1028 (by norm_num)]
  · simp
  · have h : (8 : ℤ) ≤ |8 * ((i : ℤ) + 1 - (1028 / 2 : ℕ)) - (1028 : ℕ)| := by
      rw [le_abs]; push_cast; omega
    push_cast at h ⊢
    linarith

theorem triBin_1028 (i : ℕ) (h : i = 641 ∨ i = 642) : (apsih2 (.real (triBin 1028)) (4 / Real.pi * 1) (shiftedXi 1028)).getD i 0 = 1 / 4 := by
  rw [triBin_apsih2 1028 1028 (by norm_num) (by norm_num) i (by omega), triBin_val 1028 1028 (by norm_num) _ (1 / 2) (by norm_num)]
  · norm_num
  · rcases h with rfl | rfl <;> push_cast <;> norm_num

theorem xi_1028 (i : ℕ) (hi : i < 1028) : (shiftedXi 1028).getD i 0 = 2 * Real.pi / 1028 * ((i : ℝ) - 513) := by
  obtain ⟨_, h2, _⟩ := C50_sorted_partial 1 one_pos 1028 (by norm_num) (by norm_num)
  rw [show (shiftedXi 1028).getD i 0 = _ from h2 i hi]
  push_cast; ring

theorem triBin_1028_freq : 0 < freqResolution (.real (triBin 1028)) 1 (4 / Real.pi * 1) 1028 := by
  have hpi := Real.pi_pos
  have hlx := shiftedXi_length 1028 (by norm_num) (by norm_num)
  have hla : (apsih2 (.real (triBin 1028)) (4 / Real.pi * 1) (shiftedXi 1028)).length = 1028 := by rw [apsih2_length, hlx]
  unfold freqResolution
  simp only []
  generalize centerEnergy (.real (triBin 1028)) 1 (some (4 / Real.pi * 1)) 1024 (some true) = m
  have hzl : (List.zipWith (fun x p => (x - m) ^ 2 * p) (shiftedXi 1028) (apsih2 (.real (triBin 1028)) (4 / Real.pi * 1) (shiftedXi 1028))).length = 1028 := by
    rw [List.length_zipWith, hla, hlx, min_self]
  have hstep : ∀ i, i + 1 < 1028 → (shiftedXi 1028).getD (i + 1) 0 - (shiftedXi 1028).getD i 0 = 2 * Real.pi * 1 / (1028 : ℕ) :=
    fun i hi => shiftedXi_step 1028 (by norm_num) (by norm_num) i hi
  rw [trapzX_uniform _ _ _ (fun i hi => hstep i (by rwa [hzl] at hi)), trapzX_uniform _ _ _ (fun i hi => hstep i (by rwa [hla] at hi))]
  have hd : (0 : ℝ) < 2 * Real.pi * 1 / (1028 : ℕ) := by positivity
  have hden : 0 < trapz (apsih2 (.real (triBin 1028)) (4 / Real.pi * 1) (shiftedXi 1028)) :=
    trapz_pos _ (fun i => apsih2_nonneg _ _ _ i) 641 (by omega) (by rw [triBin_1028 641 (.inl rfl)]; norm_num)
  refine Real.sqrt_pos.2 (div_pos (mul_pos hd ?_) (mul_pos hd hden))
  have hg : ∀ i, (List.zipWith (fun x p => (x - m) ^ 2 * p) (shiftedXi 1028) (apsih2 (.real (triBin 1028)) (4 / Real.pi * 1) (shiftedXi 1028))).getD i 0 =
      ((shiftedXi 1028).getD i 0 - m) ^ 2 * (apsih2 (.real (triBin 1028)) (4 / Real.pi * 1) (shiftedXi 1028)).getD i 0 := fun i =>
    zipWith_getD0 _ _ _ (by omega) (by simp) i
  have hpos : ∀ i, i = 641 ∨ i = 642 → (shiftedXi 1028).getD i 0 ≠ m →
      0 < (List.zipWith (fun x p => (x - m) ^ 2 * p) (shiftedXi 1028) (apsih2 (.real (triBin 1028)) (4 / Real.pi * 1) (shiftedXi 1028))).getD i 0 := by
    intro i hi hm
    rw [hg, triBin_1028 i hi]
    exact mul_pos (sq_pos_of_ne_zero (sub_ne_zero.2 hm)) (by norm_num)
  have hnn : ∀ i, 0 ≤ (List.zipWith (fun x p => (x - m) ^ 2 * p) (shiftedXi 1028) (apsih2 (.real (triBin 1028)) (4 / Real.pi * 1) (shiftedXi 1028))).getD i 0 := by
    intro i
    rw [hg]
    exact mul_nonneg (sq_nonneg _) (apsih2_nonneg _ _ _ i)
  by_cases h : (shiftedXi 1028).getD 641 0 = m
  · refine trapz_pos _ hnn 642 (by omega) (hpos 642 (.inr rfl) ?_)
    rw [← h, xi_1028 642 (by norm_num), xi_1028 641 (by norm_num)]
    intro hc
    have := mul_left_cancel₀ (by positivity : 2 * Real.pi / 1028 ≠ 0) hc
    norm_num at this
  · exact trapz_pos _ hnn 641 (by omega) (hpos 641 (.inl rfl) h)

theorem triBin_time_pos (c : ℕ) (hc : 2 ≤ c) : 0 < timeVar (psi2 (.real (triBin (4 * c))) (4 / Real.pi * 1) (2 * (4 * c))) := by
  have hl := psi2_length (.real (triBin (4 * c))) (4 / Real.pi * 1) (2 * (4 * c))
  have hcp : (0 : ℝ) < c := by exact_mod_cast (by omega : 0 < c)
  have hq : (psi2 (.real (triBin (4 * c))) (4 / Real.pi * 1) (2 * (4 * c))).getD (2 * c) 0 = (1 / (8 * c)) ^ 2 := by
    rw [triBin_psi2 c hc _ (by omega)]
    have e : 2 * Real.pi * ((2 * c : ℕ) : ℝ) / (2 * (4 * c) : ℕ) = Real.pi / 2 := by push_cast; field_simp; norm_num
    rw [e, Real.cos_pi_div_two]
    push_cast; ring
  have hnn := psi2_nonneg (.real (triBin (4 * c))) (4 / Real.pi * 1) (2 * (4 * c))
  generalize psi2 (.real (triBin (4 * c))) (4 / Real.pi * 1) (2 * (4 * c)) = a at *
  have ha : ∀ j, 0 ≤ a.getD j 0 := by
    intro j
    rcases Nat.lt_or_ge j a.length with h | h
    · rw [List.getD_eq_getElem _ _ h]; exact hnn _ (List.getElem_mem h)
    · rw [List.getD_eq_default _ _ h]
  unfold timeVar
  simp only []
  rw [hl]
  have hw : ∀ k, (0 : ℝ) ≤ if k = 0 ∨ k = 2 * (4 * c) - 1 then 1 / 2 else 1 := by intro k; split <;> norm_num
  have h1 : (0 : ℝ) < (1 / (8 * c)) ^ 2 := by positivity
  refine div_pos (sum_pos' (fun k _ => mul_nonneg (mul_nonneg (hw k) (sq_nonneg _)) (ha k)) ⟨2 * c, mem_range.2 (by omega), ?_⟩)
    (sum_pos' (fun k _ => mul_nonneg (hw k) (ha k)) ⟨2 * c, mem_range.2 (by omega), ?_⟩)
  · rw [if_neg (by omega), hq, one_mul]
    have : ((2 * c : ℕ) : ℝ) - ((2 * (4 * c) : ℕ) : ℝ) / 2 ≠ 0 := by
      push_cast
      have : (2 : ℝ) * c - 2 * (4 * c) / 2 = -(2 * c) := by ring
      rw [this]
      exact neg_ne_zero.2 (by positivity)
    positivity
  · rw [if_neg (by omega), hq, one_mul]
    exact h1

theorem triBin_peak_1024 (M : ℕ) (hM : 1024 ≤ M) : peakWc (.real (triBin M)) (4 / Real.pi * 1) 1024 = Real.pi / 4 := by
  obtain ⟨i, hi, h1, h2⟩ := peak_bin (.real (triBin M)) (4 / Real.pi * 1) 1024 (by norm_num) (by norm_num) 639 (by norm_num) (by rw [triBin_the_bin]; norm_num)
  by_cases h : i = 639
  · rw [h1, h, xi_the_bin]
  · rw [triBin_one_bin M hM i hi h] at h2; exact absurd h2 (lt_irrefl _)

theorem triBin_peak_1028 : peakWc (.real (triBin 1028)) (4 / Real.pi * 1) 1028 ≠ Real.pi / 4 := by
  obtain ⟨i, hi, h1, h2⟩ := peak_bin (.real (triBin 1028)) (4 / Real.pi * 1) 1028 (by norm_num) (by norm_num) 641 (by norm_num)
    (by rw [triBin_1028 641 (.inl rfl)]; norm_num)
  have hi' : i = 641 ∨ i = 642 := by
    by_contra hc
    rw [not_or] at hc
    rw [triBin_1028_zero i hi hc.1 hc.2] at h2; exact lt_irrefl _ h2
  rw [h1, xi_1028 i hi]
  intro hc
  have h3 : Real.pi * (((i : ℝ) - 513) * 2 / 1028) = Real.pi * (1 / 4) := by linarith
  have := mul_left_cancel₀ Real.pi_ne_zero h3
  rcases hi' with rfl | rfl <;> norm_num at this

theorem C142_refuted : ¬ C142_full := fun h => by
  have hpi := Real.pi_pos
  have ht := triBin_stdT 257 (by norm_num)
  norm_num only at ht
  have hv : harea (.real (triBin 1028)) 1 1028 false =
      .ok (Real.sqrt (timeVar (psi2 (.real (triBin 1028)) (4 / Real.pi * 1) 2056)) * freqResolution (.real (triBin 1028)) 1 (4 / Real.pi * 1) 1028) := by
    unfold harea
    rw [ht, stdW_false]
    rfl
  have hpos : 0 < Real.sqrt (timeVar (psi2 (.real (triBin 1028)) (4 / Real.pi * 1) 2056)) * freqResolution (.real (triBin 1028)) 1 (4 / Real.pi * 1) 1028 := by
    refine mul_pos (Real.sqrt_pos.2 ?_) triBin_1028_freq
    have := triBin_time_pos 257 (by norm_num)
    norm_num only at this
    exact this
  have h1 := h _ 1 1028 _ one_pos (triBin_peaks 1028 (by norm_num)) hv
  rw [C142_ratio, hv, triBin_peak_1024 1028 (by norm_num)] at h1
  simp only [Except.map, Except.ok.injEq] at h1
  have h2 : peakWc (.real (triBin 1028)) (4 / Real.pi * 1) 1028 / (Real.pi / 4) = 1 := mul_left_cancel₀ hpos.ne' (h1.trans (mul_one _).symm)
  rw [div_eq_one_iff_eq (by positivity)] at h2
  exact triBin_peak_1028 h2

/-- A wavelet and length for which the hypotheses of `C142_partial` hold and the area is not an error. -/
example : peakWc (.real (triBin 1024)) (4 / Real.pi * 1) 1024 ≠ 0 ∧ ∃ v, harea (.real (triBin 1024)) 1 1024 false = .ok v := by
  refine ⟨by rw [triBin_peak_1024 1024 le_rfl]; positivity, ?_⟩
  have h := triBin_stdT 256 (by norm_num)
  norm_num only at h
  unfold harea
  rw [h]
  exact ⟨_, rfl⟩

/-- **C141**, what holds: a Heisenberg area of resolutions with dimensions is not negative. -/
theorem C141_partial (f : WFn) (p : ℝ) (N : ℕ) (v : ℝ) (h : harea f p N false = .ok v) :
    ∃ t w, stdT f p N false = .ok t ∧ w = stdW f p N false ∧ 0 ≤ t ∧ 0 ≤ w ∧ v = t * w := by
  unfold harea at h
  cases ht : stdT f p N false with
  | error e => rw [ht] at h; exact nomatch h
  | ok t =>
    rw [ht] at h
    simp only [Except.bind, Except.ok.injEq] at h
    refine ⟨t, _, rfl, rfl, ?_, ?_, h.symm⟩
    · unfold stdT timeResolution at ht
      simp only [Bool.true_eq_false, and_false, if_false, Bool.false_eq_true] at ht
      cases hm : integrationMult f (scalecCt p) N 1000 2 2 with
      | error e => rw [hm] at ht; exact nomatch ht
      | ok m =>
        rw [hm] at ht
        simp only [Except.bind, Except.ok.injEq] at ht
        rw [← ht]; exact Real.sqrt_nonneg _
    · rw [stdW_false]; unfold freqResolution; exact Real.sqrt_nonneg _

/-- The cyclic resolution is the radian one over `2π`: `std_f`, `std_f_d`. -/
theorem C142_cyclic (f : WFn) (p : ℝ) (N : ℕ) (nondim : Bool) : 2 * Real.pi * stdF f p N nondim = stdW f p N nondim := by
  unfold stdF
  have := Real.pi_ne_zero
  field_simp

end Ssq
