import Verif.Props.IssqCwt
import Verif.Props.Rows
import Verif.Props.Gmw
import Verif.Lemmas.L2
import Verif.Lemmas.Hump
import Mathlib.MeasureTheory.Integral.IntegralEqImproper
import Mathlib.MeasureTheory.Integral.Gamma

/-!
# How well the inverse CWT recovers the signal (C183)
-/
namespace Ssq
open Complex Spec

namespace Spec

/-- Scales `v` of dtype `d` in steps of `1/n` octaves (`c = 1`), or in steps of `1/n0` octaves up to one of them and of `1/n1` octaves from there, with
`n0, n1 ≥ n`, when `infer_scaletype` sees the change (`c = 2`). -/
def VoiceGrid (d : FDtype) (v : List ℝ) (n c : ℕ) : Prop :=
  d ≠ .other ∧ 1 ≤ n ∧
    ((c = 1 ∧ 3 ≤ v.length ∧ ∃ a, Geometric v a (1 / n)) ∨
      (c = 2 ∧ (∃ nv, inferScaletype d v = .ok (.logPiecewise, nv)) ∧
        ∃ (p : ℕ) (a : ℝ) (n0 n1 : ℕ), n ≤ n0 ∧ n ≤ n1 ∧ n0 ≠ n1 ∧ TwoSegment v p a (1 / (n0 : ℝ)) (1 / (n1 : ℝ)) ∧ 2 ≤ p ∧ p + 4 ≤ v.length))

end Spec

theorem log_of_logb {s a : ℝ} (h : Real.logb 2 s = a) : Real.log s = a * Real.log 2 := by
  rw [← h, Real.logb, div_mul_cancel₀ _ (Real.log_pos (by norm_num)).ne']

/-- What `icwt` makes of such scales: the weight of each scale is the logarithmic distance to the one before. -/
theorem voice_weights {d : FDtype} {v : List ℝ} {n c : ℕ} (h : VoiceGrid d v n c) :
    3 ≤ v.length ∧ (∀ s ∈ v, 0 < s) ∧ (∀ i, i + 1 < v.length → v.getD i 0 ≤ v.getD (i + 1) 0) ∧
    ∃ st nv, IcwtScales d v st nv c ∧ st ≠ .linear ∧
      (∀ i < v.length, 0 ≤ icwtWeight st nv v i ∧ icwtWeight st nv v i ≤ Real.log 2 / n) ∧
      ∀ i, i + 1 < v.length → icwtWeight st nv v (i + 1) = Real.log (v.getD (i + 1) 0) - Real.log (v.getD i 0) := by
  obtain ⟨hd, hn, h⟩ := h
  have hl2 : 0 < Real.log 2 := Real.log_pos (by norm_num)
  have hn' : (0 : ℝ) < n := by exact_mod_cast hn
  rcases h with ⟨rfl, h3, a, hg⟩ | ⟨rfl, ⟨nv, hinf⟩, p, a, n0, n1, e0, e1, hne, ht, hp2, hp4⟩
  · have hlog : ∀ i, i < v.length → Real.log (v.getD i 0) = (a + i * (1 / n)) * Real.log 2 := by
      intro i hi
      rw [List.getD_eq_getElem _ _ hi]
      exact log_of_logb (hg i hi).2
    have hpos : ∀ i, i < v.length → 0 < v.getD i 0 := by
      intro i hi
      rw [List.getD_eq_getElem _ _ hi]
      exact (hg i hi).1
    refine ⟨h3, ?_, ?_, .log, .int n, ⟨?_, Or.inl ⟨by simp, rfl⟩⟩, by simp, ?_, ?_⟩
    · intro s hs
      obtain ⟨i, hi, rfl⟩ := List.getElem_of_mem hs
      exact (hg i hi).1
    · intro i hi
      rw [← Real.log_le_log_iff (hpos i (by omega)) (hpos _ hi), hlog i (by omega), hlog _ hi]
      refine mul_le_mul_of_nonneg_right ?_ hl2.le
      have : (0 : ℝ) < 1 / n := by positivity
      push_cast
      nlinarith
    · rw [infer_geometric hd hg h3 (one_div_ne_zero hn'.ne'), one_div_one_div]
      have : roundHalfEven ((n : ℕ) : ℝ) = (n : ℤ) := by exact_mod_cast rhe_intCast (K := ℝ) (n : ℤ)
      rw [this]
    · intro i _
      simp only [icwtWeight, Int.cast_natCast]
      exact ⟨by positivity, le_rfl⟩
    · intro i hi
      rw [hlog i (by omega), hlog _ hi]
      simp only [icwtWeight, Int.cast_natCast]
      push_cast
      field_simp
      ring
  · have hn0 : (0 : ℝ) < n0 := by exact_mod_cast hn.trans e0
    have hn1 : (0 : ℝ) < n1 := by exact_mod_cast hn.trans e1
    have hde : (1 : ℝ) / n0 ≠ 1 / n1 := by
      intro h
      rw [div_eq_div_iff hn0.ne' hn1.ne'] at h
      exact hne (by exact_mod_cast (by linarith : (n0 : ℝ) = n1))
    have hnv : nv = .arr (nvTwo v.length p (1 / (n0 : ℝ)) (1 / (n1 : ℝ))) := by
      have h0 := hinf
      unfold inferScaletype at h0
      have hth : 0 < thTr d := by cases d <;> norm_num [thTr]
      split at h0
      · simp at h0
      split at h0
      · simp at h0
      split at h0
      · simp only [] at h0
        split at h0 <;> simp at h0
      split at h0
      · simp at h0
      split at h0
      · simp at h0
      rw [transition_two hth ht hde] at h0
      simp only [ok_bind, nvFromScales_two hth ht hde, pure_eq_ok, Except.ok.injEq, Prod.mk.injEq, true_and] at h0
      exact h0.symm
    have hlog : ∀ i, i < v.length → Real.log (v.getD i 0) =
        (if i ≤ p then a + i * (1 / (n0 : ℝ)) else a + p * (1 / (n0 : ℝ)) + ((i : ℝ) - p) * (1 / (n1 : ℝ))) * Real.log 2 := by
      intro i hi
      rw [List.getD_eq_getElem _ _ hi]
      exact log_of_logb (ht.2.2 i hi).2
    have hpos : ∀ i, i < v.length → 0 < v.getD i 0 := by
      intro i hi
      rw [List.getD_eq_getElem _ _ hi]
      exact (ht.2.2 i hi).1
    have hw : ∀ i < v.length, icwtWeight .logPiecewise nv v i = Real.log 2 / (if i ≤ p then (n0 : ℝ) else n1) := by
      intro i hi
      rw [hnv]
      simp only [icwtWeight, nvTwo]
      rw [getD_map_range _ _ hi]
      split <;> simp
    have hstep : ∀ i, i + 1 < v.length → Real.log (v.getD (i + 1) 0) - Real.log (v.getD i 0) = Real.log 2 / (if i + 1 ≤ p then (n0 : ℝ) else n1) := by
      intro i hi
      rw [hlog i (by omega), hlog _ hi]
      by_cases h1 : i + 1 ≤ p
      · rw [if_pos h1, if_pos (by omega), if_pos h1]
        push_cast
        field_simp
        ring
      · rw [if_neg h1, if_neg h1]
        by_cases h2 : i ≤ p
        · obtain rfl : i = p := by omega
          rw [if_pos h2]
          push_cast
          field_simp
          ring
        · rw [if_neg h2]
          push_cast
          field_simp
          ring
    have hb : ∀ i, 0 ≤ Real.log 2 / (if i ≤ p then (n0 : ℝ) else n1) ∧ Real.log 2 / (if i ≤ p then (n0 : ℝ) else n1) ≤ Real.log 2 / n := by
      intro i
      have c0 : (n : ℝ) ≤ n0 := by exact_mod_cast e0
      have c1 : (n : ℝ) ≤ n1 := by exact_mod_cast e1
      split
      · exact ⟨by positivity, div_le_div_of_nonneg_left hl2.le hn' c0⟩
      · exact ⟨by positivity, div_le_div_of_nonneg_left hl2.le hn' c1⟩
    refine ⟨by omega, ?_, ?_, .logPiecewise, nv, ⟨hinf, Or.inr ⟨rfl, rfl, p, a, n0, n1, hn.trans e0, hn.trans e1, hne, ht, hp2, hp4⟩⟩, by simp, ?_, ?_⟩
    · intro s hs
      obtain ⟨i, hi, rfl⟩ := List.getElem_of_mem hs
      exact (ht.2.2 i hi).1
    · intro i hi
      rw [← Real.log_le_log_iff (hpos i (by omega)) (hpos _ hi)]
      have := hstep i hi
      have := (hb (i + 1)).1
      linarith
    · intro i hi
      rw [hw i hi]
      exact hb i
    · intro i hi
      rw [hw _ hi, hstep i hi]

/-- The response of `icwt(cwt(·))` at bin `k`, averaged with that at the opposite one. -/
theorem gain_err {f : ℝ → ℝ} {p P : ℝ} (hf : Hump f p P) {v : List ℝ} {n : ℕ} {st : ScaleType} {nv : Nv}
    (h3 : 3 ≤ v.length) (hpos : ∀ s ∈ v, 0 < s) (hinc : ∀ i, i + 1 < v.length → v.getD i 0 ≤ v.getD (i + 1) 0)
    (hw : ∀ i < v.length, 0 ≤ icwtWeight st nv v i ∧ icwtWeight st nv v i ≤ Real.log 2 / n)
    (hw' : ∀ i, i + 1 < v.length → icwtWeight st nv v (i + 1) = Real.log (v.getD (i + 1) 0) - Real.log (v.getD i 0))
    (L k : ℕ) (hk : 0 < k) (hkL : 2 * k ≤ L) (C : ℝ) (hC : 0 < C) :
    |((icwtGain (fun w => (f w : ℂ)) L C st nv v k).re + (icwtGain (fun w => (f w : ℂ)) L C st nv v (L - k)).re) / 2 - 1| ≤
      (Real.log 2 / n * P + |C - ∫ w in (v.getD 0 0 * (2 * Real.pi * k / L))..(v.getD (v.length - 1) 0 * (2 * Real.pi * k / L)), f w / w|) / C := by
  have hL : (0 : ℝ) < L := by exact_mod_cast (by omega : 0 < L)
  have hk' : (0 : ℝ) < k := by exact_mod_cast hk
  set ξ := 2 * Real.pi * k / L with hξ
  have hξ0 : 0 < ξ := by have := Real.pi_pos; positivity
  have hv : ∀ i < v.length, 0 < v.getD i 0 := by
    intro i hi
    rw [List.getD_eq_getElem _ _ hi]
    exact hpos _ (List.getElem_mem _)
  have hxk : xi L k = ξ := by unfold xi; rw [if_pos hkL]
  have hsum : ((icwtGain (fun w => (f w : ℂ)) L C st nv v k).re + (icwtGain (fun w => (f w : ℂ)) L C st nv v (L - k)).re) / 2 =
      (∑ i ∈ Finset.range v.length, icwtWeight st nv v i * f (v.getD i 0 * ξ)) / C := by
    unfold icwtGain
    rw [re_sum, re_sum, ← Finset.sum_add_distrib, Finset.sum_div, Finset.sum_div]
    refine Finset.sum_congr rfl fun i hi => ?_
    have hi := hv i (Finset.mem_range.1 hi)
    rw [re_ofReal_mul, re_ofReal_mul]
    unfold wavSample
    rw [hxk]
    by_cases h2 : 2 * k = L
    · rw [if_pos h2, if_pos (by omega), show L - k = k by omega, hxk, show ((2 : ℂ)) = ((2 : ℝ) : ℂ) by simp, ← ofReal_div, ofReal_re]
      field_simp
      ring
    · rw [if_neg h2, if_neg (by omega)]
      have hneg : xi L (L - k) < 0 := by
        unfold xi
        rw [if_neg (by omega)]
        have : ((L - k : ℕ) : ℝ) - L = -k := by push_cast [Nat.cast_sub (by omega : k ≤ L)]; ring
        rw [this]
        have := Real.pi_pos
        have : 2 * Real.pi * -(k : ℝ) < 0 := by nlinarith
        exact div_neg_of_neg_of_pos this hL
      have hz : f (v.getD i 0 * xi L (L - k)) = 0 := hf.zero _ (mul_nonpos_of_nonneg_of_nonpos hi.le hneg.le)
      rw [ofReal_re, ofReal_re, hz]
      field_simp
      ring
  rw [hsum]
  have hm := mesh_sum hf (fun i => v.getD i 0 * ξ) (fun i => icwtWeight st nv v i) (Real.log 2 / n) (v.length - 1)
    (fun i hi => mul_pos (hv i (by omega)) hξ0) (fun i hi => mul_le_mul_of_nonneg_right (hinc i (by omega)) hξ0.le)
    (hw 0 (by omega)).1 (hw 0 (by omega)).2
    (fun i hi => by
      rw [hw' i (by omega), Real.log_mul (hv _ (by omega)).ne' hξ0.ne', Real.log_mul (hv _ (by omega)).ne' hξ0.ne']
      ring) (fun i hi => (hw _ (by omega)).2)
  rw [show v.length - 1 + 1 = v.length by omega] at hm
  set S := ∑ i ∈ Finset.range v.length, icwtWeight st nv v i * f (v.getD i 0 * ξ) with hS
  set I := ∫ w in (v.getD 0 0 * ξ)..(v.getD (v.length - 1) 0 * ξ), f w / w with hI
  have : S / C - 1 = (S - C) / C := by field_simp
  rw [this, abs_div, abs_of_pos hC]
  refine div_le_div_of_nonneg_right ?_ hC.le
  calc |S - C| = |(S - I) + (I - C)| := by ring_nf
    _ ≤ |S - I| + |I - C| := abs_add_le _ _
    _ ≤ _ := by rw [abs_sub_comm I C]; linarith

/-- Filtering a real signal by a real gain that vanishes at zero and is nearly one, on average over opposite frequencies, where the signal has energy. -/
theorem filter_near (L : ℕ) (hL : 0 < L) (x : ℕ → ℝ) (g : ℕ → ℂ) (hg : ∀ k < L, (g k).im = 0) (hg0 : g 0 = 0) (ε : ℝ) (hε : 0 ≤ ε)
    (hnear : ∀ k, 0 < k → 2 * k ≤ L → dft L (fun q => (x q : ℂ)) k ≠ 0 → |((g k).re + (g (L - k)).re) / 2 - 1| ≤ ε) :
    ∑ m ∈ Finset.range L, ((idft L (fun k => g k * dft L (fun q => (x q : ℂ)) k) m).re -
      (x m - (∑ q ∈ Finset.range L, x q) / L)) ^ 2 ≤ ε ^ 2 * ∑ q ∈ Finset.range L, x q ^ 2 := by
  set X := dft L (fun q => (x q : ℂ)) with hX
  set F : ℕ → ℝ := fun k => if k = 0 then 0 else ((g k).re + (g (L - k)).re) / 2 - 1 with hF
  have hsymX : ∀ k ≤ L, X (L - k) = (starRingEnd ℂ) (X k) := fun k hk => dft_real_symm x hk (by omega)
  have hFk : ∀ k < L, ‖(F k : ℂ) * X k‖ ≤ ε * ‖X k‖ := by
    intro k hk
    rw [norm_mul, norm_real, Real.norm_eq_abs]
    by_cases hk0 : k = 0
    · simp only [hF, hk0, if_true, abs_zero, zero_mul]
      positivity
    by_cases hXk : X k = 0
    · rw [hXk]; simp
    refine mul_le_mul_of_nonneg_right ?_ (norm_nonneg _)
    simp only [hF, if_neg hk0]
    by_cases h2 : 2 * k ≤ L
    · exact hnear k (by omega) h2 hXk
    · have := hnear (L - k) (by omega) (by omega) (by rw [hsymX k hk.le]; simpa using hXk)
      rw [show L - (L - k) = k by omega, add_comm] at this
      exact this
  have hflat : ∀ k, 0 < k → k < L → (g k - F k) + (g (L - k) - F (L - k)) = 2 := by
    intro k h0 hk
    have e1 : g k = ((g k).re : ℂ) := by apply Complex.ext <;> simp [hg k hk]
    have e2 : g (L - k) = ((g (L - k)).re : ℂ) := by apply Complex.ext <;> simp [hg (L - k) (by omega)]
    have f1 : F k = ((g k).re + (g (L - k)).re) / 2 - 1 := by simp only [hF, if_neg (by omega : ¬ k = 0)]
    have f2 : F (L - k) = ((g (L - k)).re + (g k).re) / 2 - 1 := by
      simp only [hF, if_neg (by omega : ¬ L - k = 0), show L - (L - k) = k by omega]
    rw [e1, e2, f1, f2]
    push_cast
    ring
  have hval : ∀ m < L, (idft L (fun k => g k * X k) m).re - (x m - (∑ q ∈ Finset.range L, x q) / L) =
      (idft L (fun k => (F k : ℂ) * X k) m).re := by
    intro m hm
    have h1 := filter_flat L hL x (fun k => g k - F k) (fun k hk => by simp [hg k hk]) hflat m hm
    have h2 : idft L (fun k => (g k - F k) * X k) m = idft L (fun k => g k * X k) m - idft L (fun k => (F k : ℂ) * X k) m := by
      unfold idft
      rw [← sub_div, ← Finset.sum_sub_distrib]
      congr 1
      exact Finset.sum_congr rfl fun k _ => by ring
    rw [← hX, h2, sub_re] at h1
    have h3 : (g 0 - (F 0 : ℂ)).re = 0 := by simp [hg0, hF]
    rw [h3] at h1
    linarith
  rw [Finset.sum_congr rfl fun m hm => by rw [hval m (Finset.mem_range.1 hm)]]
  have hpar := dft_parseval (n := L) (idft L fun k => (F k : ℂ) * X k)
  have hpar2 := dft_parseval (n := L) (fun q => (x q : ℂ))
  have hL' : (0 : ℝ) < L := by exact_mod_cast hL
  have b1 : ∑ k ∈ Finset.range L, ‖dft L (idft L fun k => (F k : ℂ) * X k) k‖ ^ 2 ≤ ε ^ 2 * ∑ k ∈ Finset.range L, ‖X k‖ ^ 2 := by
    rw [Finset.mul_sum]
    refine Finset.sum_le_sum fun k hk => ?_
    rw [dft_idft _ (Finset.mem_range.1 hk), ← mul_pow]
    exact pow_le_pow_left₀ (norm_nonneg _) (hFk k (Finset.mem_range.1 hk)) 2
  have b2 : ∑ m ∈ Finset.range L, (idft L (fun k => (F k : ℂ) * X k) m).re ^ 2 ≤ ∑ m ∈ Finset.range L, ‖idft L (fun k => (F k : ℂ) * X k) m‖ ^ 2 := by
    refine Finset.sum_le_sum fun m _ => ?_
    rw [← sq_abs]
    exact pow_le_pow_left₀ (abs_nonneg _) (abs_re_le_norm _) 2
  have b3 : ∑ q ∈ Finset.range L, ‖(x q : ℂ)‖ ^ 2 = ∑ q ∈ Finset.range L, x q ^ 2 :=
    Finset.sum_congr rfl fun q _ => by rw [norm_real, Real.norm_eq_abs, sq_abs]
  rw [hpar, hpar2, b3] at b1
  have : L * ∑ m ∈ Finset.range L, ‖idft L (fun k => (F k : ℂ) * X k) m‖ ^ 2 ≤ L * (ε ^ 2 * ∑ q ∈ Finset.range L, x q ^ 2) := by linarith
  exact b2.trans (le_of_mul_le_mul_left this hL')


/-- The sum over the samples kept is at most the sum over all of the padded signal. -/
theorem sum_keep_le {n1 N L : ℕ} (h : n1 + N ≤ L) (e : ℕ → ℝ) (he : ∀ m, 0 ≤ e m) :
    ∑ j ∈ Finset.range N, e (n1 + j) ≤ ∑ m ∈ Finset.range L, e m := by
  rw [← Finset.sum_image (s := Finset.range N) (g := fun j => n1 + j) (f := e) (fun a _ b _ hab => by simpa using hab)]
  refine Finset.sum_le_sum_of_subset_of_nonneg ?_ fun m _ _ => he m
  intro m hm
  simp only [Finset.mem_image, Finset.mem_range] at hm ⊢
  obtain ⟨j, hj, rfl⟩ := hm
  omega

/-- **C183.** `icwt(cwt(x))` with at least `n` voices per octave, for a wavelet that rises to a peak `P` and falls. With `C` the admissibility constant `icwt`
divides by, and `δ` at least the difference between `C` and the integral of `ψ(w)/w` over the part of the axis the scales cover, at each frequency the padded
signal has: the energy of the error — against `x` less the mean of the padded signal, plus `c · x_mean` — is at most `((P log 2 / n + δ)/C)²` of that of the padded
signal. -/
theorem C183_icwt {f : ℝ → ℝ} {pk P : ℝ} (hf : Hump f pk P) (x : List ℝ) (a : CwtArgs) (t : Option PadType) (ht : a.padtype = t.map padName)
    (hx : 0 < x.length) (hfn : ∀ w, a.wavelet.fn.eval w = (f w : ℂ)) (hrp : a.rpadded = false)
    (W : List (List ℂ)) (scales : List ℝ) (dW : List (List ℂ)) (h : cwt x a = .ok (W, scales, dW))
    (b : IcwtArgs) (hb : b.l1Norm = a.l1Norm) (hC : 0 < b.admSsq) (sh : List ℕ) (d : FDtype) (xh : List ℝ)
    (hi : icwt x.length W (.arr sh d scales) b = .ok xh) (n c : ℕ) (hg : VoiceGrid d scales n c)
    (xp : List ℝ) (n1 : ℕ) (hpad : Padded t x xp n1) (δ : ℝ)
    (hδ : ∀ k : ℕ, 0 < k → 2 * k ≤ xp.length → dft xp.length (fun q => ((xp.getD q 0 : ℝ) : ℂ)) k ≠ 0 →
      |b.admSsq - ∫ w in (scales.getD 0 0 * (2 * Real.pi * k / xp.length))..(scales.getD (scales.length - 1) 0 * (2 * Real.pi * k / xp.length)), f w / w| ≤ δ)
    (hδ0 : 0 ≤ δ) :
    xh.length = x.length ∧
    ∑ j ∈ Finset.range x.length, (xh.getD j 0 - (x.getD j 0 - xp.sum / xp.length + c * b.xMean)) ^ 2 ≤
      ((Real.log 2 / n * P + δ) / b.admSsq) ^ 2 * ∑ q ∈ Finset.range xp.length, xp.getD q 0 ^ 2 := by
  obtain ⟨h3, hpos, hinc, st, nv, hs, hst, hw, hw'⟩ := voice_weights hg
  have hreal : ∀ w, (a.wavelet.fn.eval w).im = 0 := fun w => by rw [hfn, ofReal_im]
  have hev : a.wavelet.fn.eval = fun w => (f w : ℂ) := funext hfn
  obtain ⟨xq, m1, hq, hle, hl, hv⟩ := C40_filter x a t ht hx hreal hrp W scales dW h b hb sh d xh hi st nv c hs hpos
  obtain ⟨rfl, rfl⟩ := padded_unique hx hq hpad
  rw [hev] at hv
  refine ⟨hl, ?_⟩
  have hP := hf.P_nonneg
  have hl2 : 0 ≤ Real.log 2 := Real.log_nonneg (by norm_num)
  have hn := filter_near xp.length (by omega) (fun q => xp.getD q 0) (icwtGain (fun w => (f w : ℂ)) xp.length b.admSsq st nv scales)
    (fun k _ => icwtGain_im (by simp) _ _ _ _ _ _)
    (by
      unfold icwtGain
      refine Finset.sum_eq_zero fun i _ => ?_
      have : wavSample (fun w => (f w : ℂ)) xp.length (scales.getD i 0) 0 = 0 := by
        unfold wavSample xi
        rw [if_neg (by omega), if_pos (by omega)]
        simp [hf.zero 0 le_rfl]
      rw [this, mul_zero])
    ((Real.log 2 / n * P + δ) / b.admSsq) (by positivity)
    (fun k hk hkL hX => (gain_err hf h3 hpos hinc hw hw' xp.length k hk hkL b.admSsq hC).trans
      (div_le_div_of_nonneg_right (by have := hδ k hk hkL hX; linarith) hC.le))
  refine le_trans ?_ hn
  refine le_trans (le_of_eq ?_) (sum_keep_le hle _ fun m => sq_nonneg _)
  refine Finset.sum_congr rfl fun j hj => ?_
  have hj := Finset.mem_range.1 hj
  rw [hv j hj, padded_keeps hx hpad j hj, list_sum_range]
  ring

theorem primitive_limits {F : ℝ → ℝ} (h0 : ∀ w ≤ 0, F w = 0) (hint : MeasureTheory.IntegrableOn F (Set.Ioi 0)) {ε : ℝ} (hε : 0 < ε) :
    ∃ lo > 0, ∃ hi > 0, ∀ u v, 0 ≤ u → u ≤ lo → hi ≤ v → |(∫ w in Set.Ioi 0, F w) - ∫ w in u..v, F w| ≤ ε := by
  have hall : MeasureTheory.Integrable F := by
    have e : F = (Set.Ioi 0).indicator F := by
      funext w
      by_cases h : 0 < w
      · rw [Set.indicator_of_mem (Set.mem_Ioi.2 h)]
      · rw [Set.indicator_of_notMem (fun hm => h (Set.mem_Ioi.1 hm)), h0 w (not_lt.1 h)]
    rw [e]
    exact hint.integrable_indicator measurableSet_Ioi
  have hii : ∀ a b, IntervalIntegrable F MeasureTheory.volume a b := fun a b => hall.intervalIntegrable
  have hc : Continuous fun b => ∫ w in (0 : ℝ)..b, F w := intervalIntegral.continuous_primitive hii 0
  have ht := MeasureTheory.intervalIntegral_tendsto_integral_Ioi 0 hint Filter.tendsto_id
  obtain ⟨lo, hlo, h1⟩ := Metric.continuousAt_iff.1 (hc.continuousAt (x := 0)) (ε / 2) (by linarith)
  obtain ⟨hi, h2⟩ := Filter.eventually_atTop.1 (Metric.tendsto_nhds.1 ht (ε / 2) (by linarith))
  refine ⟨lo / 2, by linarith, max hi 1, by positivity, fun u v hu0 hu hv => ?_⟩
  have e1 := h1 (x := u) (by rw [Real.dist_eq, sub_zero, abs_of_nonneg hu0]; linarith)
  have e2 := h2 v ((le_max_left _ _).trans hv)
  rw [Real.dist_eq] at e1 e2
  simp only [intervalIntegral.integral_same, sub_zero, id] at e1 e2
  have e3 : ∫ w in u..v, F w = (∫ w in (0 : ℝ)..v, F w) - ∫ w in (0 : ℝ)..u, F w := (intervalIntegral.integral_interval_sub_left (hii _ _) (hii _ _)).symm
  rw [e3, show (∫ w in Set.Ioi 0, F w) - ((∫ w in (0 : ℝ)..v, F w) - ∫ w in (0 : ℝ)..u, F w) =
    (∫ w in (0 : ℝ)..u, F w) - ((∫ w in (0 : ℝ)..v, F w) - ∫ w in Set.Ioi 0, F w) by ring]
  refine (abs_sub _ _).trans ?_
  linarith

/-- **C183, in the limit.** When `icwt` divides by the exact admissibility constant `∫₀^∞ ψ(w)/w dw`, the error goes to zero relative to the padded signal as the
voices per octave grow, the first scale goes to zero and the last one to infinity, uniformly over the signals with `L` padded samples. -/
theorem C183_converges {f : ℝ → ℝ} {pk P : ℝ} (hf : Hump f pk P) (hint : MeasureTheory.IntegrableOn (fun w => f w / w) (Set.Ioi 0))
    (hA : 0 < ∫ w in Set.Ioi 0, f w / w) (L : ℕ) (ε : ℝ) (hε : 0 < ε) :
    ∃ n0 : ℕ, ∃ lo > 0, ∃ hi > 0, ∀ (x : List ℝ) (a : CwtArgs) (t : Option PadType) (xp : List ℝ) (n1 : ℕ), a.padtype = t.map padName → 0 < x.length →
      Padded t x xp n1 → xp.length = L → (∀ w, a.wavelet.fn.eval w = (f w : ℂ)) → a.rpadded = false →
      ∀ (W : List (List ℂ)) (scales : List ℝ) (dW : List (List ℂ)), cwt x a = .ok (W, scales, dW) →
      ∀ (n c : ℕ) (d : FDtype), VoiceGrid d scales n c → n0 ≤ n → scales.getD 0 0 ≤ lo → hi ≤ scales.getD (scales.length - 1) 0 →
      ∀ (b : IcwtArgs) (sh : List ℕ) (xh : List ℝ), b.l1Norm = a.l1Norm → b.admSsq = ∫ w in Set.Ioi 0, f w / w →
      icwt x.length W (.arr sh d scales) b = .ok xh →
      xh.length = x.length ∧
      ∑ j ∈ Finset.range x.length, (xh.getD j 0 - (x.getD j 0 - xp.sum / L + c * b.xMean)) ^ 2 ≤ ε ^ 2 * ∑ q ∈ Finset.range L, xp.getD q 0 ^ 2 := by
  set A := ∫ w in Set.Ioi 0, f w / w with hAdef
  have hP := hf.P_nonneg
  have hl2 : 0 ≤ Real.log 2 := Real.log_nonneg (by norm_num)
  obtain ⟨lo, hlo, hi, hhi, hlim⟩ := primitive_limits (F := fun w => f w / w) (fun w hw => by simp [hf.zero w hw]) hint (ε := ε * A / 2) (by positivity)
  obtain ⟨n0, hn0⟩ := exists_nat_gt (Real.log 2 * P / (ε * A / 2))
  refine ⟨n0, lo / 4, by linarith, hi * (L + 1), by positivity, ?_⟩
  rintro x a t xp n1 ht hx hpad rfl hfn hrp W scales dW hcwt n c d hg hn hfirst hlast b sh xh hb hbA hicwt
  have hn1 := hg.2.1
  obtain ⟨h3, hpos, -, -⟩ := voice_weights hg
  have hs0 : 0 < scales.getD 0 0 := by rw [List.getD_eq_getElem _ _ (by omega)]; exact hpos _ (List.getElem_mem _)
  have hC : 0 < b.admSsq := by rw [hbA]; exact hA
  obtain ⟨r1, r2⟩ := C183_icwt hf x a t ht hx hfn hrp W scales dW hcwt b hb hC sh d xh hicwt n c hg xp n1 hpad (ε * A / 2)
    (fun k hk hkL _ => by
      rw [hbA]
      have hL' : (0 : ℝ) < xp.length := by exact_mod_cast (by omega : 0 < xp.length)
      have hk1 : (1 : ℝ) ≤ k := by exact_mod_cast hk
      have hk2 : (2 : ℝ) * k ≤ xp.length := by exact_mod_cast hkL
      have hpi := Real.pi_pos
      have hpi4 := Real.pi_le_four
      have hpi3 := Real.pi_gt_three
      have hξ1 : 2 * Real.pi * k / xp.length ≤ 4 := by rw [div_le_iff₀ hL']; nlinarith
      have hξ0 : 1 / xp.length ≤ 2 * Real.pi * k / xp.length := by
        refine div_le_div_of_nonneg_right ?_ hL'.le
        nlinarith
      have hξ : 0 < 2 * Real.pi * k / xp.length := lt_of_lt_of_le (by positivity) hξ0
      refine hlim _ _ (by positivity) ?_ ?_
      · calc scales.getD 0 0 * (2 * Real.pi * k / xp.length) ≤ lo / 4 * 4 := mul_le_mul hfirst hξ1 hξ.le (by linarith)
          _ = lo := by ring
      · calc hi = hi * xp.length * (1 / xp.length) := by field_simp
          _ ≤ scales.getD (scales.length - 1) 0 * (2 * Real.pi * k / xp.length) := by
            refine mul_le_mul ?_ hξ0 (by positivity) ?_
            · nlinarith
            · exact le_trans (by positivity) hlast) (by positivity)
  refine ⟨r1, r2.trans (mul_le_mul_of_nonneg_right (pow_le_pow_left₀ (by positivity) ?_ 2) (Finset.sum_nonneg fun q _ => sq_nonneg _))⟩
  rw [hbA, div_le_iff₀ hA]
  have hn' : (0 : ℝ) < n := by exact_mod_cast hn1
  have : Real.log 2 / n * P ≤ ε * A / 2 := by
    rw [div_mul_eq_mul_div, div_le_iff₀ hn']
    rw [div_lt_iff₀ (by positivity)] at hn0
    have : (n0 : ℝ) ≤ n := by exact_mod_cast hn
    have hεA : 0 < ε * A / 2 := by positivity
    nlinarith
  linarith

/-- **C183, synchrosqueezed.** The same for `issq_cwt(ssq_cwt(x))`, when nothing was filtered. -/
theorem C183_ssq {f : ℝ → ℝ} {pk P : ℝ} (hf : Hump f pk P) (x : List ℝ) (a : SsqCwtArgs) (o : SsqCwtOut) (t : Option PadType)
    (ht : a.padtype = t.map padName) (hx : 0 < x.length) (hfn : ∀ w, a.wavelet.fn.eval w = (f w : ℂ)) (h : ssqCwt x a = .ok o)
    (hsq : a.squeezing = .sum) (hth : 0 < a.th)
    (hgrid : Spec.SafeGrid a.th o.freqs.reverse true o.scales.length ∨ Spec.CwtLinearFreqs x.length a)
    (hno : Spec.NothingFiltered x.length a o) (css : ℝ) (hC : 0 < css) (n c : ℕ) (hg : VoiceGrid a.dtype o.scales n c)
    (xp : List ℝ) (n1 : ℕ) (hpad : Padded t x xp n1) (δ : ℝ)
    (hδ : ∀ k : ℕ, 0 < k → 2 * k ≤ xp.length → dft xp.length (fun q => ((xp.getD q 0 : ℝ) : ℂ)) k ≠ 0 →
      |css - ∫ w in (o.scales.getD 0 0 * (2 * Real.pi * k / xp.length))..(o.scales.getD (o.scales.length - 1) 0 * (2 * Real.pi * k / xp.length)), f w / w| ≤ δ)
    (hδ0 : 0 ≤ δ) :
    ∃ xh, issqOf x.length o css = .ok (.full xh) ∧ xh.length = x.length ∧
    ∑ j ∈ Finset.range x.length, (xh.getD j 0 - (x.getD j 0 - xp.sum / xp.length)) ^ 2 ≤
      ((Real.log 2 / n * P + δ) / css) ^ 2 * ∑ q ∈ Finset.range xp.length, xp.getD q 0 ^ 2 := by
  obtain ⟨h3, hpos, hinc, st, nv, hs, hst, hw, hw'⟩ := voice_weights hg
  obtain ⟨xh, h1, h2⟩ := C41_equal_partial x a o css h hsq hth hgrid hno st nv c hs hst
  obtain ⟨fs, dt, st', na, nv', -, -, hcwt, -⟩ := ssqCwt_ok h
  obtain ⟨r1, r2⟩ := C183_icwt hf x (a.cwtArgs fs o.scales) t ht hx hfn rfl o.Wx o.scales o.dWx hcwt { wavelet := a.wavelet, admSsq := css } rfl hC _ _ xh h2 n c hg
    xp n1 hpad δ hδ hδ0
  refine ⟨xh, h1, r1, le_trans (le_of_eq ?_) r2⟩
  refine Finset.sum_congr rfl fun j _ => ?_
  simp


theorem morse_le {γ β x y : ℝ} (hγ : 0 < γ) (hx : 0 < x) (hy : 0 < y) (h : (β / γ - y ^ γ) * ((x / y) ^ γ - 1) ≤ 0) (hβ : 0 < β) :
    morse γ β x ≤ morse γ β y := by
  unfold Spec.morse
  rw [if_pos hx, if_pos hy, Real.rpow_def_of_pos hx, Real.rpow_def_of_pos hy, ← Real.exp_add, ← Real.exp_add, Real.exp_le_exp]
  have hu0 : 0 < (x / y) ^ γ := by positivity
  have hlog : Real.log ((x / y) ^ γ) = γ * (Real.log x - Real.log y) := by
    rw [Real.log_rpow (by positivity), Real.log_div hx.ne' hy.ne']
  have hkey := mul_le_mul_of_nonneg_left (Real.log_le_sub_one_of_pos hu0) (by positivity : 0 ≤ β / γ)
  have hxy : x ^ γ = (x / y) ^ γ * y ^ γ := by rw [Real.div_rpow hx.le hy.le, div_mul_cancel₀]; positivity
  rw [hlog] at hkey
  have e : β / γ * (γ * (Real.log x - Real.log y)) = β * (Real.log x - Real.log y) := by field_simp
  rw [e] at hkey
  rw [hxy]
  linarith

theorem morse_hump {γ β : ℝ} (hγ : 0 < γ) (hβ : 0 < β) : Hump (fun w => 2 * (morse γ β w / morse γ β (morsefreq γ β))) (morsefreq γ β) 2 := by
  have hwc := morsefreq_pos hγ hβ
  have hm := morse_pos γ β _ hwc
  have hle : ∀ x y, morse γ β x ≤ morse γ β y → 2 * (morse γ β x / morse γ β (morsefreq γ β)) ≤ 2 * (morse γ β y / morse γ β (morsefreq γ β)) := by
    intro x y h
    have := div_le_div_of_nonneg_right h hm.le
    linarith
  refine ⟨hwc, fun w hw => ?_, fun w => ?_, fun v w hv hvw hw => hle _ _ ?_, fun v w hv hvw => hle _ _ ?_, ?_⟩
  · rw [morse_of_nonpos _ _ _ hw]; simp
  · have := div_nonneg (morse_nonneg γ β w) hm.le
    linarith
  · have hw0 := hv.trans_le hvw
    refine morse_le hγ hv hw0 ?_ hβ
    have h1 : w ^ γ ≤ β / γ := by
      rw [← morsefreq_rpow hγ hβ]
      exact Real.rpow_le_rpow hw0.le hw hγ.le
    have h2 : (v / w) ^ γ ≤ 1 := Real.rpow_le_one (by positivity) ((div_le_one hw0).2 hvw) hγ.le
    exact mul_nonpos_of_nonneg_of_nonpos (by linarith) (by linarith)
  · have hv0 := hwc.trans_le hv
    have hw0 := hv0.trans_le hvw
    refine morse_le hγ hw0 hv0 ?_ hβ
    have h1 : β / γ ≤ v ^ γ := by
      rw [← morsefreq_rpow hγ hβ]
      exact Real.rpow_le_rpow hwc.le hv hγ.le
    have h2 : 1 ≤ (w / v) ^ γ := Real.one_le_rpow ((one_le_div hv0).2 hvw) hγ.le
    exact mul_nonpos_of_nonpos_of_nonneg (by linarith) (by linarith)
  · rw [div_self hm.ne']; norm_num

theorem Spec.Hump.comp_mul {f : ℝ → ℝ} {p P r : ℝ} (h : Hump f p P) (hr : 0 < r) : Hump (fun w => f (w * r)) (p / r) P := by
  refine ⟨div_pos h.peak_pos hr, fun w hw => h.zero _ (mul_nonpos_of_nonpos_of_nonneg hw hr.le), fun w => h.nonneg _, fun v w hv hvw hw => ?_, fun v w hv hvw => ?_, ?_⟩
  · exact h.rise _ _ (by positivity) (mul_le_mul_of_nonneg_right hvw hr.le) ((le_div_iff₀ hr).1 hw)
  · exact h.fall _ _ ((div_le_iff₀ hr).1 hv) (mul_le_mul_of_nonneg_right hvw hr.le)
  · rw [div_mul_cancel₀ _ hr.ne', h.top]

/-- **C183, the Morse wavelets.** The bandpass Morse wavelets of order 0 meet the hypotheses, for all `gamma, beta > 0`: they rise to 2 at the peak and fall, and
`∫₀^∞ ψ(w)/w dw = (2/γ) Γ(β/γ) (e γ/β)^(β/γ)`, with or without `centered_scale`. -/
theorem C183_gmw {γ β : ℝ} {c : Option Bool} {f32 : Bool} {f : ℝ → ℝ} (h : gmw (some γ) (some β) (.known .bandpass) (.int 0) c f32 = .ok f) :
    Hump f (if c = some true then 1 else (β / γ) ^ (1 / γ)) 2 ∧ MeasureTheory.IntegrableOn (fun w => f w / w) (Set.Ioi 0) ∧
    (∫ w in Set.Ioi 0, f w / w) = 2 / γ * Real.Gamma (β / γ) * (Real.exp 1 * γ / β) ^ (β / γ) ∧ 0 < ∫ w in Set.Ioi 0, f w / w := by
  obtain ⟨hγ, hβ, n, k, hn, _, hk, _, rfl⟩ := gmw_ok h
  obtain rfl : GmwNorm.bandpass = n := by simpa [gmwNormOf] using hn
  obtain rfl : 0 = k := by simpa [gmwOrder] using hk
  simp only [Option.getD_some] at hγ hβ
  have hwc := morsefreq_pos hγ hβ
  have hm := morse_pos γ β _ hwc
  simp only [Option.getD_some, gmwClosed, gmwCoeff_zero_bandpass, Spec.laguerre, mul_one]
  have hH := morse_hump hγ hβ
  set G : ℝ → ℝ := fun y => 2 * (morse γ β y / morse γ β (morsefreq γ β)) / y with hG
  have hGe : ∀ y ∈ Set.Ioi (0 : ℝ), G y = 2 / morse γ β (morsefreq γ β) * (y ^ (β - 1) * Real.exp (-y ^ γ)) := by
    intro y hy
    have hy : 0 < y := hy
    simp only [hG, Spec.morse, if_pos hy]
    rw [Real.rpow_sub_one hy.ne']
    ring
  have hint0 := integral_rpow_mul_exp_neg_rpow hγ (by linarith : -1 < β - 1)
  rw [sub_add_cancel] at hint0
  have hΓ : 0 < Real.Gamma (β / γ) := Real.Gamma_pos_of_pos (by positivity)
  have hintg0 : MeasureTheory.IntegrableOn (fun y : ℝ => y ^ (β - 1) * Real.exp (-y ^ γ)) (Set.Ioi 0) := by
    by_contra hno
    rw [MeasureTheory.integral_undef hno] at hint0
    have : 0 < 1 / γ * Real.Gamma (β / γ) := by positivity
    linarith
  have hGi : MeasureTheory.IntegrableOn G (Set.Ioi 0) :=
    (MeasureTheory.integrableOn_congr_fun (fun y hy => hGe y hy) measurableSet_Ioi).2 (hintg0.const_mul _)
  have hval : 2 / morse γ β (morsefreq γ β) * (1 / γ * Real.Gamma (β / γ)) = 2 / γ * Real.Gamma (β / γ) * (Real.exp 1 * γ / β) ^ (β / γ) := by
    have : morse γ β (morsefreq γ β) = ((Real.exp 1 * γ / β) ^ (β / γ))⁻¹ := by
      unfold Spec.morse
      rw [if_pos hwc, morsefreq_rpow hγ hβ, morsefreq, ← Real.rpow_mul (by positivity), ← Real.inv_rpow (by positivity), Real.exp_neg,
        show (Real.exp 1 * γ / β)⁻¹ = β / γ / Real.exp 1 by field_simp,
        Real.div_rpow (show 0 ≤ β / γ by positivity) (Real.exp_pos 1).le, ← Real.exp_mul, one_mul, show 1 / γ * β = β / γ by ring]
      rfl
    rw [this, div_inv_eq_mul]
    ring
  have hGv : ∫ w in Set.Ioi 0, G w = 2 / γ * Real.Gamma (β / γ) * (Real.exp 1 * γ / β) ^ (β / γ) := by
    rw [MeasureTheory.setIntegral_congr_fun measurableSet_Ioi (fun y hy => hGe y hy), MeasureTheory.integral_const_mul, hint0, hval]
  have hpos : 0 < 2 / γ * Real.Gamma (β / γ) * (Real.exp 1 * γ / β) ^ (β / γ) := by
    have := Real.exp_pos 1
    positivity
  by_cases hc : c = some true
  · subst hc
    simp only [Option.getD_some, gmwArg, if_true]
    have hscale : (fun w => 2 * (morse γ β (w * morsefreq γ β) / morse γ β (morsefreq γ β)) / w) = fun w => morsefreq γ β * G (w * morsefreq γ β) := by
      funext w
      simp only [hG]
      by_cases hw : w = 0
      · subst hw; simp
      · field_simp
    rw [hscale]
    have hi2 : MeasureTheory.IntegrableOn (fun w => G (w * morsefreq γ β)) (Set.Ioi 0) := by
      rw [MeasureTheory.integrableOn_Ioi_comp_mul_right_iff _ _ hwc, zero_mul]
      exact hGi
    refine ⟨?_, hi2.const_mul _, ?_⟩
    · have := hH.comp_mul hwc
      rwa [div_self hwc.ne'] at this
    · rw [MeasureTheory.integral_const_mul, MeasureTheory.integral_comp_mul_right_Ioi _ _ hwc, zero_mul, smul_eq_mul, mul_inv_cancel_left₀ hwc.ne', hGv]
      exact ⟨rfl, hpos⟩
  · rw [if_neg hc]
    have harg : ∀ w, gmwArg (c.getD false) (morsefreq γ β) w = w := by
      intro w
      rcases c with _ | _ | _ <;> simp_all [gmwArg]
    simp only [harg]
    exact ⟨hH, hGi, hGv, hGv ▸ hpos⟩

/-- A call with the wavelet function `f`, scales `[1, 2, 4]`, and any pad type. -/
noncomputable def argsF (f : ℝ → ℝ) (t : Option PadType) : CwtArgs := { argsR t with wavelet := ⟨.real f, sw0, none⟩ }

theorem argsF_ok (f : ℝ → ℝ) (x : List ℝ) (hx : 0 < x.length) (t : Option PadType) :
    ∃ W dW, cwt x (argsF f t) = .ok (W, [1, 2, 4], dW) :=
  C37_succeeds x (argsF f t) t rfl hx 2 (1 / 2) (by simp [processFsT, argsR, argsF]) (by simp [argsR, argsF])
    [1, 2, 4] .log 3 (.int 1) none (by simp [argsR, argsF, sc124]) (fun _ => rfl) (process124 _ _ _ _)

theorem voice_124 : VoiceGrid .f64 [1, 2, 4] 1 1 :=
  ⟨by simp, le_rfl, Or.inl ⟨rfl, by simp, 0, by simpa using geo124⟩⟩

/-- The hypotheses of `C183_icwt` hold for the default Morse wavelet with the scales 1, 2, 4 and any pad type. -/
example (t : Option PadType) : ∃ (f : ℝ → ℝ) (W dW : List (List ℂ)) (xh : List ℝ), gmw (some 3) (some 60) (.known .bandpass) (.int 0) (some true) false = .ok f ∧
    Hump f 1 2 ∧ cwt [3, 1, 5] (argsF f t) = .ok (W, [1, 2, 4], dW) ∧ 0 < ∫ w in Set.Ioi 0, f w / w ∧
    icwt 3 W sc124 { wavelet := (argsF f t).wavelet, admSsq := ∫ w in Set.Ioi 0, f w / w } = .ok xh ∧ xh.length = 3 := by
  have h := gmw_eq (γ := some 3) (β := some 60) (norm := .known .bandpass) (order := .int 0) (n := .bandpass) (k := 0)
    (f32 := false) (some true) (by norm_num) (by norm_num) rfl (by simp [gmwCheckOrder]) rfl (by simp)
  obtain ⟨h1, h2, h3, h4⟩ := C183_gmw h
  rw [if_pos rfl] at h1
  set f : ℝ → ℝ := fun w => gmwClosed ((some (3 : ℝ)).getD 3) ((some (60 : ℝ)).getD 60) .bandpass 0 (gmwArg ((some true).getD false) (morsefreq ((some (3 : ℝ)).getD 3) ((some (60 : ℝ)).getD 60)) w)
    with hf
  obtain ⟨W, dW, hW⟩ := argsF_ok f [3, 1, 5] (by simp) t
  obtain ⟨xp, n1, fs, dt, hpad, -, -, hl, -, -⟩ := C37_rows_partial [3, 1, 5] (argsF f t) t rfl (by simp) (fun w => by simp [argsF, WFn.eval]) W _ dW hW
  obtain ⟨xh, hx⟩ := icwt_runs { wavelet := (argsF f t).wavelet, admSsq := ∫ w in Set.Ioi 0, f w / w } 3 W [3] .f64 [1, 2, 4]
    rfl hl _ _ _ icwtScales_124 ⟨_, process124 _ _ _ _⟩
  refine ⟨f, W, dW, xh, h, h1, hW, h4, hx, ?_⟩
  exact (C183_icwt h1 [3, 1, 5] (argsF f t) t rfl (by simp) (fun w => rfl) rfl W _ dW hW { wavelet := (argsF f t).wavelet, admSsq := ∫ w in Set.Ioi 0, f w / w } rfl h4
    [3] .f64 xh hx 1 1 voice_124 xp n1 hpad
    (∑ k ∈ Finset.range (xp.length + 1), |(∫ w in Set.Ioi 0, f w / w) - ∫ w in (([1, 2, 4] : List ℝ).getD 0 0 * (2 * Real.pi * k / xp.length))..(([1, 2, 4] : List ℝ).getD 2 0 * (2 * Real.pi * k / xp.length)), f w / w|)
    (fun k _ hk _ => Finset.single_le_sum (f := fun k : ℕ => |(∫ w in Set.Ioi 0, f w / w) - ∫ w in (([1, 2, 4] : List ℝ).getD 0 0 * (2 * Real.pi * k / xp.length))..(([1, 2, 4] : List ℝ).getD 2 0 * (2 * Real.pi * k / xp.length)), f w / w|)
      (fun _ _ => abs_nonneg _) (Finset.mem_range.2 (by omega)))
    (Finset.sum_nonneg fun _ _ => abs_nonneg _)).1

/-- Those of `C183_converges`, for the default Morse wavelet. -/
example : ∃ f : ℝ → ℝ, gmw (some 3) (some 60) (.known .bandpass) (.int 0) (some true) false = .ok f ∧ Hump f 1 2 ∧
    MeasureTheory.IntegrableOn (fun w => f w / w) (Set.Ioi 0) ∧ 0 < ∫ w in Set.Ioi 0, f w / w := by
  have h := gmw_eq (γ := some 3) (β := some 60) (norm := .known .bandpass) (order := .int 0) (n := .bandpass) (k := 0)
    (f32 := false) (some true) (by norm_num) (by norm_num) rfl (by simp [gmwCheckOrder]) rfl (by simp)
  obtain ⟨h1, h2, h3, h4⟩ := C183_gmw h
  exact ⟨_, h, by simpa using h1, h2, h4⟩

/-- `ssq_cwt` with the wavelet function `f` over the scales 1, 2, 4 and the frequencies 1, 2, 4 at rate 8, threshold 0. -/
noncomputable def exSF (f : ℝ → ℝ) (t : Option PadType) : SsqCwtArgs := { exS [1, 2, 4] t with wavelet := ⟨.real f, sw0, none⟩ }

theorem exSF_ok (f : ℝ → ℝ) (t : Option PadType) (x : List ℝ) (hx : 0 < x.length) :
    ∃ o, ssqCwt x (exSF f t) = .ok o ∧ o.scales = [1, 2, 4] ∧ o.freqs = [4, 2, 1] := by
  have hr : processFsT (some 8) none x.length = .ok (.fin 8 (1 / 8)) := by
    simp only [processFsT]; rw [if_neg (by norm_num)]
  have hd : cwtDt (exSF f t).fs (exSF f t).t x.length = .ok (8, 1 / 8) := by
    simp only [cwtDt, exSF, exS, exSsq, hr, ok_bind]
  have hproc : ∀ (sh : List ℕ) N wv up ds, (sh.filter (· ≠ 1)).length = 1 →
      processScales (.arr sh .f64 [1, 2, 4]) N wv none up ds = .ok ([1, 2, 4], .log, 3, .int 1) := fun sh N wv up ds hsh => by
    exact process_geometric (dt := .f64) (by simp) (n := 1) le_rfl (by simpa using geo124) (by simp) hsh N wv up ds
  have hs : ∀ N, processScales (exSF f t).scales N (some (exSF f t).wavelet.sw) (ssqCwtNv (exSF f t)) true
      (exSF f t).downsample = .ok ([1, 2, 4], .log, 3, .int 1) := fun N => hproc _ _ _ _ _ (by simp)
  obtain ⟨W, dW, hW⟩ := C37_succeeds x ((exSF f t).cwtArgs 8 [1, 2, 4]) t rfl hx 8 (1 / 8) hr
    (by simp [SsqCwtArgs.cwtArgs, exSF, exS, exSsq]) [1, 2, 4] .log 3 (.int 1) none
    (by simp [SsqCwtArgs.cwtArgs]) (fun _ => rfl) (hproc _ _ _ _ _ (by simp))
  obtain ⟨Tx, hT⟩ := ssqueeze_exS [1, 2, 4] t x.length W dW .log (.int 1) (by simp) hproc (fun v => ⟨_, _, rfl, rfl⟩)
  refine ⟨⟨Tx, W, [4, 2, 1], [1, 2, 4], dW⟩, ?_, rfl, rfl⟩
  have hc : checkSsqueezingArgs false (exSF f t).squeezing (exSF f t).maprange true (some .trig)
      (exSF f t).difforder (exSF f t).getW .cwt = .ok none := rfl
  have hT' : ssqueeze ((exSF f t).ssqArgs 8 .log [1, 2, 4] x.length W dW) = .ok (Tx, [4, 2, 1]) := hT
  unfold ssqCwt
  simp only [hc, hd, hs, hW, hT', ok_bind]

/-- The hypotheses of `C183_ssq` hold for every wavelet function, signal and pad type of these calls. -/
example (f : ℝ → ℝ) (t : Option PadType) (x : List ℝ) (hx : 0 < x.length) : ∃ o, ssqCwt x (exSF f t) = .ok o ∧ (exSF f t).squeezing = .sum ∧ 0 < (exSF f t).th ∧
    Spec.SafeGrid (exSF f t).th o.freqs.reverse true o.scales.length ∧ Spec.NothingFiltered x.length (exSF f t) o ∧ VoiceGrid (exSF f t).dtype o.scales 1 1 := by
  obtain ⟨o, ho, hsc, hf⟩ := exSF_ok f t x hx
  refine ⟨o, ho, rfl, by simp [exSF, exS, exSsq], safe124 hf _, ?_, by rw [hsc]; exact voice_124⟩
  intro i _ j _ hne
  unfold Spec.Kept
  simp only [exSF, exS, exSsq, Bool.false_eq_true, if_false, Option.getD_some]
  exact norm_pos_iff.2 hne

end Ssq
