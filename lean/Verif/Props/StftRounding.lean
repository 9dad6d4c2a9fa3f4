import Verif.Model.RoundingStft
import Verif.Props.CwtRounding
import Verif.Props.Istft

/-!
# C170: rounding errors of `stft` and `istft`
-/
namespace Ssq
open Finset
open Spec (l2 IsExtension)

namespace Spec

/-- What is assumed of the arithmetic: `+`, `*`, `/` and powers have relative errors of at most `u`; the FFTs return arrays of the documented lengths, with errors of at most `η` times the size of
the result (root of the sum of squares). -/
structure StftRounds (η u : ℝ) (F : StftOps) : Prop where
  add_err : Rounds u F.add (· + ·)
  mul_err : Rounds u F.mul (· * ·)
  div_err : Rounds u F.div (· / ·)
  pow_err : ∀ a k, |F.pow a k - a ^ k| ≤ u * |a ^ k|
  rfft_length : ∀ l, (F.rfft l).length = l.length / 2 + 1
  irfft_length : ∀ n S, (F.irfft n S).length = n
  rfft_err : ∀ l, l2 (l.length / 2 + 1) (fun k => (F.rfft l).getD k 0 - (rfftL l).getD k 0) ≤ η * l2 (l.length / 2 + 1) fun k => (rfftL l).getD k 0
  irfft_err : ∀ n S, l2 n (fun j => (((F.irfft n S).getD j 0 - (irfftL n S).getD j 0 : ℝ) : ℂ)) ≤ η * l2 n fun j => (((irfftL n S).getD j 0 : ℝ) : ℂ)

/-- The frames that contain sample `p` of the padded signal. -/
def covering (m hop n p : ℕ) : Finset ℕ := (range n).filter fun j => j * hop ≤ p ∧ p < j * hop + m

end Spec
open Spec (covering)

/-! ## Exact arithmetic -/

theorem stftWith_exact (lib : WinLib) (tiny : ℝ) (x : List ℝ) (a : StftArgs) (n : ℕ) (S dS : List (List ℂ)) (h : stft lib tiny x a = .ok (n, S, dS)) :
    stftWith exactStft lib tiny x a = .ok (n, S) := by
  unfold stft at h
  simp only [bind_eq_ok] at h
  obtain ⟨m, h1, ⟨w, dw⟩, h2, u, h3, ⟨xp, n1, n2, n3⟩, h4, ⟨S', dS'⟩, h5, h6⟩ := h
  simp only [pure_eq_ok, Except.ok.injEq, Prod.mk.injEq] at h6
  obtain ⟨rfl, rfl, rfl⟩ := h6
  have hw : getWindow lib tiny a.window (stftWinLen m a) (some m) = .ok w := by
    unfold getWindowD at h2
    unfold getWindow
    simp only [bind_eq_ok] at h2
    obtain ⟨r, hr, h2⟩ := h2
    simp only [pure_eq_ok, Except.ok.injEq, Prod.mk.injEq] at h2
    rw [hr, ok_bind, pure_eq_ok, h2.1]
  unfold stftCore at h5
  simp only [bind_eq_ok] at h5
  obtain ⟨B, hB, B2, hB2, C, hC, C2, hC2, h5⟩ := h5
  have hc : stftCoreWith exactStft xp w m a.hop a.modulated = .ok S' := by
    unfold stftCoreWith
    have e : mulWindowWith exactStft = mulWindow := rfl
    simp only [hB, ok_bind, e, hC]
    split at h5
    · simp at h5
    · rename_i hm
      simp only [pure_eq_ok, Except.ok.injEq, Prod.mk.injEq] at h5
      rw [if_neg hm]
      simp only [pure_eq_ok, ← h5.1]
      rfl
  unfold stftWith
  simp only [h1, hw, h3, h4, hc, ok_bind, pure_eq_ok]

theorem istftWith_exact (lib : WinLib) (tiny th : ℝ) (rows : ℕ) (S : List (List ℂ)) (a : IstftArgs) :
    istftWith exactStft lib tiny th rows S a = istft lib tiny th rows S a := rfl

/-! ## FFTs of real arrays -/

/-- `irfft` of a sequence. -/
noncomputable def irfftF (n : ℕ) (s : ℕ → ℂ) (j : ℕ) : ℝ :=
  ((s 0).re + (∑ k ∈ Icc 1 ((n - 1) / 2), 2 * (s k * tw n (j * k)).re)
      + (if n % 2 = 0 then (s (n / 2) * tw n (j * (n / 2 : ℕ))).re else 0)) / n

theorem irfftL_getD (n : ℕ) (S : List ℂ) {j : ℕ} (hj : j < n) : (irfftL n S).getD j 0 = irfftF n (fun k => S.getD k 0) j := by
  unfold irfftL
  rw [getD_map_range _ _ hj]
  rfl

theorem irfftF_sub (n : ℕ) (s t : ℕ → ℂ) (j : ℕ) : irfftF n s j - irfftF n t j = irfftF n (fun k => s k - t k) j := by
  unfold irfftF
  have h : ∑ k ∈ Icc 1 ((n - 1) / 2), 2 * ((s k - t k) * tw n (j * k)).re =
      ∑ k ∈ Icc 1 ((n - 1) / 2), 2 * (s k * tw n (j * k)).re - ∑ k ∈ Icc 1 ((n - 1) / 2), 2 * (t k * tw n (j * k)).re := by
    rw [← sum_sub_distrib]
    exact sum_congr rfl fun k _ => by rw [sub_mul, Complex.sub_re]; ring
  rw [h, Complex.sub_re]
  split
  · rw [sub_mul, Complex.sub_re]; ring
  · ring

/-- The spectrum `irfft` inverts. -/
noncomputable def hermSpec (n : ℕ) (s : ℕ → ℂ) (k : ℕ) : ℂ :=
  if k = 0 then ((s 0).re : ℂ) else if 2 * k = n then ((s k).re : ℂ) else if 2 * k < n then s k else (starRingEnd ℂ) (s (n - k))

theorem irfftF_eq_idft {n : ℕ} (hn : 0 < n) (s : ℕ → ℂ) (j : ℕ) : ((irfftF n s j : ℝ) : ℂ) = idft n (hermSpec n s) j := by
  have hn0 : n ≠ 0 := by omega
  unfold idft irfftF
  rw [sum_pairs (fun k => hermSpec n s k * tw n (j * k)) hn]
  push_cast
  congr 1
  congr 1
  · congr 1
    · simp [hermSpec]
    · refine sum_congr rfl fun k hk => ?_
      obtain ⟨h1, h2⟩ := mem_Icc.1 hk
      have e1 : hermSpec n s k = s k := by
        unfold hermSpec
        rw [if_neg (by omega), if_neg (by omega), if_pos (by omega)]
      have e2 : hermSpec n s (n - k) = (starRingEnd ℂ) (s k) := by
        unfold hermSpec
        rw [if_neg (by omega), if_neg (by omega), if_neg (by omega), show n - (n - k) = k by omega]
      have e3 : tw n ((j : ℤ) * ((n - k : ℕ) : ℤ)) = (starRingEnd ℂ) (tw n (j * k)) := by
        rw [tw_conj, show (j : ℤ) * ((n - k : ℕ) : ℤ) = -(j * k) + n * j by rw [Nat.cast_sub (by omega)]; ring, tw_add, tw_mul_n hn0, mul_one]
      rw [e1, e2, e3, ← map_mul, Complex.add_conj]
      push_cast
      rfl
  · split
    · rename_i he
      have e1 : hermSpec n s (n / 2) = ((s (n / 2)).re : ℂ) := by
        unfold hermSpec
        rw [if_neg (by omega), if_pos (by omega)]
      rw [e1]
      have e2 : (tw n ((j : ℤ) * ((n / 2 : ℕ) : ℤ))).im = 0 := by
        have h1 : (starRingEnd ℂ) (tw n ((j : ℤ) * ((n / 2 : ℕ) : ℤ))) = tw n ((j : ℤ) * ((n / 2 : ℕ) : ℤ)) := by
          rw [tw_conj]
          have : (j : ℤ) * ((n / 2 : ℕ) : ℤ) = -((j : ℤ) * ((n / 2 : ℕ) : ℤ)) + n * j := by
            have h2 : (n : ℤ) = 2 * ((n / 2 : ℕ) : ℤ) := by omega
            have h3 : (n : ℤ) * j = 2 * ((n / 2 : ℕ) : ℤ) * j := congrArg (· * (j : ℤ)) h2
            rw [h3]
            ring
          conv_rhs => rw [this, tw_add, tw_mul_n hn0, mul_one]
        exact Complex.conj_eq_iff_im.1 h1
      push_cast at e2
      apply Complex.ext
      · simp [e2]
      · simp [e2]
    · simp

theorem hermSpec_l2 {n : ℕ} (hn : 0 < n) (s : ℕ → ℂ) : l2 n (hermSpec n s) ≤ Real.sqrt 2 * l2 (n / 2 + 1) s := by
  unfold l2
  rw [← Real.sqrt_mul (by norm_num)]
  refine Real.sqrt_le_sqrt ?_
  rw [sum_pairs (fun k => ‖hermSpec n s k‖ ^ 2) hn]
  have h0 : ‖hermSpec n s 0‖ ^ 2 ≤ ‖s 0‖ ^ 2 := by
    refine pow_le_pow_left₀ (norm_nonneg _) ?_ 2
    simp only [hermSpec, if_true, Complex.norm_real]
    exact Complex.abs_re_le_norm _
  have h1 : ∑ k ∈ Icc 1 ((n - 1) / 2), (‖hermSpec n s k‖ ^ 2 + ‖hermSpec n s (n - k)‖ ^ 2) = 2 * ∑ k ∈ Icc 1 ((n - 1) / 2), ‖s k‖ ^ 2 := by
    rw [mul_sum]
    refine sum_congr rfl fun k hk => ?_
    obtain ⟨a1, a2⟩ := mem_Icc.1 hk
    have e1 : hermSpec n s k = s k := by
      unfold hermSpec
      rw [if_neg (by omega), if_neg (by omega), if_pos (by omega)]
    have e2 : hermSpec n s (n - k) = (starRingEnd ℂ) (s k) := by
      unfold hermSpec
      rw [if_neg (by omega), if_neg (by omega), if_neg (by omega), show n - (n - k) = k by omega]
    rw [e1, e2, RCLike.norm_conj]
    ring
  have h2 : (if n % 2 = 0 then ‖hermSpec n s (n / 2)‖ ^ 2 else 0) ≤ if n % 2 = 0 then ‖s (n / 2)‖ ^ 2 else 0 := by
    split
    · refine pow_le_pow_left₀ (norm_nonneg _) ?_ 2
      unfold hermSpec
      rw [if_neg (by omega), if_pos (by omega), Complex.norm_real]
      exact Complex.abs_re_le_norm _
    · exact le_rfl
  have h3 : ∑ k ∈ range (n / 2 + 1), ‖s k‖ ^ 2 = ‖s 0‖ ^ 2 + ∑ k ∈ Icc 1 ((n - 1) / 2), ‖s k‖ ^ 2 + if n % 2 = 0 then ‖s (n / 2)‖ ^ 2 else 0 := by
    rw [sum_range_succ' (fun k => ‖s k‖ ^ 2) (n / 2), add_comm]
    have hIcc : ∀ q : ℕ, ∑ k ∈ Icc 1 q, ‖s k‖ ^ 2 = ∑ k ∈ range q, ‖s (k + 1)‖ ^ 2 := by
      intro q
      induction q with
      | zero => simp
      | succ q ih => rw [sum_range_succ, ← ih, Finset.sum_Icc_succ_top (by omega)]
    rw [hIcc, add_assoc]
    congr 1
    split
    · rename_i he
      have : n / 2 = (n - 1) / 2 + 1 := by omega
      conv_lhs => rw [this, sum_range_succ]
      rw [← this]
    · rw [show n / 2 = (n - 1) / 2 by omega, add_zero]
  have p1 : 0 ≤ ‖s 0‖ ^ 2 := by positivity
  have p2 : 0 ≤ if n % 2 = 0 then ‖s (n / 2)‖ ^ 2 else 0 := by split <;> positivity
  have h0' : (fun k => ‖hermSpec n s k‖ ^ 2) 0 ≤ ‖s 0‖ ^ 2 := h0
  rw [h3]
  simp only at *
  linarith

/-- `irfft` is bounded. -/
theorem irfftF_l2 {n : ℕ} (hn : 0 < n) (s : ℕ → ℂ) : Real.sqrt n * l2 n (fun j => ((irfftF n s j : ℝ) : ℂ)) ≤ Real.sqrt 2 * l2 (n / 2 + 1) s := by
  have h : l2 n (fun j => ((irfftF n s j : ℝ) : ℂ)) = l2 n (idft n (hermSpec n s)) := l2_congr fun j _ => irfftF_eq_idft hn s j
  rw [h, ← l2_idft hn]
  exact hermSpec_l2 hn s

/-- `rfft` is bounded. -/
theorem rfftL_l2 {l : List ℝ} (hn : 0 < l.length) : l2 (l.length / 2 + 1) (fun k => (rfftL l).getD k 0) ≤ Real.sqrt l.length * l2 l.length (fun j => ((l.getD j 0 : ℝ) : ℂ)) := by
  rw [← l2_dft]
  have h : l2 (l.length / 2 + 1) (fun k => (rfftL l).getD k 0) = l2 (l.length / 2 + 1) (dft l.length fun j => ((l.getD j 0 : ℝ) : ℂ)) := by
    refine l2_congr fun k hk => ?_
    unfold rfftL
    exact getD_map_range _ _ hk
  rw [h]
  unfold l2
  exact Real.sqrt_le_sqrt (sum_le_sum_of_subset_of_nonneg (range_subset_range.2 (by omega)) fun _ _ _ => by positivity)

/-- The relative error of one frame. -/
noncomputable def Spec.frameErr (η u : ℝ) : ℝ := (1 + η) * (1 + Real.sqrt 2 * η) * (1 + u) - 1

theorem frameErr_nonneg {η u : ℝ} (hη : 0 ≤ η) (hu : 0 ≤ u) : 0 ≤ Spec.frameErr η u := by
  unfold Spec.frameErr
  have h2 := Real.sqrt_nonneg 2
  have h1 : 1 ≤ (1 + η) * (1 + Real.sqrt 2 * η) := by nlinarith [mul_nonneg h2 hη]
  nlinarith

/-- **C170, one frame.** A frame multiplied by the window, transformed and transformed back. -/
theorem C170_frame {η u : ℝ} (hη : 0 ≤ η) (hu : 0 ≤ u) {F : StftOps} (hF : Spec.StftRounds η u F) (c c' : List ℝ) (hl : c'.length = c.length) (hn : 0 < c.length)
    (hc : ∀ r < c.length, |c'.getD r 0 - c.getD r 0| ≤ u * |c.getD r 0|) (r : ℕ) (hr : r < c.length) :
    |(F.irfft c.length (F.rfft c')).getD r 0 - c.getD r 0| ≤ Spec.frameErr η u * l2 c.length fun j => ((c.getD j 0 : ℝ) : ℂ) := by
  set n := c.length with hnd
  have hs : 0 < Real.sqrt n := Real.sqrt_pos.2 (by exact_mod_cast hn)
  set nc := l2 n fun j => ((c.getD j 0 : ℝ) : ℂ) with hnc
  set nc' := l2 n fun j => ((c'.getD j 0 : ℝ) : ℂ) with hnc'
  have h1 : l2 n (fun j => ((c'.getD j 0 : ℝ) : ℂ) - ((c.getD j 0 : ℝ) : ℂ)) ≤ u * nc := by
    refine l2_le_mul hu fun i hi => ?_
    rw [← Complex.ofReal_sub, Complex.norm_real, Complex.norm_real]
    exact hc i hi
  have h2 : nc' ≤ (1 + u) * nc := by
    have := l2_sub_le n (fun j => ((c'.getD j 0 : ℝ) : ℂ)) (fun j => ((c.getD j 0 : ℝ) : ℂ))
    linarith
  -- the computed spectrum
  set S := F.rfft c' with hS
  have h3 : l2 (n / 2 + 1) (fun k => S.getD k 0 - (rfftL c').getD k 0) ≤ η * (Real.sqrt n * nc') := by
    have e1 := hF.rfft_err c'
    rw [hl] at e1
    have e2 := rfftL_l2 (l := c') (by omega)
    rw [hl] at e2
    exact e1.trans (mul_le_mul_of_nonneg_left e2 hη)
  -- its exact inverse
  set b := fun j => ((irfftF n (fun k => S.getD k 0) j : ℝ) : ℂ) with hb
  have h4 : ∀ j < n, irfftF n (fun k => (rfftL c').getD k 0) j = c'.getD j 0 := by
    intro j hj
    rw [← irfftL_getD n _ hj]
    have := irfftL_rfftL c'
    rw [hl] at this
    rw [this]
  have h5 : l2 n (fun j => b j - ((c'.getD j 0 : ℝ) : ℂ)) ≤ Real.sqrt 2 * η * nc' := by
    have e1 : l2 n (fun j => b j - ((c'.getD j 0 : ℝ) : ℂ)) = l2 n (fun j => ((irfftF n (fun k => S.getD k 0 - (rfftL c').getD k 0) j : ℝ) : ℂ)) := by
      refine l2_congr fun j hj => ?_
      rw [hb, ← h4 j hj, ← Complex.ofReal_sub, irfftF_sub]
    rw [e1]
    have e2 := irfftF_l2 hn fun k => S.getD k 0 - (rfftL c').getD k 0
    have e3 := mul_le_mul_of_nonneg_left h3 (Real.sqrt_nonneg 2)
    exact le_of_mul_le_mul_left (by linarith) hs
  have h6 : l2 n b ≤ (1 + Real.sqrt 2 * η) * nc' := by
    have := l2_sub_le n b (fun j => ((c'.getD j 0 : ℝ) : ℂ))
    linarith
  -- the computed inverse
  have h7 := hF.irfft_err n S
  have h8 : l2 n (fun j => (((irfftL n S).getD j 0 : ℝ) : ℂ)) = l2 n b := l2_congr fun j hj => by rw [irfftL_getD n S hj]
  rw [h8] at h7
  set y := fun j => (((F.irfft n S).getD j 0 : ℝ) : ℂ) with hy
  have h9 : l2 n (fun j => y j - b j) ≤ η * l2 n b := by
    refine le_trans (le_of_eq (l2_congr fun j hj => ?_)) h7
    rw [hy, hb, Complex.ofReal_sub, irfftL_getD n S hj]
  have h10 := l2_triangle n y b (fun j => ((c'.getD j 0 : ℝ) : ℂ))
  have h11 := l2_triangle n y (fun j => ((c'.getD j 0 : ℝ) : ℂ)) (fun j => ((c.getD j 0 : ℝ) : ℂ))
  have h12 := le_l2 hr fun j => y j - ((c.getD j 0 : ℝ) : ℂ)
  have h13 : ‖y r - ((c.getD r 0 : ℝ) : ℂ)‖ = |(F.irfft n S).getD r 0 - c.getD r 0| := by
    rw [hy, ← Complex.ofReal_sub, Complex.norm_real, Real.norm_eq_abs]
  rw [← h13]
  have h14 : η * l2 n b ≤ η * ((1 + Real.sqrt 2 * η) * nc') := mul_le_mul_of_nonneg_left h6 hη
  have h15 : ((1 + η) * (1 + Real.sqrt 2 * η) - 1) * nc' ≤ ((1 + η) * (1 + Real.sqrt 2 * η) - 1) * ((1 + u) * nc) := by
    refine mul_le_mul_of_nonneg_left h2 ?_
    have := mul_nonneg (Real.sqrt_nonneg 2) hη
    nlinarith
  unfold Spec.frameErr
  calc ‖y r - ((c.getD r 0 : ℝ) : ℂ)‖ ≤ η * ((1 + Real.sqrt 2 * η) * nc') + Real.sqrt 2 * η * nc' + u * nc := by linarith
    _ = ((1 + η) * (1 + Real.sqrt 2 * η) - 1) * nc' + u * nc := by ring
    _ ≤ ((1 + η) * (1 + Real.sqrt 2 * η) - 1) * ((1 + u) * nc) + u * nc := by linarith
    _ = _ := by ring

/-! ## Overlap-add -/

theorem addSliceWith_ok (F : StftOps) (x : List ℝ) (n : ℕ) (v : List ℝ) (h : n + v.length ≤ x.length) :
    ∃ y, addSliceWith F x n v = .ok y ∧ y.length = x.length ∧
      ∀ p, p < x.length → y.getD p 0 = if n ≤ p ∧ p < n + v.length then F.add (x.getD p 0) (v.getD (p - n) 0) else x.getD p 0 := by
  have hs : ((x.drop n).take v.length).length = v.length := by simp; omega
  refine ⟨_, by unfold addSliceWith; simp only; rw [if_pos hs], ?_, ?_⟩
  · simp; omega
  · intro p hp
    have hl : p < (x.take n ++ List.zipWith F.add ((x.drop n).take v.length) v ++ x.drop (n + v.length)).length := by simp; omega
    rw [getD_lt _ _ hl, getD_lt x 0 hp]
    have hz : (List.zipWith F.add ((x.drop n).take v.length) v).length = v.length := by
      rw [List.length_zipWith, hs]; simp
    have ht : (x.take n).length = n := by simp; omega
    simp only [List.getElem_append, List.length_append, hz, ht]
    split
    · split
      · rw [List.getElem_take, if_neg (by omega)]
      · rw [List.getElem_zipWith, List.getElem_take, List.getElem_drop, if_pos (by omega), getD_lt v 0 (by omega)]
        congr 2; omega
    · rw [List.getElem_drop, if_neg (by omega)]
      congr 1; omega

theorem covering_succ (m hop n p : ℕ) : covering m hop (n + 1) p = if n * hop ≤ p ∧ p < n * hop + m then insert n (covering m hop n p) else covering m hop n p := by
  unfold covering
  rw [range_add_one, filter_insert]

theorem not_mem_covering (m hop n p : ℕ) : n ∉ covering m hop n p := by simp [covering]

theorem covering_card (m hop n p : ℕ) (hh : 0 < hop) : (covering m hop n p).card ≤ (m - 1) / hop + 1 := by
  rcases (covering m hop n p).eq_empty_or_nonempty with h | h
  · rw [h]; simp
  set j0 := (covering m hop n p).min' h with hj0
  have hm0 : j0 * hop ≤ p ∧ p < j0 * hop + m := (mem_filter.1 ((covering m hop n p).min'_mem h)).2
  have hsub : covering m hop n p ⊆ Icc j0 (j0 + (m - 1) / hop) := by
    intro j hj
    have h1 := (mem_filter.1 hj).2
    have h2 : j0 ≤ j := (covering m hop n p).min'_le j hj
    rw [mem_Icc]
    refine ⟨h2, ?_⟩
    have h3 : (j - j0) * hop ≤ m - 1 := by
      rw [Nat.sub_mul]
      omega
    have h4 : j - j0 ≤ (m - 1) / hop := (Nat.le_div_iff_mul_le hh).2 h3
    omega
  have hcard := card_le_card hsub
  rw [Nat.card_Icc] at hcard
  generalize (m - 1) / hop = q at hcard ⊢
  omega

/-- Sums accumulated frame by frame. -/
theorem overlap_err {u : ℝ} (hu : 0 ≤ u) {F : StftOps} (hadd : Spec.Rounds u F.add (· + ·)) (m h L : ℕ) (vs : List (List ℝ)) (hvs : ∀ v ∈ vs, v.length = m)
    (hL : ∀ j < vs.length, j * h + m ≤ L) :
    ∃ X, (vs.zipIdx).foldlM (fun x (c : List ℝ × ℕ) => addSliceWith F x (c.2 * h) c.1) (List.replicate L 0) = (.ok X : Py _) ∧ X.length = L ∧
      ∀ p < L, |X.getD p 0 - ∑ j ∈ covering m h vs.length p, (vs.getD j []).getD (p - j * h) 0| ≤
        ((1 + u) ^ (covering m h vs.length p).card - 1) * ∑ j ∈ covering m h vs.length p, |(vs.getD j []).getD (p - j * h) 0| := by
  induction vs using List.reverseRecOn with
  | nil => exact ⟨_, rfl, by simp, fun p hp => by simp [covering]⟩
  | append_singleton cs c ih =>
    obtain ⟨X, hX, hXl, hXe⟩ := ih (fun v hv => hvs v (by simp [hv])) fun j hj => hL j (by simp; omega)
    have hc : c.length = m := hvs c (by simp)
    have hLl := hL cs.length (by simp)
    obtain ⟨Y, hY, hYl, hYv⟩ := addSliceWith_ok F X (cs.length * h) c (by rw [hc, hXl]; exact hLl)
    refine ⟨Y, ?_, by omega, fun p hp => ?_⟩
    · rw [List.zipIdx_append, List.foldlM_append, hX]
      simp [hY]
    · have hold : ∀ f : ℝ → ℝ, ∑ j ∈ covering m h cs.length p, f (((cs ++ [c]).getD j []).getD (p - j * h) 0) = ∑ j ∈ covering m h cs.length p, f ((cs.getD j []).getD (p - j * h) 0) := by
        intro f
        refine sum_congr rfl fun j hj => ?_
        have hj' : j < cs.length := mem_range.1 (mem_filter.1 hj).1
        rw [List.getD_append _ _ _ _ hj']
      have hnew : (cs ++ [c]).getD cs.length [] = c := by
        rw [List.getD_append_right _ _ _ _ (le_refl _)]; simp
      rw [hYv p (by omega), hc, List.length_append, List.length_singleton, covering_succ]
      have e := hXe p hp
      split
      · rw [sum_insert (not_mem_covering _ _ _ _), sum_insert (not_mem_covering _ _ _ _), card_insert_of_notMem (not_mem_covering _ _ _ _), hnew, hold fun z => z, hold fun z => |z|]
        set s := ∑ j ∈ covering m h cs.length p, (cs.getD j []).getD (p - j * h) 0 with hs
        set A := ∑ j ∈ covering m h cs.length p, |(cs.getD j []).getD (p - j * h) 0| with hA
        set k := (covering m h cs.length p).card
        set X0 := X.getD p 0
        set t := c.getD (p - cs.length * h) 0
        have hsA : |s| ≤ A := abs_sum_le_sum_abs _ _
        have hA0 : 0 ≤ A := (abs_nonneg s).trans hsA
        have h1 := hadd X0 t
        simp only at h1
        have h2 : |X0 + t| ≤ (1 + u) ^ k * A + |t| := by
          have e1 := abs_add_le X0 t
          have e2 := abs_add_le s (X0 - s)
          rw [add_sub_cancel] at e2
          linarith
        have h3 := abs_sub_le (F.add X0 t) (X0 + t) (t + s)
        have h4 : |X0 + t - (t + s)| = |X0 - s| := by congr 1; ring
        have h5 := mul_le_mul_of_nonneg_left h2 hu
        have h6 : (1 : ℝ) ≤ (1 + u) ^ k := one_le_pow₀ (by linarith)
        have h7 : u * |t| ≤ ((1 + u) ^ (k + 1) - 1) * |t| := by
          refine mul_le_mul_of_nonneg_right ?_ (abs_nonneg _)
          rw [pow_succ]
          nlinarith
        calc |F.add X0 t - (t + s)| ≤ u * ((1 + u) ^ k * A + |t|) + ((1 + u) ^ k - 1) * A := by linarith
          _ = ((1 + u) ^ (k + 1) - 1) * A + u * |t| := by rw [pow_succ]; ring
          _ ≤ _ := by linarith
      · rw [hold fun z => z, hold fun z => |z|]
        exact e

theorem overlapAddWith_eq (F : StftOps) (X0 : List ℝ) (xbuf : List (List ℝ)) (wpow : List ℝ) (h : ℕ) :
    overlapAddWith F X0 xbuf wpow h =
      ((xbuf.map fun c => List.zipWith F.mul c wpow).zipIdx).foldlM (fun x (c : List ℝ × ℕ) => addSliceWith F x (c.2 * h) c.1) X0 := by
  unfold overlapAddWith
  rw [List.zipIdx_map, List.foldlM_map]
  rfl

theorem range_fold_eq (F : StftOps) (X0 v : List ℝ) (h n : ℕ) :
    (List.range n).foldlM (fun wn i => addSliceWith F wn (i * h) v) X0 =
      ((List.replicate n v).zipIdx).foldlM (fun x (c : List ℝ × ℕ) => addSliceWith F x (c.2 * h) c.1) X0 := by
  induction n with
  | zero => rfl
  | succ n ih =>
    rw [List.range_succ, List.foldlM_append, ih, List.replicate_succ', List.zipIdx_append, List.foldlM_append]
    simp

/-! ## Round trip -/

variable {lib : WinLib} {tiny : ℝ} {x : List ℝ} {a : StftArgs} {m : ℕ} {w dw : List ℝ} {t : PadType}

theorem stftWith_run (h : StftValid lib tiny x a m w dw t) (F : StftOps) :
    ∃ xp : List ℝ, xp.length = x.length + m - 1 ∧
      (∀ E, IsExtension t x E → ∀ (p : ℕ) (h : p < xp.length), xp[p] = E ((p : ℤ) - (m / 2 : ℕ))) ∧
      stftWith F lib tiny x a = .ok (m, (frames xp m a.hop a.modulated).map fun c => F.rfft (List.zipWith F.mul c (usedWindow w a.modulated))) := by
  have hx := h.hx
  have hm := h.hm
  obtain ⟨xp, nUp, n1, n2, h1, h2, h3, h4, h5, h6, -, h8⟩ :=
    C02_C03_padding_partial x t (some ((x.length : ℤ) + m - 1)) hx
      (by intro L hL; simp only [Option.some.injEq] at hL; omega)
      (by intro ht L hL; simp only [Option.some.injEq] at hL; have := h.hsym ht; omega)
  have hUp := h2 _ rfl
  have hlen : xp.length = x.length + m - 1 := by omega
  have hn1 : n1 = ((m / 2 : ℕ) : ℤ) := by omega
  refine ⟨xp, hlen, ?_, ?_⟩
  · intro E hE p hp
    rw [h8 E hE p hp, hn1]
  · have hnola : checkNOLA w a.hop = .ok () := by
      unfold checkNOLA
      have := h.hhop
      split
      · rfl
      · rw [if_neg (by omega)]
    have hw : getWindow lib tiny a.window (stftWinLen m a) (some m) = .ok w := by
      have h2 := h.hwin
      unfold getWindowD at h2
      unfold getWindow
      simp only [bind_eq_ok] at h2
      obtain ⟨r, hr, h2⟩ := h2
      simp only [pure_eq_ok, Except.ok.injEq, Prod.mk.injEq] at h2
      rw [hr, ok_bind, pure_eq_ok, h2.1]
    have hcore : stftCoreWith F xp w m a.hop a.modulated = .ok ((frames xp m a.hop a.modulated).map fun c => F.rfft (List.zipWith F.mul c (usedWindow w a.modulated))) := by
      unfold stftCoreWith
      rw [buffer_ok xp m a.hop h.hhop (by omega) a.modulated]
      have m1 : (frames xp m a.hop a.modulated).mapM (mulWindowWith F (usedWindow w a.modulated)) =
          (.ok ((frames xp m a.hop a.modulated).map fun c => List.zipWith F.mul c (usedWindow w a.modulated)) : Py _) := by
        refine mapM_ok_of _ _ _ fun c hc => ?_
        unfold mulWindowWith
        rw [if_pos (by rw [usedWindow_length, frames_mem_length hc, h.hw])]
      change (do
        let S ← (frames xp m a.hop a.modulated).mapM (mulWindowWith F (usedWindow w a.modulated))
        if m = 0 then .error .valueError
        return S.map F.rfft : Py _) = _
      rw [m1]
      simp only [show m ≠ 0 by omega, if_false, ok_bind, pure_eq_ok, List.map_map]
      rfl
    unfold stftWith
    simp only [h.hnfft, ok_bind, hw, hnola, h.hpad, h1, hcore, pure_eq_ok]

theorem l2_list (l : List ℝ) : l2 l.length (fun j => ((l.getD j 0 : ℝ) : ℂ)) = Real.sqrt (l.map fun r => r ^ 2).sum := by
  unfold l2
  congr 1
  induction l using List.reverseRecOn with
  | nil => simp
  | append_singleton l z ih =>
    rw [List.length_append, List.length_singleton, sum_range_succ, List.map_append, List.sum_append, ← ih]
    congr 1
    · refine sum_congr rfl fun i hi => ?_
      beta_reduce
      rw [List.getD_append _ _ _ _ (mem_range.1 hi)]
    · beta_reduce
      rw [List.getD_append_right _ _ _ _ (le_refl _)]
      simp

/-- Undoing the modulation permutes the samples, the same way for every frame. -/
theorem shift_index (b : Bool) (m : ℕ) : ∀ r < m, ∃ r' < m, ∀ l : List ℝ, l.length = m → (if b then fftshiftL l else l).getD r 0 = l.getD r' 0 := by
  intro r hr
  cases b
  · exact ⟨r, hr, fun l _ => rfl⟩
  · refine ⟨(r + (m - m / 2)) % m, Nat.mod_lt _ (by omega), fun l hl => ?_⟩
    have h1 := Nat.mod_lt (r + (m - m / 2)) (show 0 < m by omega)
    simp only [if_true, fftshiftL]
    rw [getD_lt _ _ (by simpa [hl] using hr), List.getElem_rotate, getD_lt l 0 (by omega)]
    simp [hl]

namespace Spec

/-- The sum of the powers of the taps that multiply sample `p` of the padded signal. -/
noncomputable def tapSum (m hop n e : ℕ) (w : ℕ → ℝ) (p : ℕ) : ℝ := ∑ j ∈ covering m hop n p, |w (p - j * hop) ^ e|

end Spec

theorem winNorm_covering (m hop n e : ℕ) (w : ℕ → ℝ) (p : ℕ) : Spec.winNorm m hop n e w p = ∑ j ∈ covering m hop n p, w (p - j * hop) ^ (e + 1) := by
  unfold Spec.winNorm covering
  rw [sum_filter]

/-- The columns `istft` adds up. -/
theorem istft_cols {η u : ℝ} (hη : 0 ≤ η) (hu : 0 ≤ u) {F : StftOps} (hF : Spec.StftRounds η u F) (xp : List ℝ) (hop : ℕ) (b : Bool) (hw : w.length = m) (hm : 0 < m)
    {R : ℝ} (hR : ∀ j < (xp.length - m) / hop + 1, Real.sqrt (∑ r ∈ range m, (xp.getD (j * hop + r) 0 * w.getD r 0) ^ 2) ≤ R) (j : ℕ) (hj : j < (xp.length - m) / hop + 1) :
    ∀ (q : List ℝ), q = (if b then fftshiftL else id) (F.irfft m (F.rfft (List.zipWith F.mul ((frames xp m hop b).getD j []) (usedWindow w b)))) →
      q.length = m ∧ ∀ r < m, |q.getD r 0 - xp.getD (j * hop + r) 0 * w.getD r 0| ≤ Spec.frameErr η u * R ∧ |xp.getD (j * hop + r) 0 * w.getD r 0| ≤ R := by
  intro q hq
  have hjf : j < (frames xp m hop b).length := by rw [frames_length]; exact hj
  set f := (frames xp m hop b).getD j [] with hf
  have hfm : f ∈ frames xp m hop b := by rw [hf, getD_lt _ _ hjf]; exact List.getElem_mem _
  have hfl : f.length = m := frames_mem_length hfm
  have hul : (usedWindow w b).length = m := by rw [usedWindow_length, hw]
  set c := List.zipWith (· * ·) f (usedWindow w b) with hc
  set c' := List.zipWith F.mul f (usedWindow w b) with hc'
  have hcl : c.length = m := by simp [hc, hfl, hul]
  have hcl' : c'.length = m := by simp [hc', hfl, hul]
  have hcc : ∀ r < c.length, |c'.getD r 0 - c.getD r 0| ≤ u * |c.getD r 0| := by
    intro r hr
    rw [hcl] at hr
    rw [hc, hc', getD_zipWith' _ _ _ 0 0 _ (hfl ▸ hr) (hul ▸ hr), getD_zipWith' _ _ _ 0 0 _ (hfl ▸ hr) (hul ▸ hr)]
    exact hF.mul_err _ _
  -- the exact column after undoing the modulation
  have hsh : (if b then fftshiftL c else c) = (winCols xp w m hop false).getD j [] := by
    have h1 := congrArg (fun l : List (List ℝ) => l.getD j []) (shift_winCols xp w m hop b hw)
    rw [← h1]
    have h2 : (winCols xp w m hop b).getD j [] = c := by
      rw [hc, hf]
      unfold winCols
      rw [getD_lt _ _ (by simpa using hjf), List.getElem_map, getD_lt _ _ hjf]
    cases b
    · exact h2.symm
    · simp only [if_true]
      have hjw : j < (winCols xp w m hop true).length := by simpa [winCols] using hjf
      have h3 : ((winCols xp w m hop true).map fftshiftL).getD j [] = fftshiftL ((winCols xp w m hop true).getD j []) := by
        rw [getD_lt _ _ (by rw [List.length_map]; exact hjw), List.getElem_map, getD_lt _ _ hjw]
      rw [h3, h2]
  have hexact : ∀ r < m, (if b then fftshiftL c else c).getD r 0 = xp.getD (j * hop + r) 0 * w.getD r 0 := by
    have hjw : j < (winCols xp w m hop false).length := by simpa [winCols, frames_length] using hj
    have := winCols_false xp w m hop hw j hjw
    intro r hr
    rw [hsh, getD_lt _ _ hjw]
    exact this.2 r hr
  have hnorm : l2 c.length (fun j => ((c.getD j 0 : ℝ) : ℂ)) ≤ R := by
    have h1 : (c.map fun r => r ^ 2).sum = ((if b then fftshiftL c else c).map fun r => r ^ 2).sum := by
      cases b
      · rfl
      · simp only [if_true, fftshiftL]
        exact (((List.rotate_perm c _).map fun r => r ^ 2).sum_eq).symm
    have hl2 : (if b then fftshiftL c else c).length = m := by
      cases b
      · exact hcl
      · simp [length_fftshiftL, hcl]
    rw [l2_list, h1]
    have h2 := l2_list (if b then fftshiftL c else c)
    rw [← h2, hl2]
    refine le_trans (le_of_eq ?_) (hR j hj)
    unfold l2
    congr 1
    refine sum_congr rfl fun r hr => ?_
    beta_reduce
    rw [hexact r (mem_range.1 hr), Complex.norm_real, Real.norm_eq_abs, sq_abs]
  have hframe := C170_frame hη hu hF c c' (by rw [hcl, hcl']) (by omega) hcc
  have hirl : (F.irfft m (F.rfft c')).length = m := hF.irfft_length _ _
  have hqe : q = if b then fftshiftL (F.irfft m (F.rfft c')) else F.irfft m (F.rfft c') := by
    rw [hq]
    cases b <;> rfl
  refine ⟨?_, fun r hr => ?_⟩
  · rw [hqe]
    cases b
    · exact hirl
    · simp [length_fftshiftL, hirl]
  · obtain ⟨r', hr', hidx⟩ := shift_index b m r hr
    have e1 := hidx _ hirl
    have e2 := hidx c hcl
    rw [hexact r hr] at e2
    rw [hqe, e1, e2]
    have h3 := hframe r' (hcl ▸ hr')
    rw [hcl] at h3 hnorm
    refine ⟨h3.trans (mul_le_mul_of_nonneg_left hnorm (frameErr_nonneg hη hu)), ?_⟩
    have h4 := (le_l2 hr' fun j => ((c.getD j 0 : ℝ) : ℂ)).trans hnorm
    rwa [Complex.norm_real, Real.norm_eq_abs] at h4

theorem divByNormWith_get (F : StftOps) (th : ℝ) (X W : List ℝ) (L : ℕ) (hL : 0 < L) (hX : X.length = L) (hW : W.length = L) :
    ∃ Y, divByNormWith F th X W = .ok Y ∧ Y.length = L ∧ ∀ p < L, th < W.getD p 0 → Y.getD p 0 = F.div (X.getD p 0) (W.getD p 0) := by
  have hne : W ≠ [] := by intro h; rw [h] at hW; simp at hW; omega
  unfold divByNormWith
  rw [if_neg hne]
  split
  · refine ⟨_, rfl, by simp [hX, hW], fun p hp hlt => ?_⟩
    rw [getD_zipWith' _ _ _ 0 0 _ (by omega) (by omega), if_pos hlt]
  · refine ⟨_, rfl, by simp [hX, hW], fun p hp _ => ?_⟩
    rw [getD_zipWith' _ _ _ 0 0 _ (by omega) (by omega)]

/-- **C170.** `istft` of `stft`, both in floating point with FFTs of relative error `η` and operations of relative error `u`. `R` bounds the sizes of the windowed frames; `K` is the greatest number
of frames over a sample. At every sample whose window norm stays above the threshold, the result differs from the signal by at most a multiple of `R`, and of the sample, that is zero for
`η = u = 0`. -/
theorem C170_roundtrip {η u : ℝ} (hη : 0 ≤ η) (hu : 0 ≤ u) {F : StftOps} (hF : Spec.StftRounds η u F) (h : StftValid lib tiny x a m w dw t) (hm3 : 3 ≤ m) (th : ℝ) (hth : 0 < th)
    (ia : IstftArgs) (hn : orElse ia.nFft ((m / 2 + 1 - 1) * 2) = m) (hh : ia.hop = a.hop) (hmod : ia.modulated = a.modulated) (hN : ia.N = none ∨ ia.N = some x.length)
    (hwin : getWindow lib tiny ia.window (orElse ia.winLen m) (some m) = .ok w) (E : ℤ → ℝ) (hE : IsExtension t x E) {R : ℝ}
    (hR : ∀ j < (x.length - 1) / a.hop + 1, Real.sqrt (∑ r ∈ range m, (E ((j * a.hop + r : ℕ) - (m / 2 : ℕ)) * w.getD r 0) ^ 2) ≤ R) (n K : ℕ)
    (hnd : n = (x.length - 1) / a.hop + 1) (hK : K = (m - 1) / a.hop + 1) :
    ∃ S y, stftWith F lib tiny x a = .ok (m, S) ∧ S.length = n ∧ istftWith F lib tiny th (m / 2 + 1) S ia = .ok y ∧
      y.length = (if ia.N = none then a.hop * n else x.length) ∧ x.length ≤ y.length ∧
      ∀ i < x.length, ∀ D, D = Spec.winNorm m a.hop n ia.winExp (fun r => w.getD r 0) (i + m / 2) -
          ((1 + u) ^ (K + 1) - 1) * Spec.tapSum m a.hop n (ia.winExp + 1) (fun r => w.getD r 0) (i + m / 2) → th < D →
        |y.getD i 0 - x.getD i 0| ≤ (1 + u) * (((1 + u) ^ (K + 2) * (1 + Spec.frameErr η u) - 1) * (R * Spec.tapSum m a.hop n ia.winExp (fun r => w.getD r 0) (i + m / 2)) +
            ((1 + u) ^ (K + 1) - 1) * Spec.tapSum m a.hop n (ia.winExp + 1) (fun r => w.getD r 0) (i + m / 2) * |x.getD i 0|) / D + u * |x.getD i 0| := by
  obtain ⟨xp, hl, hext, hrun⟩ := stftWith_run h F
  have hx := h.hx
  have hm := h.hm
  have hhop := h.hhop
  have hwl := h.hw
  have hsub : xp.length - m = x.length - 1 := by omega
  set e := ia.winExp with he
  set S := (frames xp m a.hop a.modulated).map fun c => F.rfft (List.zipWith F.mul c (usedWindow w a.modulated)) with hS
  have hSl : S.length = n := by rw [hS, List.length_map, frames_length, hsub, hnd]
  have hn1 : 1 ≤ n := by rw [hnd]; exact Nat.le_add_left 1 _
  set N' := orElse ia.N (ia.hop * S.length) with hN'
  have hN'e : N' = (if ia.N = none then a.hop * n else x.length) := by
    rcases hN with e | e
    · rw [hN', e, hh, hSl]; simp [orElse]
    · rw [hN', e]
      obtain ⟨k, hk⟩ := Nat.exists_eq_succ_of_ne_zero (show x.length ≠ 0 by omega)
      rw [hk]; simp [orElse]
  have hNle : x.length ≤ N' := by
    rw [hN'e]
    split
    · rw [hnd, Nat.mul_add, Nat.mul_one]
      have := Nat.div_add_mod (x.length - 1) a.hop
      have := Nat.mod_lt (x.length - 1) hhop
      omega
    · exact le_refl _
  have hcolsN : (N' - 1) / a.hop + 1 = n := by
    rw [hN'e]
    split
    · rw [hnd, hops_full hhop]
    · exact hnd.symm
  set L := N' + m - 1 with hL
  -- the buffers
  set xbuf := if ia.modulated then (S.map (F.irfft m)).map fftshiftL else S.map (F.irfft m) with hxbuf
  have hxbl : xbuf.length = n := by rw [hxbuf]; split <;> simp [hSl]
  have hxp : ∀ p < xp.length, xp.getD p 0 = E ((p : ℤ) - (m / 2 : ℕ)) := fun p hp => by rw [getD_lt xp 0 hp, hext E hE p hp]
  have hb : ∀ j < n, j * a.hop + m ≤ xp.length := by
    intro j hj
    exact frame_bound (L := xp.length) (seg := m) (h := a.hop) (i := j) (by omega) (by rw [hsub, ← hnd]; exact hj)
  have hR' : ∀ j < (xp.length - m) / a.hop + 1, Real.sqrt (∑ r ∈ range m, (xp.getD (j * a.hop + r) 0 * w.getD r 0) ^ 2) ≤ R := by
    intro j hj
    rw [hsub] at hj
    refine le_trans (le_of_eq ?_) (hR j hj)
    congr 1
    refine sum_congr rfl fun r hr => ?_
    have := hb j (hnd ▸ hj)
    rw [hxp _ (by have := mem_range.1 hr; omega)]
  have hcol : ∀ j < n, (xbuf.getD j []).length = m ∧
      ∀ r < m, |(xbuf.getD j []).getD r 0 - xp.getD (j * a.hop + r) 0 * w.getD r 0| ≤ Spec.frameErr η u * R ∧ |xp.getD (j * a.hop + r) 0 * w.getD r 0| ≤ R := by
    intro j hj
    refine istft_cols hη hu hF xp a.hop a.modulated hwl hm hR' j (by rw [hsub, ← hnd]; exact hj) _ ?_
    have hjS : j < S.length := hSl ▸ hj
    have hjf : j < (frames xp m a.hop a.modulated).length := by rw [frames_length, hsub, ← hnd]; exact hj
    have hSj : (S.map (F.irfft m)).getD j [] = F.irfft m (F.rfft (List.zipWith F.mul ((frames xp m a.hop a.modulated).getD j []) (usedWindow w a.modulated))) := by
      rw [getD_lt _ _ (by rw [List.length_map]; exact hjS), List.getElem_map, getD_lt _ _ hjf]
      simp only [hS, List.getElem_map]
    rw [hxbuf, hmod, ← hSj]
    split
    · rw [getD_lt _ _ (by rw [List.length_map, List.length_map]; exact hjS), List.getElem_map, getD_lt _ _ (by rw [List.length_map]; exact hjS)]
    · rfl
  have hR0 : 0 ≤ R := (Real.sqrt_nonneg _).trans (hR 0 (by omega))
  set g := 1 + u with hg
  have hg1 : 1 ≤ g := by linarith
  set ε := Spec.frameErr η u with hε
  have hε0 : 0 ≤ ε := frameErr_nonneg hη hu
  -- the powers of the window
  set wp := if e = 0 then w.map (fun _ => (1 : ℝ)) else if e ≠ 1 then w.map (fun v => F.pow v e) else w with hwp
  have hwpl : wp.length = m := by rw [hwp]; split <;> [skip; split] <;> simp [hwl]
  have hwpe : ∀ r < m, |wp.getD r 0 - w.getD r 0 ^ e| ≤ u * |w.getD r 0 ^ e| := by
    intro r hr
    have hrw : r < w.length := hwl ▸ hr
    rw [hwp]
    split
    · rename_i h0
      rw [getD_lt _ _ (by simpa using hrw), List.getElem_map, h0]
      simp [hu]
    · split
      · rw [getD_lt _ _ (by simpa using hrw), List.getElem_map, getD_lt w 0 hrw]
        exact hF.pow_err _ _
      · rename_i h1
        simp only [ne_eq, not_not] at h1
        rw [h1, pow_one, sub_self, abs_zero]
        positivity
  -- accumulation
  set vs := xbuf.map fun c => List.zipWith F.mul c wp with hvs
  have hvl : vs.length = n := by rw [hvs, List.length_map, hxbl]
  have hvm : ∀ v ∈ vs, v.length = m := by
    intro v hv
    obtain ⟨c, hc, rfl⟩ := List.mem_map.1 hv
    obtain ⟨j, hj, rfl⟩ := List.mem_iff_getElem.1 hc
    have := (hcol j (hxbl ▸ hj)).1
    rw [getD_lt _ _ hj] at this
    simp [this, hwpl]
  have hLn : ∀ j < n, j * a.hop + m ≤ L := fun j hj => by
    have := hb j hj
    omega
  obtain ⟨X, hX, hXl, hXe⟩ := overlap_err hu hF.add_err m a.hop L vs hvm (by rw [hvl]; exact hLn)
  set wq := w.map fun v => F.pow v (e + 1) with hwq
  have hwql : wq.length = m := by simp [hwq, hwl]
  obtain ⟨W, hW, hWl, hWe⟩ := overlap_err hu hF.add_err m a.hop L (List.replicate n wq) (fun v hv => by rw [List.eq_of_mem_replicate hv, hwql]) (by rw [List.length_replicate]; exact hLn)
  obtain ⟨Y, hY, hYl, hYv⟩ := divByNormWith_get F th X W L (by omega) hXl hWl
  have hist : istftWith F lib tiny th (m / 2 + 1) S ia = .ok (pySlice Y (some ((m / 2 : ℕ) : ℤ)) (some (-(((m - 1) / 2 : ℕ) : ℤ)))) := by
    have hnola : checkNOLA w ia.hop = .ok () := by
      unfold checkNOLA
      split
      · rfl
      · rw [if_neg (by omega)]
    have hunb : unbufferWith F xbuf w ia.hop m N' ia.winExp = .ok X := by
      unfold unbufferWith
      rw [if_neg (by simp [hwl]), hh, overlapAddWith_eq]
      exact hX
    have hwn : windowNormWith F w ia.hop m N' ia.winExp = .ok W := by
      unfold windowNormWith
      simp only [List.length_replicate]
      rw [hh, fdiv_hops (by omega) hhop m hm, hcolsN, range_fold_eq]
      simp only [show a.hop ≠ 0 by omega, if_false]
      exact hW
    unfold istftWith
    simp only [hn, hwin, hnola, ok_bind, show m ≠ 0 by omega, if_false, pure_eq_ok]
    simp only [← hxbuf, ← hN', hunb, hwn, hY, ok_bind]
  rw [pySlice_neg _ _ _ (by omega) (by omega)] at hist
  have hlen : ((Y.drop (m / 2)).take (Y.length - (m - 1) / 2 - m / 2)).length = N' := by
    simp; omega
  refine ⟨S, _, hrun, hSl, hist, by rw [hlen, hN'e], by omega, fun i hi D hD hthD => ?_⟩
  set p := i + m / 2 with hp
  have hpL : p < L := by omega
  have hYi : ((Y.drop (m / 2)).take (Y.length - (m - 1) / 2 - m / 2)).getD i 0 = Y.getD p 0 := by
    rw [getD_lt _ _ (by omega), List.getElem_take, List.getElem_drop, getD_lt Y 0 (by omega)]
    congr 1
    omega
  have hxi : xp.getD p 0 = x.getD i 0 := by
    rw [hxp p (by omega), getD_lt x 0 hi, ← hE.1 i hi]
    congr 1
    omega
  rw [hYi]
  set x0 := x.getD i 0 with hx0
  set J := covering m a.hop n p with hJ
  have hJc : J.card ≤ K := by rw [hK]; exact covering_card m a.hop n p hhop
  have hJm : ∀ j ∈ J, j < n ∧ p - j * a.hop < m ∧ j * a.hop + (p - j * a.hop) = p := by
    intro j hj
    obtain ⟨h1, h2, h3⟩ := mem_filter.1 hj
    exact ⟨mem_range.1 h1, by omega, by omega⟩
  set A := Spec.tapSum m a.hop n e (fun r => w.getD r 0) p with hA
  set P := Spec.tapSum m a.hop n (e + 1) (fun r => w.getD r 0) p with hP
  set Wn := Spec.winNorm m a.hop n e (fun r => w.getD r 0) p with hWn
  have hA0 : 0 ≤ A := sum_nonneg fun _ _ => abs_nonneg _
  have hP0 : 0 ≤ P := sum_nonneg fun _ _ => abs_nonneg _
  -- the window norm
  have hWerr : |W.getD p 0 - Wn| ≤ (g ^ (K + 1) - 1) * P := by
    have e1 := hWe p hpL
    rw [List.length_replicate] at e1
    set T : ℕ → ℝ := fun j => ((List.replicate n wq).getD j []).getD (p - j * a.hop) 0 with hT
    have hTj : ∀ j ∈ J, |T j - w.getD (p - j * a.hop) 0 ^ (e + 1)| ≤ u * |w.getD (p - j * a.hop) 0 ^ (e + 1)| := by
      intro j hj
      obtain ⟨h1, h2, -⟩ := hJm j hj
      simp only [hT]
      rw [getD_lt (List.replicate n wq) [] (by simpa using h1), List.getElem_replicate, hwq, getD_lt (w.map _) 0 (by simpa [hwl] using h2), List.getElem_map, getD_lt w 0 (by omega)]
      exact hF.pow_err _ _
    have e2 : |∑ j ∈ J, T j - Wn| ≤ u * P := by
      rw [hWn, winNorm_covering, ← sum_sub_distrib, hP, Spec.tapSum, mul_sum]
      exact (abs_sum_le_sum_abs _ _).trans (sum_le_sum hTj)
    have e3 : ∑ j ∈ J, |T j| ≤ g * P := by
      rw [hP, Spec.tapSum, mul_sum]
      refine sum_le_sum fun j hj => ?_
      have h1 := hTj j hj
      have h2 := abs_add_le (w.getD (p - j * a.hop) 0 ^ (e + 1)) (T j - w.getD (p - j * a.hop) 0 ^ (e + 1))
      rw [add_sub_cancel] at h2
      rw [hg]
      linarith
    have e4 := abs_sub_le (W.getD p 0) (∑ j ∈ J, T j) Wn
    have e5 : (g ^ J.card - 1) * ∑ j ∈ J, |T j| ≤ (g ^ K - 1) * (g * P) := by
      refine mul_le_mul ?_ e3 (sum_nonneg fun _ _ => abs_nonneg _) ?_
      · have := pow_le_pow_right₀ hg1 hJc
        linarith
      · have : (1 : ℝ) ≤ g ^ K := one_le_pow₀ hg1
        linarith
    calc |W.getD p 0 - Wn| ≤ (g ^ K - 1) * (g * P) + u * P := by linarith
      _ = _ := by rw [pow_succ, hg]; ring
  have hWD : D ≤ W.getD p 0 := by
    have := abs_le.1 hWerr
    rw [hD]
    linarith [this.1]
  have hD0 : 0 < D := hth.trans hthD
  have hW0 : 0 < W.getD p 0 := lt_of_lt_of_le hD0 hWD
  -- the numerator
  have hXerr : |X.getD p 0 - x0 * Wn| ≤ (g ^ (K + 2) * (1 + ε) - 1) * (R * A) := by
    have e1 := hXe p hpL
    rw [hvl] at e1
    set T : ℕ → ℝ := fun j => (vs.getD j []).getD (p - j * a.hop) 0 with hT
    set s : ℕ → ℝ := fun j => x0 * w.getD (p - j * a.hop) 0 * w.getD (p - j * a.hop) 0 ^ e with hs
    set v : ℕ → ℝ := fun j => |w.getD (p - j * a.hop) 0 ^ e| with hv
    have hTj : ∀ j ∈ J, |T j - s j| ≤ (g ^ 2 * (1 + ε) - 1) * (R * v j) ∧ |s j| ≤ R * v j := by
      intro j hj
      obtain ⟨h1, h2, h3⟩ := hJm j hj
      obtain ⟨q1, q2⟩ := hcol j h1
      obtain ⟨q3, q4⟩ := q2 _ h2
      rw [h3, hxi] at q3 q4
      set r := p - j * a.hop with hr
      set bj := (xbuf.getD j []).getD r 0 with hbj
      have hTe : T j = F.mul bj (wp.getD r 0) := by
        simp only [hT, hvs]
        rw [getD_lt (xbuf.map _) [] (by simpa [hxbl] using h1), List.getElem_map, ← getD_lt xbuf [] (hxbl.symm ▸ h1), getD_zipWith' _ _ _ 0 0 _ (by rw [q1]; exact h2) (by rw [hwpl]; exact h2)]
      have w1 := hwpe r h2
      set ω := w.getD r 0 with hω
      set ωp := wp.getD r 0 with hωp
      have b1 : |bj| ≤ (1 + ε) * R := by
        have := abs_add_le (x0 * ω) (bj - x0 * ω)
        rw [add_sub_cancel] at this
        linarith
      have w2 : |ωp| ≤ g * |ω ^ e| := by
        have := abs_add_le (ω ^ e) (ωp - ω ^ e)
        rw [add_sub_cancel] at this
        rw [hg]
        linarith
      have c1 : |T j - bj * ωp| ≤ u * ((1 + ε) * R * (g * |ω ^ e|)) := by
        rw [hTe]
        refine (hF.mul_err bj ωp).trans (mul_le_mul_of_nonneg_left ?_ hu)
        rw [abs_mul]
        exact mul_le_mul b1 w2 (abs_nonneg _) (by positivity)
      have c2 : |bj * ωp - s j| ≤ (1 + ε) * R * (u * |ω ^ e|) + ε * R * |ω ^ e| := by
        have : bj * ωp - s j = bj * (ωp - ω ^ e) + (bj - x0 * ω) * ω ^ e := by simp only [hs]; ring
        rw [this]
        refine (abs_add_le _ _).trans (add_le_add ?_ ?_)
        · rw [abs_mul]; exact mul_le_mul b1 w1 (abs_nonneg _) (by positivity)
        · rw [abs_mul]; exact mul_le_mul_of_nonneg_right q3 (abs_nonneg _)
      constructor
      · have := abs_sub_le (T j) (bj * ωp) (s j)
        calc |T j - s j| ≤ u * ((1 + ε) * R * (g * |ω ^ e|)) + ((1 + ε) * R * (u * |ω ^ e|) + ε * R * |ω ^ e|) := by linarith
          _ = _ := by simp only [hv]; rw [hg]; ring
      · simp only [hs, hv]
        rw [abs_mul]
        exact mul_le_mul_of_nonneg_right q4 (abs_nonneg _)
    have hRA : ∑ j ∈ J, R * v j = R * A := by rw [← mul_sum]; rfl
    have hsum : ∑ j ∈ J, s j = x0 * Wn := by
      rw [hWn, winNorm_covering, mul_sum]
      exact sum_congr rfl fun j _ => by simp only [hs]; ring
    have e2 : |∑ j ∈ J, T j - x0 * Wn| ≤ (g ^ 2 * (1 + ε) - 1) * (R * A) := by
      rw [← hsum, ← sum_sub_distrib, ← hRA, mul_sum]
      exact (abs_sum_le_sum_abs _ _).trans (sum_le_sum fun j hj => (hTj j hj).1)
    have e3 : ∑ j ∈ J, |T j| ≤ g ^ 2 * (1 + ε) * (R * A) := by
      rw [← hRA, mul_sum]
      refine sum_le_sum fun j hj => ?_
      obtain ⟨h1, h2⟩ := hTj j hj
      have := abs_add_le (s j) (T j - s j)
      rw [add_sub_cancel] at this
      linarith
    have e4 := abs_sub_le (X.getD p 0) (∑ j ∈ J, T j) (x0 * Wn)
    have e5 : (g ^ J.card - 1) * ∑ j ∈ J, |T j| ≤ (g ^ K - 1) * (g ^ 2 * (1 + ε) * (R * A)) := by
      refine mul_le_mul ?_ e3 (sum_nonneg fun _ _ => abs_nonneg _) ?_
      · have := pow_le_pow_right₀ hg1 hJc
        linarith
      · have : (1 : ℝ) ≤ g ^ K := one_le_pow₀ hg1
        linarith
    calc |X.getD p 0 - x0 * Wn| ≤ (g ^ K - 1) * (g ^ 2 * (1 + ε) * (R * A)) + (g ^ 2 * (1 + ε) - 1) * (R * A) := by linarith
      _ = _ := by rw [pow_add]; ring
  -- the quotient
  rw [hYv p hpL (lt_of_lt_of_le hthD hWD)]
  set X0 := X.getD p 0
  set W0 := W.getD p 0
  set Q := (g ^ (K + 2) * (1 + ε) - 1) * (R * A) + (g ^ (K + 1) - 1) * P * |x0| with hQ
  have q1 : |X0 / W0 - x0| ≤ Q / D := by
    have : X0 / W0 - x0 = (X0 - x0 * W0) / W0 := by field_simp
    rw [this, abs_div, abs_of_pos hW0]
    have q2 : |X0 - x0 * W0| ≤ Q := by
      have e1 := abs_sub_le X0 (x0 * Wn) (x0 * W0)
      have e2 : |x0 * Wn - x0 * W0| ≤ (g ^ (K + 1) - 1) * P * |x0| := by
        rw [← mul_sub, abs_mul, abs_sub_comm, mul_comm]
        exact mul_le_mul_of_nonneg_right hWerr (abs_nonneg _)
      linarith
    exact div_le_div₀ ((abs_nonneg _).trans q2) q2 hD0 hWD
  have q3 := hF.div_err X0 W0
  simp only at q3
  have q4 : |X0 / W0| ≤ |x0| + Q / D := by
    have := abs_add_le x0 (X0 / W0 - x0)
    rw [add_sub_cancel] at this
    linarith
  have q5 := abs_sub_le (F.div X0 W0) (X0 / W0) x0
  have q6 := mul_le_mul_of_nonneg_left q4 hu
  calc |F.div X0 W0 - x0| ≤ u * (|x0| + Q / D) + Q / D := by linarith
    _ = _ := by rw [hg]; ring

/-! ## Non-vacuity -/

/-- Correctly rounded operations and transforms. -/
noncomputable def flStft (p : ℕ) : StftOps :=
  ⟨fun a b => Spec.fl p (a + b), fun a b => Spec.fl p (a * b), fun a b => Spec.fl p (a / b), fun a k => Spec.fl p (a ^ k), fun l => (rfftL l).map (flC p), fun n S => (irfftL n S).map (Spec.fl p)⟩

theorem flStft_rounds (p : ℕ) : Spec.StftRounds (1 / 2 ^ p) (1 / 2 ^ p) (flStft p) where
  add_err := C161_ieee p (· + ·)
  mul_err := C161_ieee p (· * ·)
  div_err := C161_ieee p (· / ·)
  pow_err := fun a k => C161_ieee p (fun a _ => a ^ k) a 0
  rfft_length := fun l => by simp [flStft, rfftL]
  irfft_length := fun n S => by simp [flStft, irfftL]
  rfft_err := fun l => by
    refine l2_le_mul (by positivity) fun k hk => ?_
    have hk' : k < (rfftL l).length := by simpa [rfftL] using hk
    simp only [flStft]
    rw [getD_lt _ _ (by simpa using hk'), List.getElem_map, getD_lt (rfftL l) _ hk']
    exact flC_err p _
  irfft_err := fun n S => by
    refine l2_le_mul (by positivity) fun k hk => ?_
    have hk' : k < (irfftL n S).length := by simpa [irfftL] using hk
    simp only [flStft]
    rw [getD_lt _ _ (by simpa using hk'), List.getElem_map, getD_lt (irfftL n S) _ hk', Complex.norm_real, Complex.norm_real, Real.norm_eq_abs, Real.norm_eq_abs]
    exact C161_ieee p (fun a _ => a) _ 0

/-- Four samples, three taps, double precision: the second sample is recovered to 13 digits. -/
example : ∃ S y, stftWith (flStft 53) onesLib 0 [1, 2, 3, 4] exArgs = .ok (3, S) ∧
    istftWith (flStft 53) onesLib 0 (1 / 2) 2 S { window := .arr [1, 2, 1], nFft := some 3, N := some 4 } = .ok y ∧ y.length = 4 ∧ |y.getD 1 0 - 2| ≤ 1 / 10 ^ 13 := by
  obtain ⟨E, hE⟩ := exists_extension .reflect ([1, 2, 3, 4] : List ℝ) (by simp)
  have hv : ∀ i : ℤ, -1 ≤ i → i ≤ 4 → |E i| ≤ 4 := by
    obtain ⟨h1, h2, h3, -⟩ := hE
    have v0 := h1 0 (by simp)
    have v1 := h1 1 (by simp)
    have v2 := h1 2 (by simp)
    have v3 := h1 3 (by simp)
    have vm := h2 1
    have v4 := h3 1
    norm_num at v0 v1 v2 v3 vm v4
    intro i hi hi'
    have : i = -1 ∨ i = 0 ∨ i = 1 ∨ i = 2 ∨ i = 3 ∨ i = 4 := by omega
    rcases this with rfl | rfl | rfl | rfl | rfl | rfl
    · rw [vm, v1]; norm_num
    · rw [v0]; norm_num
    · rw [v1]; norm_num
    · rw [v2]; norm_num
    · rw [v3]; norm_num
    · rw [v4, v2]; norm_num
  obtain ⟨S, y, h1, -, h2, h3, -, h4⟩ := C170_roundtrip (η := 1 / 2 ^ 53) (u := 1 / 2 ^ 53) (by positivity) (by positivity) (flStft_rounds 53) exValid (by norm_num) (1 / 2) (by norm_num)
    { window := .arr [1, 2, 1], nFft := some 3, N := some 4 } rfl rfl rfl (Or.inr rfl) (by unfold getWindow getWindowRaw; simp [orElse, zeroDenormals]) E hE (R := 10) (by
      intro j hj
      have hj' : j < 4 := by simpa [exArgs] using hj
      rw [Real.sqrt_le_iff]
      refine ⟨by norm_num, ?_⟩
      have e : ∀ r < 3, (E (((j * exArgs.hop + r : ℕ) : ℤ) - ((3 / 2 : ℕ) : ℤ))) ^ 2 ≤ 16 := by
        intro r hr
        have := hv (((j * exArgs.hop + r : ℕ) : ℤ) - ((3 / 2 : ℕ) : ℤ)) (by simp [exArgs]; omega) (by simp [exArgs]; omega)
        rw [← sq_abs]
        nlinarith [abs_nonneg (E (((j * exArgs.hop + r : ℕ) : ℤ) - ((3 / 2 : ℕ) : ℤ)))]
      have e0 := e 0 (by norm_num)
      have e1 := e 1 (by norm_num)
      have e2 := e 2 (by norm_num)
      simp only [sum_range_succ, sum_range_zero, mul_pow, List.getD_cons_zero, List.getD_cons_succ]
      nlinarith) 4 3 rfl rfl
  refine ⟨S, y, h1, h2, by simpa using h3, ?_⟩
  have hcov : covering 3 exArgs.hop 4 (1 + 3 / 2) = {0, 1, 2} := by
    simp only [exArgs]
    decide
  have t1 : Spec.tapSum 3 exArgs.hop 4 1 (fun r => ([1, 2, 1] : List ℝ).getD r 0) (1 + 3 / 2) = 4 := by
    unfold Spec.tapSum
    rw [hcov]
    simp [exArgs]
    norm_num
  have t2 : Spec.tapSum 3 exArgs.hop 4 2 (fun r => ([1, 2, 1] : List ℝ).getD r 0) (1 + 3 / 2) = 6 := by
    unfold Spec.tapSum
    rw [hcov]
    simp [exArgs]
    norm_num
  have t3 : Spec.winNorm 3 exArgs.hop 4 1 (fun r => ([1, 2, 1] : List ℝ).getD r 0) (1 + 3 / 2) = 6 := by
    rw [winNorm_covering, hcov]
    simp [exArgs]
    norm_num
  have hb := h4 1 (by norm_num) _ rfl
  simp only [show (1 : ℕ) + 1 = 2 from rfl, t1, t2, t3] at hb
  have hb := hb (by norm_num)
  have hx1 : ([1, 2, 3, 4] : List ℝ).getD 1 0 = 2 := rfl
  rw [hx1] at hb
  refine hb.trans ?_
  have hs : Real.sqrt 2 ≤ 3 / 2 := by
    rw [Real.sqrt_le_iff]
    norm_num
  have hf : Spec.frameErr (1 / 2 ^ 53) (1 / 2 ^ 53) ≤ 4 / 2 ^ 53 := by
    unfold Spec.frameErr
    have : (1 + 1 / 2 ^ 53) * (1 + Real.sqrt 2 * (1 / 2 ^ 53)) * (1 + 1 / 2 ^ 53) ≤ (1 + 1 / 2 ^ 53) * (1 + 3 / 2 * (1 / 2 ^ 53)) * (1 + (1 : ℝ) / 2 ^ 53) := by gcongr
    refine (sub_le_sub_right this 1).trans ?_
    norm_num
  have hm : ((1 + (1 : ℝ) / 2 ^ 53) ^ (3 + 2) * (1 + Spec.frameErr (1 / 2 ^ 53) (1 / 2 ^ 53)) - 1) ≤ (1 + 1 / 2 ^ 53) ^ (3 + 2) * (1 + 4 / 2 ^ 53) - 1 := by gcongr
  have hd : (0 : ℝ) < 6 - ((1 + 1 / 2 ^ 53) ^ (3 + 1) - 1) * 6 := by norm_num
  refine le_trans (add_le_add_left (div_le_div_of_nonneg_right (mul_le_mul_of_nonneg_left (add_le_add_left (mul_le_mul_of_nonneg_right hm (by norm_num)) _) (by norm_num)) hd.le) _) ?_
  norm_num

end Ssq
