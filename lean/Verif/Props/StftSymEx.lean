import Verif.Props.StftSym

/-!
# C150: what is false of `squeezing='abs'`
-/
namespace Ssq
open Finset Complex

theorem tw_four (m : ℤ) : tw 4 m = I ^ m := by
  have h : I ^ m = exp (m * (Real.pi / 2 * I)) := by rw [exp_int_mul, exp_pi_div_two_mul_I]
  rw [h]
  unfold tw
  congr 1
  push_cast; ring

/-- Four taps, no threshold, `squeezing='abs'`. -/
noncomputable def ex150 : SsqStftArgs :=
  { stft := { window := .arr [0, 0, 2, 1], nFft := some 4, padtype := "zero" }, fs := some 1, squeezing := .abs, gamma := some 0, th := 1, eps := 1 }

theorem ex150_valid (s : ℝ) : StftValid onesLib 0 [0, s] ex150.stft 4 [0, 0, 2, 1] (zeroDenormals 0 (diffWindow [0, 0, 2, 1])) .zero where
  hx := by simp
  hhop := by simp [ex150]
  hm := by simp
  hnfft := rfl
  hwin := by
    unfold getWindowD getWindowRaw
    simp [ex150, stftWinLen]
    simp [zeroDenormals]
  hw := rfl
  hpad := rfl
  hsym := by simp

theorem ex150_dw : (zeroDenormals 0 (diffWindow [0, 0, 2, 1])).getD 3 0 = -(Real.pi / 2) := by
  have h : (diffWindow [0, 0, 2, 1]).getD 3 0 = -(Real.pi / 2) := by
    have x1 : (xifn 1 4).getD 1 0 = Real.pi / 2 := by
      rw [xifn_xi 4 1 (by norm_num)]; norm_num [Spec.xi]; ring
    have x3 : (xifn 1 4).getD 3 0 = -(Real.pi / 2) := by
      rw [xifn_xi 4 3 (by norm_num)]; norm_num [Spec.xi]; ring
    have x0 : (xifn 1 4).getD 0 0 = 0 := by
      rw [xifn_xi 4 0 (by norm_num)]; norm_num [Spec.xi]
    have hl : (xifn 1 4).length = 4 := xifn_length 1 4
    have y0 : ((xifn 1 4).set 2 0).getD 0 0 = 0 := by
      rw [← x0]; simp [List.getD_eq_getElem?_getD, List.getElem?_set]
    have y1 : ((xifn 1 4).set 2 0).getD 1 0 = Real.pi / 2 := by
      rw [← x1]; simp [List.getD_eq_getElem?_getD, List.getElem?_set]
    have y2 : ((xifn 1 4).set 2 0).getD 2 0 = 0 := by
      simp [List.getD_eq_getElem?_getD, hl]
    have y3 : ((xifn 1 4).set 2 0).getD 3 0 = -(Real.pi / 2) := by
      rw [← x3]; simp [List.getD_eq_getElem?_getD, List.getElem?_set]
    unfold diffWindow
    simp only [List.length_cons, List.length_nil, Nat.reduceAdd, Nat.reduceMod, if_true, Nat.reduceDiv]
    rw [List.getD_eq_getElem _ _ (by simp), List.getElem_map, List.getElem_range]
    unfold idft dft
    have p2 : (I : ℂ) ^ (-2 : ℤ) = -1 := by rw [zpow_neg]; norm_num
    have p3 : (I : ℂ) ^ (-3 : ℤ) = I := by rw [show (-3 : ℤ) = -4 + 1 by norm_num, zpow_add₀ I_ne_zero, zpow_neg]; norm_num
    have p6 : (I : ℂ) ^ (-6 : ℤ) = -1 := by rw [show (-6 : ℤ) = -4 + -2 by norm_num, zpow_add₀ I_ne_zero, p2, zpow_neg]; norm_num
    have p9 : (I : ℂ) ^ (-9 : ℤ) = -I := by rw [show (-9 : ℤ) = -6 + -3 by norm_num, zpow_add₀ I_ne_zero, p6, p3]; ring
    have q3 : (I : ℂ) ^ (3 : ℤ) = -I := by rw [show (3 : ℤ) = 2 + 1 by norm_num, zpow_add₀ I_ne_zero]; norm_num
    have q9 : (I : ℂ) ^ (9 : ℤ) = I := by rw [show (9 : ℤ) = 3 + 3 + 3 by norm_num, zpow_add₀ I_ne_zero, zpow_add₀ I_ne_zero, q3]; ring_nf; norm_num
    simp only [sum_range_succ, sum_range_zero, y0, y1, y2, y3, tw_four]
    norm_num [p2, p3, p6, p9, q3, q9, List.getD]
    ring
  unfold zeroDenormals
  rw [List.getD_eq_getElem _ _ (by simp [length_diffWindow]), List.getElem_map, ← List.getD_eq_getElem (d := (0 : ℝ)), h]
  rw [if_neg]
  intro hh
  linarith [hh.1, hh.2]

/-- The first column of the transform of `[0, s]` and of its derivative. -/
theorem ex150_cols (s : ℝ) : ∃ S dS, stft onesLib 0 [0, s] { ex150.stft with fs := 1 } = .ok (4, S, dS) ∧ S.length = 2 ∧
    entC S 0 0 = s ∧ entC S 1 0 = -(s * I) ∧ entC S 2 0 = -s ∧
    (entC dS 0 0).im = 0 ∧ (entC dS 1 0).im = s * (Real.pi / 2) ∧ (entC dS 2 0).im = 0 := by
  obtain ⟨E, hE⟩ := exists_extension .zero ([0, s] : List ℝ) (by simp)
  obtain ⟨S, dS, h1, h2, h3, h4, h5⟩ := C07_stft_entries (validFs (ex150_valid s) 1) E hE
  have e0 : E 0 = 0 := by simpa using hE.1 0 (by simp)
  have e1 : E 1 = s := by simpa using hE.1 1 (by simp)
  have em1 : E (-1) = 0 := hE.2 (-1) (by norm_num)
  have em2 : E (-2) = 0 := hE.2 (-2) (by norm_num)
  have hS2 : S.length = 2 := by rw [h2]; simp [ex150]
  have hd2 : dS.length = 2 := by rw [h3]; simp [ex150]
  have hst : ∀ (v : ℕ → ℝ) (k : ℕ), Spec.stft 4 1 v E true k 0 = ((v 3 * s : ℝ) : ℂ) * exp (-(2 * Real.pi * I * k / 4)) := by
    intro v k
    unfold Spec.stft
    simp only [sum_range_succ, sum_range_zero]
    norm_num [e0, e1, em1, em2]
  have ek0 : exp (-(2 * Real.pi * I * ((0 : ℕ) : ℂ) / 4)) = 1 := by simp
  have ek1 : exp (-(2 * Real.pi * I * ((1 : ℕ) : ℂ) / 4)) = -I := by
    rw [show -(2 * Real.pi * I * ((1 : ℕ) : ℂ) / 4) = -(Real.pi / 2 * I) by push_cast; ring, exp_neg, exp_pi_div_two_mul_I, inv_I]
  have ek2 : exp (-(2 * Real.pi * I * ((2 : ℕ) : ℂ) / 4)) = -1 := by
    rw [show -(2 * Real.pi * I * ((2 : ℕ) : ℂ) / 4) = -(Real.pi * I) by push_cast; ring, exp_neg, exp_pi_mul_I]; norm_num
  have hW : ∀ k < 3, entC S k 0 = (s : ℂ) * exp (-(2 * Real.pi * I * k / 4)) := by
    intro k hk
    unfold entC
    rw [List.getD_eq_getElem _ _ (show 0 < S.length by omega), (h4 0 (by omega)).2 k (by omega)]
    have := hst (fun r => ([0, 0, 2, 1] : List ℝ).getD r 0) k
    refine Eq.trans this ?_
    norm_num [List.getD]
  have hdW : ∀ k < 3, entC dS k 0 = ((-(Real.pi / 2) * s : ℝ) : ℂ) * exp (-(2 * Real.pi * I * k / 4)) := by
    intro k hk
    unfold entC
    rw [List.getD_eq_getElem _ _ (show 0 < dS.length by omega), (h5 0 (by omega)).2 k (by omega)]
    have := hst (fun r => (if ({ ex150.stft with fs := 1 } : StftArgs).modulated = true then ({ ex150.stft with fs := 1 } : StftArgs).fs else 1) *
      (zeroDenormals 0 (diffWindow [0, 0, 2, 1])).getD r 0) k
    refine Eq.trans this ?_
    rw [ex150_dw]
    simp only [ex150, if_true, one_mul]
  refine ⟨S, dS, h1, hS2, ?_, ?_, ?_, ?_, ?_, ?_⟩
  · rw [hW 0 (by norm_num), ek0, mul_one]
  · rw [hW 1 (by norm_num), ek1]; ring
  · rw [hW 2 (by norm_num), ek2]; ring
  · rw [hdW 0 (by norm_num), ek0, mul_one, ofReal_im]
  · rw [hdW 1 (by norm_num), ek1, im_ofReal_mul, neg_im, I_im]; ring
  · rw [hdW 2 (by norm_num), ek2, im_ofReal_mul, neg_im, one_im]; ring

theorem ex150_Sfs : makeSfs 3 1 = [0, 1 / 4, 1 / 2] := by
  unfold makeSfs linspace
  norm_num [List.range_succ]

/-- What `ssq_stft` does with `[0, s]`, `s = 1` or `s = -1`. -/
theorem ex150_run (s : ℝ) (hs : |s| = 1) : ∃ Tx S, ssqStft onesLib 0 [0, s] ex150 = .ok (Tx, S, [0, 1 / 4, 1 / 2], [0, 1 / 4, 1 / 2]) ∧ S.length = 2 ∧
    Tx 0 0 = if s = 1 then 1 / 2 else 1 / 4 := by
  obtain ⟨S, dS, hst, hl, a0, a1, a2, b0, b1, b2⟩ := ex150_cols s
  set A := ssqStftCall ex150 1 3 S dS with hA
  have hproc : ssqProcessArgs A = .ok (1 / 1) := by
    unfold ssqProcessArgs
    rw [if_neg, if_neg]
    · simp [hA, ssqStftCall, ex150, checkSsqueezingArgs, checkTransform, checkSqueezing, checkMaprange,
        checkDifftype, checkDifforder, processFsT, pure_eq_ok, ok_bind]
    · rintro ⟨w, hw, -⟩
      simp [hA, ssqStftCall, ex150] at hw
    · simp [hA, ssqStftCall, ex150]
  have hsc : ssqScales A = .ok (none, none) := rfl
  have hfq : ssqFreqsOf A (1 / 1) none none = .ok ([0, 1 / 4, 1 / 2], .known .linear) := by
    simp [ssqFreqsOf, hA, ssqStftCall, ex150, ex150_Sfs]
  have hcst : ssqConst A.transform none none [0, 1 / 4, 1 / 2] = .ok (.scalar (1 / 4 - 0)) := rfl
  have hk := kernel_eq A (applySqueezing A.squeezing A.M A.Wx) [0, 1 / 4, 1 / 2] (.scalar (1 / 4 - 0)) false (Or.inr (Or.inr rfl))
  have hcarr : constArr A.M (.scalar (1 / 4 - 0)) = .ok [1 / 4, 1 / 4, 1 / 4] := by
    simp [constArr, hA, ssqStftCall, List.replicate]
  have hpar : processSsqParams A.th [0, 1 / 4, 1 / 2] false = .ok (.lin 0 (1 / 4)) := by
    simp only [processSsqParams, Bool.false_eq_true, if_false]
    rw [ensure_of_le (by unfold eps64; norm_num)]
    norm_num
  set T := runOps (· + ·) (fun _ _ => (0 : ℂ)) (serialOps A.M A.N
    (indexedSumBody (fun (a : ℂ) (b : ℝ) => a * (b : ℂ)) (binTP A.dev (.lin 0 (1 / 4)) ((A.M : ℤ) - 1)) ((A.M : ℤ) - 1) A.flipud
      (applySqueezing A.squeezing A.M A.Wx) (Spec.usedPhase A (applySqueezing A.squeezing A.M A.Wx)) fun i => [1 / 4, 1 / 4, 1 / 4].getD i 0)) with hT
  have hTk : ssqKernel A (applySqueezing A.squeezing A.M A.Wx) [0, 1 / 4, 1 / 2] (.scalar (1 / 4 - 0)) false = .ok T := by
    rw [hk]
    unfold indexedSumOnfly onflyBody
    simp only [hcarr, hpar, ok_bind, pure_eq_ok]
    rfl
  have hsq : ssqueeze A = .ok (T, [0, 1 / 4, 1 / 2]) := by
    unfold ssqueeze
    simp only [hproc, ok_bind, hsc, hfq, hcst, SsqType.isLog, hTk, pure_eq_ok]
    rfl
  refine ⟨T, S, ?_, hl, ?_⟩
  · have hrt : processFsT ex150.fs ex150.t ([0, s] : List ℝ).length = .ok (.fin 1 (1 / 1)) := by
      simp [processFsT, ex150]
    unfold ssqStft
    rw [hrt, ok_bind]
    simp only
    rw [show checkSsqueezingArgs false ex150.squeezing .none false none none false .cwt = .ok none from rfl, ok_bind,
      show checkLinearFreqs ex150.ssqFreqs = .ok () from rfl, ok_bind, hst, ok_bind]
    simp only [Nat.reduceDiv, Nat.reduceAdd]
    rw [← hA, hsq, ok_bind, ex150_Sfs]
  · have hn1 : ∀ i < 3, ‖entC S i 0‖ = 1 := by
      intro i hi
      interval_cases i
      · rw [a0, norm_real, Real.norm_eq_abs, hs]
      · rw [a1, norm_neg, norm_mul, norm_I, mul_one, norm_real, Real.norm_eq_abs, hs]
      · rw [a2, norm_neg, norm_real, Real.norm_eq_abs, hs]
    have hV : ∀ i < 3, applySqueezing A.squeezing A.M A.Wx i 0 = 1 := by
      intro i hi
      show ((‖entC S i 0‖ : ℝ) : ℂ) = 1
      rw [hn1 i hi, ofReal_one]
    have hP : ∀ i < 3, Spec.usedPhase A (applySqueezing A.squeezing A.M A.Wx) i 0 =
        .fin |([0, 1 / 4, 1 / 2] : List ℝ).getD i 0 - (entC dS i 0).im / (2 * Real.pi)| := by
      intro i hi
      unfold Spec.usedPhase
      simp only [hV i hi, norm_one]
      simp only [hA, ssqStftCall, ex150, Bool.false_eq_true, if_false, Option.getD_some]
      rw [if_pos (by norm_num)]
      unfold stftFreq
      rw [ex150_Sfs]
      norm_num
      rfl
    rw [hT, runOps_serial _ (indexedSumBody_cols _ _ _ _ _ _ _) _ _ _ (by show 0 < S.length; omega), zero_add]
    show ∑ i ∈ range 3, _ = _
    have hpi := Real.pi_pos
    have hr : ∀ x : ℝ, ∀ n : ℕ, n ≤ 2 → x = n / 4 → binTP A.dev (.lin 0 (1 / 4)) ((A.M : ℤ) - 1) x = n := by
      intro x n hn hx
      rw [bin_lin, hx, show (((n : ℝ) / 4 - 0) / (1 / 4)) = ((n : ℤ) : ℝ) by push_cast; ring]
      show min (roundHalfEven (max ((n : ℤ) : ℝ) 0)) (((3 : ℕ) : ℤ) - 1) = n
      rw [max_eq_left (by exact_mod_cast Nat.zero_le n), rhe_intCast]
      omega
    have c0 : ([0, 1 / 4, 1 / 2] : List ℝ).getD 0 0 = 0 := rfl
    have c1 : ([0, 1 / 4, 1 / 2] : List ℝ).getD 1 0 = 1 / 4 := rfl
    have c2 : ([0, 1 / 4, 1 / 2] : List ℝ).getD 2 0 = 1 / 2 := rfl
    simp only [sum_range_succ, sum_range_zero, zero_add, indexedSumBody, hP 0 (by norm_num), hP 1 (by norm_num), hP 2 (by norm_num),
      hV 0 (by norm_num), hV 1 (by norm_num), hV 2 (by norm_num), b0, b1, b2, c0, c1, c2, contrib]
    rw [hr |0 - 0 / (2 * Real.pi)| 0 (by norm_num) (by norm_num), hr |1 / 2 - 0 / (2 * Real.pi)| 2 (by norm_num) (by norm_num [abs_of_pos])]
    rcases (abs_eq (by norm_num : (0 : ℝ) ≤ 1)).1 hs with rfl | rfl
    · rw [hr |1 / 4 - 1 * (Real.pi / 2) / (2 * Real.pi)| 0 (by norm_num) (by
        rw [show (1 : ℝ) / 4 - 1 * (Real.pi / 2) / (2 * Real.pi) = 0 by field_simp; norm_num]; norm_num)]
      simp [flipRow, hA, ssqStftCall, ex150]
      norm_num
    · rw [hr |1 / 4 - -1 * (Real.pi / 2) / (2 * Real.pi)| 2 (by norm_num) (by
        rw [show (1 : ℝ) / 4 - -1 * (Real.pi / 2) / (2 * Real.pi) = 1 / 2 by field_simp; norm_num]; norm_num [abs_of_pos])]
      simp [flipRow, hA, ssqStftCall, ex150]
      norm_num

/-- **C150 is false** with `squeezing='abs'` and without `get_w`: the frequencies are then computed from the modulus of the transform,
and `-x` has other frequencies than `x`. -/
theorem C150_refuted : ¬ C150_full := by
  intro hf
  obtain ⟨T, S, h1, hl, h2⟩ := ex150_run 1 (by norm_num)
  obtain ⟨T', S', k1, -, k2⟩ := ex150_run (-1) (by norm_num)
  obtain ⟨T'', e1, e2⟩ := hf onesLib 0 [0, 1] ex150 _ _ _ _ (-1) 0 1 T S _ _ (ex150_valid 1) (by norm_num) rfl
    (by simp [Spec.measureFactor, ex150]) h1
  have hx : (([0, 1] : List ℝ).map fun u => (-1 : ℝ) * u) = [0, -1] := by simp
  have ha : ({ ex150 with gamma := some (|(-1 : ℝ)| * 0) } : SsqStftArgs) = ex150 := by simp [ex150]
  rw [hx, ha, k1] at e1
  simp only [Except.ok.injEq, Prod.mk.injEq] at e1
  have := e2 0 0 (by omega)
  rw [← e1.1, h2, k2] at this
  norm_num at this

/-- The hypotheses of `C150_partial` are met, with a negative factor and `'sum'`. -/
example : StftValid onesLib 0 [1, 1] (ex14 1).stft 2 [0, 1] (zeroDenormals 0 (diffWindow [0, 1])) .reflect ∧
    (ex14 1).gamma = some 0 ∧ Spec.measureFactor (-2) (ex14 1).squeezing = some (-2) ∧
    ∃ Tx S f Sfs, ssqStft onesLib 0 [1, 1] (ex14 1) = .ok (Tx, S, f, Sfs) := by
  refine ⟨validFs (ex14_valid 1 one_pos).stft 1, rfl, rfl, ?_⟩
  obtain ⟨Tx, S, f, Sfs, xh, h, -⟩ := C14_inverse_partial (ex14_valid 1 one_pos)
  exact ⟨Tx, S, f, Sfs, h⟩

end Ssq
