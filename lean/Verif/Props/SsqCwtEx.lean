import Verif.Props.IssqCwt

/-!
# A concrete call of `ssq_cwt` with linear frequencies

Shows that the hypotheses of `C39_one_row_linear` can be met.
-/
namespace Ssq
open Complex

/-- The concrete call of `exSsq` with the frequencies 1, 2, 3. -/
noncomputable def exSsqL (t : Option PadType) : SsqCwtArgs := { exSsq t with ssqFreqs := .arr .f64 [1, 2, 3] }

theorem ssqueeze_exSsqL (t : Option PadType) (N : ℕ) (W dW : List (List ℂ)) :
    ∃ Tx, ssqueeze ((exSsqL t).ssqArgs 8 .log [1, 2, 4] N W dW) = .ok (Tx, [3, 2, 1]) := by
  set a := (exSsqL t).ssqArgs 8 .log [1, 2, 4] N W dW with ha
  have h1 : ssqProcessArgs a = .ok (1 / 8) := by
    have hc : checkSsqueezingArgs false .sum .maximal true none none false .cwt = .ok none := rfl
    unfold ssqProcessArgs
    rw [if_neg (by simp [ha, SsqCwtArgs.ssqArgs, exSsqL, exSsq]), if_neg]
    · simp only [ha, SsqCwtArgs.ssqArgs, exSsqL, exSsq, Option.isSome_some, hc, ok_bind, Option.isNone_some,
        Bool.false_eq_true, false_and, if_false, processFsT]
      norm_num
    · rintro ⟨w, hw, -⟩
      simp [ha, SsqCwtArgs.ssqArgs, exSsqL, exSsq] at hw
  have h2 : ssqScales a = .ok (some [1, 2, 4], some (.log, .int 1)) := by
    have hp : positiveInteger ((1 : ℤ) : ℚ) = .ok 1 := by rfl
    simp only [ha, SsqCwtArgs.ssqArgs, exSsqL, exSsq, ssqScales, processScales, infer124, ok_bind, pure_eq_ok, ne_eq,
      not_true_eq_false, false_and, if_false, hp]
    rfl
  have h3 : ssqFreqsOf a (1 / 8) (some [1, 2, 4]) (some (.log, .int 1)) =
      .ok ([1, 2, 3], .known .linear) := by
    simp only [ssqFreqsOf, ha, SsqCwtArgs.ssqArgs, exSsqL, exSsq, reduceCtorEq, if_false, infer123, ok_bind]
  have h4 : ∀ v, ssqConst a.transform (some [1, 2, 4]) (some (.log, .int 1)) v =
      .ok (.scalar (Real.log 2 / ((1 : ℤ) : ℝ))) := fun v => rfl
  have h6 : ∃ T, ssqKernel a (applySqueezing a.squeezing a.M a.Wx)
      [1, 2, 3] (.scalar (Real.log 2 / ((1 : ℤ) : ℝ))) false = .ok T := by
    rw [kernel_eq _ _ _ _ _ (Or.inr (Or.inl rfl))]
    unfold indexedSumOnfly onflyBody constArr processSsqParams
    have hM : a.M ≠ 1 := by simp [ha, SsqCwtArgs.ssqArgs]
    simp only [ok_bind, pure_eq_ok, if_neg hM]
    exact ⟨_, rfl⟩
  obtain ⟨T, h6⟩ := h6
  refine ⟨T, ?_⟩
  have hr : ssqReverses a.transform a.flipud = true := rfl
  unfold ssqueeze
  simp only [h1, ok_bind, h2, h3, h4, SsqType.isLog, h6, pure_eq_ok, hr, if_true]
  rfl

theorem exSsqL_ok (t : Option PadType) (x : List ℝ) (hx : 0 < x.length) :
    ∃ o, ssqCwt x (exSsqL t) = .ok o ∧ o.scales = [1, 2, 4] ∧ o.freqs = [3, 2, 1] := by
  have hr : processFsT (some 8) none x.length = .ok (.fin 8 (1 / 8)) := by
    simp only [processFsT]; rw [if_neg (by norm_num)]
  have hd : cwtDt (exSsqL t).fs (exSsqL t).t x.length = .ok (8, 1 / 8) := by
    simp only [cwtDt, exSsqL, exSsq, hr, ok_bind]
  have hs : ∀ N, processScales (exSsqL t).scales N (some (exSsqL t).wavelet.sw) (ssqCwtNv (exSsqL t)) true
      (exSsqL t).downsample = .ok ([1, 2, 4], .log, 3, .int 1) := fun N => process124 _ _ _ _
  have hs' : processScales ((exSsqL t).cwtArgs 8 [1, 2, 4]).scales x.length
      (some ((exSsqL t).cwtArgs 8 [1, 2, 4]).wavelet.sw) none true ((exSsqL t).cwtArgs 8 [1, 2, 4]).downsample =
      .ok ([1, 2, 4], .log, 3, .int 1) := by
    have hp : positiveInteger ((1 : ℤ) : ℚ) = .ok 1 := by rfl
    simp only [SsqCwtArgs.cwtArgs, ScalesArg.dtype, exSsqL, exSsq, sc124, processScales, infer124, ok_bind, pure_eq_ok,
      ne_eq, not_true_eq_false, false_and, if_false, hp]
    rfl
  obtain ⟨W, dW, hW⟩ := C37_succeeds x ((exSsqL t).cwtArgs 8 [1, 2, 4]) t rfl hx 8 (1 / 8) hr
    (by simp [SsqCwtArgs.cwtArgs, exSsqL, exSsq]) [1, 2, 4] .log 3 (.int 1) none
    (by simp [SsqCwtArgs.cwtArgs]) (fun _ => rfl) hs'
  obtain ⟨Tx, hT⟩ := ssqueeze_exSsqL t x.length W dW
  refine ⟨⟨Tx, W, [3, 2, 1], [1, 2, 4], dW⟩, ?_, rfl, rfl⟩
  have hc : checkSsqueezingArgs false (exSsqL t).squeezing (exSsqL t).maprange true (some .trig)
      (exSsqL t).difforder (exSsqL t).getW .cwt = .ok none := rfl
  unfold ssqCwt
  simp only [hc, hd, hs, hW, hT, ok_bind]

/-- The hypotheses of `C39_one_row_linear` are met by a tone of one cycle in four samples at rate 8: its 2 Hz
are in row 1, and the other rows are zero. -/
example : ∃ o, ssqCwt (Spec.tone 4 1 1 0) (exSsqL none) = .ok o ∧ o.freqs = [3, 2, 1] ∧
    ∀ j < 4, o.Tx (0 : ℕ) j = 0 ∧ o.Tx (2 : ℕ) j = 0 := by
  obtain ⟨o, h, hsc, hf⟩ := exSsqL_ok none (Spec.tone 4 1 1 0) (by simp [Spec.tone])
  refine ⟨o, h, hf, ?_⟩
  obtain ⟨fs, dt, st, nv, h1, -, rs, hn, hT⟩ := C39_one_row_linear 4 1 1 0 (by norm_num) (exSsqL none) rfl
    (analytic_fnR none) (by simp [exSsqL, exSsq]) rfl rfl ⟨.none, infer123⟩ o h
    (by rw [hsc]; simp) 1 1 (by
      rw [hf]
      intro i hi
      simp only [List.reverse_cons, List.reverse_nil, List.nil_append, List.cons_append, List.length_cons,
        List.length_nil] at hi
      interval_cases i <;> norm_num) (by norm_num [eps64]) (by rw [hf, hsc]; rfl)
  have hfs : fs = 8 := by
    simp only [exSsqL, exSsq, processFsT] at h1
    rw [if_neg (by norm_num)] at h1
    simp only [Except.ok.injEq, Rate.fin.injEq] at h1
    exact h1.1.symm
  rw [hfs, hf] at hn
  obtain ⟨hlt, hmin⟩ := hn
  have h0 := hmin 1 (by simp)
  have hrs : rs = 1 := by
    simp only [List.length_cons, List.length_nil] at hlt
    norm_num at h0
    interval_cases rs
    · exfalso
      norm_num at h0
    · rfl
    · exfalso
      norm_num at h0
  intro j hj
  rw [hT 0 (by rw [hsc]; simp) j hj, hT 2 (by rw [hsc]; simp) j hj, hrs]
  simp

end Ssq
