import Verif.Props.Icwt
import Mathlib.Analysis.Real.Pi.Bounds

/-!
# Inverting the synchrosqueezed CWT (C41)
-/
namespace Ssq
open Complex

open Classical in
/-- The phase is finite exactly in the kept cells. -/
theorem usedPhase_kept (a : SsqCwtArgs) (hsq : a.squeezing = .sum) (fs : ℝ) (st : ScaleType) (sc : List ℝ)
    (N : ℕ) (W dW : List (List ℂ)) (i j : ℕ) :
    Spec.Kept a (ent W i j) ↔ ∃ y, Spec.usedPhase (a.ssqArgs fs st sc N W dW)
      (applySqueezing a.squeezing sc.length (ent W)) i j = .fin y := by
  unfold Spec.Kept Spec.usedPhase
  rw [hsq]
  cases hw : a.getW
  · simp only [SsqCwtArgs.ssqArgs, hw, applySqueezing, Bool.false_eq_true, if_false, Option.getD_some]
    by_cases hk : a.gamma.getD (10 * a.eps) < ‖ent W i j‖
    · rw [if_pos hk]; exact ⟨fun _ => ⟨_, rfl⟩, fun _ => hk⟩
    · rw [if_neg hk]; exact ⟨fun h => absurd h hk, fun ⟨_, h⟩ => by simp at h⟩
  · simp only [SsqCwtArgs.ssqArgs, hw, if_true, phaseCwt]
    unfold ent
    by_cases hk : ‖(W.getD i []).getD j 0‖ < a.gamma.getD (10 * a.eps)
    · simp only [hk, if_true, not_le.2 hk, false_iff]; simp
    · simp only [hk, if_false, not_lt.1 hk, true_iff]; exact ⟨_, rfl⟩

open Classical in
/-- Every column of the synchrosqueezed CWT sums to the kept cells, each with its `d(scale)/scale`. -/
theorem ssqCwt_colsum (x : List ℝ) (a : SsqCwtArgs) (o : SsqCwtOut) (h : ssqCwt x a = .ok o)
    (hsq : a.squeezing = .sum) (hth : 0 < a.th)
    (hgrid : Spec.SafeGrid a.th o.freqs.reverse true o.scales.length ∨ Spec.CwtLinearFreqs x.length a) :
    ∃ st nv, inferScaletype a.dtype o.scales = .ok (st, nv) ∧ ∀ j < x.length,
      ∑ r ∈ Finset.range o.scales.length, o.Tx r j = ∑ i ∈ Finset.range o.scales.length,
        (if Spec.Kept a (ent o.Wx i j) then
          ent o.Wx i j * ((Spec.scaleMeasure st nv o.scales i : ℝ) : ℂ) else 0) := by
  obtain ⟨fs, dt, st, na, nv, h1, h2, h3, h4⟩ := ssqCwt_ok h
  obtain ⟨st', nv', hinf⟩ := ssqueeze_scales h4 rfl rfl
  refine ⟨st', nv', hinf, fun j hj => ?_⟩
  obtain ⟨dt', sc, fr, const, ls, k1, k2, k3, k4, k5, k6, k7⟩ := ssqueeze_ok h4
  have hrev : fr.1 = o.freqs.reverse := by
    rw [k7]
    have : ssqReverses (a.ssqArgs fs st o.scales x.length o.Wx o.dWx).transform
      (a.ssqArgs fs st o.scales x.length o.Wx o.dWx).flipud = true := by
      simp [ssqReverses, SsqCwtArgs.ssqArgs]
    rw [this]; simp
  have hsafe : Spec.SafeGrid a.th fr.1 ls o.scales.length := by
    rcases hgrid with hg | hg
    · rw [hrev]
      rcases hg with hg | hg
      · simp at hg
      · exact Or.inr hg
    · left
      have := linearLayout_ls (cwtLinear_layout hg h2 fs o.scales o.Wx o.dWx) k3
      rw [k5] at this
      simpa using this
  rw [kernel_eq _ _ _ _ _ (Or.inr (Or.inl rfl))] at k6
  obtain ⟨c, hc, hsum⟩ := C16_two_pass _ _ hth _ _ _ _ _ _ _ _ hsafe _ k6
  have hcv := const_cwt rfl rfl hinf rfl (fun l hl => (inferScaletype_nv_length hinf).2 l hl) k2 k4 hc
  rw [show (∑ r ∈ Finset.range o.scales.length, o.Tx r j) = _ from hsum j hj]
  refine Finset.sum_congr rfl fun i hi => ?_
  have hk := usedPhase_kept a hsq fs st o.scales x.length o.Wx o.dWx i j
  have hM : i < (a.ssqArgs fs st o.scales x.length o.Wx o.dWx).M := Finset.mem_range.1 hi
  have hcell : applySqueezing (a.ssqArgs fs st o.scales x.length o.Wx o.dWx).squeezing
      (a.ssqArgs fs st o.scales x.length o.Wx o.dWx).M (a.ssqArgs fs st o.scales x.length o.Wx o.dWx).Wx i j =
      ent o.Wx i j := by
    simp only [SsqCwtArgs.ssqArgs, hsq, applySqueezing, ent]
  change (match Spec.usedPhase (a.ssqArgs fs st o.scales x.length o.Wx o.dWx)
      (applySqueezing a.squeezing o.scales.length (ent o.Wx)) i j with
    | .inf => 0
    | .fin _ => applySqueezing (a.ssqArgs fs st o.scales x.length o.Wx o.dWx).squeezing
      (a.ssqArgs fs st o.scales x.length o.Wx o.dWx).M (a.ssqArgs fs st o.scales x.length o.Wx o.dWx).Wx i j *
        ((c.getD i 0 : ℝ) : ℂ)) = _
  rw [hcell, hcv i hM]
  cases hu : Spec.usedPhase (a.ssqArgs fs st o.scales x.length o.Wx o.dWx)
      (applySqueezing a.squeezing o.scales.length (ent o.Wx)) i j with
  | inf =>
    rw [if_neg]
    rw [hk, hu]
    simp
  | fin y => rw [if_pos (hk.2 ⟨y, hu⟩)]

/-- Nothing is filtered: every nonzero cell of the CWT is kept. -/
def Spec.NothingFiltered (N : ℕ) (a : SsqCwtArgs) (o : SsqCwtOut) : Prop :=
  ∀ i < o.scales.length, ∀ j < N, ent o.Wx i j ≠ 0 → Spec.Kept a (ent o.Wx i j)

/-- The call of `issq_cwt` on the result of `ssq_cwt`. -/
noncomputable def issqOf (N : ℕ) (o : SsqCwtOut) (css : ℝ) : Py Inverse :=
  issqCwt o.scales.length N (fun r j => o.Tx r j) css none none

/-- The call of the one-integral `icwt` on the CWT that `ssq_cwt` returns. -/
noncomputable def icwtOf (N : ℕ) (a : SsqCwtArgs) (o : SsqCwtOut) (css : ℝ) : Py (List ℝ) :=
  icwt N o.Wx (.arr [o.scales.length] a.dtype o.scales) { wavelet := a.wavelet, admSsq := css }

/-- The value of `issq_cwt` on a synchrosqueezed CWT in which nothing was filtered. -/
theorem issq_value (x : List ℝ) (a : SsqCwtArgs) (o : SsqCwtOut) (h : ssqCwt x a = .ok o)
    (hsq : a.squeezing = .sum) (hth : 0 < a.th)
    (hgrid : Spec.SafeGrid a.th o.freqs.reverse true o.scales.length ∨ Spec.CwtLinearFreqs x.length a)
    (hno : Spec.NothingFiltered x.length a o) (css : ℝ) :
    ∃ st nv y, inferScaletype a.dtype o.scales = .ok (st, nv) ∧ issqOf x.length o css = .ok (.full y) ∧
      y.length = x.length ∧ ∀ j < x.length, y.getD j 0 =
        ∑ i ∈ Finset.range o.scales.length, 2 / css * Spec.scaleMeasure st nv o.scales i * (ent o.Wx i j).re := by
  classical
  obtain ⟨st, nv, hi, hsum⟩ := ssqCwt_colsum x a o h hsq hth hgrid
  refine ⟨st, nv, (realColSum o.scales.length x.length (fun r j => o.Tx r j)).map (· * (2 / css)), hi, rfl, ?_, ?_⟩
  · simp [realColSum]
  · intro j hj
    unfold realColSum
    rw [List.map_map, getD_map_range _ _ hj]
    simp only [Function.comp]
    rw [← re_sum, hsum j hj, re_sum, Finset.sum_mul]
    refine Finset.sum_congr rfl fun i hir => ?_
    rw [Finset.mem_range] at hir
    split
    · rw [mul_comm (ent o.Wx i j), re_ofReal_mul]; ring
    · rename_i hk
      have : ent o.Wx i j = 0 := by
        by_contra hne
        exact hk (hno i hir j hj hne)
      rw [this]; simp

theorem cwtRun_length (a : CwtArgs) (dt : ℝ) (scales : List ℝ) (N : ℕ) (xp : List ℝ) (n1 : ℤ) :
    (cwtRun a dt scales N xp n1).1.length = scales.length := by
  simp only [cwtRun, l2Scale]
  have hc : ∀ xh, (psihCall a.wavelet.fn xh scales).length = scales.length := by
    intro L; simp [psihCall, dropImag_length]
  cases a.vectorized <;> cases a.l1Norm <;> simp [cwtVectorized, cwtLoop, hc]

/-- The inverse CWT of the transform that `ssq_cwt` returns succeeds. -/
theorem icwtOf_runs (x : List ℝ) (a : SsqCwtArgs) (o : SsqCwtOut) (h : ssqCwt x a = .ok o) (css : ℝ)
    (st : ScaleType) (nv : Nv) (c : ℕ) (hs : Spec.IcwtScales a.dtype o.scales st nv c) :
    ∃ xh, icwtOf x.length a o css = .ok xh := by
  obtain ⟨fs, dt, st', na, nv', h1, h2, h3, h4⟩ := ssqCwt_ok h
  obtain ⟨r, p, sc, -, hg, -, hsc, he, hrun⟩ := (cwt_ok_iff _ _ _ _ _).1 h3
  have hlen : o.Wx.length = o.scales.length := by
    have := congrArg (fun z => z.1.length) hrun
    simp only [cwtRun_length] at this
    exact this.symm
  refine icwt_runs _ _ _ _ _ _ hg hlen st nv c hs ?_
  obtain ⟨dt', sc', fr, const, ls, k1, k2, -⟩ := ssqueeze_ok h4
  unfold ssqScales at k2
  simp only [SsqCwtArgs.ssqArgs] at k2
  obtain ⟨q, hq, -⟩ := bind_ok k2
  exact ⟨q, by rw [← hq]; exact processScales_arr_eq _ _ _ _ _ _ _ _⟩

theorem list_eq_getD {l m : List ℝ} (h : l.length = m.length) (he : ∀ j < l.length, l.getD j 0 = m.getD j 0) :
    l = m := by
  apply List.ext_getElem h
  intro i h1 h2
  have := he i h1
  rwa [List.getD_eq_getElem _ _ h1, List.getD_eq_getElem _ _ h2] at this

/-- **C41**, as stated: if nothing is filtered, `issq_cwt(ssq_cwt(x))` equals the one-integral `icwt` of the CWT. -/
def C41_full : Prop := ∀ (x : List ℝ) (a : SsqCwtArgs) (o : SsqCwtOut) (css : ℝ), ssqCwt x a = .ok o →
  a.squeezing = .sum → 0 < a.th → (∀ s ∈ o.scales, 0 < s) →
  (Spec.SafeGrid a.th o.freqs.reverse true o.scales.length ∨ Spec.CwtLinearFreqs x.length a) →
  Spec.NothingFiltered x.length a o →
  ∃ xh, issqOf x.length o css = .ok (.full xh) ∧ icwtOf x.length a o css = .ok xh

/-- **C41 for log and two-segment scales** (missing: linear scales, for which it is false): for every signal,
wavelet, pad type, frequencies (any linear layout, or a logarithmic one with no detected transition or two
segments), sampling rate, code path, device, `get_w`, `flipud`. -/
theorem C41_equal_partial (x : List ℝ) (a : SsqCwtArgs) (o : SsqCwtOut) (css : ℝ) (h : ssqCwt x a = .ok o)
    (hsq : a.squeezing = .sum) (hth : 0 < a.th)
    (hgrid : Spec.SafeGrid a.th o.freqs.reverse true o.scales.length ∨ Spec.CwtLinearFreqs x.length a)
    (hno : Spec.NothingFiltered x.length a o)
    (st : ScaleType) (nv : Nv) (c : ℕ) (hs : Spec.IcwtScales a.dtype o.scales st nv c) (hst : st ≠ .linear) :
    ∃ xh, issqOf x.length o css = .ok (.full xh) ∧ icwtOf x.length a o css = .ok xh := by
  obtain ⟨st', nv', y, hi, hy, hyl, hyv⟩ := issq_value x a o h hsq hth hgrid hno css
  have e := hs.1
  rw [hi] at e
  simp only [Except.ok.injEq, Prod.mk.injEq] at e
  obtain ⟨rfl, rfl⟩ := e
  obtain ⟨xh, hx⟩ := icwtOf_runs x a o h css st' nv' c hs
  refine ⟨y, hy, ?_⟩
  rw [hx]
  obtain ⟨-, hl, hv⟩ := icwt_value _ _ _ _ _ _ _ hx _ _ _ hs (infer_pos hi hst)
  congr 1
  apply list_eq_getD (by omega)
  intro j hj
  rw [hv j (by omega), hyv j (by omega)]
  simp only [if_true, div_one, mul_zero, add_zero]
  refine Finset.sum_congr rfl fun i _ => ?_
  have : Spec.icwtWeight st' nv' o.scales i = Spec.scaleMeasure st' nv' o.scales i := by
    unfold Spec.icwtWeight Spec.scaleMeasure
    cases st' <;> cases nv' <;> first | rfl | exact absurd rfl hst
  rw [this]

/-- **C41 for linear scales, what the code does.** The two inverses differ by a constant factor: `icwt` uses
`π/4` where `issq_cwt` has the step of the scales. -/
theorem C41_linear (x : List ℝ) (a : SsqCwtArgs) (o : SsqCwtOut) (css : ℝ) (h : ssqCwt x a = .ok o)
    (hsq : a.squeezing = .sum) (hth : 0 < a.th)
    (hgrid : Spec.SafeGrid a.th o.freqs.reverse true o.scales.length ∨ Spec.CwtLinearFreqs x.length a)
    (hno : Spec.NothingFiltered x.length a o) (hpos : ∀ s ∈ o.scales, 0 < s)
    (nv : Nv) (hlin : inferScaletype a.dtype o.scales = .ok (.linear, nv)) :
    ∃ y xh, issqOf x.length o css = .ok (.full y) ∧ icwtOf x.length a o css = .ok xh ∧
      y.length = x.length ∧ xh.length = x.length ∧ ∀ j < x.length,
        xh.getD j 0 * (o.scales.getD 1 0 - o.scales.getD 0 0) = y.getD j 0 * (Real.pi / 4) ∧
        xh.getD j 0 = ∑ i ∈ Finset.range o.scales.length, 2 / css * (Real.pi / 4 / o.scales.getD i 0) *
          (ent o.Wx i j).re := by
  obtain ⟨st', nv', y, hi, hy, hyl, hyv⟩ := issq_value x a o h hsq hth hgrid hno css
  rw [hlin] at hi
  simp only [Except.ok.injEq, Prod.mk.injEq] at hi
  obtain ⟨rfl, rfl⟩ := hi
  have hs : Spec.IcwtScales a.dtype o.scales .linear nv 1 := ⟨hlin, Or.inl ⟨by simp, rfl⟩⟩
  obtain ⟨xh, hx⟩ := icwtOf_runs x a o h css _ _ _ hs
  obtain ⟨-, hl, hv⟩ := icwt_value _ _ _ _ _ _ _ hx _ _ _ hs hpos
  refine ⟨y, xh, hy, hx, hyl, hl, fun j hj => ?_⟩
  have e1 : ∀ i, Spec.icwtWeight .linear nv o.scales i = Real.pi / 4 / o.scales.getD i 0 := by
    intro i; unfold Spec.icwtWeight; cases nv <;> rfl
  have e2 : ∀ i, Spec.scaleMeasure .linear nv o.scales i =
      (o.scales.getD 1 0 - o.scales.getD 0 0) / o.scales.getD i 0 := by
    intro i; unfold Spec.scaleMeasure; cases nv <;> rfl
  have hxv := hv j hj
  simp only [if_true, div_one, mul_zero, add_zero, e1] at hxv
  refine ⟨?_, hxv⟩
  rw [hxv, hyv j hj, Finset.sum_mul, Finset.sum_mul]
  refine Finset.sum_congr rfl fun i _ => ?_
  rw [e2]
  ring

/-! ### Concrete calls -/

/-- `ssq_cwt` over the scales `sc` and the frequencies 1, 2, 4 at rate 8, threshold 0. -/
noncomputable def exS (sc : List ℝ) (t : Option PadType) : SsqCwtArgs :=
  { exSsq t with scales := .arr [sc.length] .f64 sc, gamma := some 0 }

theorem exS_nothing (sc : List ℝ) (t : Option PadType) (N : ℕ) (o : SsqCwtOut) :
    Spec.NothingFiltered N (exS sc t) o := by
  intro i _ j _ hne
  unfold Spec.Kept
  simp only [exS, exSsq, Bool.false_eq_true, if_false, Option.getD_some]
  exact norm_pos_iff.2 hne

theorem ssqueeze_exS (sc : List ℝ) (t : Option PadType) (N : ℕ) (W dW : List (List ℂ)) (st : ScaleType) (nv : Nv)
    (h3 : 3 ≤ sc.length)
    (hproc : ∀ (sh : List ℕ) N wv up ds, (sh.filter (· ≠ 1)).length = 1 →
      processScales (.arr sh .f64 sc) N wv none up ds = .ok (sc, st, sc.length, nv))
    (hconst : ∀ v, ∃ k c, ssqConst .cwt (some sc) (some (st, nv)) v = .ok k ∧ constArr sc.length k = .ok c) :
    ∃ Tx, ssqueeze ((exS sc t).ssqArgs 8 st sc N W dW) = .ok (Tx, [4, 2, 1]) := by
  set a := (exS sc t).ssqArgs 8 st sc N W dW with ha
  have h1 : ssqProcessArgs a = .ok (1 / 8) := by
    have hc : checkSsqueezingArgs false .sum .maximal true none none false .cwt = .ok none := rfl
    unfold ssqProcessArgs
    rw [if_neg (by simp [ha, SsqCwtArgs.ssqArgs, exS, exSsq]), if_neg]
    · simp only [ha, SsqCwtArgs.ssqArgs, exS, exSsq, Option.isSome_some, hc, ok_bind, Option.isNone_some, Bool.false_eq_true,
        false_and, if_false, processFsT]
      norm_num
    · rintro ⟨w, hw, -⟩
      simp [ha, SsqCwtArgs.ssqArgs, exS, exSsq] at hw
  have hsh : (([sc.length] : List ℕ).filter (· ≠ 1)).length = 1 := by
    rw [List.filter_cons_of_pos (by simp; omega)]; simp
  have h2 : ssqScales a = .ok (some sc, some (st, nv)) := by
    simp only [ha, SsqCwtArgs.ssqArgs, exS, exSsq, ssqScales, hproc _ _ _ _ _ hsh, ok_bind, pure_eq_ok]
  have hl : ssqFreqsOf a (1 / 8) (some sc) (some (st, nv)) =
      .ok ([1, 2, 4], .known .log) := by
    simp only [ssqFreqsOf, ha, SsqCwtArgs.ssqArgs, exS, exSsq, reduceCtorEq, if_false, infer124, ok_bind]
  obtain ⟨k, c, h4, h5⟩ := hconst [1, 2, 4]
  have h4' : ssqConst a.transform (some sc) (some (st, nv)) [1, 2, 4] = .ok k := h4
  have h6 : ∃ T, ssqKernel a (applySqueezing a.squeezing a.M a.Wx) [1, 2, 4] k true = .ok T := by
    rw [kernel_eq _ _ _ _ _ (Or.inr (Or.inl rfl))]
    have h5' : constArr a.M k = .ok c := h5
    unfold indexedSumOnfly onflyBody processSsqParams paramsFindClosestLog
    rw [transition_geometric geo124 (by simp)]
    simp only [h5', ok_bind, pure_eq_ok, if_true]
    exact ⟨_, rfl⟩
  obtain ⟨T, h6⟩ := h6
  refine ⟨T, ?_⟩
  have hr : ssqReverses a.transform a.flipud = true := rfl
  unfold ssqueeze
  simp only [h1, ok_bind, h2, hl, h4', SsqType.isLog, h6, pure_eq_ok, hr, if_true]
  rfl

theorem exS_ok (sc : List ℝ) (t : Option PadType) (x : List ℝ) (hx : 0 < x.length) (st : ScaleType) (nv : Nv)
    (h3 : 3 ≤ sc.length)
    (hproc : ∀ (sh : List ℕ) N wv up ds, (sh.filter (· ≠ 1)).length = 1 →
      processScales (.arr sh .f64 sc) N wv none up ds = .ok (sc, st, sc.length, nv))
    (hconst : ∀ v, ∃ k c, ssqConst .cwt (some sc) (some (st, nv)) v = .ok k ∧ constArr sc.length k = .ok c) :
    ∃ o, ssqCwt x (exS sc t) = .ok o ∧ o.scales = sc ∧ o.freqs = [4, 2, 1] := by
  have hr : processFsT (some 8) none x.length = .ok (.fin 8 (1 / 8)) := by
    simp only [processFsT]; rw [if_neg (by norm_num)]
  have hd : cwtDt (exS sc t).fs (exS sc t).t x.length = .ok (8, 1 / 8) := by
    simp only [cwtDt, exS, exSsq, hr, ok_bind]
  have hsh : (([sc.length] : List ℕ).filter (· ≠ 1)).length = 1 := by
    rw [List.filter_cons_of_pos (by simp; omega)]; simp
  have hsh' : (([sc.length, 1] : List ℕ).filter (· ≠ 1)).length = 1 := by
    rw [List.filter_cons_of_pos (by simp; omega)]; simp
  have hs : ∀ N, processScales (exS sc t).scales N (some (exS sc t).wavelet.sw) (ssqCwtNv (exS sc t)) true
      (exS sc t).downsample = .ok (sc, st, sc.length, nv) := fun N => hproc _ _ _ _ _ hsh
  obtain ⟨W, dW, hW⟩ := C37_succeeds x ((exS sc t).cwtArgs 8 sc) t rfl hx 8 (1 / 8) hr
    (by simp [SsqCwtArgs.cwtArgs, exS, exSsq]) sc st sc.length nv none
    (by simp [SsqCwtArgs.cwtArgs]) (fun _ => rfl) (hproc _ _ _ _ _ hsh')
  obtain ⟨Tx, hT⟩ := ssqueeze_exS sc t x.length W dW st nv h3 hproc hconst
  refine ⟨⟨Tx, W, [4, 2, 1], sc, dW⟩, ?_, rfl, rfl⟩
  have hc : checkSsqueezingArgs false (exS sc t).squeezing (exS sc t).maprange true (some .trig)
      (exS sc t).difforder (exS sc t).getW .cwt = .ok none := rfl
  unfold ssqCwt
  simp only [hc, hd, hs, hW, hT, ok_bind]

theorem infer123 : inferScaletype .f64 [1, 2, 3] = .ok (.linear, .none) := by
  unfold inferScaletype
  rw [if_neg (by decide), if_neg (by simp), if_neg, if_pos]
  · rw [meanAbsDiff2_zero (a := 1) (d := 1)]
    · norm_num [thLog]
    · intro i hi
      simp only [List.length_cons, List.length_nil] at hi
      interval_cases i <;> norm_num
  · rintro ⟨-, h⟩
    have h1 := meanAbsDiff2_ge ([1, 2, 3].map Real.log) 0 (by simp)
    simp only [List.map_cons, List.map_nil, List.length_cons, List.length_nil, List.getD_cons_succ, List.getD_cons_zero,
      Real.log_one] at h1
    have h4 : Real.log 3 - Real.log 2 - (Real.log 2 - 0) = -Real.log (4 / 3) := by
      rw [Real.log_div (by norm_num) (by norm_num), show (4 : ℝ) = 2 ^ 2 by norm_num, Real.log_pow]
      push_cast; ring
    have h5 : (1 : ℝ) / 4 ≤ Real.log (4 / 3) := by
      have := Real.one_sub_inv_le_log_of_pos (show (0 : ℝ) < 4 / 3 by norm_num)
      norm_num at this ⊢
      linarith
    rw [h4, abs_neg, abs_of_nonneg (by linarith)] at h1
    simp only [List.map_cons, List.map_nil, Real.log_one, thLog] at h
    norm_num at h h1
    linarith

theorem process123 (sh : List ℕ) (N : ℕ) (wv : Option ScaleWavelet) (up : Bool) (ds : ℕ)
    (hsh : (sh.filter (· ≠ 1)).length = 1) :
    processScales (.arr sh .f64 [1, 2, 3]) N wv none up ds = .ok ([1, 2, 3], .linear, 3, .none) := by
  unfold processScales
  simp only [hsh, ne_eq, not_true_eq_false, if_false, infer123, ok_bind, pure_eq_ok]
  rfl

theorem safe124 {o : SsqCwtOut} (hf : o.freqs = [4, 2, 1]) (M : ℕ) :
    Spec.SafeGrid 1 o.freqs.reverse true M := by
  rw [hf]
  exact Or.inr (Or.inl (transition_geometric geo124 (by simp)))

/-- **C41 is false** for linear scales: for one cycle of a cosine in four samples and the scales 1, 2, 3 the two
inverses differ (by the factor π/4). -/
theorem C41_refuted : ¬ C41_full := by
  intro h
  have hlenx : (Spec.tone 4 1 1 0).length = 4 := by simp [Spec.tone]
  obtain ⟨o, ho, hsc, hf⟩ := exS_ok [1, 2, 3] none (Spec.tone 4 1 1 0) (by rw [hlenx]; norm_num) .linear .none (by simp)
    process123 (fun v => ⟨_, _, rfl, rfl⟩)
  have hpos : ∀ s ∈ o.scales, 0 < s := by rw [hsc]; simp
  have hg := Or.inl (b := Spec.CwtLinearFreqs (Spec.tone 4 1 1 0).length (exS [1, 2, 3] none))
    (safe124 hf o.scales.length)
  obtain ⟨z, hz1, hz2⟩ := h _ _ o 2 ho rfl (by simp [exS, exSsq]) hpos hg (exS_nothing _ _ _ _)
  obtain ⟨y, xh, hy, hx, -, -, hv⟩ := C41_linear _ _ o 2 ho rfl (by simp [exS, exSsq]) hg (exS_nothing _ _ _ _) hpos .none
    (by rw [hsc]; exact infer123)
  rw [hz1] at hy
  rw [hz2] at hx
  simp only [Except.ok.injEq, Inverse.full.injEq] at hy hx
  subst hy hx
  obtain ⟨h1, h2⟩ := hv 0 (by rw [hlenx]; norm_num)
  obtain ⟨fs, dt, st, na, nv, k1, k2, k3, k4⟩ := ssqCwt_ok ho
  obtain ⟨_, _, -, -, -, -, hrow⟩ := cwt_tone 4 1 1 0 (by norm_num)
    ((exS [1, 2, 3] none).cwtArgs fs o.scales) rfl (analytic_fnR none) _ _ _ k3 hpos
  have hent : ∀ i < 3, ∀ s : ℝ, 0 < s → o.scales.getD i 0 = s → (ent o.Wx i 0).re = s * (Real.pi / 4) := by
    intro i hi s hs hsi
    have hi' : i < o.scales.length := by rw [hsc]; simpa using hi
    have hs' : o.scales[i] = s := by rw [← hsi, List.getD_eq_getElem _ _ hi']
    obtain ⟨ψ, hψ, -, -, hr⟩ := hrow i hi'
    have hψ' : ψ = ((s * (2 * Real.pi * 1 / 4) : ℝ) : ℂ) := by
      have hp : 0 ≤ s * (2 * Real.pi * 1 / 4) := by positivity
      rw [hs'] at hψ
      simp only [SsqCwtArgs.cwtArgs, exS, exSsq, WFn.eval, fnR, Nat.cast_one, Nat.cast_ofNat, ofReal_re] at hψ
      rw [if_pos hp] at hψ
      rcases hψ with e | e <;> exact e
    rw [(hr 0 (by norm_num)).1, hψ']
    simp only [CwtArgs.norm, SsqCwtArgs.cwtArgs, if_true, ofReal_one, one_mul, one_ne_zero, if_false, ofReal_zero,
      mul_zero, exp_zero, mul_one, Nat.cast_zero, zero_mul, tw_zero]
    rw [re_ofReal_mul]
    norm_num
    ring
  have hlen3 : o.scales.length = 3 := by rw [hsc]; rfl
  rw [hlen3, Finset.sum_range_succ, Finset.sum_range_succ, Finset.sum_range_succ, Finset.sum_range_zero,
    hent 0 (by norm_num) 1 (by norm_num) (by rw [hsc]; rfl), hent 1 (by norm_num) 2 (by norm_num) (by rw [hsc]; rfl),
    hent 2 (by norm_num) 3 (by norm_num) (by rw [hsc]; rfl), hsc] at h2
  rw [hsc] at h1
  simp only [List.getD_cons_succ, List.getD_cons_zero] at h1 h2
  norm_num at h1 h2
  have hpi := Real.pi_pos
  have hpi4 := Real.pi_le_four
  have hpi3 := Real.pi_lt_d2
  generalize z[0]?.getD 0 = u at h1 h2
  have hz : 0 < u := by
    rw [h2]; positivity
  nlinarith

/-- The hypotheses of `C41_equal_partial` hold for log and for piecewise scales, of `C41_linear` for linear ones,
for every nonempty signal and every pad type. -/
example (x : List ℝ) (hx : 0 < x.length) (t : Option PadType) :
    (∃ o xh, ssqCwt x (exS [1, 2, 4] t) = .ok o ∧ issqOf x.length o 2 = .ok (.full xh) ∧
      icwtOf x.length (exS [1, 2, 4] t) o 2 = .ok xh) ∧
    (∃ o xh, ssqCwt x (exS v6 t) = .ok o ∧ issqOf x.length o 2 = .ok (.full xh) ∧
      icwtOf x.length (exS v6 t) o 2 = .ok xh) := by
  constructor
  · obtain ⟨o, ho, hsc, hf⟩ := exS_ok [1, 2, 4] t x hx .log (.int (1 : ℕ)) (by simp)
      (fun sh N wv up ds hsh => process_geometric (dt := .f64) (by decide) (n := 1) le_rfl
        (by simpa using geo124) (by simp) hsh N wv up ds) (fun v => ⟨_, _, rfl, rfl⟩)
    obtain ⟨xh, h1, h2⟩ := C41_equal_partial x _ o 2 ho rfl (by simp [exS, exSsq]) (Or.inl (safe124 hf _))
      (exS_nothing _ _ _ _) .log (.int 1) 1 (by rw [hsc]; exact icwtScales_124) (by simp)
    exact ⟨o, xh, ho, h1, h2⟩
  · obtain ⟨o, ho, hsc, hf⟩ := exS_ok v6 t x hx _ _ (by simp [v6])
      (fun sh N wv up ds hsh => process_v6 N wv none up ds hsh) (fun v => ⟨_, _, rfl, by simp [constArr, nvTwo, v6]; rfl⟩)
    obtain ⟨xh, h1, h2⟩ := C41_equal_partial x _ o 2 ho rfl (by simp [exS, exSsq]) (Or.inl (safe124 hf _))
      (exS_nothing _ _ _ _) _ _ 2 (by rw [hsc]; exact icwtScales_v6) (by simp)
    exact ⟨o, xh, ho, h1, h2⟩

end Ssq
