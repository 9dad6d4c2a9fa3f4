import Verif.Props.RidgeIf
import Verif.Props.FreqCount
import Verif.Props.FeedBack
import Verif.Props.CwtThreads
import Verif.Props.Anim

/-!
# More concrete cases

Calls that meet the hypotheses of theorems for logarithmic frequencies (C154, C164, C205), of C223, C221, C214 and C132.
-/
namespace Ssq

open Complex

/-- `exBand` with frequencies 1, 2, 4. -/
noncomputable def exBandLog : SsqCwtArgs :=
  { exSsq none with wavelet := ⟨.real fun w => if 2 < w ∧ w < 6 then 1 else 0, sw0, none⟩ }

theorem exBandLog_ok (x : List ℝ) (hx : 0 < x.length) :
    ∃ o, ssqCwt x exBandLog = .ok o ∧ o.scales = [1, 2, 4] ∧ o.freqs = [4, 2, 1] := by
  have hr : processFsT (some 8) none x.length = .ok (.fin 8 (1 / 8)) := by
    simp only [processFsT]; rw [if_neg (by norm_num)]
  have hd : cwtDt exBandLog.fs exBandLog.t x.length = .ok (8, 1 / 8) := by
    simp only [cwtDt, exBandLog, exSsq, hr, ok_bind]
  have hs : ∀ N, processScales exBandLog.scales N (some exBandLog.wavelet.sw) (ssqCwtNv exBandLog) true
      exBandLog.downsample = .ok ([1, 2, 4], .log, 3, .int 1) := fun N => process124 _ _ _ _
  have hs' : processScales (exBandLog.cwtArgs 8 [1, 2, 4]).scales x.length
      (some (exBandLog.cwtArgs 8 [1, 2, 4]).wavelet.sw) none true (exBandLog.cwtArgs 8 [1, 2, 4]).downsample =
      .ok ([1, 2, 4], .log, 3, .int 1) := by
    have hp : positiveInteger ((1 : ℤ) : ℚ) = .ok 1 := by rfl
    simp only [SsqCwtArgs.cwtArgs, ScalesArg.dtype, exBandLog, exSsq, sc124, processScales, infer124, ok_bind, pure_eq_ok,
      ne_eq, not_true_eq_false, false_and, if_false, hp]
    rfl
  obtain ⟨W, dW, hW⟩ := C37_succeeds x (exBandLog.cwtArgs 8 [1, 2, 4]) none rfl hx 8 (1 / 8) hr
    (by simp [SsqCwtArgs.cwtArgs, exBandLog, exSsq]) [1, 2, 4] .log 3 (.int 1) none
    (by simp [SsqCwtArgs.cwtArgs]) (fun _ => rfl) hs'
  obtain ⟨Tx, hT⟩ := ssqueeze_exSsq none x.length W dW
  have hT : ssqueeze (exBandLog.ssqArgs 8 .log [1, 2, 4] x.length W dW) = .ok (Tx, [4, 2, 1]) := hT
  refine ⟨⟨Tx, W, [4, 2, 1], [1, 2, 4], dW⟩, ?_, rfl, rfl⟩
  have hc : checkSsqueezingArgs false exBandLog.squeezing exBandLog.maprange true (some .trig)
      exBandLog.difforder exBandLog.getW .cwt = .ok none := rfl
  unfold ssqCwt
  simp only [hc, hd, hs, hW, hT, ok_bind]

theorem exBandLog_fs {N : ℕ} {fs dt : ℝ} (h : processFsT exBandLog.fs exBandLog.t N = .ok (.fin fs dt)) : fs = 8 := by
  simp only [exBandLog, exSsq, processFsT] at h
  rw [if_neg (by norm_num)] at h
  simp only [Except.ok.injEq, Rate.fin.injEq] at h
  exact h.1.symm

/-- A frequency within 1/20 of 1 is nearest, of 4, 2, 1, to the last, also in log-frequency. -/
theorem nearestLog_421 {w : ℝ} (hw : |w - 1| ≤ 1 / 20) {r : ℕ} (h : Spec.NearestLog [4, 2, 1] w r) : r = 2 := by
  obtain ⟨hk, hmin⟩ := h
  have h2 := hmin 2 (by simp)
  rw [abs_le] at hw
  have l1 : Real.logb 2 2 = 1 := Real.logb_self_eq_one (by norm_num)
  have l2 : Real.logb 2 4 = 2 := by
    rw [show (4 : ℝ) = 2 ^ (2 : ℝ) by norm_num, Real.logb_rpow (by norm_num) (by norm_num)]
  have e : Real.logb 2 (w ^ 2) = 2 * Real.logb 2 w := by
    rw [Real.logb_pow]; norm_num
  have up : Real.logb 2 (w ^ 2) < 1 := by
    rw [← l1]
    exact Real.logb_lt_logb (by norm_num) (by nlinarith) (by nlinarith)
  have lo : -1 < Real.logb 2 (w ^ 2) := by
    have : Real.logb 2 (2⁻¹) = -1 := by rw [Real.logb_inv, l1]
    rw [← this]
    exact Real.logb_lt_logb (by norm_num) (by norm_num) (by nlinarith)
  have e2 : ([4, 2, 1] : List ℝ)[2] = 1 := rfl
  rw [e2, Real.logb_one, sub_zero] at h2
  have hb : |Real.logb 2 w| < 1 / 2 := by rw [abs_lt]; constructor <;> linarith
  simp only [List.length_cons, List.length_nil] at hk
  interval_cases r
  · have e0 : ([4, 2, 1] : List ℝ)[0] = 4 := rfl
    rw [e0, l2] at h2
    have := abs_lt.1 hb
    rw [abs_of_neg (by linarith)] at h2
    linarith
  · have e0 : ([4, 2, 1] : List ℝ)[1] = 2 := rfl
    rw [e0, l1] at h2
    have := abs_lt.1 hb
    rw [abs_of_neg (by linarith)] at h2
    linarith
  · rfl

theorem exBandLog_layout (N : ℕ) : Spec.CwtLogFreqs N exBandLog := ⟨.log, .int 1, infer124, by simp⟩

/-- The hypotheses of `C164_rows_log` are met by the disturbed tone: the rows of 4 and 2 Hz are empty at all times. -/
example : ∃ o, ssqCwt exOff exBandLog = .ok o ∧ o.freqs = [4, 2, 1] ∧ ∀ j < 8, o.Tx (0 : ℕ) j = 0 ∧ o.Tx (1 : ℕ) j = 0 := by
  obtain ⟨o, h, hsc, hf⟩ := exBandLog_ok exOff (by simp [exOff])
  refine ⟨o, h, hf, ?_⟩
  have hl : exOff.length = 8 := by simp [exOff]
  obtain ⟨xp, n1, fs, dt, h1, h2, h3⟩ := C164_rows_log exOff (by rw [hl]; norm_num) exBandLog none rfl
    (exBand_band.analytic (by norm_num)) (fun w => by simp [exBandLog, WFn.eval]) (by simp [exBandLog, exSsq]) rfl rfl
    (by simp [exBandLog, exSsq]) (exBandLog_layout _) o h (by rw [hsc]; simp) (by rw [hf]; exact loggrid124)
    (by rw [hf, hsc]; rfl)
  obtain ⟨rfl, rfl⟩ := h1
  obtain rfl := exBandLog_fs h2
  rw [hl] at h3
  have hgam : exBandLog.gamma.getD (10 * exBandLog.eps) = 1 / 100 := by simp [exBandLog, exSsq]
  have key : ∀ r < 2, ∀ j < 8, o.Tx (r : ℕ) j = 0 := by
    intro r hr j hj
    by_contra hne
    obtain ⟨w, hw, hn⟩ := h3 j hj 1 2 0 (by norm_num) (1 / 20) (by norm_num)
      (fun i _ => by rw [hgam, zero_add]; exact exOff_dist _ j) r (by rw [hsc]; simp; omega) hne
    rw [hf] at hn
    have := nearestLog_421 (by norm_num at hw ⊢; exact hw) hn
    omega
  exact fun j hj => ⟨key 0 (by norm_num) j hj, key 1 (by norm_num) j hj⟩

/-- The hypotheses of `C205_cwt_log` and `C154_tones_log` are met by a tone of 1 Hz: its ridge is the last row, 1 Hz. -/
example : ∃ o, ssqCwt (Spec.mix 8 1 fun _ => Spec.tone 8 1 8 0) exBandLog = .ok o ∧ o.freqs = [4, 2, 1] ∧
    ∀ b : RidgeArgs, b = ⟨3, 8, fun r j => o.Tx r j, fun r => o.freqs.getD r 0, 2, 1, 1, false, 1 / 2 ^ 52⟩ →
    ∃ out, extractRidges b (serialSched 3) = .ok out ∧ ∃ h0 : 0 < out.length, ∀ j < 8, (out[0]).idx j = 2 ∧ (out[0]).f j = 1 := by
  set x : List ℝ := Spec.mix 8 1 fun _ => Spec.tone 8 1 8 0 with hxdef
  have hl : x.length = 8 := by rw [hxdef, mix_length]
  obtain ⟨o, h, hsc, hf⟩ := exBandLog_ok x (by omega)
  refine ⟨o, h, hf, ?_⟩
  have hgrid : Spec.LogGrid o.freqs.reverse := by rw [hf]; exact loggrid124
  have hlen : o.freqs.length = o.scales.length := by rw [hf, hsc]; rfl
  have hpos : ∀ s ∈ o.scales, 0 < s := by rw [hsc]; simp
  have hgam : 0 < exBandLog.gamma.getD (10 * exBandLog.eps) := by simp [exBandLog, exSsq]
  have hth : 0 < exBandLog.th := by simp [exBandLog, exSsq]
  obtain ⟨xp, n1, fs, dt, h1, h2, h3⟩ := C205_cwt_log x (by omega) exBandLog none rfl (exBand_band.analytic (by norm_num))
    (fun w => by simp [exBandLog, WFn.eval]) hgam rfl rfl hth (exBandLog_layout _) o h hpos hgrid hlen
  obtain ⟨rfl, rfl⟩ := h1
  obtain rfl := exBandLog_fs h2
  obtain ⟨fs', dt', st, nv, i1, i2, rs, hn, hT⟩ := C154_tones_log 8 1 (by norm_num) (fun _ => 1) (fun _ => 8) (fun _ => 0)
    (fun c _ => by omega) (fun c hc => by omega) exBandLog rfl 2 6 (by norm_num) exBand_band (fun w => by simp [exBandLog, WFn.eval])
    (fun c hc d hd hcd => by omega) hgam rfl rfl hth (exBandLog_layout _) o h hpos hgrid hlen
  obtain rfl := exBandLog_fs i1
  have honly : Spec.OnlyNearestLog o.freqs 1 0 2 := by
    intro w hw i hi
    rw [hf] at hi
    exact nearestLog_421 (hw.trans (by norm_num)) hi
  have hrs : rs 0 = 2 := honly 1 (by simp) _ (by simpa using hn 0 (by norm_num))
  rw [hsc] at i2
  have i2' : inferScaletype exBandLog.dtype [1, 2, 4] = .ok (.log, .int 1) := infer124
  rw [i2] at i2'
  simp only [Except.ok.injEq, Prod.mk.injEq] at i2'
  obtain ⟨rfl, rfl⟩ := i2'
  have hpi := Real.pi_gt_three
  have hpi' := Real.pi_lt_d2
  have hin : ∀ w : ℝ, 2 < w → w < 6 → exBandLog.wavelet.fn.eval w = ((1 : ℝ) : ℂ) := by
    intro w h h'
    simp only [exBandLog, WFn.eval, if_pos (And.intro h h')]
  have hout : ∀ w : ℝ, (w < 2 ∨ 6 < w) → exBandLog.wavelet.fn.eval w = ((0 : ℝ) : ℂ) := by
    intro w h
    simp only [exBandLog, WFn.eval]
    rw [if_neg (by rintro ⟨h1, h2⟩; rcases h with h | h <;> linarith)]
  have hkept : ∀ z : ℝ, Spec.KeptMag exBandLog z ↔ 1 / 100 < z := fun z => by
    simp [Spec.KeptMag, exBandLog, exSsq]
  have g0 : Spec.toneGain exBandLog 8 o.scales .log (.int 1) 1 8 = Real.log 2 := by
    simp only [hsc, Spec.toneGain, List.length_cons, List.length_nil, Finset.sum_range_succ, Finset.sum_range_zero, Spec.scaleMeasure, List.getD_cons_zero, List.getD_cons_succ,
      hkept]
    rw [hout _ (Or.inl (by push_cast; linarith)), hout _ (Or.inl (by push_cast; linarith)), hin _ (by push_cast; linarith) (by push_cast; linarith)]
    simp only [Complex.ofReal_re]
    norm_num
  have hTx : ∀ j < 8, o.Tx (2 : ℕ) j ≠ 0 := by
    intro j hj
    rw [hT.1 2 (by rw [hsc]; simp) j hj, Finset.sum_range_one, hrs, if_pos rfl, g0]
    refine mul_ne_zero ?_ (mul_ne_zero ?_ (Complex.exp_ne_zero _))
    · exact_mod_cast (Real.log_pos (by norm_num)).ne'
    · norm_num
  rintro b rfl
  have hx8 : ∀ q < 8, x.getD q 0 = (Spec.tone 8 1 8 0).getD q 0 := by
    intro q hq
    rw [hxdef, Spec.mix, getD_map_range _ _ hq, Finset.sum_range_one]
  have hex : ∃ out, extractRidges ⟨3, 8, fun r j => o.Tx r j, fun r => o.freqs.getD r 0, 2, 1, 1, false, 1 / 2 ^ 52⟩ (serialSched 3) = .ok out := by
    unfold extractRidges
    rw [if_neg (by norm_num), if_neg (by norm_num), if_neg (by norm_num)]
    exact ⟨_, rfl⟩
  obtain ⟨out, ho⟩ := hex
  have hol : out.length = 1 := (extract_spec ho).1
  refine ⟨out, ho, by omega, fun j hj => ?_⟩
  rw [hl] at h3
  have key := h3 (fun _ => 1) (fun _ => 8) (fun _ => 0) (fun _ => 0) (fun _ => 2) 0
    (fun j hj => ⟨by norm_num, by norm_num, fun i _ => ?_, ?_, 2, by rw [hsc]; simp, hTx j hj⟩)
    _ (serialSched 3) ⟨serial_valid _, by rw [hsc]; rfl, rfl, fun _ _ => rfl, by rw [hsc]; simp, by norm_num, by norm_num, by norm_num, le_rfl, fun t _ => ?_, ?_⟩ out ho
    (by omega) j hj
  · refine ⟨key.1, ?_⟩
    rw [key.2.1]
    simp [hf]
  · rw [zero_mul]
    refine le_of_eq ?_
    unfold Spec.localDist
    refine Finset.sum_eq_zero fun q hq => ?_
    simp only []
    rw [hx8 q (Finset.mem_range.1 hq), sub_self, abs_zero, zero_mul]
  · have : ((1 : ℕ) : ℝ) * 8 / ((8 : ℕ) : ℝ) = 1 := by norm_num
    rw [this]
    exact honly
  · unfold Spec.jump
    simp
  · have : Real.log 2 ≤ Real.log ((1 + 1 / 2 ^ 52) / (1 / 2 ^ 52)) := Real.log_le_log (by norm_num) (by norm_num)
    have l2 := Real.log_two_gt_d9
    norm_num at *
    linarith

/-- The hypotheses of `C132_middle` are met: of five scales, the third is at position 2 + 3 + 8. -/
example : ∃ out, makeAnimScales [1, 2, 3, 4, 5] = .ok out ∧ out.getD 13 0 = 3 := by
  obtain ⟨out, h⟩ := (C132_fails [1, 2, 3, 4, 5]).2 (by simp)
  exact ⟨out, h, by simpa using C132_middle _ _ h 2 (by simp) (by simp)⟩

/-- The hypotheses of `C214_own_partial` are met by two threads with wavelets of their own and signals of different
lengths, taking turns. -/
example : ∃ r, (tRun (fun i => { len := 128 * (i + 1), scales := [2, 4] }) id (fun _ => { N := 1024, psih := none, pN := none, ps := [] })
      ((List.range 30).map (· % 2))).pc 1 = .done r ∧ Spec.RightFor { len := 256, scales := [2, 4] } r := by
  obtain ⟨r, hr⟩ := C214_ends (fun i => { len := 128 * (i + 1), scales := [2, 4] }) id (fun _ => { N := 1024, psih := none, pN := none, ps := [] })
    ((List.range 30).map (· % 2)) 1 (by decide)
  refine ⟨r, hr, (C214_own_partial (fun i => { len := 128 * (i + 1), scales := [2, 4] }) id Function.injective_id _ _ ?_ 1 r hr).1⟩
  intro k
  simp [Spec.WavOk]

/-- `ex124` with the frequencies 1, 2, 3. -/
noncomputable def exL123 : SsqArgs := { ex124 true with ssqFreqs := .arr .f64 [1, 2, 3] }

theorem exL123_linear : Spec.LinearLayout exL123 := Or.inr ⟨.none, infer123⟩

theorem exL123_ok : ∃ Tx, ssqueeze exL123 = .ok (Tx, [3, 2, 1]) := by
  obtain ⟨T, h⟩ := ex1234_ok
  obtain ⟨dt, sc, fr, const, ls, h1, h2, h3, h4, h5, h6, h7⟩ := ssqueeze_ok h
  have e1 : ssqProcessArgs exL123 = .ok dt := h1
  have e2 : ssqScales exL123 = .ok sc := h2
  have e3 : ssqFreqsOf exL123 dt sc.1 sc.2 = .ok ([1, 2, 3], .known .linear) := by
    unfold ssqFreqsOf exL123
    simp only
    rw [if_neg (by simp [ex124]), infer123, ok_bind]
  have e4 : ssqConst exL123.transform sc.1 sc.2 [1, 2, 3] = .ok const := by
    have hs : ssqScales (ex124 true) = .ok (some [1, 2, 4], some (.log, .int 1)) := by
      have hp : positiveInteger ((1 : ℤ) : ℚ) = .ok 1 := by rfl
      simp only [ssqScales, ex124, processScales, infer124, ok_bind, pure_eq_ok, ne_eq,
        not_true_eq_false, false_and, if_false, hp]
      rfl
    have h2' : ssqScales (ex124 true) = .ok sc := h2
    rw [hs] at h2'
    simp only [Except.ok.injEq] at h2'
    subst h2'
    exact h4
  have e6 : ∃ T, ssqKernel exL123 (applySqueezing exL123.squeezing exL123.M exL123.Wx) [1, 2, 3] const false = .ok T := by
    have hw : ∀ v b, ssqKernel exL123 (applySqueezing exL123.squeezing exL123.M exL123.Wx) v const b =
        indexedSumOnfly .cpu 1 3 1 (fun _ _ => 0) (fun _ _ => 1) (fun i _ => if i = 0 then .fin 1 else .inf) v const b true :=
      fun v b => rfl
    have h6' : indexedSumOnfly .cpu 1 3 1 (fun _ _ => 0) (fun _ _ => 1) (fun i _ => if i = 0 then .fin 1 else .inf)
        fr.1 const ls true = .ok T := h6
    obtain ⟨c, p, hc, -, -⟩ := onfly_ok h6'
    rw [hw]
    unfold indexedSumOnfly onflyBody processSsqParams
    rw [hc]
    simp only [ok_bind, pure_eq_ok, Bool.false_eq_true, if_false]
    exact ⟨_, rfl⟩
  obtain ⟨T', e6⟩ := e6
  refine ⟨T', ?_⟩
  have hr : ssqReverses exL123.transform exL123.flipud = true := rfl
  unfold ssqueeze
  simp only [e1, ok_bind, e2, e3, e4, SsqType.isLog, e6, pure_eq_ok, hr, if_true]
  rfl

/-- The hypotheses of `C223_first_two` are met by the frequencies 1, 2, 3, 4 and 1, 2, 3: `Tx` is the same. -/
example : ∃ Tx, ssqueeze ex1234 = .ok (Tx, [4, 3, 2, 1]) ∧ ssqueeze exL123 = .ok (Tx, [3, 2, 1]) := by
  obtain ⟨T, h⟩ := ex1234_ok
  obtain ⟨T', h'⟩ := exL123_ok
  have := C223_first_two (ex124 true) .f64 .f64 [1, 2, 3, 4] [1, 2, 3] (by simp) (by simp) rfl rfl ex1234_linear
    exL123_linear T T' _ _ h h'
  subst this
  exact ⟨T', h, h'⟩

/-- The hypotheses of `C223_equal_partial` are met by three scales and three frequencies; the cell of phase 1 is in the
last row, and the returned frequency there is 1. -/
example : ∃ Tx, ssqueeze exL123 = .ok (Tx, [3, 2, 1]) ∧ Tx (0 : ℕ) 0 = 0 ∧ Tx (1 : ℕ) 0 = 0 := by
  obtain ⟨Tx, h⟩ := exL123_ok
  have hu : Spec.Uniform [1, 2, 3] 1 1 := by
    intro i hi
    simp only [List.length_cons, List.length_nil] at hi
    interval_cases i <;> norm_num
  obtain ⟨-, c, row, hn, hT⟩ := C223_equal_partial exL123 .f64 [1, 2, 3] 1 1 rfl exL123_linear (Or.inl rfl) hu eps64_le_one
    (by simp [exL123, ex124]) rfl Tx _ h
  have r1 : row 1 = 2 := by
    obtain ⟨hk, hh⟩ := hn 1
    have h3 := hh 2 (by simp)
    simp only [List.length_cons, List.length_nil] at hk
    interval_cases hr : row 1
    · norm_num at h3
    · norm_num at h3
    · rfl
  refine ⟨Tx, h, ?_, ?_⟩
  · rw [hT 0 (by simp [exL123, ex124]) 0 (by simp [exL123, ex124])]
    simp [Spec.squeezed, Spec.usedPhase, exL123, ex124, Finset.sum_range_succ, r1]
  · rw [hT 1 (by simp [exL123, ex124]) 0 (by simp [exL123, ex124])]
    simp [Spec.squeezed, Spec.usedPhase, exL123, ex124, Finset.sum_range_succ, r1]

/-- The same as an STFT, without `flipud`. -/
noncomputable def exS123 : SsqArgs := { exL123 with transform := .stft, flipud := false, scales := none }

theorem exS123_ok : ∃ Tx, ssqueeze exS123 = .ok (Tx, [1, 2, 3]) := by
  obtain ⟨T, h⟩ := exL123_ok
  obtain ⟨dt, sc, fr, const, ls, h1, -⟩ := ssqueeze_ok h
  have hneg : ¬ ∃ w, exS123.w = some w ∧ hasNegative exS123.M exS123.N w := by
    intro hh
    have hh : ∃ w, exL123.w = some w ∧ hasNegative exL123.M exL123.N w := hh
    unfold ssqProcessArgs at h1
    rw [if_neg (by simp [exL123, ex124]), if_pos hh] at h1
    simp at h1
  have e1 : ∃ dt, ssqProcessArgs exS123 = .ok dt := by
    unfold ssqProcessArgs
    rw [if_neg (by simp [exS123, exL123, ex124]), if_neg hneg]
    refine ⟨1, ?_⟩
    have hc : checkSsqueezingArgs false .sum .maximal false none none false .stft = .ok none := rfl
    simp only [exS123, exL123, ex124, Option.isSome_none, hc, ok_bind, processFsT]
    norm_num
    exact fun h => by simp at h
  obtain ⟨dt', e1⟩ := e1
  have e2 : ssqScales exS123 = .ok (none, none) := rfl
  have e3 : ssqFreqsOf exS123 dt' none none = .ok ([1, 2, 3], .known .linear) := by
    unfold ssqFreqsOf exS123 exL123
    simp only
    rfl
  have e4 : ssqConst exS123.transform none none [1, 2, 3] = .ok (.scalar (2 - 1)) := rfl
  have e6 : ∃ T, ssqKernel exS123 (applySqueezing exS123.squeezing exS123.M exS123.Wx) [1, 2, 3] (.scalar (2 - 1)) false = .ok T := by
    have hw : ∀ v c b, ssqKernel exS123 (applySqueezing exS123.squeezing exS123.M exS123.Wx) v c b =
        indexedSumOnfly .cpu 1 3 1 (fun _ _ => 0) (fun _ _ => 1) (fun i _ => if i = 0 then .fin 1 else .inf) v c b false :=
      fun v c b => rfl
    rw [hw]
    unfold indexedSumOnfly onflyBody processSsqParams constArr
    simp only [ok_bind, pure_eq_ok, Bool.false_eq_true, if_false]
    exact ⟨_, rfl⟩
  obtain ⟨T', e6⟩ := e6
  refine ⟨T', ?_⟩
  have hr : ssqReverses exS123.transform exS123.flipud = false := rfl
  unfold ssqueeze
  simp only [e1, ok_bind, e2, e3, e4, SsqType.isLog, e6, pure_eq_ok, hr]
  rfl

/-- The hypotheses of `C221_stft_partial` are met: the frequencies 1, 2, 3 fed back give the same. -/
example : ∃ Tx, ssqueeze exS123 = .ok (Tx, [1, 2, 3]) ∧
    ssqueeze { exS123 with ssqFreqs := .arr .f32 [1, 2, 3] } = .ok (Tx, [1, 2, 3]) := by
  obtain ⟨Tx, h⟩ := exS123_ok
  exact ⟨Tx, h, C221_stft_partial exS123 rfl rfl (Or.inl rfl) Tx _ h .f32⟩

end Ssq
