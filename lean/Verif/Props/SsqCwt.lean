import Verif.Model.SsqCwt
import Verif.Props.CwtTone
import Verif.Props.Ssqueeze

/-!
# Synchrosqueezed CWT of tones (C39)
-/
namespace Ssq
open Complex

/-- Per-scale `nv` has one entry per scale. -/
theorem inferScaletype_nv_length {d : FDtype} {v : List ℝ} {st : ScaleType} {nv : Nv}
    (h : inferScaletype d v = .ok (st, nv)) : 3 ≤ v.length ∧ ∀ l, nv = .arr l → l.length = v.length := by
  unfold inferScaletype at h
  split at h
  · simp at h
  · split at h
    · simp at h
    · rename_i h3
      refine ⟨by omega, fun l hl => ?_⟩
      subst hl
      split at h
      · simp only at h
        split at h <;> simp at h
      · split at h
        · simp at h
        · split at h
          · simp at h
          · obtain ⟨o, ho, h⟩ := bind_ok h
            cases o with
            | none => simp [throw, throwThe, MonadExceptOf.throw] at h
            | some i =>
              simp only at h
              obtain ⟨l', hl', h⟩ := bind_ok h
              simp only [pure_eq_ok, Except.ok.injEq, Prod.mk.injEq, Nv.arr.injEq] at h
              rw [← h.2]
              unfold nvFromScales at hl'
              simp only at hl'
              obtain ⟨o, ho, hl'⟩ := bind_ok hl'
              have hlen : (List.take 1 (List.map (fun i : ℕ => 1 / (Real.logb 2 (v.getD (i + 1) 1) -
                  Real.logb 2 (v.getD i 1))) (List.range (v.length - 1))) ++
                  List.map (fun i : ℕ => 1 / (Real.logb 2 (v.getD (i + 1) 1) -
                  Real.logb 2 (v.getD i 1))) (List.range (v.length - 1))).length = v.length := by
                simp; omega
              cases o with
              | none =>
                simp only [pure_eq_ok, Except.ok.injEq] at hl'
                rw [← hl', hlen]
              | some i =>
                simp only at hl'
                split at hl'
                · simp only [pure_eq_ok, Except.ok.injEq] at hl'
                  rw [← hl', hlen]
                · simp [throw, throwThe, MonadExceptOf.throw] at hl'

/-- Processed array scales are the array, and it was recognised. -/
theorem processScales_arr_infer {sh : List ℕ} {d : FDtype} {v : List ℝ} {N : ℕ} {wv : Option ScaleWavelet}
    {nv : Option ℚ} {up : Bool} {ds : ℕ} {r : List ℝ × ScaleType × ℕ × Nv}
    (h : processScales (.arr sh d v) N wv nv up ds = .ok r) :
    r.1 = v ∧ ∃ st nv', inferScaletype d v = .ok (st, nv') := by
  unfold processScales at h
  simp only at h
  split at h
  · simp at h
  · obtain ⟨q, hq, h⟩ := bind_ok h
    obtain ⟨st, nv'⟩ := q
    refine ⟨?_, st, nv', hq⟩
    simp only at h
    split at h
    · split at h
      · simp at h
      · obtain ⟨m, hm, h⟩ := bind_ok h
        simp only [pure_eq_ok, Except.ok.injEq] at h
        rw [← h]
    · simp only [pure_eq_ok, Except.ok.injEq] at h
      rw [← h]
    · split at h
      · simp only [pure_eq_ok, Except.ok.injEq] at h
        rw [← h]
      · obtain ⟨m, hm, h⟩ := bind_ok h
        simp only [pure_eq_ok, Except.ok.injEq] at h
        rw [← h]

/-- What a successful call of `ssq_cwt` went through. -/
theorem ssqCwt_ok {x : List ℝ} {a : SsqCwtArgs} {o : SsqCwtOut} (h : ssqCwt x a = .ok o) :
    ∃ fs dt st na nv, processFsT a.fs a.t x.length = .ok (.fin fs dt) ∧
      processScales a.scales x.length (some a.wavelet.sw) (ssqCwtNv a) true a.downsample =
        .ok (o.scales, st, na, nv) ∧
      cwt x (a.cwtArgs fs o.scales) = .ok (o.Wx, o.scales, o.dWx) ∧
      ssqueeze (a.ssqArgs fs st o.scales x.length o.Wx o.dWx) = .ok (o.Tx, o.freqs) := by
  unfold ssqCwt at h
  obtain ⟨_, _, h⟩ := bind_ok h
  obtain ⟨r, hr, h⟩ := bind_ok h
  obtain ⟨sc, hsc, h⟩ := bind_ok h
  obtain ⟨W, hW, h⟩ := bind_ok h
  obtain ⟨T, hT, h⟩ := bind_ok h
  simp only [Except.ok.injEq] at h
  subst h
  obtain ⟨sc1, st, na, nv⟩ := sc
  obtain ⟨W1, W2, W3⟩ := W
  have : W2 = sc1 := by
    obtain ⟨r', p, sc', _, _, _, hsc', e, _⟩ := (cwt_ok_iff _ _ _ _ _).1 hW
    rw [← e]
    exact (processScales_arr_infer hsc').1
  subst this
  exact ⟨r.1, r.2, st, na, nv, cwtDt_fin hr, hsc, hW, hT⟩

namespace Spec

/-- `ssq_cwt` lays the frequencies out logarithmically: they are named so, given as an array recognised
as such, or follow the scales, which are so. -/
def CwtLogFreqs (N : ℕ) (a : SsqCwtArgs) : Prop :=
  match a.ssqFreqs with
  | .name s => s = .known .log ∨ s = .known .logPiecewise
  | .arr d v => ∃ st nv, inferScaletype d v = .ok (st, nv) ∧ st ≠ .linear
  | .none => ∃ sc st na nv, processScales a.scales N (some a.wavelet.sw) (ssqCwtNv a) true a.downsample =
      .ok (sc, st, na, nv) ∧ st ≠ .linear

/-- The same for the linear layout. -/
def CwtLinearFreqs (N : ℕ) (a : SsqCwtArgs) : Prop :=
  match a.ssqFreqs with
  | .name s => s = .known .linear
  | .arr d v => ∃ nv, inferScaletype d v = .ok (.linear, nv)
  | .none => ∃ sc na nv, processScales a.scales N (some a.wavelet.sw) (ssqCwtNv a) true a.downsample =
      .ok (sc, .linear, na, nv)

/-- The cells kept by the squeezing: above `gamma` (at least `gamma` if the phase transform is computed
separately). -/
def Kept (a : SsqCwtArgs) (z : ℂ) : Prop :=
  if a.getW then a.gamma.getD (10 * a.eps) ≤ ‖z‖ else a.gamma.getD (10 * a.eps) < ‖z‖

end Spec

theorem cwtLog_layout {N : ℕ} {a : SsqCwtArgs} (h : Spec.CwtLogFreqs N a) {sc : List ℝ} {st : ScaleType}
    {na : ℕ} {nv : Nv}
    (hp : processScales a.scales N (some a.wavelet.sw) (ssqCwtNv a) true a.downsample = .ok (sc, st, na, nv))
    (fs : ℝ) (sc' : List ℝ) (W dW : List (List ℂ)) :
    Spec.LogLayout (a.ssqArgs fs st sc' N W dW) := by
  unfold Spec.CwtLogFreqs at h
  unfold Spec.LogLayout SsqCwtArgs.ssqArgs
  cases ha : a.ssqFreqs with
  | none =>
    rw [ha] at h
    simp only at h ⊢
    obtain ⟨sc1, st1, na1, nv1, h1, h2⟩ := h
    rw [hp] at h1
    simp only [Except.ok.injEq, Prod.mk.injEq] at h1
    rw [h1.2.1]
    cases st1 <;> simp_all
  | name s => rw [ha] at h; exact h
  | arr d v => rw [ha] at h; exact ⟨rfl, h⟩

theorem cwtLinear_layout {N : ℕ} {a : SsqCwtArgs} (h : Spec.CwtLinearFreqs N a) {sc : List ℝ} {st : ScaleType}
    {na : ℕ} {nv : Nv}
    (hp : processScales a.scales N (some a.wavelet.sw) (ssqCwtNv a) true a.downsample = .ok (sc, st, na, nv))
    (fs : ℝ) (sc' : List ℝ) (W dW : List (List ℂ)) :
    Spec.LinearLayout (a.ssqArgs fs st sc' N W dW) := by
  unfold Spec.CwtLinearFreqs at h
  unfold Spec.LinearLayout SsqCwtArgs.ssqArgs
  cases ha : a.ssqFreqs with
  | none =>
    rw [ha] at h
    simp only at h ⊢
    obtain ⟨sc1, na1, nv1, h1⟩ := h
    rw [hp] at h1
    simp only [Except.ok.injEq, Prod.mk.injEq] at h1
    rw [h1.2.1]
  | name s => rw [ha] at h; exact h
  | arr d v => rw [ha] at h; exact Or.inr h

/-- The scales of a successful call are recognised in the wavelet's dtype. -/
theorem ssqueeze_scales {a : SsqArgs} {r : (ℤ → ℕ → ℂ) × List ℝ} (h : ssqueeze a = .ok r)
    (htr : a.transform = .cwt) {sh : List ℕ} {d : FDtype} {sv : List ℝ}
    (hsc : a.scales = some (.arr sh d sv)) : ∃ st nv, inferScaletype d sv = .ok (st, nv) := by
  obtain ⟨dt, sc, fr, const, ls, h1, h2, -⟩ := ssqueeze_ok (Tx := r.1) (f := r.2) h
  unfold ssqScales at h2
  rw [htr, hsc] at h2
  simp only at h2
  obtain ⟨q, hq, _⟩ := bind_ok h2
  exact (processScales_arr_infer hq).2

open Classical in
/-- If every kept cell of column `j` has the same phase `x`, the squeezed column is one entry. -/
theorem squeezed_const_phase (M : ℕ) (W : ℕ → ℕ → ℂ) (c : ℕ → ℝ) (w : ℕ → ℕ → Phase) (row : ℝ → ℕ)
    (j : ℕ) (x : ℝ) (K : ℕ → Prop) (hK : ∀ i < M, w i j = if K i then .fin x else .inf) (r : ℕ) :
    Spec.squeezed M W c w row r j =
      if r = row x then ∑ i ∈ Finset.range M, (if K i then W i j * (c i : ℂ) else 0) else 0 := by
  unfold Spec.squeezed
  split
  · rename_i hr
    refine Finset.sum_congr rfl fun i hi => ?_
    rw [hK i (Finset.mem_range.1 hi)]
    by_cases h : K i
    · simp [h, hr]
    · simp [h]
  · rename_i hr
    refine Finset.sum_eq_zero fun i hi => ?_
    rw [hK i (Finset.mem_range.1 hi)]
    by_cases h : K i
    · simp only [h, if_true]; rw [if_neg (fun e => hr e.symm)]
    · simp [h]

open Classical in
/-- The phase used for a tone: the tone's frequency in kept cells (a zero cell is kept only if the
threshold is not positive). -/
theorem tone_usedPhase (N k : ℕ) (A φ : ℝ) (hk : 2 * k < N) (a : SsqCwtArgs) (hp : a.padtype = none)
    (han : Spec.Analytic a.wavelet.fn.eval) (hg : 0 < a.gamma.getD (10 * a.eps))
    (hsq : a.squeezing = .sum) {o : SsqCwtOut} {fs dt : ℝ} {st : ScaleType}
    (hfs : processFsT a.fs a.t N = .ok (.fin fs dt))
    (hW : cwt (Spec.tone N k A φ) (a.cwtArgs fs o.scales) = .ok (o.Wx, o.scales, o.dWx))
    (hpos : ∀ s ∈ o.scales, 0 < s) (i : ℕ) (hi : i < o.scales.length) (j : ℕ) (hj : j < N) :
    Spec.usedPhase (a.ssqArgs fs st o.scales N o.Wx o.dWx)
        (applySqueezing a.squeezing o.scales.length (ent o.Wx)) i j =
      if Spec.Kept a (ent o.Wx i j) then .fin (k * fs / N) else .inf := by
  obtain ⟨fs', dt', h1, h2⟩ := C39_phase N k A φ hk (a.cwtArgs fs o.scales) hp han o.Wx o.scales o.dWx hW hpos
  have h1 : fs' = fs ∧ 0 < fs := by
    simp only [SsqCwtArgs.cwtArgs, processFsT] at h1
    split at h1
    · simp at h1
    · rename_i hf
      simp only [Except.ok.injEq, Rate.fin.injEq] at h1
      exact ⟨h1.1.symm, not_le.1 hf⟩
  obtain ⟨rfl, hfp⟩ := h1
  rw [abs_of_pos hfp] at h2
  rw [hsq]
  simp only [applySqueezing]
  have hne : ∀ z : ℂ, a.gamma.getD (10 * a.eps) ≤ ‖z‖ → z ≠ 0 := by
    intro z hz h0
    rw [h0, norm_zero] at hz
    linarith
  unfold Spec.usedPhase SsqCwtArgs.ssqArgs Spec.Kept
  cases a.getW
  · simp only [Bool.false_eq_true, if_false, Option.getD_some]
    by_cases hgt : a.gamma.getD (10 * a.eps) < ‖ent o.Wx i j‖
    · rw [if_pos hgt, if_pos hgt]
      have h3 := h2 _ i hi j hj (hne _ hgt.le) hgt.le
      unfold phaseCwt at h3
      rw [if_neg (not_lt.2 hgt.le)] at h3
      exact h3
    · rw [if_neg hgt, if_neg hgt]
  · simp only [if_true]
    by_cases hge : a.gamma.getD (10 * a.eps) ≤ ‖ent o.Wx i j‖
    · rw [if_pos hge]
      exact h2 _ i hi j hj (hne _ hge) hge
    · rw [if_neg hge]
      unfold phaseCwt
      rw [if_pos (not_le.1 hge)]

open Classical in
/-- **C39, second half, logarithmic frequencies.** For every tone of `k ≥ 1` cycles in `N` samples below
Nyquist, amplitude and phase; every analytic wavelet, positive scales, sampling rate, threshold, code
path, device, `get_w`; no padding, `flipud=True`, squeezing 'sum': if `ssq_cwt` succeeds and the
frequencies it returns are a (descending) logarithmic grid with one frequency per scale, then all of
`Tx` is in one row, whose frequency is nearest (in log-frequency) to the tone's `k·fs/N`; that row holds
the sum of the kept cells weighted by the measure of their scales, and every other row is zero. -/
theorem C39_one_row_log (N k : ℕ) (A φ : ℝ) (hk0 : 0 < k) (hk : 2 * k < N) (a : SsqCwtArgs)
    (hp : a.padtype = none) (han : Spec.Analytic a.wavelet.fn.eval)
    (hg : 0 < a.gamma.getD (10 * a.eps)) (hsq : a.squeezing = .sum) (hfl : a.flipud = true)
    (hth : 0 < a.th) (hlay : Spec.CwtLogFreqs N a) (o : SsqCwtOut)
    (h : ssqCwt (Spec.tone N k A φ) a = .ok o) (hpos : ∀ s ∈ o.scales, 0 < s)
    (hgrid : Spec.LogGrid o.freqs.reverse) (hlen : o.freqs.length = o.scales.length) :
    ∃ fs dt st nv, processFsT a.fs a.t N = .ok (.fin fs dt) ∧
      inferScaletype a.dtype o.scales = .ok (st, nv) ∧
      ∃ rs, Spec.NearestLog o.freqs (k * fs / N) rs ∧
        ∀ r < o.scales.length, ∀ j < N, o.Tx r j =
          if r = rs then ∑ i ∈ Finset.range o.scales.length,
            (if Spec.Kept a (ent o.Wx i j) then
              ent o.Wx i j * ((Spec.scaleMeasure st nv o.scales i : ℝ) : ℂ) else 0)
          else 0 := by
  have hlenx : (Spec.tone N k A φ).length = N := by simp [Spec.tone]
  obtain ⟨fs, dt, st, na, nv, h1, h2, h3, h4⟩ := ssqCwt_ok h
  rw [hlenx] at h1 h2 h4
  obtain ⟨st', nv', hinf⟩ := ssqueeze_scales h4 rfl rfl
  refine ⟨fs, dt, st', nv', h1, hinf, ?_⟩
  obtain ⟨row, hn, -, hT⟩ := C27_log_partial _ _ _ h4 (cwtLog_layout hlay h2 _ _ _ _) rfl hfl
    (Or.inr rfl) hth hgrid hlen _ _ _ rfl st' nv' hinf rfl
    (fun l hl => (inferScaletype_nv_length hinf).2 l hl)
  have hfs0 : 0 < fs := by
    have := h3
    obtain ⟨r, p, sc, hr, -⟩ := (cwt_ok_iff _ _ _ _ _).1 this
    have := cwtDt_fin hr
    simp only [SsqCwtArgs.cwtArgs, processFsT] at this
    split at this
    · simp at this
    · rename_i hf; exact not_le.1 hf
  have hN0 : (0 : ℝ) < N := by exact_mod_cast (show 0 < N by omega)
  have hk0' : (0 : ℝ) < k := by exact_mod_cast hk0
  refine ⟨row (k * fs / N), hn _ (by positivity), fun r hr j hj => ?_⟩
  rw [hT r hr j hj]
  refine (squeezed_const_phase _ _ _ _ row j (k * fs / N) (fun i => Spec.Kept a (ent o.Wx i j))
    (fun i hi => tone_usedPhase N k A φ hk a hp han hg hsq h1 h3 hpos i hi j hj) r).trans ?_
  simp only [SsqCwtArgs.ssqArgs, hsq, applySqueezing]

open Classical in
/-- **C39, second half, linear frequencies.** As `C39_one_row_log`, for a descending uniform grid of
frequencies and the plain nearest frequency. -/
theorem C39_one_row_linear (N k : ℕ) (A φ : ℝ) (hk : 2 * k < N) (a : SsqCwtArgs)
    (hp : a.padtype = none) (han : Spec.Analytic a.wavelet.fn.eval)
    (hg : 0 < a.gamma.getD (10 * a.eps)) (hsq : a.squeezing = .sum) (hfl : a.flipud = true)
    (hlay : Spec.CwtLinearFreqs N a) (o : SsqCwtOut)
    (h : ssqCwt (Spec.tone N k A φ) a = .ok o) (hpos : ∀ s ∈ o.scales, 0 < s)
    (f0 d : ℝ) (hgrid : Spec.Uniform o.freqs.reverse f0 d) (hd : eps64 ≤ d)
    (hlen : o.freqs.length = o.scales.length) :
    ∃ fs dt st nv, processFsT a.fs a.t N = .ok (.fin fs dt) ∧
      inferScaletype a.dtype o.scales = .ok (st, nv) ∧
      ∃ rs, Spec.Nearest o.freqs (k * fs / N) rs ∧
        ∀ r < o.scales.length, ∀ j < N, o.Tx r j =
          if r = rs then ∑ i ∈ Finset.range o.scales.length,
            (if Spec.Kept a (ent o.Wx i j) then
              ent o.Wx i j * ((Spec.scaleMeasure st nv o.scales i : ℝ) : ℂ) else 0)
          else 0 := by
  have hlenx : (Spec.tone N k A φ).length = N := by simp [Spec.tone]
  obtain ⟨fs, dt, st, na, nv, h1, h2, h3, h4⟩ := ssqCwt_ok h
  rw [hlenx] at h1 h2 h4
  obtain ⟨st', nv', hinf⟩ := ssqueeze_scales h4 rfl rfl
  refine ⟨fs, dt, st', nv', h1, hinf, ?_⟩
  have h3' := (inferScaletype_nv_length hinf).1
  obtain ⟨c, row, -, hc, hn, hT⟩ := C27_linear_partial _ _ _ h4 (cwtLinear_layout hlay h2 _ _ _ _)
    (Or.inl hfl) f0 d (by simp only [SsqCwtArgs.ssqArgs, hfl, if_true]; exact hgrid) hlen
    (show 2 ≤ o.scales.length by omega) hd
  have hc' := hc rfl _ _ _ st' nv' rfl rfl hinf (fun l hl => (inferScaletype_nv_length hinf).2 l hl)
  refine ⟨row (k * fs / N), hn _, fun r hr j hj => ?_⟩
  rw [hT r hr j hj]
  refine (squeezed_const_phase _ _ _ _ row j (k * fs / N) (fun i => Spec.Kept a (ent o.Wx i j))
    (fun i hi => tone_usedPhase N k A φ hk a hp han hg hsq h1 h3 hpos i hi j hj) r).trans ?_
  simp only [SsqCwtArgs.ssqArgs, hsq, applySqueezing]
  split
  · refine Finset.sum_congr rfl fun i hi => ?_
    rw [hc' i (Finset.mem_range.1 hi)]
  · rfl

/-! ### A concrete call -/

/-- `ssq_cwt` over the scales 1, 2, 4 and the frequencies 1, 2, 4 at rate 8, any pad type. -/
noncomputable def exSsq (t : Option PadType) : SsqCwtArgs where
  wavelet := ⟨.real fnR, sw0, none⟩
  ssqw := ⟨fun _ _ _ => .ok 1⟩
  scales := sc124
  fs := some 8
  ssqFreqs := .arr .f64 [1, 2, 4]
  padtype := t.map padName
  maprange := .maximal
  gamma := some (1 / 100)
  th := 1
  eps := eps64

theorem ssqueeze_exSsq (t : Option PadType) (N : ℕ) (W dW : List (List ℂ)) :
    ∃ Tx, ssqueeze ((exSsq t).ssqArgs 8 .log [1, 2, 4] N W dW) = .ok (Tx, [4, 2, 1]) := by
  set a := (exSsq t).ssqArgs 8 .log [1, 2, 4] N W dW with ha
  have h1 : ssqProcessArgs a = .ok (1 / 8) := by
    have hc : checkSsqueezingArgs false .sum .maximal true none none false .cwt = .ok none := rfl
    unfold ssqProcessArgs
    rw [if_neg (by simp [ha, SsqCwtArgs.ssqArgs, exSsq]), if_neg]
    · simp only [ha, SsqCwtArgs.ssqArgs, exSsq, Option.isSome_some, hc, ok_bind, Option.isNone_some, Bool.false_eq_true,
        false_and, if_false, processFsT]
      norm_num
    · rintro ⟨w, hw, -⟩
      simp [ha, SsqCwtArgs.ssqArgs, exSsq] at hw
  have h2 : ssqScales a = .ok (some [1, 2, 4], some (.log, .int 1)) := by
    have hp : positiveInteger ((1 : ℤ) : ℚ) = .ok 1 := by rfl
    simp only [ha, SsqCwtArgs.ssqArgs, exSsq, ssqScales, processScales, infer124, ok_bind, pure_eq_ok, ne_eq,
      not_true_eq_false, false_and, if_false, hp]
    rfl
  have h3 : ssqFreqsOf a (1 / 8) (some [1, 2, 4]) (some (.log, .int 1)) =
      .ok ([1, 2, 4], .known .log) := by
    simp only [ssqFreqsOf, ha, SsqCwtArgs.ssqArgs, exSsq, reduceCtorEq, if_false, infer124, ok_bind]
  have h4 : ∀ v, ssqConst a.transform (some [1, 2, 4]) (some (.log, .int 1)) v =
      .ok (.scalar (Real.log 2 / ((1 : ℤ) : ℝ))) := fun v => rfl
  have h6 : ∃ T, ssqKernel a (applySqueezing a.squeezing a.M a.Wx)
      [1, 2, 4] (.scalar (Real.log 2 / ((1 : ℤ) : ℝ))) true = .ok T := by
    rw [kernel_eq _ _ _ _ _ (Or.inr (Or.inl rfl))]
    unfold indexedSumOnfly onflyBody constArr processSsqParams paramsFindClosestLog
    rw [transition_geometric geo124 (by simp)]
    have hM : a.M ≠ 1 := by simp [ha, SsqCwtArgs.ssqArgs]
    simp only [ok_bind, pure_eq_ok, if_neg hM, if_true]
    exact ⟨_, rfl⟩
  obtain ⟨T, h6⟩ := h6
  refine ⟨T, ?_⟩
  have hr : ssqReverses a.transform a.flipud = true := rfl
  unfold ssqueeze
  simp only [h1, ok_bind, h2, h3, h4, SsqType.isLog, h6, pure_eq_ok, hr, if_true]
  rfl

theorem exSsq_ok (t : Option PadType) (x : List ℝ) (hx : 0 < x.length) :
    ∃ o, ssqCwt x (exSsq t) = .ok o ∧ o.scales = [1, 2, 4] ∧ o.freqs = [4, 2, 1] := by
  have hr : processFsT (some 8) none x.length = .ok (.fin 8 (1 / 8)) := by
    simp only [processFsT]; rw [if_neg (by norm_num)]
  have hd : cwtDt (exSsq t).fs (exSsq t).t x.length = .ok (8, 1 / 8) := by
    simp only [cwtDt, exSsq, hr, ok_bind]
  have hs : ∀ N, processScales (exSsq t).scales N (some (exSsq t).wavelet.sw) (ssqCwtNv (exSsq t)) true
      (exSsq t).downsample = .ok ([1, 2, 4], .log, 3, .int 1) := fun N => process124 _ _ _ _
  have hs' : processScales ((exSsq t).cwtArgs 8 [1, 2, 4]).scales x.length
      (some ((exSsq t).cwtArgs 8 [1, 2, 4]).wavelet.sw) none true ((exSsq t).cwtArgs 8 [1, 2, 4]).downsample =
      .ok ([1, 2, 4], .log, 3, .int 1) := by
    have hp : positiveInteger ((1 : ℤ) : ℚ) = .ok 1 := by rfl
    simp only [SsqCwtArgs.cwtArgs, ScalesArg.dtype, exSsq, sc124, processScales, infer124, ok_bind, pure_eq_ok, ne_eq,
      not_true_eq_false, false_and, if_false, hp]
    rfl
  obtain ⟨W, dW, hW⟩ := C37_succeeds x ((exSsq t).cwtArgs 8 [1, 2, 4]) t rfl hx 8 (1 / 8) hr
    (by simp [SsqCwtArgs.cwtArgs, exSsq]) [1, 2, 4] .log 3 (.int 1) none
    (by simp [SsqCwtArgs.cwtArgs]) (fun _ => rfl) hs'
  obtain ⟨Tx, hT⟩ := ssqueeze_exSsq t x.length W dW
  refine ⟨⟨Tx, W, [4, 2, 1], [1, 2, 4], dW⟩, ?_, rfl, rfl⟩
  have hc : checkSsqueezingArgs false (exSsq t).squeezing (exSsq t).maprange true (some .trig)
      (exSsq t).difforder (exSsq t).getW .cwt = .ok none := rfl
  unfold ssqCwt
  simp only [hc, hd, hs, hW, hT, ok_bind]

/-- The hypotheses of `C39_one_row_log` are met by a tone of one cycle in four samples at rate 8: its 2 Hz
are in row 1, and the other rows are zero. -/
example : ∃ o, ssqCwt (Spec.tone 4 1 1 0) (exSsq none) = .ok o ∧ o.freqs = [4, 2, 1] ∧
    ∀ j < 4, o.Tx (0 : ℕ) j = 0 ∧ o.Tx (2 : ℕ) j = 0 := by
  obtain ⟨o, h, hsc, hf⟩ := exSsq_ok none (Spec.tone 4 1 1 0) (by simp [Spec.tone])
  refine ⟨o, h, hf, ?_⟩
  obtain ⟨fs, dt, st, nv, h1, -, rs, hn, hT⟩ := C39_one_row_log 4 1 1 0 (by norm_num) (by norm_num) (exSsq none) rfl
    (analytic_fnR none) (by simp [exSsq]) rfl rfl (by simp [exSsq]) ⟨.log, .int 1, infer124, by simp⟩ o h
    (by rw [hsc]; simp) (by rw [hf]; exact loggrid124) (by rw [hf, hsc]; rfl)
  have hfs : fs = 8 := by
    simp only [exSsq, processFsT] at h1
    rw [if_neg (by norm_num)] at h1
    simp only [Except.ok.injEq, Rate.fin.injEq] at h1
    exact h1.1.symm
  rw [hfs, hf] at hn
  obtain ⟨hlt, hmin⟩ := hn
  have h0 := hmin 1 (by simp)
  have h2 : Real.logb 2 2 = 1 := Real.logb_self_eq_one (by norm_num)
  have h4 : Real.logb 2 4 = 2 := by
    rw [show (4 : ℝ) = 2 ^ (2 : ℝ) by norm_num, Real.logb_rpow (by norm_num) (by norm_num)]
  have hrs : rs = 1 := by
    simp only [List.length_cons, List.length_nil] at hlt
    norm_num at h0
    interval_cases rs
    · exfalso
      simp [h2, h4] at h0
      linarith
    · rfl
    · exfalso
      simp [h2] at h0
  intro j hj
  rw [hT 0 (by rw [hsc]; simp) j hj, hT 2 (by rw [hsc]; simp) j hj, hrs]
  simp

end Ssq
