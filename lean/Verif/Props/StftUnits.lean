import Verif.Props.StftSymEx
import Verif.Props.Units

/-!
# C151: the unit of time and `ssq_stft`
-/
namespace Ssq
open Finset Complex

namespace Spec

/-- The same call of `ssq_stft` with the unit of time changed: the sampling frequency `fs` and the frequencies asked for are multiplied by `c`. -/
noncomputable def stftCallInUnit (c fs : ℝ) (a : SsqStftArgs) : SsqStftArgs :=
  { a with fs := some (c * fs), ssqFreqs := a.ssqFreqs.map fun p => (p.1, inUnit c p.2) }

end Spec

/-- C151 as one would have it: changing the unit of time changes the frequencies accordingly, and nothing else. -/
def C151_full : Prop :=
  ∀ (lib : WinLib) (tiny : ℝ) (x : List ℝ) (a : SsqStftArgs) (m : ℕ) (w dw : List ℝ) (t : PadType) (c fs : ℝ) (Tx : ℤ → ℕ → ℂ)
    (S : List (List ℂ)) (f Sfs : List ℝ), StftValid lib tiny x a.stft m w dw t → 0 < c → a.fs = some fs → a.t = none →
    ssqStft lib tiny x a = .ok (Tx, S, f, Sfs) →
    ∃ Tx', ssqStft lib tiny x (Spec.stftCallInUnit c fs a) = .ok (Tx', S, inUnit c f, inUnit c Sfs) ∧
      ∀ r, ∀ j < S.length, Tx' r j = Tx r j

theorem stftFreq_unit {c : ℝ} (hc : 0 < c) (f0 : ℝ) (V dW : ℂ) : stftFreq (c * f0) V (c * dW) = c * stftFreq f0 V dW := by
  unfold stftFreq
  simp only [re_ofReal_mul, im_ofReal_mul]
  rw [show c * dW.im * V.re - c * dW.re * V.im = c * (dW.im * V.re - dW.re * V.im) by ring, mul_div_assoc, ← mul_sub, abs_mul, abs_of_pos hc]

/-- The derivative is proportional to the sampling frequency in the modulated variant, and nothing else depends on it. -/
theorem stft_unit {lib : WinLib} {tiny : ℝ} {x : List ℝ} {a : StftArgs} {m : ℕ} {w dw : List ℝ} {t : PadType}
    (h : StftValid lib tiny x a m w dw t) (hm : a.modulated = true) (c fs : ℝ) :
    ∃ S dS dS', stft lib tiny x { a with fs := fs } = .ok (m, S, dS) ∧ stft lib tiny x { a with fs := c * fs } = .ok (m, S, dS') ∧
      ∀ i < m / 2 + 1, ∀ j < S.length, entC dS' i j = c * entC dS i j := by
  obtain ⟨E, hE⟩ := exists_extension t x h.hx
  obtain ⟨S, dS, h1, h2, h3, h4, h5⟩ := C07_stft_entries (validFs h fs) E hE
  obtain ⟨S', dS', k1, k2, k3, k4, k5⟩ := C07_stft_entries (validFs h (c * fs)) E hE
  simp only at h2 h3 k2 k3
  have hSS : S' = S := by
    apply List.ext_getElem
    · omega
    · intro j hj1 hj2
      obtain ⟨a1, a2⟩ := h4 j hj2
      obtain ⟨b1, b2⟩ := k4 j hj1
      apply List.ext_getElem
      · omega
      · intro k hk1 hk2
        rw [← List.getD_eq_getElem _ (0 : ℂ) hk1, ← List.getD_eq_getElem _ (0 : ℂ) hk2, b2 k (by omega), a2 k (by omega)]
  subst hSS
  refine ⟨S', dS, dS', h1, k1, fun i hi j hj => ?_⟩
  unfold entC
  have hj1 : j < dS.length := by omega
  have hj2 : j < dS'.length := by omega
  rw [List.getD_eq_getElem dS _ hj1, List.getD_eq_getElem dS' _ hj2, (h5 j hj1).2 i hi, (k5 j hj2).2 i hi]
  unfold Spec.stft
  rw [mul_sum]
  refine sum_congr rfl fun r _ => ?_
  simp only [hm, if_true]
  push_cast
  ring

theorem onfly_const {dev : Device} {th : ℝ} {M N : ℕ} {W W' : ℕ → ℕ → ℂ} {w w' : ℕ → ℕ → Phase} {v : List ℝ} {ls fl : Bool} {k c : ℝ}
    (hW : ∀ i < M, ∀ j < N, W' i j = W i j) (hw : ∀ i < M, ∀ j < N, w' i j = w i j)
    {T : ℤ → ℕ → ℂ} (h : indexedSumOnfly dev th M N (fun _ _ => 0) W w v (.scalar k) ls fl = .ok T) :
    ∃ T', indexedSumOnfly dev th M N (fun _ _ => 0) W' w' v (.scalar (c * k)) ls fl = .ok T' ∧
      ∀ r, ∀ j < N, T' r j = c * T r j := by
  unfold indexedSumOnfly onflyBody at h ⊢
  obtain ⟨body, hb, h⟩ := bind_ok h
  obtain ⟨cc, hc, hb⟩ := bind_ok hb
  obtain ⟨p, hp, hb⟩ := bind_ok hb
  simp only [pure_eq_ok, Except.ok.injEq] at hb h
  obtain ⟨cc', hc'⟩ : ∃ cc', constArr M (.scalar (c * k)) = .ok cc' := by
    simp only [constArr] at hc ⊢
    split at hc
    · simp at hc
    next h1 => rw [if_neg h1]; exact ⟨_, rfl⟩
  refine ⟨_, by simp only [hc', ok_bind, hp, pure_eq_ok]; rfl, fun r j hj => ?_⟩
  rw [← h, ← hb]
  rw [runOps_serial _ (indexedSumBody_cols _ _ _ _ _ _ _) _ _ _ hj, runOps_serial _ (indexedSumBody_cols _ _ _ _ _ _ _) _ _ _ hj,
    zero_add, zero_add, mul_sum]
  refine sum_congr rfl fun i hi => ?_
  have hi := mem_range.1 hi
  unfold indexedSumBody
  rw [hw i hi j hj, hW i hi j hj]
  simp only [constArr_scalar hc i hi, constArr_scalar hc' i hi]
  cases w i j with
  | inf => simp [contrib]
  | fin x =>
    simp only [contrib]
    split
    · push_cast; ring
    · rw [mul_zero]

/-- The frequencies `ssq_stft` reassigns to, before they are reversed. -/
theorem ssqStft_ok {lib : WinLib} {tiny : ℝ} {x : List ℝ} {a : SsqStftArgs} {Tx : ℤ → ℕ → ℂ} {S : List (List ℂ)} {f Sfs : List ℝ}
    (h : ssqStft lib tiny x a = .ok (Tx, S, f, Sfs)) : ∃ fs dt m dS, processFsT a.fs a.t x.length = .ok (.fin fs dt) ∧
      (∃ u, checkSsqueezingArgs false a.squeezing .none false none none false .cwt = .ok u) ∧ checkLinearFreqs a.ssqFreqs = .ok () ∧
      stft lib tiny x { a.stft with fs := fs } = .ok (m, S, dS) ∧ Sfs = makeSfs (m / 2 + 1) fs ∧
      ssqueeze (ssqStftCall a fs (m / 2 + 1) S dS) = .ok (Tx, f) := by
  unfold ssqStft at h
  obtain ⟨rt, hrt, h⟩ := bind_ok h
  cases rt with
  | infinite => simp at h
  | fin fs dt =>
    simp only at h
    obtain ⟨c, hc, h⟩ := bind_ok h
    obtain ⟨u, hu, h⟩ := bind_ok h
    obtain ⟨⟨m, S0, dS⟩, hS, h⟩ := bind_ok h
    obtain ⟨⟨T, f0⟩, hT, h⟩ := bind_ok h
    simp only [Except.ok.injEq, Prod.mk.injEq] at h
    obtain ⟨rfl, rfl, rfl, rfl⟩ := h
    exact ⟨fs, dt, m, dS, hrt, ⟨c, hc⟩, hu, hS, rfl, hT⟩

theorem makeSfs_unit (rows : ℕ) (c fs : ℝ) : makeSfs rows (c * fs) = inUnit c (makeSfs rows fs) := by
  unfold makeSfs
  rw [← linspace_unit, mul_zero, mul_left_comm]

/-- **C151**, as the code has it. In the modulated variant, for frequencies that are linear in both units with a step of at least machine
epsilon in both: the frequencies are multiplied by the factor, the transform stays, but the synchrosqueezed transform is multiplied
by the factor too. -/
theorem C151_partial {lib : WinLib} {tiny : ℝ} {x : List ℝ} {a : SsqStftArgs} {m : ℕ} {w dw : List ℝ} {t : PadType} (c fs : ℝ)
    {Tx : ℤ → ℕ → ℂ} {S : List (List ℂ)} {f Sfs : List ℝ} (h : StftValid lib tiny x a.stft m w dw t) (hm : a.stft.modulated = true)
    (hc : 0 < c) (hfs : a.fs = some fs) (ht : a.t = none) (hrun : ssqStft lib tiny x a = .ok (Tx, S, f, Sfs))
    (hlin : ∀ d v, a.ssqFreqs = some (d, v) → checkLinearFreqs (some (d, inUnit c v)) = .ok ())
    (hstep : eps64 ≤ (if a.flipud then f.reverse else f).getD 1 0 - (if a.flipud then f.reverse else f).getD 0 0 ∧
      eps64 ≤ c * ((if a.flipud then f.reverse else f).getD 1 0 - (if a.flipud then f.reverse else f).getD 0 0)) :
    ∃ Tx', ssqStft lib tiny x (Spec.stftCallInUnit c fs a) = .ok (Tx', S, inUnit c f, inUnit c Sfs) ∧
      ∀ r, ∀ j < S.length, Tx' r j = c * Tx r j := by
  obtain ⟨fs', dt, m', dS, h1, ⟨u, h2⟩, h3, h4, rfl, h6⟩ := ssqStft_ok hrun
  rw [hfs, ht] at h1
  simp only [processFsT] at h1
  split at h1
  · simp at h1
  next hfp =>
  simp only [Except.ok.injEq, Rate.fin.injEq] at h1
  obtain ⟨rfl, -⟩ := h1
  have hfp := not_le.1 hfp
  have hcf : 0 < c * fs := mul_pos hc hfp
  obtain ⟨S1, dS1, dS', g1, g2, g3⟩ := stft_unit h hm c fs
  rw [h4] at g1
  simp only [Except.ok.injEq, Prod.mk.injEq] at g1
  obtain ⟨rfl, rfl, rfl⟩ := g1
  set M := m' / 2 + 1 with hM
  set A := ssqStftCall a fs M S dS with hA
  set A' := ssqStftCall (Spec.stftCallInUnit c fs a) (c * fs) M S dS' with hA'
  obtain ⟨dt', scl, fr, const, ls, q1, q2, q3, q4, q5, q6, q7⟩ := ssqueeze_ok h6
  have hscl : scl = (none, none) := by
    have : ssqScales A = .ok (none, none) := rfl
    rw [this] at q2
    simpa using q2.symm
  subst hscl
  have hSfsl : (makeSfs M fs).length = M := by simp [makeSfs, linspace_length]
  -- frequencies
  have hfr : ∃ v, fr = (v, .known .linear) ∧ ssqFreqsOf A' dt' none none = .ok (inUnit c v, .known .linear) := by
    have hA1 : A.transform = .stft := rfl
    have hA2 : A'.transform = .stft := rfl
    cases hsf : a.ssqFreqs with
    | none =>
      have e : A.ssqFreqs = .arr .f64 (makeSfs M fs) := by simp only [hA, ssqStftCall, hsf]
      have e' : A'.ssqFreqs = .arr .f64 (makeSfs M (c * fs)) := by simp only [hA', ssqStftCall, Spec.stftCallInUnit, hsf, Option.map_none]
      unfold ssqFreqsOf at q3 ⊢
      simp only [e, e', hA1, hA2, if_true, Except.ok.injEq] at q3 ⊢
      exact ⟨_, q3.symm, by rw [makeSfs_unit]⟩
    | some p =>
      have e : A.ssqFreqs = .arr p.1 p.2 := by simp only [hA, ssqStftCall, hsf]
      have e' : A'.ssqFreqs = .arr p.1 (inUnit c p.2) := by simp only [hA', ssqStftCall, Spec.stftCallInUnit, hsf, Option.map_some]
      unfold ssqFreqsOf at q3 ⊢
      simp only [e, e', hA1, hA2, if_true, Except.ok.injEq] at q3 ⊢
      exact ⟨_, q3.symm, rfl⟩
  obtain ⟨v, rfl, hfr'⟩ := hfr
  simp only [SsqType.isLog, Except.ok.injEq] at q5
  subst q5
  have hrev : ssqReverses A.transform A.flipud = a.flipud := by simp [ssqReverses, hA, ssqStftCall]
  have hrev' : ssqReverses A'.transform A'.flipud = a.flipud := by simp [ssqReverses, hA', ssqStftCall, Spec.stftCallInUnit]
  simp only [hrev] at q7
  have hfv : (if a.flipud then f.reverse else f) = v := by
    rw [q7]; split <;> simp
  rw [hfv] at hstep
  obtain ⟨v0, v1, tl, hvv⟩ : ∃ v0 v1 tl, v = v0 :: v1 :: tl := by
    match v, q4 with
    | [], q4 => simp [ssqConst, hA, ssqStftCall] at q4
    | [_], q4 => simp [ssqConst, hA, ssqStftCall] at q4
    | v0 :: v1 :: tl, _ => exact ⟨v0, v1, tl, rfl⟩
  have hconst : const = .scalar (v1 - v0) := by
    rw [hvv] at q4
    have : ssqConst A.transform none none (v0 :: v1 :: tl) = .ok (.scalar (v1 - v0)) := rfl
    rw [this] at q4
    simpa using q4.symm
  subst hconst
  have hconst' : ssqConst A'.transform none none (inUnit c v) = .ok (.scalar (c * (v1 - v0))) := by
    rw [hvv]
    have : ssqConst A'.transform none none (inUnit c (v0 :: v1 :: tl)) = .ok (.scalar (c * v1 - c * v0)) := rfl
    rw [this, mul_sub]
  have hproc : ssqProcessArgs A' = .ok dt' := by
    unfold ssqProcessArgs at q1 ⊢
    have e1 : (A'.w.isNone ∧ (A'.dWx.isNone ∨ A'.gamma.isNone)) ↔ (A.w.isNone ∧ (A.dWx.isNone ∨ A.gamma.isNone)) := by
      simp only [hA, hA', ssqStftCall, Spec.stftCallInUnit]
      by_cases hg : a.getW <;> simp [hg]
    split at q1
    · simp at q1
    next h1 =>
    rw [if_neg (fun h => h1 (e1.1 h))]
    split at q1
    · simp at q1
    rw [if_neg]
    · exact q1
    · rintro ⟨w, hw, hn⟩
      simp only [hA', ssqStftCall, Spec.stftCallInUnit] at hw
      cases hg : a.getW
      · simp [hg] at hw
      · simp only [hg, if_true, Option.some.injEq] at hw
        rw [← hw] at hn
        exact phaseStft_not_neg hn
  have hcell : ∀ i < M, ∀ j < S.length, Spec.usedPhase A' (applySqueezing A'.squeezing A'.M A'.Wx) i j =
      (Spec.usedPhase A (applySqueezing A.squeezing A.M A.Wx) i j).inUnit c := by
    intro i hi j hj
    have hd := g3 i hi j hj
    have hfi : (makeSfs M (c * fs)).getD i 0 = c * (makeSfs M fs).getD i 0 := by
      rw [makeSfs_unit, inUnit_getD _ _ _ _ (by omega)]
    unfold Spec.usedPhase
    cases hw : a.getW
    · simp only [hA, hA', ssqStftCall, Spec.stftCallInUnit, hw, Bool.false_eq_true, if_false, Option.getD_some]
      by_cases hk : a.gamma.getD (10 * a.eps) < ‖applySqueezing a.squeezing M (entC S) i j‖
      · refine (if_pos hk).trans (Eq.trans ?_ (congrArg (Phase.inUnit c) (if_pos hk)).symm)
        show Phase.fin (stftFreq ((makeSfs M (c * fs)).getD i 0) _ (entC dS' i j)) =
          Phase.fin (c * stftFreq ((makeSfs M fs).getD i 0) _ (entC dS i j))
        rw [hfi, hd, stftFreq_unit hc]
      · exact (if_neg hk).trans (congrArg (Phase.inUnit c) (if_neg hk (t := Phase.fin _) (e := Phase.inf))).symm
    · simp only [hA, hA', ssqStftCall, Spec.stftCallInUnit, hw, if_true]
      unfold phaseStft
      by_cases hk : ‖entC S i j‖ < a.gamma.getD (10 * a.eps)
      · exact (if_pos hk).trans (congrArg (Phase.inUnit c) (if_pos hk (t := Phase.inf) (e := Phase.fin _))).symm
      · refine (if_neg hk).trans (Eq.trans ?_ (congrArg (Phase.inUnit c) (if_neg hk)).symm)
        show Phase.fin (stftFreq ((makeSfs M (c * fs)).getD i 0) (entC S i j) (entC dS' i j)) =
          Phase.fin (c * stftFreq ((makeSfs M fs).getD i 0) (entC S i j) (entC dS i j))
        rw [hfi, hd, stftFreq_unit hc]
  rw [kernel_eq _ _ _ _ _ (Or.inr (Or.inr rfl))] at q6
  obtain ⟨T1, hT1, hT1e⟩ := onfly_const (c := c) (fun _ _ _ _ => rfl) (fun _ _ _ _ => rfl) q6
  rw [← onfly_unit _ _ _ _ _ _ _ v _ _ _ hc (params_lin_unit _ hstep.1 hstep.2)] at hT1
  obtain ⟨T', hT', hT'e⟩ := onfly_const (c := 1) (W' := applySqueezing A'.squeezing A'.M A'.Wx)
    (w' := Spec.usedPhase A' (applySqueezing A'.squeezing A'.M A'.Wx)) (fun _ _ _ _ => rfl) hcell hT1
  rw [one_mul] at hT'
  refine ⟨T', ?_, fun r j hj => ?_⟩
  · have hrt : processFsT (Spec.stftCallInUnit c fs a).fs (Spec.stftCallInUnit c fs a).t x.length = .ok (.fin (c * fs) (1 / (c * fs))) := by
      show processFsT (some (c * fs)) a.t _ = _
      rw [ht]
      simp only [processFsT, if_neg (not_le.2 hcf)]
    have hcl : checkLinearFreqs (Spec.stftCallInUnit c fs a).ssqFreqs = .ok () := by
      simp only [Spec.stftCallInUnit]
      cases hsf : a.ssqFreqs with
      | none => rfl
      | some p => exact hlin p.1 p.2 hsf
    have hkern := kernel_eq A' (applySqueezing A'.squeezing A'.M A'.Wx) (inUnit c v) (.scalar (c * (v1 - v0))) false (Or.inr (Or.inr rfl))
    have hsq : ssqueeze A' = .ok (T', inUnit c f) := by
      have hsc' : ssqScales A' = .ok (none, none) := rfl
      unfold ssqueeze
      rw [hproc, ok_bind, hsc', ok_bind, hfr', ok_bind]
      simp only
      rw [hconst', ok_bind]
      simp only [SsqType.isLog, ok_bind]
      rw [hkern]
      have : indexedSumOnfly A'.dev A'.th A'.M A'.N (fun _ _ => 0) (applySqueezing A'.squeezing A'.M A'.Wx)
        (Spec.usedPhase A' (applySqueezing A'.squeezing A'.M A'.Wx)) (inUnit c v) (.scalar (c * (v1 - v0))) false A'.flipud = .ok T' := hT'
      rw [this, ok_bind, pure_eq_ok, hrev', q7]
      split <;> simp [inUnit_reverse]
    unfold ssqStft
    rw [hrt, ok_bind]
    simp only
    rw [show checkSsqueezingArgs false (Spec.stftCallInUnit c fs a).squeezing .none false none none false .cwt = .ok u from h2, ok_bind,
      hcl, ok_bind, show stft lib tiny x { (Spec.stftCallInUnit c fs a).stft with fs := c * fs } = .ok (m', S, dS') from g2, ok_bind]
    simp only
    rw [← hM, ← hA', hsq, ok_bind, makeSfs_unit]
  · rw [hT'e r j hj, hT1e r j hj, ofReal_one, one_mul]

/-- The run of C14's example: the sum of the rows is the sampling frequency. -/
theorem ex14_run (fs : ℝ) (hfs : 0 < fs) : ∃ Tx S, ssqStft onesLib 0 [1, 1] (ex14 fs) = .ok (Tx, S, makeSfs 2 fs, makeSfs 2 fs) ∧ S.length = 2 ∧
    Tx 0 0 + Tx 1 0 = fs := by
  have hv := ex14_valid fs hfs
  obtain ⟨Tx, S, f, Sfs, xh, hrun, -⟩ := C14_inverse_partial hv
  obtain ⟨fs', dt, m, dS, h1, -, -, h4, rfl, h6⟩ := ssqStft_ok hrun
  have hp : processFsT (ex14 fs).fs (ex14 fs).t ([1, 1] : List ℝ).length = .ok (.fin fs (1 / fs)) := by
    simp [ex14, processFsT, not_le.mpr hfs]
  rw [hp] at h1
  simp only [Except.ok.injEq, Rate.fin.injEq] at h1
  obtain ⟨rfl, -⟩ := h1
  obtain ⟨E, hE⟩ := exists_extension .reflect ([1, 1] : List ℝ) (by simp)
  obtain ⟨S2, dS2, k1, hl, -, hc, -⟩ := C07_stft_entries hv.stft E hE
  rw [h4] at k1
  simp only [Except.ok.injEq, Prod.mk.injEq] at k1
  obtain ⟨rfl, rfl, rfl⟩ := k1
  have hl2 : S.length = 2 := by rw [hl]; simp [ex14]
  have hE0 : E 0 = 1 := by have := hE.1 0 (by simp); simpa using this
  have c0 : (S.getD 0 []).getD 0 0 = 1 := by
    rw [List.getD_eq_getElem S _ (show 0 < S.length by omega), (hc 0 (by omega)).2 0 (by norm_num)]
    simp [Spec.stft, sum_range_succ, hE0]
  have c1 : (S.getD 0 []).getD 1 0 = 1 := by
    rw [List.getD_eq_getElem S _ (show 0 < S.length by omega), (hc 0 (by omega)).2 1 (by norm_num)]
    simp [Spec.stft, sum_range_succ, hE0, ex14]
  obtain ⟨T', f', q1, q2, q3⟩ := ssqStftCall_sum (ex14 fs) fs 2 S dS le_rfl rfl rfl (by simp [ex14])
    (fun i hi j hj => hv.hgam S dS h4 i hi j hj)
  have h6' : ssqueeze (ssqStftCall (ex14 fs) fs 2 S dS) = .ok (Tx, f) := h6
  rw [h6'] at q1
  simp only [Except.ok.injEq, Prod.mk.injEq] at q1
  obtain ⟨rfl, rfl⟩ := q1
  rw [show (ex14 fs).flipud = false from rfl] at q2
  simp only [Bool.false_eq_true, if_false] at q2
  subst q2
  have := q3 0 (by omega)
  simp only [sum_range_succ, sum_range_zero, c0, c1] at this
  refine ⟨Tx, S, hrun, hl2, ?_⟩
  have h2 : 0 + Tx 0 0 + Tx 1 0 = (0 + 1 + 1) * ((fs / (2 * (2 - 1 : ℕ)) : ℝ) : ℂ) := this
  rw [zero_add] at h2
  rw [h2]
  push_cast
  ring

theorem makeSfs_two (fs : ℝ) : makeSfs 2 fs = [0, fs / 2] := by
  unfold makeSfs linspace
  norm_num [List.range_succ]
  ring

/-- Non-vacuity of `C151_partial`: default frequencies, `fs = 1`, in another unit `fs = 5`. -/
example : StftValid onesLib 0 [1, 1] (ex14 1).stft 2 [0, 1] (zeroDenormals 0 (diffWindow [0, 1])) .reflect ∧
    (∃ Tx S, ssqStft onesLib 0 [1, 1] (ex14 1) = .ok (Tx, S, [0, 1 / 2], [0, 1 / 2])) ∧
    eps64 ≤ ([0, 1 / 2] : List ℝ).getD 1 0 - ([0, 1 / 2] : List ℝ).getD 0 0 ∧
    eps64 ≤ 5 * (([0, 1 / 2] : List ℝ).getD 1 0 - ([0, 1 / 2] : List ℝ).getD 0 0) := by
  refine ⟨validFs (ex14_valid 1 one_pos).stft 1, ?_, by norm_num [eps64, List.getD], by norm_num [eps64, List.getD]⟩
  obtain ⟨Tx, S, h, -⟩ := ex14_run 1 one_pos
  exact ⟨Tx, S, by rw [h, makeSfs_two]⟩

/-- **C151 is false**: in units of two seconds the synchrosqueezed transform is twice as large. -/
theorem C151_refuted : ¬ C151_full := by
  intro hf
  obtain ⟨T, S, h1, hl, h2⟩ := ex14_run 1 one_pos
  obtain ⟨T', S', k1, -, k2⟩ := ex14_run 2 (by norm_num)
  obtain ⟨T'', e1, e2⟩ := hf onesLib 0 [1, 1] (ex14 1) _ _ _ _ 2 1 T S _ _ (validFs (ex14_valid 1 one_pos).stft 1) (by norm_num) rfl rfl h1
  have ha : Spec.stftCallInUnit 2 1 (ex14 1) = ex14 2 := by simp [Spec.stftCallInUnit, ex14]
  rw [ha, k1] at e1
  simp only [Except.ok.injEq, Prod.mk.injEq] at e1
  rw [e1.1, e2 0 0 (by omega), e2 1 0 (by omega), h2] at k2
  norm_num at k2

/-- Periodic padding: the hypotheses of `C149_ssq_stft_shift` are met. -/
theorem exShift_valid : C14Valid onesLib 0 [1, 2, 3] { ex14 1 with stft := { (ex14 1).stft with padtype := "wrap" } } 1 2 [0, 1]
    (zeroDenormals 0 (diffWindow [0, 1])) .wrap where
  stft :=
    { hx := by simp
      hhop := by simp [ex14]
      hm := by simp
      hnfft := rfl
      hwin := by
        unfold getWindowD getWindowRaw
        simp [ex14, stftWinLen]
        simp [zeroDenormals]
      hw := rfl
      hpad := rfl
      hsym := by simp }
  hm := le_rfl
  hmod := rfl
  hhop := rfl
  hrate := ⟨1 / 1, by simp [ex14, processFsT]⟩
  hsq := rfl
  hfr := rfl
  hth := by simp [ex14]
  hwl := by simp [ex14, stftWinLen]
  hc := by simp
  hgam := by
    intro S dS _ k _ j _
    simp only [ex14, Option.getD_some]
    by_cases h0 : (S.getD j []).getD k 0 = 0
    · exact Or.inl h0
    · exact Or.inr (norm_pos_iff.mpr h0)

example : ∃ Tx S f Sfs Tx', ssqStft onesLib 0 [1, 2, 3] { ex14 1 with stft := { (ex14 1).stft with padtype := "wrap" } } = .ok (Tx, S, f, Sfs) ∧
    ssqStft onesLib 0 [2, 3, 1] { ex14 1 with stft := { (ex14 1).stft with padtype := "wrap" } } = .ok (Tx', S.rotate 1, f, Sfs) := by
  obtain ⟨Tx, S, f, Sfs, xh, h, -⟩ := C14_inverse_partial exShift_valid
  obtain ⟨-, Tx', h', -⟩ := C149_ssq_stft_shift (validFs exShift_valid.stft 1) (Dvd.intro _ (one_mul _)) 1 (by simp [ex14]) h
  exact ⟨Tx, S, f, Sfs, Tx', h, h'⟩

end Ssq
