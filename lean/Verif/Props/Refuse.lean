import Verif.Props.IssqCwt
import Verif.Props.Icwt

/-!
# C177: which calls `ssqueeze` and `ssq_cwt` refuse

The checks made before any frequency is computed, and the combination of piecewise frequencies with a range
that does not come from the wavelet. A *valid call* is one that succeeds when the frequencies are
given as an array, so only the request to compute them is at fault.
-/
namespace Ssq

namespace Spec

/-- The frequency range is fixed in advance: `'maximal'`, or a tuple. -/
def FixedRange (mr : MapRange) : Prop := mr = .maximal ∨ ∃ l, mr = .tuple l

end Spec

theorem fixed_iff (mr : MapRange) : mr.fixed = true ↔ Spec.FixedRange mr := by
  unfold Spec.FixedRange
  cases mr <;> simp [MapRange.fixed]

/-- **C177, no phase.** Without `w`, both `dWx` and `gamma` are needed; `ssqueeze` raises `ValueError` if either
is missing. -/
theorem C177_phase (a : SsqArgs) (hw : a.w = none) (h : a.dWx = none ∨ a.gamma = none) :
    ssqueeze a = .error .valueError := by
  have : ssqProcessArgs a = .error .valueError := by
    unfold ssqProcessArgs
    rw [if_pos]
    refine ⟨by simp [hw], ?_⟩
    rcases h with h | h <;> simp [h]
  unfold ssqueeze
  rw [this, error_bind]

/-- **C177, negative frequencies.** A phase array with a negative entry is refused with `ValueError`. -/
theorem C177_negative (a : SsqArgs) (w : ℕ → ℕ → Phase) (hw : a.w = some w) (i j : ℕ) (hi : i < a.M)
    (hj : j < a.N) (y : ℝ) (hy : w i j = .fin y) (hneg : y < 0) : ssqueeze a = .error .valueError := by
  have : ssqProcessArgs a = .error .valueError := by
    unfold ssqProcessArgs
    rw [if_neg (by simp [hw]), if_pos]
    exact ⟨w, hw, i, hi, j, hj, y, hy, hneg⟩
  unfold ssqueeze
  rw [this, error_bind]

/-- What a call went through before the frequencies; it does not depend on `ssq_freqs`. -/
theorem ssqueeze_before {a : SsqArgs} {f : FreqArg} {r : (ℤ → ℕ → ℂ) × List ℝ}
    (h : ssqueeze { a with ssqFreqs := f } = .ok r) (g : FreqArg) :
    ∃ dt sc, ssqProcessArgs a = .ok dt ∧ ssqScales a = .ok sc ∧
      ssqueeze { a with ssqFreqs := g } = (do
        let fr ← ssqFreqsOf { a with ssqFreqs := g } dt sc.1 sc.2
        let const ← ssqConst a.transform sc.1 sc.2 fr.1
        let ls ← fr.2.isLog
        let Tx ← ssqKernel { a with ssqFreqs := g } (applySqueezing a.squeezing a.M a.Wx) fr.1 const ls
        return (Tx, if ssqReverses a.transform a.flipud then fr.1.reverse else fr.1)) := by
  obtain ⟨dt, sc, fr, const, ls, h1, h2, -⟩ := ssqueeze_ok (Tx := r.1) (f := r.2) h
  have e1 : ∀ g, ssqProcessArgs { a with ssqFreqs := g } = ssqProcessArgs a := fun _ => rfl
  have e2 : ∀ g, ssqScales { a with ssqFreqs := g } = ssqScales a := fun _ => rfl
  rw [e1] at h1
  rw [e2] at h2
  refine ⟨dt, sc, h1, h2, ?_⟩
  unfold ssqueeze
  rw [e1, e2, h1, h2, ok_bind, ok_bind]

/-- The call `ex124` without its phase, or with a negative entry in it. -/
example (b : Bool) : ssqueeze { ex124 b with w := none } = .error .valueError ∧
    ssqueeze { ex124 b with w := some fun _ _ => .fin (-1) } = .error .valueError :=
  ⟨C177_phase _ rfl (Or.inl rfl),
    C177_negative _ _ rfl 2 0 (by simp [ex124]) (by simp [ex124]) (-1) rfl (by norm_num)⟩

/-- **C177, piecewise frequencies by name.** A valid call that asks for `ssq_freqs='log-piecewise'` over a fixed
range is refused with `ValueError`. -/
theorem C177_piecewise_named (a : SsqArgs) (f : FreqArg) (r : (ℤ → ℕ → ℂ) × List ℝ)
    (hvalid : ssqueeze { a with ssqFreqs := f } = .ok r) (hfix : Spec.FixedRange a.maprange) :
    ssqueeze { a with ssqFreqs := .name (.known .logPiecewise) } = .error .valueError := by
  obtain ⟨dt, sc, -, -, h⟩ := ssqueeze_before hvalid (.name (.known .logPiecewise))
  rw [h]
  have : ssqFreqsOf { a with ssqFreqs := .name (.known .logPiecewise) } dt sc.1 sc.2 =
      .error .valueError := by
    unfold ssqFreqsOf
    simp only [(fixed_iff _).2 hfix, true_and, if_true]
  rw [this, error_bind]

/-- The call `ex124` succeeds with its frequencies given and is refused with piecewise ones. -/
example (b : Bool) : (∃ r, ssqueeze (ex124 b) = .ok r) ∧
    ssqueeze { ex124 b with ssqFreqs := .name (.known .logPiecewise) } = .error .valueError := by
  obtain ⟨Tx, h⟩ := ex124_ok b
  exact ⟨⟨_, h⟩, C177_piecewise_named (ex124 b) (ex124 b).ssqFreqs _ h (Or.inl rfl)⟩

/-- **C177, piecewise frequencies by default.** A valid call whose scales are piecewise logarithmic, with
`ssq_freqs=None` over a fixed range, is refused with `ValueError`. -/
theorem C177_piecewise_default (a : SsqArgs) (f : FreqArg) (r : (ℤ → ℕ → ℂ) × List ℝ)
    (hvalid : ssqueeze { a with ssqFreqs := f } = .ok r) (hfix : Spec.FixedRange a.maprange)
    (htr : a.transform = .cwt) (sh : List ℕ) (d : FDtype) (sv : List ℝ) (nv : Nv)
    (hsc : a.scales = some (.arr sh d sv)) (hinf : inferScaletype d sv = .ok (.logPiecewise, nv)) :
    ssqueeze { a with ssqFreqs := .none } = .error .valueError := by
  obtain ⟨dt, sc, -, hs, h⟩ := ssqueeze_before hvalid .none
  rw [h]
  have hcst : ∃ n, sc.2 = some (.logPiecewise, n) := by
    unfold ssqScales at hs
    rw [htr, hsc] at hs
    simp only at hs
    obtain ⟨q, hq, hs⟩ := bind_ok hs
    obtain ⟨-, e2, -⟩ := processScales_arr hinf hq
    obtain ⟨q1, q2, q3, q4⟩ := q
    simp only at e2
    subst e2
    simp only [pure_eq_ok, Except.ok.injEq] at hs
    subst hs
    exact ⟨_, rfl⟩
  obtain ⟨n, hn⟩ := hcst
  have : ssqFreqsOf { a with ssqFreqs := .none } dt sc.1 sc.2 = .error .valueError := by
    unfold ssqFreqsOf
    rw [hn]
    simp only [(fixed_iff _).2 hfix, true_and, if_true]
  rw [this, error_bind]

/-- **C177 for `ssq_cwt`.** A valid call whose scales are piecewise logarithmic (the default), with
`ssq_freqs=None` over a fixed range, is refused with `ValueError`. -/
theorem C177_ssq_cwt (x : List ℝ) (a : SsqCwtArgs) (f : FreqArg) (o : SsqCwtOut)
    (hvalid : ssqCwt x { a with ssqFreqs := f } = .ok o) (hfix : Spec.FixedRange a.maprange)
    (sv : List ℝ) (na : ℕ) (nv : Nv)
    (hsc : processScales a.scales x.length (some a.wavelet.sw) (ssqCwtNv a) true a.downsample =
      .ok (sv, .logPiecewise, na, nv)) :
    ssqCwt x { a with ssqFreqs := .none } = .error .valueError := by
  unfold ssqCwt at hvalid ⊢
  have hnv : ∀ g, ssqCwtNv { a with ssqFreqs := g } = ssqCwtNv a := fun _ => rfl
  obtain ⟨u, h1, hvalid⟩ := bind_ok hvalid
  obtain ⟨r, h2, hvalid⟩ := bind_ok hvalid
  obtain ⟨sc, h3, hvalid⟩ := bind_ok hvalid
  obtain ⟨W, h4, hvalid⟩ := bind_ok hvalid
  obtain ⟨T, h5, -⟩ := bind_ok hvalid
  have h3' := h3
  rw [hnv, hsc] at h3'
  simp only [Except.ok.injEq] at h3'
  subst h3'
  have e4 : ∀ g, ({ a with ssqFreqs := g } : SsqCwtArgs).cwtArgs = a.cwtArgs := fun _ => rfl
  rw [e4] at h4 ⊢
  simp only [hnv, h1, h2, hsc, h4, ok_bind]
  set b := a.ssqArgs r.1 .logPiecewise W.2.1 x.length W.1 W.2.2 with hb
  have key : ∀ g, ({ a with ssqFreqs := g } : SsqCwtArgs).ssqArgs r.1 .logPiecewise W.2.1 x.length W.1 W.2.2 =
      { b with ssqFreqs := match g with
        | .none => .name (.known .logPiecewise)
        | f => f } := fun g => rfl
  simp only at h5
  rw [key] at h5
  rw [key, C177_piecewise_named b _ T h5 hfix, error_bind]

theorem exS_v6_ok (x : List ℝ) (hx : 0 < x.length) : ∃ o, ssqCwt x (exS v6 none) = .ok o := by
  obtain ⟨o, h, -⟩ := exS_ok v6 none x hx .logPiecewise (.arr (nvTwo 6 2 (1 / (2 : ℕ)) (1 / (1 : ℕ)))) (by simp [v6])
    (fun sh N wv up ds h => process_v6 N wv none up ds h) (fun v => ⟨_, _, rfl, by
      unfold constArr
      simp only [v6, nvTwo, List.length_map, List.length_range, List.length_cons, List.length_nil]
      rw [if_neg (by norm_num), if_pos trivial]⟩)
  exact ⟨o, h⟩

/-- Six scales in two segments: `ssq_cwt` succeeds with given frequencies and is refused by default over the
maximal range. -/
example (x : List ℝ) (hx : 0 < x.length) : (∃ o, ssqCwt x (exS v6 none) = .ok o) ∧
    ssqCwt x { exS v6 none with ssqFreqs := .none } = .error .valueError := by
  obtain ⟨o, h⟩ := exS_v6_ok x hx
  exact ⟨⟨o, h⟩, C177_ssq_cwt x (exS v6 none) (exS v6 none).ssqFreqs o h (Or.inl rfl) v6 6 _
    (process_v6 _ _ none _ _ (by simp [v6]))⟩

/-- The same scales given to `ssqueeze` itself. -/
example (x : List ℝ) (hx : 0 < x.length) : ∃ a : SsqArgs, (∃ r, ssqueeze a = .ok r) ∧
    ssqueeze { a with ssqFreqs := .none } = .error .valueError := by
  obtain ⟨o, h⟩ := exS_v6_ok x hx
  obtain ⟨fs, dt, st, na, nv, -, hsc, -, hT⟩ := ssqCwt_ok h
  have hv : o.scales = v6 := (processScales_arr_infer hsc).1
  refine ⟨_, ⟨_, hT⟩, C177_piecewise_default _ ((exS v6 none).ssqArgs fs st o.scales x.length o.Wx o.dWx).ssqFreqs _ hT
    (Or.inl rfl) rfl [o.scales.length] .f64 v6 _ ?_ infer_v6⟩
  rw [hv]; rfl

theorem kernel_params {a : SsqArgs} {W : ℕ → ℕ → ℂ} {v : List ℝ} {const : ConstArg} {ls : Bool} {T : ℤ → ℕ → ℂ}
    (h : ssqKernel a W v const ls = .ok T) : ∃ c, constArr a.M const = .ok c := by
  unfold ssqKernel at h
  cases hw : a.w with
  | some w =>
    rw [hw] at h
    unfold indexedSumOnfly onflyBody at h
    obtain ⟨b, hb, -⟩ := bind_ok h
    obtain ⟨c, hc, -⟩ := bind_ok hb
    exact ⟨c, hc⟩
  | none =>
    rw [hw] at h
    unfold ssqueezeFast fastBody at h
    obtain ⟨b, hb, -⟩ := bind_ok h
    obtain ⟨c, hc, -⟩ := bind_ok hb
    exact ⟨c, hc⟩

theorem kernel_runs {a : SsqArgs} (hS : a.Sfs = none) (W : ℕ → ℕ → ℂ) {v : List ℝ} {const : ConstArg} {ls : Bool}
    {c : List ℝ} {p : BinParams} (hc : constArr a.M const = .ok c) (hp : processSsqParams a.th v ls = .ok p) :
    ∃ T, ssqKernel a W v const ls = .ok T := by
  unfold ssqKernel
  cases hw : a.w with
  | some w =>
    simp only [indexedSumOnfly, onflyBody, hc, hp, ok_bind, pure_eq_ok]
    exact ⟨_, rfl⟩
  | none =>
    simp only [ssqueezeFast, fastBody, hc, hp, hS, ok_bind, pure_eq_ok]
    exact ⟨_, rfl⟩

/-- **C177, accepted ranges.** A valid call for a CWT of three or more scales and samples succeeds with
`maprange='maximal'` and `ssq_freqs` one of `'log'`, `'linear'`; it returns one frequency per scale, the
first half the sampling rate, the last one cycle in the signal. -/
theorem C177_computed (a : SsqArgs) (f : FreqArg) (r : (ℤ → ℕ → ℂ) × List ℝ)
    (hvalid : ssqueeze { a with ssqFreqs := f } = .ok r) (hmr : a.maprange = .maximal)
    (htr : a.transform = .cwt) (hS : a.Sfs = none) (sh : List ℕ) (d : FDtype) (sv : List ℝ)
    (hsc : a.scales = some (.arr sh d sv)) (hlen : 3 ≤ sv.length) (hN : 3 ≤ a.N) (fs dt : ℝ)
    (hfs : processFsT a.fs a.t a.N = .ok (.fin fs dt)) (hdt : 0 < dt)
    (st : ScaleType) (hst : st = .log ∨ st = .linear) :
    ∃ Tx fr, ssqueeze { a with ssqFreqs := .name (.known st) } = .ok (Tx, fr) ∧
      fr.length = sv.length ∧ fr[0]? = some (1 / (2 * dt)) ∧
      fr[sv.length - 1]? = some (1 / (a.N * dt)) := by
  obtain ⟨dt', sc, fr0, const, ls0, g1, g2, g3, g4, g5, g6, -⟩ := ssqueeze_ok (Tx := r.1) (f := r.2) hvalid
  obtain ⟨dt'', sc', h1, h2, h⟩ := ssqueeze_before hvalid (.name (.known st))
  have e1 : ssqProcessArgs { a with ssqFreqs := f } = ssqProcessArgs a := rfl
  have e2 : ssqScales { a with ssqFreqs := f } = ssqScales a := rfl
  rw [e2, h2, Except.ok.injEq] at g2
  subst g2
  have hdd : dt'' = dt := by
    unfold ssqProcessArgs at h1
    split at h1
    · simp at h1
    · split at h1
      · simp at h1
      · obtain ⟨_, -, h1⟩ := bind_ok h1
        split at h1
        · simp at h1
        · rw [hfs, ok_bind] at h1
          simpa using h1.symm
  subst hdd
  have hs1 : sc'.1 = some sv := by
    unfold ssqScales at h2
    rw [htr, hsc] at h2
    simp only at h2
    obtain ⟨q, hq, hs⟩ := bind_ok h2
    obtain ⟨q1, q2, q3, q4⟩ := q
    have := (processScales_arr_infer hq).1
    simp only [pure_eq_ok, Except.ok.injEq] at hs
    subst hs
    simp only at this
    simp [this]
  obtain ⟨fm, fM, hr, hm0, hlt, hfm, hfM⟩ := C28_maximal dt'' hdt a.N hN a.wavelet (some sv) a.wasPadded
  have hfr : ∃ fr p, computeFreqs a.th (some sv) a.N a.wavelet (.known st) .maximal a.wasPadded dt'' .cwt = .ok fr ∧
      fr.length = sv.length ∧ fr[0]? = some fm ∧ fr[sv.length - 1]? = some fM ∧
      ∃ ls, (SsqType.known st).isLog = .ok ls ∧ processSsqParams a.th fr ls = .ok p := by
    rcases hst with rfl | rfl
    · obtain ⟨fr, q1, q2, q3, q4, -, s, -, hg⟩ := C28_log a.th sv a.N a.wavelet .maximal a.wasPadded dt'' .cwt fm fM hr
        hm0 hlt (by omega)
      have hp : ∃ p, processSsqParams a.th fr true = .ok p := by
        unfold processSsqParams paramsFindClosestLog
        rw [if_pos rfl, transition_geometric hg (by omega), ok_bind]
        exact ⟨_, rfl⟩
      obtain ⟨p, hp⟩ := hp
      exact ⟨fr, p, q1, q2, q3, q4, true, rfl, hp⟩
    · obtain ⟨fr, lo, hi, q1, q2, -, q3, q4, q5, -⟩ := C28_linear a.th sv a.N a.wavelet .maximal a.wasPadded dt'' .cwt
        (by simp) hdt fm fM hr hlt (by omega)
      obtain ⟨rfl, rfl⟩ := q2 rfl
      match fr, q3, q4, q5, q1 with
      | [], q3, _, _, _ => simp at q3; omega
      | [_], q3, _, _, _ => simp at q3; omega
      | v0 :: v1 :: l, q3, q4, q5, q1 =>
        exact ⟨_, _, q1, q3, q4, q5, false, rfl, rfl⟩
  obtain ⟨fr, p, c1, c2, c3, c4, ls, c5, c6⟩ := hfr
  have hF : ssqFreqsOf { a with ssqFreqs := .name (.known st) } dt'' sc'.1 sc'.2 = .ok (fr, .known st) := by
    unfold ssqFreqsOf
    simp only
    rw [if_neg (by rcases hst with rfl | rfl <;> simp), hs1, hmr, htr, c1, ok_bind]
  have hC : ssqConst a.transform sc'.1 sc'.2 fr = .ok const := by
    rw [← g4]
    simp only [htr]
    unfold ssqConst
    rw [hs1]
    rcases sc'.2 with _ | ⟨_ | _ | _, _ | _⟩ <;> rfl
  obtain ⟨c, hc⟩ := kernel_params g6
  obtain ⟨T, hT⟩ := kernel_runs (a := { a with ssqFreqs := .name (.known st) }) hS
    (applySqueezing a.squeezing a.M a.Wx) hc c6
  refine ⟨T, fr.reverse, ?_, by simpa using c2, ?_, ?_⟩
  · rw [h, hF, ok_bind, hC, ok_bind]
    simp only [c5, ok_bind, hT]
    have : ssqReverses a.transform a.flipud = true := by rw [htr]; cases a.flipud <;> rfl
    rw [this]
    rfl
  · rw [List.getElem?_reverse (by omega), c2, ← hfM, ← c4]
    congr 1
  · rw [List.getElem?_reverse (by omega), c2, ← hfm, ← c3]
    congr 1; omega

/-- The scales 1, 2, 4 with three samples: both layouts of the frequencies are computed. -/
example (st : ScaleType) (hst : st = .log ∨ st = .linear) : ∃ (a : SsqArgs) (Tx : ℤ → ℕ → ℂ) (fr : List ℝ),
    ssqueeze { a with ssqFreqs := .name (.known st) } = .ok (Tx, fr) ∧ fr.length = 3 ∧ fr[0]? = some 4 := by
  obtain ⟨Tx, h⟩ := ssqueeze_exSsq none 3 [] []
  have hr : processFsT (some 8) none 3 = .ok (.fin 8 (1 / 8)) := by
    simp only [processFsT]; rw [if_neg (by norm_num)]
  obtain ⟨T, fr, h1, h2, h3, -⟩ := C177_computed ((exSsq none).ssqArgs 8 .log [1, 2, 4] 3 [] [])
    ((exSsq none).ssqArgs 8 .log [1, 2, 4] 3 [] []).ssqFreqs _ h rfl rfl rfl [3] .f64 [1, 2, 4] rfl (by simp)
    (by simp [SsqCwtArgs.ssqArgs]) 8 (1 / 8) hr (by norm_num) st hst
  refine ⟨_, T, fr, h1, h2, ?_⟩
  rw [h3]; norm_num

end Ssq
