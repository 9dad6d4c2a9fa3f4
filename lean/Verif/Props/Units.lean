import Verif.Lemmas.Units
import Verif.Props.Covariance

/-!
# The unit of time (C148)
-/
namespace Ssq
open Finset Complex

/-- `maprange` with its numbers in another unit. -/
noncomputable def MapRange.inUnit (c : ℝ) : MapRange → MapRange
  | .tuple l => .tuple (l.map fun e => match e with | .num y => .num (c * y) | .other => .other)
  | m => m

/-- `ssq_freqs` in another unit. -/
noncomputable def FreqArg.inUnit (c : ℝ) : FreqArg → FreqArg
  | .arr d v => .arr d (Ssq.inUnit c v)
  | f => f

namespace Spec

/-- The same call of `ssq_cwt` in another unit of time: sampling rate, frequencies and frequency range are multiplied by `c`. -/
noncomputable def callInUnit (c fs : ℝ) (a : SsqCwtArgs) : SsqCwtArgs :=
  { a with fs := some (c * fs), ssqFreqs := a.ssqFreqs.inUnit c, maprange := a.maprange.inUnit c }

/-- Center frequencies, and frequencies given, are positive. -/
def PositiveFreqs (a : SsqCwtArgs) : Prop :=
  (∀ N k s f, a.ssqw.centerFreq N k s = .ok f → 0 < f) ∧ (∀ l y, a.maprange = .tuple l → .num y ∈ l → 0 < y) ∧
    ∀ d v y, a.ssqFreqs = .arr d v → y ∈ v → 0 < y

/-- The results of two calls, the second one in another unit of time, say the same. -/
def SameInUnit (c : ℝ) (o o' : SsqCwtOut) : Prop :=
  o'.scales = o.scales ∧ o'.Wx = o.Wx ∧ (∀ i j, ent o'.dWx i j = c * ent o.dWx i j) ∧ o'.freqs = o.freqs.map (fun f => c * f) ∧
    o'.Tx = o.Tx

end Spec

/-! ## The transform -/

theorem cwtRun_unit (a : CwtArgs) (fs' : Option ℝ) {c : ℝ} (dt : ℝ) (scales : List ℝ) (N : ℕ) (xp : List ℝ) (n1 : ℕ)
    (h : n1 + N ≤ xp.length) :
    cwtRun { a with fs := fs' } (dt / c) scales N xp n1 =
      ((cwtRun a dt scales N xp n1).1, (cwtRun a dt scales N xp n1).2.map fun r => r.map fun z => (c : ℂ) * z) := by
  rw [cwtRun_eq { a with fs := fs' } _ _ _ _ _ h, cwtRun_eq a _ _ _ _ _ h]
  congr 1
  rw [List.map_zipWith]
  congr 1
  funext s p
  rw [List.map_map]
  refine List.map_congr_left fun j _ => ?_
  show ((a.norm s : ℝ) : ℂ) * _ = (c : ℂ) * (((a.norm s : ℝ) : ℂ) * _)
  rw [mul_left_comm]
  congr 1
  rw [← idft_smul]
  refine idft_congr (fun k _ => ?_) (a.first n1 + j)
  push_cast
  rw [div_div_eq_mul_div]
  ring

theorem cwt_unit (x : List ℝ) (hx : 0 < x.length) (a : CwtArgs) (t : Option PadType) (ht : a.padtype = t.map padName) {c fs : ℝ}
    (hc : 0 < c) (hfs : a.fs = some fs) (hT : a.t = none) (W : List (List ℂ)) (s : List ℝ) (dW : List (List ℂ))
    (h : cwt x a = .ok (W, s, dW)) :
    cwt x { a with fs := some (c * fs) } = .ok (W, s, dW.map fun r => r.map fun z => (c : ℂ) * z) := by
  obtain ⟨r, p, sc, h1, h2, h3, h4, h5, h6⟩ := (cwt_ok_iff _ _ _ _ _).1 h
  obtain ⟨xp, n1, e1, -, e3⟩ := cwtPad_ok t x hx
  rw [ht, e1, Except.ok.injEq] at h3
  subst h3
  simp only [hfs, hT, cwtDt, processFsT] at h1
  split at h1
  · simp [Bind.bind, Except.bind] at h1
  next hpos =>
  simp only [ok_bind, Except.ok.injEq] at h1
  subst h1
  refine (cwt_ok_iff _ _ _ _ _).2 ⟨(c * fs, 1 / (c * fs)), (xp, (n1 : ℤ)), sc, ?_, h2, ?_, h4, h5, ?_⟩
  · simp only [hT, cwtDt, processFsT]
    rw [if_neg (by have := mul_pos hc (not_le.1 hpos); linarith)]
    rfl
  · simp only [ht]; exact e1
  · simp only at h6 ⊢
    rw [show 1 / (c * fs) = 1 / fs / c by rw [div_div, mul_comm], cwtRun_unit a _ _ _ _ _ _ e3, h6]

/-! ## The frequencies -/

theorem centerFreq_unit {wv : SsqWavelet} {N : ℕ} {k : CfKind} {c dt s : ℝ} {b : Bool} :
    getCenterFrequency wv N k (dt / c) s b = (getCenterFrequency wv N k dt s b).map fun f => c * f := by
  unfold getCenterFrequency
  simp only
  cases wv.centerFreq (if b then (p2up N).1 else N) k s with
  | error e => rfl
  | ok f =>
    simp only [ok_bind, pure_eq_ok, Except.map, Except.ok.injEq]
    rw [div_div_eq_mul_div]; ring

theorem centerFreq_pos {wv : SsqWavelet} (h : ∀ N k s f, wv.centerFreq N k s = .ok f → 0 < f) {N : ℕ} {k : CfKind} {dt s : ℝ}
    (hdt : 0 < dt) {b : Bool} {f : ℝ} (hf : getCenterFrequency wv N k dt s b = .ok f) : 0 < f := by
  unfold getCenterFrequency at hf
  obtain ⟨y, hy, hf⟩ := bind_ok hf
  simp only [pure_eq_ok, Except.ok.injEq] at hf
  rw [← hf]
  exact div_pos (div_pos (h _ _ _ _ hy) (by positivity)) hdt

theorem freqrange_unit {mr : MapRange} {c dt : ℝ} {N : ℕ} {wv : Option SsqWavelet} {sc : Option (List ℝ)} {b : Bool} {r : ℝ × ℝ}
    (h : ssqFreqrange mr dt N wv sc b = .ok r) : ssqFreqrange (mr.inUnit c) (dt / c) N wv sc b = .ok (c * r.1, c * r.2) := by
  have hcr : ∀ k, centerRange wv N k dt sc b = .ok r → centerRange wv N k (dt / c) sc b = .ok (c * r.1, c * r.2) := by
    intro k h
    unfold centerRange at h ⊢
    split at h
    · obtain ⟨y, hy, h⟩ := bind_ok h
      obtain ⟨z, hz, h⟩ := bind_ok h
      simp only [pure_eq_ok, Except.ok.injEq] at h
      rw [centerFreq_unit, centerFreq_unit, hy, hz, ← h]
      rfl
    · simp at h
    · simp at h
    · simp at h
  unfold ssqFreqrange at h
  split at h
  · simp only [Except.ok.injEq] at h
    rw [← h]; rfl
  · simp at h
  · simp at h
  · simp only [Except.ok.injEq] at h
    rw [← h]
    simp only [MapRange.inUnit, ssqFreqrange, Except.ok.injEq, Prod.mk.injEq]
    constructor
    · rw [div_mul_eq_mul_div, one_div_div]; ring
    · rw [mul_div_assoc', one_div_div]; ring
  · exact hcr _ h
  · exact hcr _ h
  · simp at h

theorem freqrange_pos {mr : MapRange} {dt : ℝ} (hdt : 0 < dt) {N : ℕ} (hN : 0 < N) {wv : Option SsqWavelet}
    (hw : ∀ w, wv = some w → ∀ N k s f, w.centerFreq N k s = .ok f → 0 < f)
    (hm : ∀ l y, mr = .tuple l → .num y ∈ l → 0 < y) {sc : Option (List ℝ)} {b : Bool} {r : ℝ × ℝ}
    (h : ssqFreqrange mr dt N wv sc b = .ok r) : 0 < r.1 ∧ 0 < r.2 := by
  have hcr : ∀ k, centerRange wv N k dt sc b = .ok r → 0 < r.1 ∧ 0 < r.2 := by
    intro k h
    unfold centerRange at h
    split at h
    · obtain ⟨y, hy, h⟩ := bind_ok h
      obtain ⟨z, hz, h⟩ := bind_ok h
      simp only [pure_eq_ok, Except.ok.injEq] at h
      rw [← h]
      exact ⟨centerFreq_pos (hw _ rfl) hdt hy, centerFreq_pos (hw _ rfl) hdt hz⟩
    · simp at h
    · simp at h
    · simp at h
  unfold ssqFreqrange at h
  split at h
  · simp only [Except.ok.injEq] at h
    rw [← h]
    exact ⟨hm _ _ rfl (by simp), hm _ _ rfl (by simp)⟩
  · simp at h
  · simp at h
  · simp only [Except.ok.injEq] at h
    rw [← h]
    have : (0 : ℝ) < N := by exact_mod_cast hN
    exact ⟨by positivity, by positivity⟩
  · exact hcr _ h
  · exact hcr _ h
  · simp at h

theorem linspace_pos {fm fM : ℝ} (h1 : 0 < fm) (h2 : 0 < fM) (na : ℕ) : ∀ y ∈ linspace fm fM na, 0 < y := by
  unfold linspace
  intro y hy
  obtain ⟨i, hi, rfl⟩ := List.mem_map.1 hy
  have hi := List.mem_range.1 hi
  rcases Nat.eq_zero_or_pos (na - 1) with h0 | h0
  · have : i = 0 := by omega
    subst this; simpa using h1
  · have hq : (0 : ℝ) < ((na - 1 : ℕ) : ℝ) := by exact_mod_cast h0
    have hle : (i : ℝ) ≤ ((na - 1 : ℕ) : ℝ) := by exact_mod_cast (show i ≤ na - 1 by omega)
    have e : fm + i * ((fM - fm) / ((na - 1 : ℕ) : ℝ)) = (fm * (((na - 1 : ℕ) : ℝ) - i) + fM * i) / ((na - 1 : ℕ) : ℝ) := by
      field_simp; ring
    rw [e]
    refine div_pos ?_ hq
    rcases (Nat.cast_nonneg (α := ℝ) i).eq_or_lt with h | h
    · rw [← h]; simp; positivity
    · have : 0 ≤ fm * (((na - 1 : ℕ) : ℝ) - i) := mul_nonneg h1.le (by linarith)
      have := mul_pos h2 h
      linarith

theorem kind_inUnit (c : ℝ) (mr : MapRange) : (mr.inUnit c).kind = mr.kind := by cases mr <;> rfl
theorem fixed_inUnit (c : ℝ) (mr : MapRange) : (mr.inUnit c).fixed = mr.fixed := by cases mr <;> rfl

theorem computeFreqs_unit {th : ℝ} {sc : Option (List ℝ)} {N : ℕ} (hN : 0 < N) {wv : Option SsqWavelet} {st : SsqType} {mr : MapRange}
    {b : Bool} {c dt : ℝ} (hc : 0 < c) (hdt : 0 < dt)
    (hw : ∀ w, wv = some w → ∀ N k s f, w.centerFreq N k s = .ok f → 0 < f)
    (hm : ∀ l y, mr = .tuple l → .num y ∈ l → 0 < y) {v : List ℝ}
    (h : computeFreqs th sc N wv st mr b dt .cwt = .ok v) :
    computeFreqs th sc N wv st (mr.inUnit c) b (dt / c) .cwt = .ok (inUnit c v) ∧ ∀ y ∈ v, 0 < y := by
  unfold computeFreqs at h ⊢
  obtain ⟨⟨fm, fM⟩, hr, h⟩ := bind_ok h
  obtain ⟨p1, p2⟩ := freqrange_pos hdt hN hw hm hr
  rw [freqrange_unit hr, ok_bind]
  simp only at h p1 p2 ⊢
  cases sc with
  | none => simp at h
  | some s =>
    simp only at h ⊢
    split at h
    · simp at h
    next hna =>
    rw [if_neg hna]
    cases st with
    | known st =>
      cases st with
      | log =>
        simp only [Except.ok.injEq] at h ⊢
        rw [← h]
        exact ⟨logFreqs_unit hc _ _ _, logFreqs_pos p1 p2 _⟩
      | logPiecewise =>
        simp only at h ⊢
        obtain ⟨o, ho, h⟩ := bind_ok h
        rw [ho, ok_bind]
        cases o with
        | none =>
          simp only [Except.ok.injEq] at h ⊢
          rw [← h]
          exact ⟨logFreqs_unit hc _ _ _, logFreqs_pos p1 p2 _⟩
        | some idx =>
          simp only [kind_inUnit] at h ⊢
          cases wv with
          | none => simp at h
          | some w =>
            cases hk : mr.kind with
            | none => rw [hk] at h; simp at h
            | some kind =>
              rw [hk] at h
              simp only at h ⊢
              obtain ⟨f1, hf1, h⟩ := bind_ok h
              have p3 := centerFreq_pos (hw w rfl) hdt hf1
              obtain ⟨h3, hi⟩ := transIdx_len ho
              obtain ⟨i1, i2⟩ := hi idx rfl
              rw [centerFreq_unit, hf1]
              simp only [Except.map, ok_bind]
              rw [piecewise_unit hc p1 p3 p2 i1 i2, transIdx_unit hc _ (piecewise_pos p1 p3 p2 _ _)]
              obtain ⟨o, ho, h⟩ := bind_ok h
              rw [ho, ok_bind]
              cases o with
              | none => simp at h
              | some q =>
                simp only at h ⊢
                split at h
                · next hq =>
                  rw [if_pos hq]
                  simp only [Except.ok.injEq] at h
                  rw [← h]
                  exact ⟨rfl, piecewise_pos p1 p3 p2 _ _⟩
                · simp at h
      | linear =>
        simp only [Except.ok.injEq] at h ⊢
        rw [← h]
        exact ⟨linspace_unit _ _ _ _, linspace_pos p1 p2 _⟩
    | otherStr _ =>
      simp only [Except.ok.injEq] at h ⊢
      rw [← h]
      exact ⟨linspace_unit _ _ _ _, linspace_pos p1 p2 _⟩
    | none =>
      simp only [Except.ok.injEq] at h ⊢
      rw [← h]
      exact ⟨linspace_unit _ _ _ _, linspace_pos p1 p2 _⟩

/-! ## Squeezing -/

theorem cwtFreq_unit {c : ℝ} (hc : 0 < c) (V dW : ℂ) : cwtFreq V (c * dW) = c * cwtFreq V dW := by
  unfold cwtFreq
  simp only [re_ofReal_mul, im_ofReal_mul]
  rw [show c * dW.im * V.re - c * dW.re * V.im = c * (dW.im * V.re - dW.re * V.im) by ring, mul_div_assoc, abs_mul, abs_of_pos hc]

theorem phaseCwt_unit {c : ℝ} (hc : 0 < c) (g : ℝ) (W dW : ℕ → ℕ → ℂ) :
    phaseCwt g W (fun i j => c * dW i j) = fun i j => (phaseCwt g W dW i j).inUnit c := by
  funext i j
  unfold phaseCwt
  by_cases h : ‖W i j‖ < g
  · rw [if_pos h, if_pos h]; rfl
  · rw [if_neg h, if_neg h, cwtFreq_unit hc]; rfl

/-- C148 as one would have it: changing the unit of time changes the frequencies and the derivative accordingly, and nothing else. -/
def C148_full : Prop :=
  ∀ (x : List ℝ) (a : SsqCwtArgs) (t : Option PadType) (c fs : ℝ) (o : SsqCwtOut), 0 < x.length → a.padtype = t.map padName → 0 < c →
    a.fs = some fs → a.t = none → Spec.PositiveFreqs a → ssqCwt x a = .ok o →
    ∃ o', ssqCwt x (Spec.callInUnit c fs a) = .ok o' ∧ Spec.SameInUnit c o o'

theorem checkMaprange_inUnit (c : ℝ) (tr : Transform) (b : Bool) (mr : MapRange) : checkMaprange tr b (mr.inUnit c) = checkMaprange tr b mr := by
  cases mr <;> try rfl
  next l =>
  simp only [MapRange.inUnit, checkMaprange, List.all_map]
  have : (MapEl.isNum ∘ fun e => match e with | .num y => MapEl.num (c * y) | .other => .other) = MapEl.isNum := by
    funext e; cases e <;> rfl
  rw [this]

theorem check_inUnit (c : ℝ) (g : Bool) (sq : Squeezing) (mr : MapRange) (hw : Bool) (d : Option DiffType) (k : Option ℤ) (w : Bool)
    (tr : Transform) : checkSsqueezingArgs g sq (mr.inUnit c) hw d k w tr = checkSsqueezingArgs g sq mr hw d k w tr := by
  unfold checkSsqueezingArgs
  rw [checkMaprange_inUnit]

/-- C148, for layouts that are recognized alike in both units: arrays of frequencies have the same scale type, and the steps of linear
frequencies are at least the machine epsilon in both units. -/
theorem C148_partial (x : List ℝ) (a : SsqCwtArgs) (t : Option PadType) (c fs : ℝ) (o : SsqCwtOut) (hx : 0 < x.length)
    (ht : a.padtype = t.map padName) (hc : 0 < c) (hfs : a.fs = some fs) (hT : a.t = none) (hp : Spec.PositiveFreqs a)
    (h : ssqCwt x a = .ok o)
    (harr : ∀ d v st nv, a.ssqFreqs = .arr d v → inferScaletype d v = .ok (st, nv) → ∃ nv', inferScaletype d (inUnit c v) = .ok (st, nv'))
    (hlin : (∀ k, k + 1 < o.freqs.length → eps64 ≤ o.freqs.getD k 0 - o.freqs.getD (k + 1) 0 ∧
        eps64 ≤ c * (o.freqs.getD k 0 - o.freqs.getD (k + 1) 0)) ∨
      (match a.ssqFreqs with
        | .none => ∀ r, processScales a.scales x.length (some a.wavelet.sw) (ssqCwtNv a) true a.downsample = .ok r → r.2.1 ≠ .linear
        | .name s => s = .known .log ∨ s = .known .logPiecewise
        | .arr d v => ∀ r, inferScaletype d v = .ok r → r.1 ≠ .linear)) :
    ∃ o', ssqCwt x (Spec.callInUnit c fs a) = .ok o' ∧ Spec.SameInUnit c o o' := by
  unfold ssqCwt at h
  obtain ⟨k, hk, h⟩ := bind_ok h
  obtain ⟨r, hr, h⟩ := bind_ok h
  obtain ⟨sc, hsc, h⟩ := bind_ok h
  obtain ⟨⟨W, s, dW⟩, hW, h⟩ := bind_ok h
  obtain ⟨⟨T, f⟩, hTx, h⟩ := bind_ok h
  simp only [Except.ok.injEq] at h
  subst h
  simp only at hlin hTx
  simp only [hfs, hT, cwtDt, processFsT] at hr
  split at hr
  · simp [Bind.bind, Except.bind] at hr
  next hfp =>
  simp only [ok_bind, Except.ok.injEq] at hr
  subst hr
  have hfp := not_le.1 hfp
  have hcf : 0 < c * fs := mul_pos hc hfp
  have hW' := cwt_unit x hx (a.cwtArgs fs sc.1) t ht hc rfl rfl W s dW hW
  set dW' := dW.map fun r => r.map fun z => (c : ℂ) * z with hdW'
  obtain ⟨dt, scl, fr, const, ls, q1, q2, q3, q4, q5, q6, q7⟩ := ssqueeze_ok hTx
  set A := a.ssqArgs fs sc.2.1 s x.length W dW with hA
  set A' := (Spec.callInUnit c fs a).ssqArgs (c * fs) sc.2.1 s x.length W dW' with hA'
  -- the sampling period
  have hdt : dt = 1 / fs ∧ ssqProcessArgs A' = .ok (1 / fs / c) := by
    unfold ssqProcessArgs at q1 ⊢
    have e1 : (A'.w.isNone ∧ (A'.dWx.isNone ∨ A'.gamma.isNone)) ↔ (A.w.isNone ∧ (A.dWx.isNone ∨ A.gamma.isNone)) := by
      simp only [hA, hA', SsqCwtArgs.ssqArgs, Spec.callInUnit]
      by_cases hg : a.getW <;> simp [hg]
    split at q1
    · simp at q1
    next h1 =>
    rw [if_neg (fun h => h1 (e1.1 h))]
    split at q1
    · simp at q1
    next h2 =>
    rw [if_neg]
    · obtain ⟨u, hu, q1⟩ := bind_ok q1
      split at q1
      · simp at q1
      next h3 =>
      have hu' : checkSsqueezingArgs false A'.squeezing A'.maprange A'.wavelet.isSome none none false A'.transform = .ok u := by
        rw [← hu]; exact check_inUnit _ _ _ _ _ _ _ _ _
      rw [hu', ok_bind, if_neg (show ¬ (A'.scales.isNone ∧ A'.transform = .cwt) from h3)]
      have ef : A.fs = some fs := rfl
      have ef' : A'.fs = some (c * fs) := rfl
      have et : A.t = none := rfl
      have et' : A'.t = none := rfl
      rw [ef, et] at q1
      rw [ef', et']
      simp only [processFsT] at q1 ⊢
      rw [if_neg (not_le.2 hfp)] at q1
      rw [if_neg (not_le.2 hcf)]
      simp only [ok_bind, Except.ok.injEq] at q1 ⊢
      exact ⟨q1.symm, by rw [div_div, mul_comm]⟩
    · rintro ⟨w, hw, i, hi, j, hj, y, hy, hneg⟩
      simp only [hA', SsqCwtArgs.ssqArgs, Spec.callInUnit] at hw
      cases hg : a.getW
      · simp [hg] at hw
      · simp only [hg, if_true, Option.some.injEq] at hw
        rw [← hw] at hy
        unfold phaseCwt at hy
        split at hy
        · simp at hy
        · simp only [Phase.fin.injEq] at hy
          rw [← hy] at hneg
          exact absurd hneg (not_lt.2 (abs_nonneg _))
  obtain ⟨hdt, hproc⟩ := hdt
  subst hdt
  -- the frequencies
  have hfr : ssqFreqsOf A' (1 / fs / c) scl.1 scl.2 = .ok (inUnit c fr.1, fr.2) ∧ ∀ y ∈ fr.1, 0 < y := by
    have hgen : ∀ st : SsqType, (if A.maprange.fixed ∧ st = .known .logPiecewise then (.error .valueError : Py (List ℝ × SsqType)) else do
        let fr ← computeFreqs A.th scl.1 A.N A.wavelet st A.maprange A.wasPadded (1 / fs) A.transform
        .ok (fr, st)) = .ok fr →
        (if A'.maprange.fixed ∧ st = .known .logPiecewise then (.error .valueError : Py (List ℝ × SsqType)) else do
        let fr ← computeFreqs A'.th scl.1 A'.N A'.wavelet st A'.maprange A'.wasPadded (1 / fs / c) A'.transform
        .ok (fr, st)) = .ok (inUnit c fr.1, fr.2) ∧ ∀ y ∈ fr.1, 0 < y := by
      intro st hg
      have hmr : A'.maprange = A.maprange.inUnit c := rfl
      rw [hmr, fixed_inUnit]
      split at hg
      · simp at hg
      next hfx =>
      rw [if_neg hfx]
      obtain ⟨v, hv, hg⟩ := bind_ok hg
      simp only [Except.ok.injEq] at hg
      rw [← hg]
      obtain ⟨g1, g2⟩ := computeFreqs_unit (c := c) hx hc (one_div_pos.2 hfp) (wv := A.wavelet)
        (by intro w hw; simp only [hA, SsqCwtArgs.ssqArgs, Option.some.injEq] at hw; rw [← hw]; exact hp.1) hp.2.1 hv
      refine ⟨?_, g2⟩
      have g1' : computeFreqs A'.th scl.1 A'.N A'.wavelet st (A.maprange.inUnit c) A'.wasPadded (1 / fs / c) A'.transform =
        .ok (inUnit c v) := g1
      rw [g1', ok_bind]
    unfold ssqFreqsOf at q3 ⊢
    cases hsf : a.ssqFreqs with
    | none =>
      have e : A.ssqFreqs = .name (.known sc.2.1) := by simp only [hA, SsqCwtArgs.ssqArgs, hsf]
      have e' : A'.ssqFreqs = .name (.known sc.2.1) := by simp only [hA', SsqCwtArgs.ssqArgs, Spec.callInUnit, hsf, FreqArg.inUnit]
      simp only [e, e'] at q3 ⊢
      exact hgen _ q3
    | name st =>
      have e : A.ssqFreqs = .name st := by simp only [hA, SsqCwtArgs.ssqArgs, hsf]
      have e' : A'.ssqFreqs = .name st := by simp only [hA', SsqCwtArgs.ssqArgs, Spec.callInUnit, hsf, FreqArg.inUnit]
      simp only [e, e'] at q3 ⊢
      exact hgen _ q3
    | arr d v =>
      have e : A.ssqFreqs = .arr d v := by simp only [hA, SsqCwtArgs.ssqArgs, hsf]
      have e' : A'.ssqFreqs = .arr d (inUnit c v) := by simp only [hA', SsqCwtArgs.ssqArgs, Spec.callInUnit, hsf, FreqArg.inUnit]
      have et : A.transform = .cwt := rfl
      have et' : A'.transform = .cwt := rfl
      simp only [e, e', et, et', reduceCtorEq, if_false] at q3 ⊢
      obtain ⟨⟨st, nv⟩, hi, q3⟩ := bind_ok q3
      simp only [Except.ok.injEq] at q3
      obtain ⟨nv', hi'⟩ := harr d v st nv hsf hi
      rw [hi', ok_bind, ← q3]
      exact ⟨rfl, fun y hy => hp.2.2 d v y hsf hy⟩
  obtain ⟨hfr, hpos⟩ := hfr
  have hrev : ∀ b, ssqReverses .cwt b = true := by intro b; cases b <;> rfl
  have hf : f = fr.1.reverse := by
    rw [q7]
    have : ssqReverses A.transform A.flipud = true := hrev _
    rw [this]; rfl
  -- the kernel
  have hpar : processSsqParams A.th (inUnit c fr.1) ls = (processSsqParams A.th fr.1 ls).map (BinParams.inUnit c) := by
    cases ls with
    | true => exact params_log_unit hc _ hpos
    | false =>
      rcases hlin with hl | hl
      · rw [hf, List.length_reverse] at hl
        by_cases h2 : 2 ≤ fr.1.length
        · have := hl (fr.1.length - 2) (by omega)
          rw [List.getD_eq_getElem _ _ (by rw [List.length_reverse]; omega), List.getD_eq_getElem _ _ (by rw [List.length_reverse]; omega),
            List.getElem_reverse, List.getElem_reverse] at this
          simp only [show fr.1.length - 1 - (fr.1.length - 2) = 1 by omega, show fr.1.length - 1 - (fr.1.length - 2 + 1) = 0 by omega] at this
          apply params_lin_unit
          · rw [List.getD_eq_getElem _ _ (by omega), List.getD_eq_getElem _ _ (by omega)]; exact this.1
          · rw [List.getD_eq_getElem _ _ (by omega), List.getD_eq_getElem _ _ (by omega)]; exact this.2
        · match hv : fr.1, h2 with
          | [], _ => rfl
          | [y], _ => rfl
          | _ :: _ :: _, h2 => simp at h2
      · exfalso
        have hgen : ∀ st : SsqType, fr.2 = st → (st = .known .log ∨ st = .known .logPiecewise) → False := by
          rintro st rfl (h | h) <;> rw [h] at q5 <;> simp [SsqType.isLog] at q5
        have hty : ∀ st : SsqType, (if A.maprange.fixed ∧ st = .known .logPiecewise then (.error .valueError : Py (List ℝ × SsqType)) else do
            let fr ← computeFreqs A.th scl.1 A.N A.wavelet st A.maprange A.wasPadded (1 / fs) A.transform
            .ok (fr, st)) = .ok fr → fr.2 = st := by
          intro st hg
          split at hg
          · simp at hg
          obtain ⟨v, hv, hg⟩ := bind_ok hg
          simp only [Except.ok.injEq] at hg
          rw [← hg]
        unfold ssqFreqsOf at q3
        cases hsf : a.ssqFreqs with
        | none =>
          rw [hsf] at hl
          have e : A.ssqFreqs = .name (.known sc.2.1) := by simp only [hA, SsqCwtArgs.ssqArgs, hsf]
          simp only [e] at q3
          refine hgen _ (hty _ q3) ?_
          have := hl sc hsc
          cases hst : sc.2.1 with
          | log => exact Or.inl rfl
          | logPiecewise => exact Or.inr rfl
          | linear => exact absurd hst this
        | name st =>
          rw [hsf] at hl
          have e : A.ssqFreqs = .name st := by simp only [hA, SsqCwtArgs.ssqArgs, hsf]
          simp only [e] at q3
          exact hgen _ (hty _ q3) hl
        | arr d v =>
          rw [hsf] at hl
          have e : A.ssqFreqs = .arr d v := by simp only [hA, SsqCwtArgs.ssqArgs, hsf]
          have et : A.transform = .cwt := rfl
          simp only [e, et, reduceCtorEq, if_false] at q3
          obtain ⟨⟨st, nv⟩, hi, q3⟩ := bind_ok q3
          simp only [Except.ok.injEq] at q3
          have := hl _ hi
          refine hgen (.known st) (by rw [← q3]) ?_
          cases st with
          | log => exact Or.inl rfl
          | logPiecewise => exact Or.inr rfl
          | linear => exact absurd rfl this
  have hdWe : (fun i j => (dW'.getD i []).getD j 0) = fun i j => (c : ℂ) * (dW.getD i []).getD j 0 := by
    funext i j; exact ent_smul dW c i j
  have hphase : Spec.usedPhase A' (applySqueezing A'.squeezing A'.M A'.Wx) =
      fun i j => (Spec.usedPhase A (applySqueezing A.squeezing A.M A.Wx) i j).inUnit c := by
    funext i j
    unfold Spec.usedPhase
    simp only [hA, hA', SsqCwtArgs.ssqArgs, Spec.callInUnit, hdWe]
    cases hgw : a.getW
    · simp only [hgw, Bool.false_eq_true, if_false, Option.getD_some]
      split
      · rw [cwtFreq_unit hc]; rfl
      · rfl
    · simp only [hgw, if_true]
      rw [phaseCwt_unit hc]
  have hker : ssqKernel A' (applySqueezing A'.squeezing A'.M A'.Wx) (inUnit c fr.1) const ls = .ok T := by
    rw [kernel_eq _ _ _ _ _ (Or.inr (Or.inl rfl))] at q6 ⊢
    rw [hphase, ← q6]
    exact onfly_unit A.dev A.th A.M A.N _ _ _ _ _ _ _ hc hpar
  have hconst : ssqConst A'.transform scl.1 scl.2 (inUnit c fr.1) = .ok const := by
    rw [← q4]
    have et : A.transform = .cwt := rfl
    have et' : A'.transform = .cwt := rfl
    rw [et, et']
    unfold ssqConst
    split <;> first | rfl | simp_all
  have hsq : ssqueeze A' = .ok (T, inUnit c f) := by
    have hs' : ssqScales A' = .ok scl := q2
    unfold ssqueeze
    rw [hproc, ok_bind, hs', ok_bind, hfr, ok_bind]
    simp only
    rw [hconst, ok_bind, q5, ok_bind, hker, ok_bind]
    have : ssqReverses A'.transform A'.flipud = true := hrev _
    rw [this, if_pos rfl, inUnit_reverse, hf]
    rfl
  refine ⟨⟨T, W, inUnit c f, s, dW'⟩, ?_, rfl, rfl, fun i j => ent_smul dW c i j, rfl, rfl⟩
  unfold ssqCwt
  have hk' : checkSsqueezingArgs false (Spec.callInUnit c fs a).squeezing (Spec.callInUnit c fs a).maprange true (some .trig)
      (Spec.callInUnit c fs a).difforder (Spec.callInUnit c fs a).getW .cwt = .ok k := by
    rw [← hk]; exact check_inUnit _ _ _ _ _ _ _ _ _
  have hr' : cwtDt (Spec.callInUnit c fs a).fs (Spec.callInUnit c fs a).t x.length = .ok (c * fs, 1 / (c * fs)) := by
    simp only [Spec.callInUnit, hT, cwtDt, processFsT]
    rw [if_neg (not_le.2 hcf)]; rfl
  have hsc' : processScales (Spec.callInUnit c fs a).scales x.length (some (Spec.callInUnit c fs a).wavelet.sw)
      (ssqCwtNv (Spec.callInUnit c fs a)) true (Spec.callInUnit c fs a).downsample = .ok sc := hsc
  have hW'' : cwt x ((Spec.callInUnit c fs a).cwtArgs (c * fs) sc.1) = .ok (W, s, dW') := hW'
  rw [hk', ok_bind, hr', ok_bind, hsc', ok_bind]
  simp only
  rw [hW'', ok_bind]
  simp only
  rw [hsq, ok_bind]

/-! ## Examples -/

theorem exSsqL_tone {o : SsqCwtOut} (h : ssqCwt (Spec.tone 4 1 1 0) (exSsqL none) = .ok o) (hs : o.scales = [1, 2, 4]) :
    (∀ i (hi : i < 3), ent o.Wx i 0 = ((([1, 2, 4] : List ℝ)[i] * (Real.pi / 4) : ℝ) : ℂ)) ∧
      ∀ i < 3, cwtFreq (ent o.Wx i 0) (ent o.dWx i 0) = 2 := by
  obtain ⟨fs, dt, st, na, nv, h1, -, h3, -⟩ := ssqCwt_ok h
  have hlen : (Spec.tone 4 1 1 0).length = 4 := by simp [Spec.tone]
  have hfs : fs = 8 := by
    simp only [exSsqL, exSsq, processFsT] at h1
    rw [if_neg (by norm_num)] at h1
    simp only [Except.ok.injEq, Rate.fin.injEq] at h1
    exact h1.1.symm
  subst hfs
  rw [hs] at h3
  obtain ⟨fs', dt', g1, -, -, -, g2⟩ := cwt_tone 4 1 1 0 (by norm_num) ((exSsqL none).cwtArgs 8 [1, 2, 4]) rfl (analytic_fnR none) o.Wx
    [1, 2, 4] o.dWx h3 (by simp)
  have hfs' : fs' = 8 := by
    simp only [SsqCwtArgs.cwtArgs, processFsT] at g1
    rw [if_neg (by norm_num)] at g1
    simp only [Except.ok.injEq, Rate.fin.injEq] at g1
    exact g1.1.symm
  subst hfs'
  have hW : ∀ i (hi : i < 3), ent o.Wx i 0 = ((([1, 2, 4] : List ℝ)[i] * (Real.pi / 4) : ℝ) : ℂ) := by
    intro i hi
    obtain ⟨ψ, hψ, -, -, g3⟩ := g2 i hi
    have hpos : (0 : ℝ) < ([1, 2, 4] : List ℝ)[i] := by interval_cases i <;> norm_num
    have he : ((exSsqL none).cwtArgs 8 [1, 2, 4]).wavelet.fn.eval (([1, 2, 4] : List ℝ)[i] * (2 * Real.pi * (1 : ℕ) / (4 : ℕ))) =
        ((([1, 2, 4] : List ℝ)[i] * (Real.pi / 2) : ℝ) : ℂ) := by
      have e' : ([1, 2, 4] : List ℝ)[i] * (2 * Real.pi * (1 : ℕ) / (4 : ℕ)) = ([1, 2, 4] : List ℝ)[i] * (Real.pi / 2) := by
        push_cast; ring
      have hp : 0 ≤ ([1, 2, 4] : List ℝ)[i] * (Real.pi / 2) := mul_nonneg hpos.le (by have := Real.pi_pos; positivity)
      rw [e']
      simp only [SsqCwtArgs.cwtArgs, exSsqL, exSsq, WFn.eval, fnR, if_pos hp]
    have hψ' : ψ = ((([1, 2, 4] : List ℝ)[i] * (Real.pi / 2) : ℝ) : ℂ) := by
      rcases hψ with h | h
      · rw [h, he]
      · rw [h, he, ofReal_re]
    rw [(g3 0 (by norm_num)).1, hψ']
    have hn : ((exSsqL none).cwtArgs 8 [1, 2, 4]).norm ([1, 2, 4] : List ℝ)[i] = 1 := by
      simp [CwtArgs.norm, SsqCwtArgs.cwtArgs]
    rw [hn]
    simp only [one_ne_zero, if_false, tw]
    push_cast
    simp
    ring
  refine ⟨hW, fun i hi => ?_⟩
  obtain ⟨ψ, -, -, -, g3⟩ := g2 i hi
  have hpos : (0 : ℝ) < ([1, 2, 4] : List ℝ)[i] := by interval_cases i <;> norm_num
  have h0 : ent o.Wx i 0 ≠ 0 := by
    rw [hW i hi, Ne, ofReal_eq_zero]
    exact (mul_pos hpos (by have := Real.pi_pos; positivity)).ne'
  rw [cwtFreq_eq _ _ h0, (g3 0 (by norm_num)).2, mul_div_assoc, div_self h0, mul_one]
  have : (2 * Real.pi * I * (1 : ℕ) * (8 : ℝ) / (4 : ℕ) : ℂ) = ((2 * Real.pi * 2 : ℝ) : ℂ) * I := by
    push_cast; ring
  rw [this, Complex.mul_im]
  simp only [ofReal_re, I_im, mul_one, ofReal_im, I_re, mul_zero, add_zero]
  have hpi := Real.pi_pos
  rw [abs_of_pos (by positivity), mul_div_cancel_left₀ _ (by positivity)]

/-- The hypotheses of C148 are met by a call with linear frequencies, for seconds and milliseconds. -/
example : ∃ o, ssqCwt (Spec.tone 4 1 1 0) (exSsqL none) = .ok o ∧ (∀ k, k + 1 < o.freqs.length →
    eps64 ≤ o.freqs.getD k 0 - o.freqs.getD (k + 1) 0 ∧ eps64 ≤ 1000 * (o.freqs.getD k 0 - o.freqs.getD (k + 1) 0)) := by
  obtain ⟨o, ho, -, hf⟩ := exSsqL_ok none (Spec.tone 4 1 1 0) (by simp [Spec.tone])
  refine ⟨o, ho, fun k hk => ?_⟩
  rw [hf] at hk ⊢
  simp only [List.length_cons, List.length_nil] at hk
  have : k = 0 ∨ k = 1 := by omega
  have := eps64_le_one
  rcases ‹k = 0 ∨ k = 1› with rfl | rfl <;> constructor <;> norm_num <;> linarith

theorem infer123c {c : ℝ} (hc : 0 < c) : inferScaletype .f64 (inUnit c [1, 2, 3]) = .ok (.linear, .none) := by
  have hl : ([1, 2, 3] : List ℝ).map (fun y => c * y) = [c * 1, c * 2, c * 3] := rfl
  unfold inferScaletype inUnit
  rw [hl, if_neg (by decide), if_neg (by simp), if_neg, if_pos]
  · rw [meanAbsDiff2_zero (a := c) (d := c)]
    · norm_num [thLog]
    · intro i hi
      simp only [List.length_cons, List.length_nil] at hi
      interval_cases i <;> simp <;> ring
  · rintro ⟨-, h⟩
    have h1 := meanAbsDiff2_ge ([c * 1, c * 2, c * 3].map Real.log) 0 (by simp)
    simp only [List.map_cons, List.map_nil, List.length_cons, List.length_nil, List.getD_cons_succ, List.getD_cons_zero] at h1
    have h4 : Real.log (c * 3) - Real.log (c * 2) - (Real.log (c * 2) - Real.log (c * 1)) = -Real.log (4 / 3) := by
      rw [Real.log_mul hc.ne' (by norm_num), Real.log_mul hc.ne' (by norm_num), Real.log_mul hc.ne' (by norm_num),
        Real.log_div (by norm_num) (by norm_num), show (4 : ℝ) = 2 ^ 2 by norm_num, Real.log_pow, Real.log_one]
      push_cast; ring
    have h5 : (1 : ℝ) / 4 ≤ Real.log (4 / 3) := by
      have := Real.one_sub_inv_le_log_of_pos (show (0 : ℝ) < 4 / 3 by norm_num)
      norm_num at this ⊢
      linarith
    rw [h4, abs_neg, abs_of_nonneg (by linarith)] at h1
    simp only [List.map_cons, List.map_nil, thLog] at h
    norm_num at h h1
    linarith

/-- Where `ssqueeze` puts what has frequency `2c` if the frequencies are `c`, `2c`, `3c`. -/
theorem exL_row {c : ℝ} (hc : 0 < c) {A : SsqArgs} {T : ℤ → ℕ → ℂ} {f : List ℝ} (h : ssqueeze A = .ok (T, f))
    (hd : A.dev = .cpu) (hM : A.M = 3) (hN : A.N = 4) (hfl : A.flipud = true) (hS : A.Sfs = none) (hw : A.w = none) (hsq : A.squeezing = .sum)
    (htr : A.transform = .cwt) (hF : A.ssqFreqs = .arr .f64 (inUnit c [1, 2, 3]))
    (hsc : A.scales = some (.arr [3] .f64 [1, 2, 4])) (hg : ∀ i < 3, A.gamma.getD 0 < ‖A.Wx i 0‖)
    (hph : ∀ i < 3, cwtFreq (A.Wx i 0) ((A.dWx.getD fun _ _ => 0) i 0) = 2 * c) :
    ∀ r : ℤ, T r 0 = if 2 - nr .cpu 2 (c / ensureNonzeroNonneg c) = r then
      (A.Wx 0 0 + A.Wx 1 0 + A.Wx 2 0) * ((Real.log 2 : ℝ) : ℂ) else 0 := by
  obtain ⟨dt, scl, fr, const, ls, -, p2, p3, p4, p5, p6, -⟩ := ssqueeze_ok h
  have hscl : scl = (some [1, 2, 4], some (.log, .int 1)) := by
    have hp : positiveInteger ((1 : ℤ) : ℚ) = .ok 1 := by rfl
    have : ssqScales A = .ok (some [1, 2, 4], some (.log, .int 1)) := by
      simp only [ssqScales, htr, hsc, processScales, infer124, ok_bind, pure_eq_ok, ne_eq, not_true_eq_false, false_and, if_false, hp]
      rfl
    rw [this, Except.ok.injEq] at p2
    exact p2.symm
  have hfr : fr = (inUnit c [1, 2, 3], .known .linear) := by
    simp only [ssqFreqsOf, hF, htr, reduceCtorEq, if_false, infer123c hc, ok_bind, Except.ok.injEq] at p3
    exact p3.symm
  subst hscl hfr
  have hcon : const = .scalar (Real.log 2 / ((1 : ℤ) : ℝ)) := by
    rw [htr] at p4
    simp only [ssqConst, Except.ok.injEq] at p4
    exact p4.symm
  have hls : ls = false := by
    simp only [SsqType.isLog, Except.ok.injEq] at p5
    exact p5.symm
  subst hcon hls
  rw [kernel_eq _ _ _ _ _ (Or.inr (Or.inl hS))] at p6
  obtain ⟨k, p, hk, hp, hT⟩ := onfly_ok p6
  have hpe : p = .lin (c * 1) (ensureNonzeroNonneg (c * 2 - c * 1)) := by
    simp only [processSsqParams, inUnit, List.map_cons, Bool.false_eq_true, if_false, Except.ok.injEq] at hp
    exact hp.symm
  subst hpe
  intro r
  rw [hT r 0 (by omega), zero_add, hM]
  have hki := constArr_scalar hk
  have hU : ∀ i < 3, Spec.usedPhase A (applySqueezing A.squeezing 3 A.Wx) i 0 = .fin (2 * c) := by
    intro i hi
    unfold Spec.usedPhase
    rw [hw, hS, hsq]
    show (if A.gamma.getD 0 < ‖A.Wx i 0‖ then Phase.fin (cwtFreq (A.Wx i 0) ((A.dWx.getD fun _ _ => 0) i 0)) else Phase.inf) = _
    rw [if_pos (hg i hi), hph i hi]
  rw [sum_congr rfl (g := fun i => if 2 - nr .cpu 2 (c / ensureNonzeroNonneg c) = r then A.Wx i 0 * ((Real.log 2 : ℝ) : ℂ) else 0)]
  · rw [sum_range_succ, sum_range_succ, sum_range_one]
    split
    · ring
    · simp
  · intro i hi
    have hi := mem_range.1 hi
    rw [hU i hi, hd, hfl, hki i (by omega), hsq]
    simp only
    rw [bin_lin, show 2 * c - c * 1 = c by ring, show c * 2 - c * 1 = c by ring]
    simp only [flipRow, if_true, Int.cast_one, div_one, Nat.cast_ofNat, show ((3 : ℤ) - 1) = 2 by norm_num, applySqueezing]

/-- C148 is false of the code: for a small enough unit the steps between linear frequencies are replaced by the machine epsilon. A tone of
2 Hz, mapped to frequencies 1, 2, 3 Hz, is in the middle row; with everything divided by `2^60`, it is in the last. -/
theorem C148_refuted : ¬ C148_full := by
  intro H
  have hlen : (Spec.tone 4 1 1 0).length = 4 := by simp [Spec.tone]
  obtain ⟨o, ho, hs, hf⟩ := exSsqL_ok none (Spec.tone 4 1 1 0) (by rw [hlen]; norm_num)
  obtain ⟨hW, hfr⟩ := exSsqL_tone ho hs
  set c : ℝ := 1 / 2 ^ 60 with hc
  have hc0 : 0 < c := by rw [hc]; norm_num
  have hce : c < eps64 / 4 := by rw [hc]; norm_num [eps64]
  clear_value c
  clear hc
  obtain ⟨o', ho', h1, h2, h3, h4, h5⟩ := H (Spec.tone 4 1 1 0) (exSsqL none) none c 8 o (by rw [hlen]; norm_num) rfl hc0 rfl rfl
    ⟨fun N k s f h => by simp only [exSsqL, exSsq, Except.ok.injEq] at h; rw [← h]; norm_num, by simp [exSsqL, exSsq],
      fun d v y h hy => by
        simp only [exSsqL, FreqArg.arr.injEq] at h
        rw [← h.2] at hy
        simp only [List.mem_cons, List.not_mem_nil, or_false] at hy
        rcases hy with rfl | rfl | rfl <;> norm_num⟩ ho
  have hpi := Real.pi_gt_three
  -- the middle row of the first call is not zero
  have hn : ∀ i (hi : i < 3), (exSsqL none).gamma.getD (10 * eps64) < ‖ent o.Wx i 0‖ := by
    intro i hi
    rw [hW i hi, norm_real, Real.norm_eq_abs]
    simp only [exSsqL, exSsq, Option.getD_some]
    interval_cases i <;> simp <;> rw [abs_of_pos (by linarith)] <;> linarith
  have hph : ∀ i < 3, cwtFreq (ent o.Wx i 0) (ent o'.dWx i 0) = 2 * c := by
    intro i hi
    rw [h3, cwtFreq_unit hc0, hfr i hi, mul_comm]
  obtain ⟨fs, dt, st, na, nv, -, -, -, q4⟩ := ssqCwt_ok ho
  obtain ⟨fs', dt', st', na', nv', -, -, -, q4'⟩ := ssqCwt_ok ho'
  rw [hs, hlen] at q4
  rw [h1, h2, hs, hlen] at q4'
  have e1 := exL_row (c := 1) one_pos q4 rfl rfl rfl rfl rfl rfl rfl rfl
    (by simp [SsqCwtArgs.ssqArgs, exSsqL, inUnit]) rfl hn (fun i hi => by rw [mul_one]; exact hfr i hi) 1
  have e2 := exL_row (c := c) hc0 q4' rfl rfl rfl rfl rfl rfl rfl rfl
    (by simp [SsqCwtArgs.ssqArgs, exSsqL, Spec.callInUnit, FreqArg.inUnit]) rfl hn hph 1
  have n1 : nr .cpu 2 ((1 : ℝ) / ensureNonzeroNonneg 1) = 1 := by
    rw [ensure_of_le eps64_le_one, div_one]
    have : roundHalfEven (1 : ℝ) = 1 := by exact_mod_cast rhe_intCast (K := ℝ) 1
    simp [nr, this]
  have n2 : nr .cpu 2 (c / ensureNonzeroNonneg c) = 0 := by
    have hlt : c < eps64 := by linarith [eps64_pos]
    have : ensureNonzeroNonneg c = eps64 := by unfold ensureNonzeroNonneg; rw [if_pos hlt]
    rw [this]
    have h0 : 0 < c / eps64 := div_pos hc0 eps64_pos
    have h1 : c / eps64 < 1 / 2 := by rw [div_lt_iff₀ eps64_pos]; linarith [eps64_pos]
    have : roundHalfEven (c / eps64) = 0 := rhe_unique (by push_cast; linarith) (by push_cast; linarith)
    simp [nr, max_eq_left h0.le, this]
  rw [n1, if_pos (by norm_num)] at e1
  rw [n2, if_neg (by norm_num), h5, e1] at e2
  have hl : Real.log 2 ≠ 0 := (Real.log_pos (by norm_num)).ne'
  have hz : (ent o.Wx 0 0 + ent o.Wx 1 0 + ent o.Wx 2 0) = 0 := by
    rcases mul_eq_zero.1 e2 with h | h
    · exact h
    · exact absurd (ofReal_eq_zero.1 h) hl
  rw [hW 0 (by norm_num), hW 1 (by norm_num), hW 2 (by norm_num), ← ofReal_add, ← ofReal_add, ofReal_eq_zero] at hz
  simp at hz
  linarith

end Ssq
