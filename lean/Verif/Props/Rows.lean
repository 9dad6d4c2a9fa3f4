import Verif.Props.IcwtAny

/-!
# A row of the transform depends on its own scale only (C181)
-/
namespace Ssq
open Complex

theorem padded_unique {t : Option PadType} {x xp yp : List ℝ} {n1 n2 : ℕ} (hx : 0 < x.length) (h1 : Spec.Padded t x xp n1) (h2 : Spec.Padded t x yp n2) :
    yp = xp ∧ n2 = n1 := by
  cases t with
  | none => exact ⟨h2.1.trans h1.1.symm, h2.2.trans h1.2.symm⟩
  | some t =>
    obtain ⟨a1, a2, -, a4⟩ := h1
    obtain ⟨b1, b2, -, b4⟩ := h2
    obtain rfl : n2 = n1 := by omega
    obtain ⟨E, hE⟩ := exists_extension t x hx
    exact ⟨List.ext_getElem (by omega) fun i i1 i2 => by rw [a4 E hE i i2, b4 E hE i i1], rfl⟩

/-- The full property: two calls that differ in the scales (and in what decides how they are taken) have equal rows where they have equal scales. -/
def C181_full : Prop :=
  ∀ (x : List ℝ) (a b : CwtArgs), 0 < x.length → b = { a with scales := b.scales, nv := b.nv, downsample := b.downsample } →
    ∀ W V scales scales' dW dV, cwt x a = .ok (W, scales, dW) → cwt x b = .ok (V, scales', dV) →
      ∀ i < scales.length, ∀ i' < scales'.length, scales'.getD i' 0 = scales.getD i 0 → V.getD i' [] = W.getD i []

/-- **C181 (partial).** A row of `cwt` depends on its own scale only: whatever the other scales are, in whatever order, on either code path, the row of the transform and of
its derivative at a scale `s` is the same up to the norm; with `l1_norm=False` it is the row with `l1_norm=True` times `sqrt(s)`.
Missing: wavelets of complex dtype on the vectorised path, whose imaginary parts are dropped or kept at all scales together (`C181_refuted`). -/
theorem C181_rows_partial (x : List ℝ) (a b : CwtArgs) (t : Option PadType) (ht : a.padtype = t.map padName) (hx : 0 < x.length)
    (hfn : b.wavelet.fn = a.wavelet.fn) (hpad : b.padtype = a.padtype) (hrp : b.rpadded = a.rpadded) (hfs : b.fs = a.fs) (htt : b.t = a.t)
    (hreal : a.wavelet.fn.isCplx = false ∨ (a.vectorized = false ∧ b.vectorized = false))
    {W V dW dV : List (List ℂ)} {scales scales' : List ℝ} (ha : cwt x a = .ok (W, scales, dW)) (hb : cwt x b = .ok (V, scales', dV))
    {i i' : ℕ} (hi : i < scales.length) (hi' : i' < scales'.length) (hs : scales'.getD i' 0 = scales.getD i 0) :
    (b.l1Norm = a.l1Norm → V.getD i' [] = W.getD i [] ∧ dV.getD i' [] = dW.getD i []) ∧
    (a.l1Norm = true → b.l1Norm = false →
      V.getD i' [] = (W.getD i []).map (fun z => ((Real.sqrt (scales.getD i 0) : ℝ) : ℂ) * z) ∧
      dV.getD i' [] = (dW.getD i []).map fun z => ((Real.sqrt (scales.getD i 0) : ℝ) : ℂ) * z) := by
  obtain ⟨xp, n1, fs, dt, hp, hf, -, h1, h2, h3⟩ := C37_rows_any x a t ht hx W scales dW ha
  obtain ⟨yp, n2, fs', dt', hp', hf', -, k1, k2, k3⟩ := C37_rows_any x b t (hpad.trans ht) hx V scales' dV hb
  obtain ⟨rfl, rfl⟩ := padded_unique hx hp hp'
  rw [hfs, htt, hf] at hf'
  simp only [Except.ok.injEq, Rate.fin.injEq] at hf'
  obtain ⟨rfl, rfl⟩ := hf'
  have hD : Spec.Dropped b.wavelet.fn.isCplx b.vectorized b.wavelet.fn.eval yp.length scales' i' =
      Spec.Dropped a.wavelet.fn.isCplx a.vectorized a.wavelet.fn.eval yp.length scales i := by
    rw [hfn]
    unfold Spec.Dropped
    rcases hreal with h | ⟨h, h'⟩
    · simp [h]
    · simp only [h, h', Bool.false_eq_true, if_false, hs]
  obtain ⟨l1, l2, e⟩ := h3 i hi
  obtain ⟨m1, m2, f⟩ := k3 i' hi'
  rw [hrp] at m1 m2 f
  rw [hD, hfn, hs] at f
  generalize (if a.rpadded = false ∧ t.isSome then x.length else yp.length) = n at *
  unfold ent at e f
  have key : ∀ (A B : List ℂ) (c : ℂ), A.length = n → B.length = n → (∀ j < n, B.getD j 0 = c * A.getD j 0) → B = A.map fun z => c * z := by
    intro A B c hA hB h
    refine List.ext_getElem (by simp [hA, hB]) fun j j1 j2 => ?_
    rw [List.getElem_map, ← List.getD_eq_getElem _ 0, h j (by omega), List.getD_eq_getElem _ _ (by omega)]
  constructor
  · intro hn
    have k1 := key (W.getD i []) (V.getD i' []) 1 l1 m1 (fun j hj => by rw [(e j hj).1, (f j hj).1, hn, one_mul])
    have k2 := key (dW.getD i []) (dV.getD i' []) 1 l2 m2 (fun j hj => by rw [(e j hj).2, (f j hj).2, hn, one_mul])
    simp only [one_mul, List.map_id'] at k1 k2
    exact ⟨k1, k2⟩
  · intro hn hn'
    exact ⟨key _ _ _ l1 m1 (fun j hj => by rw [(e j hj).1, (f j hj).1, hn, hn']; simp),
      key _ _ _ l2 m2 (fun j hj => by rw [(e j hj).2, (f j hj).2, hn, hn']; simp)⟩

/-! ### The hypotheses are met, and the counterexample -/

/-- Scales `[1/4, 1/2, 1]` as a float64 array. -/
noncomputable def scQuarter : ScalesArg := .arr [3] .f64 [1 / 4, 1 / 2, 1]

theorem processQuarter (N : ℕ) (wv : Option ScaleWavelet) (up : Bool) (d : ℕ) :
    processScales scQuarter N wv none up d = .ok ([1 / 4, 1 / 2, 1], .log, 3, .int 1) := by
  have hg : Spec.Geometric [1 / 4, 1 / 2, 1] (-2) 1 := by
    intro i hi
    have h4 : Real.logb 2 4 = 2 := by
      rw [show (4 : ℝ) = 2 ^ (2 : ℝ) by norm_num, Real.logb_rpow (by norm_num) (by norm_num)]
    simp only [List.length_cons, List.length_nil] at hi
    match i, hi with
    | 0, _ => simp [h4]
    | 1, _ => simp; norm_num
    | 2, _ => simp
  have hi : inferScaletype .f64 [1 / 4, 1 / 2, 1] = .ok (.log, .int 1) := by
    rw [infer_geometric (by simp) hg (by simp) one_ne_zero]
    have : roundHalfEven ((1 : ℝ) / 1) = 1 := by
      have := rhe_intCast (K := ℝ) 1
      simpa using this
    rw [this]
  have hp : positiveInteger (1 : ℤ) = .ok 1 := by simp [positiveInteger]
  simp only [processScales, scQuarter, hi, ok_bind, pure_eq_ok, ne_eq, not_true_eq_false, false_and, if_false, hp]
  rfl

theorem quarter_ok (x : List ℝ) (hx : 0 < x.length) (t : Option PadType) (v l : Bool) :
    ∃ W dW, cwt x { argsR t with scales := scQuarter, vectorized := v, l1Norm := l } = .ok (W, [1 / 4, 1 / 2, 1], dW) :=
  C37_succeeds x { argsR t with scales := scQuarter, vectorized := v, l1Norm := l } t rfl hx 2 (1 / 2) (by simp [processFsT, argsR]) (by simp [argsR])
    [1 / 4, 1 / 2, 1] .log 3 (.int 1) none (by simp [scQuarter]) (fun _ => rfl) (processQuarter _ _ _ _)

/-- Scale 1 is the first of `[1, 2, 4]` and the last of `[1/4, 1/2, 1]`: the same row, for every padding, vectorised or not. -/
example (t : Option PadType) (v : Bool) : ∃ W V dW dV, cwt [3, 1, 4, 1, 5] (argsR t) = .ok (W, [1, 2, 4], dW) ∧
    cwt [3, 1, 4, 1, 5] { argsR t with scales := scQuarter, vectorized := v } = .ok (V, [1 / 4, 1 / 2, 1], dV) ∧ V.getD 2 [] = W.getD 0 [] := by
  obtain ⟨W, dW, h⟩ := argsR_ok [3, 1, 4, 1, 5] (by simp) t
  obtain ⟨V, dV, k⟩ := quarter_ok [3, 1, 4, 1, 5] (by simp) t v true
  exact ⟨W, V, dW, dV, h, k, ((C181_rows_partial _ (argsR t) { argsR t with scales := scQuarter, vectorized := v } t rfl (by simp) rfl rfl rfl rfl rfl (Or.inl rfl) h k (i := 0) (i' := 2) (by simp) (by simp)
    (by simp)).1 rfl).1⟩

theorem fnCq : fnC (1 / 4 * Real.pi) = 0 ∧ fnC (1 / 2 * Real.pi) = 0 := by
  have := Real.pi_pos
  unfold fnC
  exact ⟨by rw [if_neg (by intro h; linarith), if_neg (by intro h; linarith)], by rw [if_neg (by intro h; linarith), if_neg (by intro h; linarith)]⟩

theorem negQ : ¬ Spec.ImagNegligible (WFn.cplx fnC).eval 2 [1 / 4, 1 / 2, 1] := by
  simp only [Spec.ImagNegligible, List.length_cons, List.length_nil, Finset.sum_range_succ, Finset.sum_range_zero, List.getD_cons_succ, List.getD_cons_zero,
    (wavC _).1, (wavC _).2, one_mul, fnCpi, fnCq.1, fnCq.2]
  norm_num

/-- **C181 refuted.** Wavelet of complex dtype, vectorised: at scale 1 the row is real next to the scales 2 and 4 and complex next to 1/4 and 1/2. -/
theorem C181_refuted : ¬ C181_full := by
  intro H
  obtain ⟨dW, hW⟩ := argsC_call true
  have hv : ({ argsC with vectorized := true } : CwtArgs) = argsC := rfl
  rw [hv] at hW
  set W := (cwtRun argsC 1 [1, 2, 4] 2 [1, -1] ((0 : ℕ) : ℤ)).1 with hWd
  obtain ⟨V, dV, hV⟩ : ∃ V dV, cwt [1, -1] { argsC with scales := scQuarter } = .ok (V, [1 / 4, 1 / 2, 1], dV) :=
    C37_succeeds [1, -1] { argsC with scales := scQuarter } none rfl (by simp) 1 1 (by simp [processFsT, argsC]) (by simp [argsC])
      [1 / 4, 1 / 2, 1] .log 3 (.int 1) none (by simp [scQuarter]) (fun _ => rfl) (processQuarter _ _ _ _)
  have h := H [1, -1] argsC { argsC with scales := scQuarter } (by simp) rfl W V _ _ dW dV hW hV 0 (by simp) 2 (by simp) (by simp)
  obtain ⟨xp, n1, _, _, hp, -, -, -, -, hr⟩ := C37_rows_any [1, -1] argsC none rfl (by simp) W _ dW hW
  obtain ⟨rfl, rfl⟩ := hp
  obtain ⟨xp, n1, _, _, hp, -, -, -, -, hr'⟩ := C37_rows_any [1, -1] { argsC with scales := scQuarter } none rfl (by simp) V _ dV hV
  obtain ⟨rfl, rfl⟩ := hp
  have e1 := ((hr 0 (by simp)).2.2 0 (by simp)).1
  have e2 := ((hr' 2 (by simp)).2.2 0 (by simp)).1
  unfold ent at e1 e2
  rw [h, e1] at e2
  have d1 : Spec.Dropped argsC.wavelet.fn.isCplx argsC.vectorized argsC.wavelet.fn.eval 2 [1, 2, 4] 0 := ⟨rfl, negC⟩
  have d2 : ¬ Spec.Dropped argsC.wavelet.fn.isCplx argsC.vectorized argsC.wavelet.fn.eval 2 [1 / 4, 1 / 2, 1] 2 := fun h => negQ h.2
  have tw1 : tw 2 (-1) = -1 := by
    unfold tw
    rw [show (2 * (Real.pi : ℂ) * I * ((-1 : ℤ) : ℂ) / ((2 : ℕ) : ℂ)) = -(Real.pi * I) by push_cast; ring,
      Complex.exp_neg, Complex.exp_pi_mul_I]
    norm_num
  have hc : argsC.l1Norm = true := rfl
  have hfn : argsC.wavelet.fn = .cplx fnC := rfl
  simp only [List.length_cons, List.length_nil, zero_add, Nat.reduceAdd, hc, if_true, idft, dft, Finset.sum_range_succ, Finset.sum_range_zero,
    Spec.usedSample, if_pos d1, if_neg d2, hfn, (wavC _).1, (wavC _).2, List.getD_cons_zero, List.getD_cons_succ, one_mul, fnCpi] at e2
  simp [tw1] at e2
  have := congrArg Complex.im e2
  simp at this

end Ssq
