import Verif.Props.Rows

/-!
# The transform is linear in the wavelet, and dilating the wavelet is dividing the scales (C229)
-/
namespace Ssq
open Complex

/-- The same call with another wavelet function. -/
def CwtArgs.withFn (a : CwtArgs) (f : WFn) : CwtArgs := { a with wavelet := { a.wavelet with fn := f } }

/-- The full property: if a wavelet is `α f + β g` at all frequencies then so is its transform at the same scales, whatever the dtypes. -/
def C229_full : Prop :=
  ∀ (x : List ℝ) (a : CwtArgs) (f g h : WFn) (α β : ℂ), 0 < x.length → (∀ w, h.eval w = α * f.eval w + β * g.eval w) →
    ∀ F G H scales dF dG dH, cwt x (a.withFn f) = .ok (F, scales, dF) → cwt x (a.withFn g) = .ok (G, scales, dG) → cwt x (a.withFn h) = .ok (H, scales, dH) →
      ∀ i < scales.length, ∀ j < (H.getD i []).length,
        (H.getD i []).getD j 0 = α * (F.getD i []).getD j 0 + β * (G.getD i []).getD j 0

theorem wavSample_lin {f g h : ℝ → ℂ} {α β : ℂ} (e : ∀ w, h w = α * f w + β * g w) (L : ℕ) (s : ℝ) (k : ℕ) :
    Spec.wavSample h L s k = α * Spec.wavSample f L s k + β * Spec.wavSample g L s k := by
  unfold Spec.wavSample
  split
  · rw [e]; ring
  · rw [e]

theorem wavSample_dil {f h : ℝ → ℂ} {c : ℝ} (e : ∀ w, h w = f (c * w)) (L : ℕ) (s : ℝ) (k : ℕ) :
    Spec.wavSample h L s k = Spec.wavSample f L (c * s) k := by
  unfold Spec.wavSample
  simp only [e, mul_assoc]

theorem idft_lin (L : ℕ) (u v : ℕ → ℂ) (α β : ℂ) (n : ℕ) : idft L (fun k => α * u k + β * v k) n = α * idft L u n + β * idft L v n := by
  unfold idft
  rw [mul_div_assoc', mul_div_assoc', ← add_div, Finset.mul_sum, Finset.mul_sum, ← Finset.sum_add_distrib]
  congr 1
  exact Finset.sum_congr rfl fun k _ => by ring

theorem rows_withFn (x : List ℝ) (a : CwtArgs) (f : WFn) (t : Option PadType) (ht : a.padtype = t.map padName) (hx : 0 < x.length)
    (W : List (List ℂ)) (scales : List ℝ) (dW : List (List ℂ)) (h : cwt x (a.withFn f) = .ok (W, scales, dW)) :
    ∃ xp, ∃ n1 : ℕ, ∃ fs dt : ℝ, Spec.Padded t x xp n1 ∧ processFsT a.fs a.t x.length = .ok (.fin fs dt) ∧
      ∀ i, i < scales.length →
        (W.getD i []).length = (if a.rpadded = false ∧ t.isSome then x.length else xp.length) ∧
        (dW.getD i []).length = (if a.rpadded = false ∧ t.isSome then x.length else xp.length) ∧
        ∀ j < (if a.rpadded = false ∧ t.isSome then x.length else xp.length),
          (W.getD i []).getD j 0 = (if a.l1Norm then 1 else ((Real.sqrt (scales.getD i 0) : ℝ) : ℂ)) *
            idft xp.length (fun k => Spec.usedSample f.eval xp.length
                (Spec.Dropped f.isCplx a.vectorized f.eval xp.length scales i) (scales.getD i 0) k *
              dft xp.length (fun q => ((xp.getD q 0 : ℝ) : ℂ)) k)
              (if a.rpadded = false ∧ t.isSome then n1 + j else j) ∧
          (dW.getD i []).getD j 0 = (if a.l1Norm then 1 else ((Real.sqrt (scales.getD i 0) : ℝ) : ℂ)) *
            idft xp.length (fun k => I * ((Spec.xi xp.length k * fs : ℝ) : ℂ) * (Spec.usedSample f.eval xp.length
                (Spec.Dropped f.isCplx a.vectorized f.eval xp.length scales i) (scales.getD i 0) k *
              dft xp.length (fun q => ((xp.getD q 0 : ℝ) : ℂ)) k))
              (if a.rpadded = false ∧ t.isSome then n1 + j else j) := by
  obtain ⟨xp, n1, fs, dt, hp, hf, -, -, -, r⟩ := C37_rows_any x (a.withFn f) t ht hx W scales dW h
  exact ⟨xp, n1, fs, dt, hp, hf, r⟩

/-- **C229 (partial), combinations.** A wavelet that is `α f + β g` at all frequencies has the transform, and the derivative, that is this combination of the transforms of `f` and
`g` at the same scales; for any signal, padding, rate, norm and code path.
Missing: wavelets of complex dtype of which an imaginary part is dropped (`C229_refuted`). -/
theorem C229_linear_partial (x : List ℝ) (a : CwtArgs) (t : Option PadType) (ht : a.padtype = t.map padName) (hx : 0 < x.length) (f g h : WFn) (α β : ℂ)
    (e : ∀ w, h.eval w = α * f.eval w + β * g.eval w) {F G H dF dG dH : List (List ℂ)} {scales : List ℝ}
    (hF : cwt x (a.withFn f) = .ok (F, scales, dF)) (hG : cwt x (a.withFn g) = .ok (G, scales, dG)) (hH : cwt x (a.withFn h) = .ok (H, scales, dH))
    (xp : List ℝ) (n1 : ℕ) (hp : Spec.Padded t x xp n1)
    (hd : ∀ q ∈ [f, g, h], ∀ i < scales.length, ¬ Spec.Dropped q.isCplx a.vectorized q.eval xp.length scales i) :
    ∀ i < scales.length, (F.getD i []).length = (H.getD i []).length ∧ (G.getD i []).length = (H.getD i []).length ∧ (dH.getD i []).length = (H.getD i []).length ∧
      ∀ j < (H.getD i []).length,
        (H.getD i []).getD j 0 = α * (F.getD i []).getD j 0 + β * (G.getD i []).getD j 0 ∧
        (dH.getD i []).getD j 0 = α * (dF.getD i []).getD j 0 + β * (dG.getD i []).getD j 0 := by
  intro i hi
  obtain ⟨x1, n2, fs, dt, hp1, hf1, r1⟩ := rows_withFn x a f t ht hx F scales dF hF
  obtain ⟨x2, n3, fs2, dt2, hp2, hf2, r2⟩ := rows_withFn x a g t ht hx G scales dG hG
  obtain ⟨x3, n4, fs3, dt3, hp3, hf3, r3⟩ := rows_withFn x a h t ht hx H scales dH hH
  obtain ⟨rfl, rfl⟩ := padded_unique hx hp hp1
  obtain ⟨rfl, rfl⟩ := padded_unique hx hp hp2
  obtain ⟨rfl, rfl⟩ := padded_unique hx hp hp3
  have hff : fs2 = fs ∧ fs3 = fs := by
    rw [hf1] at hf2 hf3
    simp only [Except.ok.injEq, Rate.fin.injEq] at hf2 hf3
    exact ⟨hf2.1.symm, hf3.1.symm⟩
  obtain ⟨rfl, rfl⟩ := hff
  obtain ⟨l1, m1, e1⟩ := r1 i hi
  obtain ⟨l2, m2, e2⟩ := r2 i hi
  obtain ⟨l3, m3, e3⟩ := r3 i hi
  have d1 := hd f (by simp) i hi
  have d2 := hd g (by simp) i hi
  have d3 := hd h (by simp) i hi
  refine ⟨l1.trans l3.symm, l2.trans l3.symm, m3.trans l3.symm, fun j hj => ?_⟩
  rw [l3] at hj
  obtain ⟨p1, q1⟩ := e1 j hj
  obtain ⟨p2, q2⟩ := e2 j hj
  obtain ⟨p3, q3⟩ := e3 j hj
  rw [p1, p2, p3, q1, q2, q3]
  simp only [Spec.usedSample, if_neg d1, if_neg d2, if_neg d3, wavSample_lin e]
  constructor
  · rw [mul_left_comm, mul_left_comm β, ← mul_add, ← idft_lin]
    congr 2
    funext k
    ring
  · rw [mul_left_comm, mul_left_comm β, ← mul_add, ← idft_lin]
    congr 2
    funext k
    ring

/-- C229 for wavelets of real dtype: nothing is asked of their values. -/
theorem C229_real_partial (x : List ℝ) (a : CwtArgs) (t : Option PadType) (ht : a.padtype = t.map padName) (hx : 0 < x.length) (f g : ℝ → ℝ) (α β : ℝ)
    {F G H dF dG dH : List (List ℂ)} {scales : List ℝ}
    (hF : cwt x (a.withFn (.real f)) = .ok (F, scales, dF)) (hG : cwt x (a.withFn (.real g)) = .ok (G, scales, dG))
    (hH : cwt x (a.withFn (.real fun w => α * f w + β * g w)) = .ok (H, scales, dH)) :
    ∀ i < scales.length, ∀ j < (H.getD i []).length,
      (H.getD i []).getD j 0 = α * (F.getD i []).getD j 0 + β * (G.getD i []).getD j 0 ∧
      (dH.getD i []).getD j 0 = α * (dF.getD i []).getD j 0 + β * (dG.getD i []).getD j 0 := by
  intro i hi
  obtain ⟨xp, n1, _, _, hp, -⟩ := C37_rows_any x (a.withFn (.real f)) t ht hx F scales dF hF
  exact (C229_linear_partial x a t ht hx (.real f) (.real g) _ α β (fun w => by simp [WFn.eval]) hF hG hH xp n1 hp
    (by simp [Spec.Dropped, WFn.isCplx]) i hi).2.2.2

/-- **C229, dilation.** The transform with the wavelet `w ↦ f (c w)` at some scales is the transform with `f` at `c` times these scales (times `1 / sqrt c` with `l1_norm=False`),
for wavelets of either dtype. -/
theorem C229_dilate (x : List ℝ) (a b : CwtArgs) (t : Option PadType) (ht : a.padtype = t.map padName) (hx : 0 < x.length) (f h : WFn) (c : ℝ) (hc : 0 < c)
    (e : ∀ w, h.eval w = f.eval (c * w)) (ed : h.isCplx = f.isCplx) (hb : b = { a.withFn f with scales := b.scales, nv := b.nv, downsample := b.downsample })
    {F H dF dH : List (List ℂ)} {scales : List ℝ}
    (hH : cwt x (a.withFn h) = .ok (H, scales, dH)) (hF : cwt x b = .ok (F, scales.map (c * ·), dF)) :
    ∀ i < scales.length, (F.getD i []).length = (H.getD i []).length ∧ (dF.getD i []).length = (dH.getD i []).length ∧ ∀ j < (H.getD i []).length,
      (F.getD i []).getD j 0 = (if a.l1Norm then 1 else ((Real.sqrt c : ℝ) : ℂ)) * (H.getD i []).getD j 0 ∧
      (dF.getD i []).getD j 0 = (if a.l1Norm then 1 else ((Real.sqrt c : ℝ) : ℂ)) * (dH.getD i []).getD j 0 := by
  intro i hi
  have hbf : b.wavelet.fn = f ∧ b.vectorized = a.vectorized ∧ b.l1Norm = a.l1Norm ∧ b.rpadded = a.rpadded ∧ b.padtype = a.padtype ∧ b.fs = a.fs ∧ b.t = a.t := by
    rw [hb]; exact ⟨rfl, rfl, rfl, rfl, rfl, rfl, rfl⟩
  obtain ⟨b1, b2, b3, b4, b5, b6, b7⟩ := hbf
  obtain ⟨x1, n1, fs, dt, hp1, hf1, -, -, -, r1⟩ := C37_rows_any x b t (b5.trans ht) hx F _ dF hF
  obtain ⟨x2, n2, fs2, dt2, hp2, hf2, r2⟩ := rows_withFn x a h t ht hx H scales dH hH
  obtain ⟨rfl, rfl⟩ := padded_unique hx hp1 hp2
  have hff : fs2 = fs := by
    rw [b6, b7, hf2] at hf1
    simp only [Except.ok.injEq, Rate.fin.injEq] at hf1
    exact hf1.1
  obtain rfl := hff
  have hgm : (scales.map (c * ·)).getD i 0 = c * scales.getD i 0 := by
    rw [List.getD_eq_getElem _ _ (by simpa using hi), List.getElem_map, List.getD_eq_getElem _ _ hi]
  have hgm' : ∀ v : List ℝ, ∀ r < v.length, (v.map (c * ·)).getD r 0 = c * v.getD r 0 := by
    intro v r hr
    rw [List.getD_eq_getElem _ _ (by simpa using hr), List.getElem_map, List.getD_eq_getElem _ _ hr]
  have hN : ∀ v : List ℝ, Spec.ImagNegligible f.eval x2.length (v.map (c * ·)) ↔ Spec.ImagNegligible h.eval x2.length v := by
    intro v
    have s1 : ∀ (p : ℂ → ℝ), ∑ r ∈ Finset.range (v.map (c * ·)).length, ∑ k ∈ Finset.range x2.length, p (Spec.wavSample f.eval x2.length ((v.map (c * ·)).getD r 0) k) =
        ∑ r ∈ Finset.range v.length, ∑ k ∈ Finset.range x2.length, p (Spec.wavSample h.eval x2.length (v.getD r 0) k) := by
      intro p
      rw [List.length_map]
      refine Finset.sum_congr rfl fun r hr => Finset.sum_congr rfl fun k _ => ?_
      rw [hgm' v r (Finset.mem_range.1 hr), wavSample_dil e]
    unfold Spec.ImagNegligible
    simp only [s1 Complex.re, s1 Complex.im]
  have hD : Spec.Dropped f.isCplx a.vectorized f.eval x2.length (scales.map (c * ·)) i ↔ Spec.Dropped h.isCplx a.vectorized h.eval x2.length scales i := by
    unfold Spec.Dropped
    rw [ed]
    refine and_congr Iff.rfl ?_
    cases a.vectorized
    · simp only [Bool.false_eq_true, if_false]
      rw [hgm, ← hN [scales.getD i 0]]
      simp
    · simp only [if_true]
      exact hN scales
  obtain ⟨l1, m1, e1⟩ := r1 i (by simpa using hi)
  obtain ⟨l2, m2, e2⟩ := r2 i hi
  rw [b4] at l1 m1 e1
  rw [b1, b2, b3, hgm] at e1
  refine ⟨l1.trans l2.symm, m1.trans m2.symm, fun j hj => ?_⟩
  rw [l2] at hj
  obtain ⟨p1, q1⟩ := e1 j hj
  obtain ⟨p2, q2⟩ := e2 j hj
  unfold ent at p1 q1
  have hU : ∀ k, Spec.usedSample f.eval x2.length (Spec.Dropped f.isCplx a.vectorized f.eval x2.length (scales.map (c * ·)) i) (c * scales.getD i 0) k =
      Spec.usedSample h.eval x2.length (Spec.Dropped h.isCplx a.vectorized h.eval x2.length scales i) (scales.getD i 0) k := by
    intro k
    rw [propext hD]
    unfold Spec.usedSample
    simp only [wavSample_dil e]
  simp only [hU] at p1 q1
  have hs : (if a.l1Norm then (1 : ℂ) else ((Real.sqrt (c * scales.getD i 0) : ℝ) : ℂ)) =
      (if a.l1Norm then 1 else ((Real.sqrt c : ℝ) : ℂ)) * (if a.l1Norm then 1 else ((Real.sqrt (scales.getD i 0) : ℝ) : ℂ)) := by
    cases a.l1Norm
    · simp only [Bool.false_eq_true, if_false]
      rw [Real.sqrt_mul hc.le, Complex.ofReal_mul]
    · simp
  rw [hs] at p1 q1
  rw [p1, p2, q1, q2]
  exact ⟨by ring, by ring⟩

/-! ### The hypotheses are met, and the counterexample -/

theorem withFn_ok (x : List ℝ) (hx : 0 < x.length) (t : Option PadType) (f : WFn) : ∃ W dW, cwt x ((argsR t).withFn f) = .ok (W, [1, 2, 4], dW) :=
  C37_succeeds x ((argsR t).withFn f) t rfl hx 2 (1 / 2) (by simp [processFsT, argsR, CwtArgs.withFn]) (by simp [argsR, CwtArgs.withFn])
    [1, 2, 4] .log 3 (.int 1) none (by simp [argsR, CwtArgs.withFn, sc124]) (fun _ => rfl) (process124 _ _ _ _)

/-- Twice one wavelet less three times another, for every padding. -/
example (t : Option PadType) : ∃ F G H dF dG dH,
    cwt [3, 1, 4, 1, 5] ((argsR t).withFn (.real fun w => w)) = .ok (F, [1, 2, 4], dF) ∧ cwt [3, 1, 4, 1, 5] ((argsR t).withFn (.real fun w => w ^ 2)) = .ok (G, [1, 2, 4], dG) ∧
    cwt [3, 1, 4, 1, 5] ((argsR t).withFn (.real fun w => 2 * w + (-3) * w ^ 2)) = .ok (H, [1, 2, 4], dH) ∧
    ∀ i < 3, ∀ j < (H.getD i []).length, (H.getD i []).getD j 0 = ((2 : ℝ) : ℂ) * (F.getD i []).getD j 0 + ((-3 : ℝ) : ℂ) * (G.getD i []).getD j 0 := by
  obtain ⟨F, dF, hF⟩ := withFn_ok [3, 1, 4, 1, 5] (by simp) t (.real fun w => w)
  obtain ⟨G, dG, hG⟩ := withFn_ok [3, 1, 4, 1, 5] (by simp) t (.real fun w => w ^ 2)
  obtain ⟨H, dH, hH⟩ := withFn_ok [3, 1, 4, 1, 5] (by simp) t (.real fun w => 2 * w + (-3) * w ^ 2)
  exact ⟨F, G, H, dF, dG, dH, hF, hG, hH, fun i hi j hj =>
    (C229_real_partial _ (argsR t) t rfl (by simp) (fun w => w) (fun w => w ^ 2) 2 (-3) hF hG hH i (by simpa using hi) j hj).1⟩

/-- The wavelet `f (w / 4)` at scales 1, 2, 4 is `f` at scales 1/4, 1/2, 1. -/
example (t : Option PadType) (f : ℝ → ℝ) : ∃ F H dF dH,
    cwt [3, 1, 4, 1, 5] ((argsR t).withFn (.real fun w => f (1 / 4 * w))) = .ok (H, [1, 2, 4], dH) ∧
    cwt [3, 1, 4, 1, 5] { (argsR t).withFn (.real f) with scales := scQuarter } = .ok (F, [1 / 4, 1 / 2, 1], dF) ∧
    ∀ i < 3, ∀ j < (H.getD i []).length, (F.getD i []).getD j 0 = (H.getD i []).getD j 0 := by
  obtain ⟨H, dH, hH⟩ := withFn_ok [3, 1, 4, 1, 5] (by simp) t (.real fun w => f (1 / 4 * w))
  obtain ⟨F, dF, hF⟩ : ∃ F dF, cwt [3, 1, 4, 1, 5] { (argsR t).withFn (.real f) with scales := scQuarter } = .ok (F, [1 / 4, 1 / 2, 1], dF) :=
    C37_succeeds _ { (argsR t).withFn (.real f) with scales := scQuarter } t rfl (by simp) 2 (1 / 2) (by simp [processFsT, argsR, CwtArgs.withFn])
      (by simp [argsR, CwtArgs.withFn]) [1 / 4, 1 / 2, 1] .log 3 (.int 1) none (by simp [scQuarter]) (fun _ => rfl) (processQuarter _ _ _ _)
  refine ⟨F, H, dF, dH, hH, hF, fun i hi j hj => ?_⟩
  have hF' : cwt [3, 1, 4, 1, 5] { (argsR t).withFn (.real f) with scales := scQuarter } = .ok (F, ([1, 2, 4] : List ℝ).map ((1 / 4 : ℝ) * ·), dF) := by
    rw [hF]; norm_num
  have := ((C229_dilate _ (argsR t) _ t rfl (by simp) (.real f) (.real fun w => f (1 / 4 * w)) (1 / 4) (by norm_num) (fun w => rfl) rfl rfl hH hF' i (by simpa using hi)).2.2 j hj).1
  simpa [argsR] using this

/-- **C229 refuted.** The wavelet `i f`: the imaginary part of `f` is dropped, that of `i f` is not. -/
theorem C229_refuted : ¬ C229_full := by
  intro Q
  obtain ⟨dF, hF⟩ := argsC_call true
  have hv : ({ argsC with vectorized := true } : CwtArgs) = argsC.withFn (.cplx fnC) := rfl
  rw [hv] at hF
  set F := (cwtRun (argsC.withFn (.cplx fnC)) 1 [1, 2, 4] 2 [1, -1] ((0 : ℕ) : ℤ)).1 with hFd
  obtain ⟨H, dH, hH⟩ : ∃ H dH, cwt [1, -1] (argsC.withFn (.cplx fun w => I * fnC w)) = .ok (H, [1, 2, 4], dH) :=
    C37_succeeds [1, -1] (argsC.withFn (.cplx fun w => I * fnC w)) none rfl (by simp) 1 1 (by simp [processFsT, argsC, CwtArgs.withFn]) (by simp [argsC, CwtArgs.withFn])
      [1, 2, 4] .log 3 (.int 1) none (by simp [argsC, CwtArgs.withFn, sc124]) (fun _ => rfl) (process124 _ _ _ _)
  obtain ⟨xp, n1, _, _, hp, -, hr⟩ := rows_withFn [1, -1] argsC (.cplx fnC) none rfl (by simp) F _ dF hF
  obtain ⟨rfl, rfl⟩ := hp
  obtain ⟨xp, n1, _, _, hp, -, hr'⟩ := rows_withFn [1, -1] argsC (.cplx fun w => I * fnC w) none rfl (by simp) H _ dH hH
  obtain ⟨rfl, rfl⟩ := hp
  have hl := (hr' 0 (by simp)).1
  have h := Q [1, -1] argsC (.cplx fnC) (.cplx fnC) (.cplx fun w => I * fnC w) I 0 (by simp) (fun w => by simp [WFn.eval]) F F H _ dF dF dH hF hF hH 0 (by simp) 0 (by rw [hl]; simp)
  have e1 := ((hr 0 (by simp)).2.2 0 (by simp)).1
  have e2 := ((hr' 0 (by simp)).2.2 0 (by simp)).1
  have wI : ∀ s k, Spec.wavSample (WFn.cplx fun w => I * fnC w).eval 2 s k = I * Spec.wavSample (WFn.cplx fnC).eval 2 s k := by
    intro s k
    have := wavSample_lin (f := (WFn.cplx fnC).eval) (g := (WFn.cplx fnC).eval) (h := (WFn.cplx fun w => I * fnC w).eval) (α := I) (β := 0) (fun w => by simp [WFn.eval]) 2 s k
    rw [this]; ring
  have d1 : Spec.Dropped (WFn.cplx fnC).isCplx argsC.vectorized (WFn.cplx fnC).eval 2 [1, 2, 4] 0 := ⟨rfl, negC⟩
  have d2 : ¬ Spec.Dropped (WFn.cplx fun w => I * fnC w).isCplx argsC.vectorized (WFn.cplx fun w => I * fnC w).eval 2 [1, 2, 4] 0 := by
    intro h
    have h2 := h.2
    simp only [show argsC.vectorized = true from rfl, if_true, Spec.ImagNegligible, List.length_cons, List.length_nil, Finset.sum_range_succ, Finset.sum_range_zero, List.getD_cons_succ, List.getD_cons_zero,
      wI, (wavC _).1, (wavC _).2, one_mul, fnCpi, fnC2, fnC4] at h2
    norm_num at h2
  have tw1 : tw 2 (-1) = -1 := by
    unfold tw
    rw [show (2 * (Real.pi : ℂ) * I * ((-1 : ℤ) : ℂ) / ((2 : ℕ) : ℂ)) = -(Real.pi * I) by push_cast; ring,
      Complex.exp_neg, Complex.exp_pi_mul_I]
    norm_num
  have hc : argsC.l1Norm = true := rfl
  simp only [List.length_cons, List.length_nil, zero_add, Nat.reduceAdd, hc, if_true, idft, dft, Finset.sum_range_succ, Finset.sum_range_zero,
    Spec.usedSample, if_pos d1, if_neg d2, wI, (wavC _).1, (wavC _).2, List.getD_cons_zero, List.getD_cons_succ, one_mul, fnCpi] at e1 e2
  rw [e1, e2] at h
  simp [tw1] at h
  have := congrArg Complex.re h
  simp at this

end Ssq
