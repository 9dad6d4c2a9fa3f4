import Verif.Model.Wavelets

/-!
# C83: the imaginary part of a wavelet's values
-/
namespace Ssq

/-- C83 in full: an imaginary part that is not small against the real part is kept. -/
def C83_full : Prop := ∀ (f : ℝ → ℂ) (w : List ℝ) (th : ℝ), 0 < th →
  th * (w.map fun x => |(f x).re|).sum ≤ (w.map fun x => |(f x).im|).sum → waveletAt (.cplx f) w (some th) = w.map f

theorem waveletAt_cplx_drop {f : ℝ → ℂ} {w : List ℝ} {th : ℝ}
    (h : ImagBelow th (w.map fun x => (f x).im).sum (w.map fun x => (f x).re).sum) :
    waveletAt (.cplx f) w (some th) = w.map fun x => (((f x).re : ℝ) : ℂ) := by
  unfold waveletAt
  have h' : ImagBelow th ((w.map (WFn.cplx f).eval).map fun z : ℂ => z.im).sum
      ((w.map (WFn.cplx f).eval).map fun z : ℂ => z.re).sum := by
    rw [List.map_map, List.map_map]; exact h
  simp only
  rw [if_pos h', List.map_map]
  rfl

theorem waveletAt_cplx_keep {f : ℝ → ℂ} {w : List ℝ} {th : ℝ}
    (h : ¬ ImagBelow th (w.map fun x => (f x).im).sum (w.map fun x => (f x).re).sum) :
    waveletAt (.cplx f) w (some th) = w.map f := by
  unfold waveletAt
  have h' : ¬ ImagBelow th ((w.map (WFn.cplx f).eval).map fun z : ℂ => z.im).sum
      ((w.map (WFn.cplx f).eval).map fun z : ℂ => z.re).sum := by
    rw [List.map_map, List.map_map]; exact h
  simp only
  rw [if_neg h']
  rfl

/-- The imaginary part is dropped, however large, whenever its sum and that of the real part have opposite signs. -/
theorem C83_opposite (f : ℝ → ℂ) (w : List ℝ) (th : ℝ) (hth : 0 < th)
    (h : (w.map fun x => (f x).im).sum * (w.map fun x => (f x).re).sum < 0) :
    waveletAt (.cplx f) w (some th) = w.map fun x => (((f x).re : ℝ) : ℂ) := by
  refine waveletAt_cplx_drop ?_
  unfold ImagBelow
  have h0 : (w.map fun x => (f x).re).sum ≠ 0 := fun e => by rw [e, mul_zero] at h; exact lt_irrefl _ h
  rw [if_neg h0]
  refine lt_trans ?_ hth
  rcases mul_neg_iff.1 h with ⟨h1, h2⟩ | ⟨h1, h2⟩
  · exact div_neg_of_pos_of_neg h1 h2
  · exact div_neg_of_neg_of_pos h1 h2

/-- Also when the imaginary parts cancel in the sum. -/
theorem C83_cancel (f : ℝ → ℂ) (w : List ℝ) (th : ℝ) (hth : 0 < th) (h : (w.map fun x => (f x).im).sum = 0)
    (hr : (w.map fun x => (f x).re).sum ≠ 0) :
    waveletAt (.cplx f) w (some th) = w.map fun x => (((f x).re : ℝ) : ℂ) := by
  refine waveletAt_cplx_drop ?_
  unfold ImagBelow
  rw [if_neg hr, h, zero_div]
  exact hth

/-- The bump wavelet shifted in time by `om = -1/40`, at its peak: the value has equal real and imaginary parts up to sign,
and loses the latter. -/
theorem C83_refuted : ¬ C83_full := fun h => by
  have hv : bumpFn 5 1 (-1 / 40) 5 = ((Real.exp (-1) / 0.443993816053287 * (Real.sqrt 2 / 2) : ℝ) : ℂ) * (1 - Complex.I) := by
    unfold bumpFn
    have he : (2 * (Real.pi : ℂ) * Complex.I * ((-1 / 40 : ℝ) : ℂ) * ((5 : ℝ) : ℂ)) = ((-(Real.pi / 4) : ℝ) : ℂ) * Complex.I := by
      push_cast; ring
    rw [he, Complex.exp_mul_I, ← Complex.ofReal_cos, ← Complex.ofReal_sin, Real.cos_neg, Real.sin_neg, Real.cos_pi_div_four,
      Real.sin_pi_div_four]
    norm_num
    ring
  set c : ℝ := Real.exp (-1) / 0.443993816053287 * (Real.sqrt 2 / 2) with hc
  have hpos : 0 < c := by rw [hc]; positivity
  have hre : (bumpFn 5 1 (-1 / 40) 5).re = c := by rw [hv]; simp
  have him : (bumpFn 5 1 (-1 / 40) 5).im = -c := by rw [hv]; simp
  have h1 := h (bumpFn 5 1 (-1 / 40)) [5] (1 / 10 ^ 8) (by norm_num) (by
    simp only [List.map_cons, List.map_nil, List.sum_cons, List.sum_nil, hre, him, abs_neg, abs_of_pos hpos]
    linarith)
  rw [C83_opposite (bumpFn 5 1 (-1 / 40)) [5] (1 / 10 ^ 8) (by norm_num) (by
    simp only [List.map_cons, List.map_nil, List.sum_cons, List.sum_nil, hre, him]
    nlinarith)] at h1
  simp only [List.map_cons, List.map_nil, List.cons.injEq, and_true] at h1
  have := congrArg Complex.im h1
  rw [Complex.ofReal_im, him] at this
  linarith

/-- **C83** (real and imaginary parts nowhere negative): the imaginary part is kept exactly when it is not below `th`
times the real part, in sum. -/
theorem C83_nonneg_partial (f : ℝ → ℂ) (w : List ℝ) (th : ℝ) (hre : ∀ x ∈ w, 0 ≤ (f x).re) (him : ∀ x ∈ w, 0 ≤ (f x).im) :
    (th * (w.map fun x => |(f x).re|).sum ≤ (w.map fun x => |(f x).im|).sum → waveletAt (.cplx f) w (some th) = w.map f) ∧
    ((w.map fun x => |(f x).im|).sum < th * (w.map fun x => |(f x).re|).sum →
      waveletAt (.cplx f) w (some th) = w.map fun x => (((f x).re : ℝ) : ℂ)) := by
  have e1 : (w.map fun x => |(f x).re|) = w.map fun x => (f x).re :=
    List.map_congr_left fun x hx => abs_of_nonneg (hre x hx)
  have e2 : (w.map fun x => |(f x).im|) = w.map fun x => (f x).im :=
    List.map_congr_left fun x hx => abs_of_nonneg (him x hx)
  rw [e1, e2]
  have hR : 0 ≤ (w.map fun x => (f x).re).sum :=
    List.sum_nonneg fun y hy => by obtain ⟨x, hx, rfl⟩ := List.mem_map.1 hy; exact hre x hx
  have hI : 0 ≤ (w.map fun x => (f x).im).sum :=
    List.sum_nonneg fun y hy => by obtain ⟨x, hx, rfl⟩ := List.mem_map.1 hy; exact him x hx
  constructor
  · intro h
    refine waveletAt_cplx_keep ?_
    unfold ImagBelow
    split_ifs with h0
    · exact not_lt.2 hI
    · have hpos := lt_of_le_of_ne hR (Ne.symm h0)
      rw [not_lt, le_div_iff₀ hpos]
      exact h
  · intro h
    refine waveletAt_cplx_drop ?_
    unfold ImagBelow
    have h0 : (w.map fun x => (f x).re).sum ≠ 0 := fun e => by
      rw [e, mul_zero] at h; exact absurd h (not_lt.2 hI)
    have hpos := lt_of_le_of_ne hR (Ne.symm h0)
    rw [if_neg h0, div_lt_iff₀ hpos]
    exact h

/-- Real wavelets and `imag_th=None` are returned as they are; in every case the real parts are. -/
theorem C83_real_part (f : WFn) (w : List ℝ) (th : Option ℝ) :
    (∀ g, f = .real g ∨ th = none → waveletAt f w th = w.map f.eval) ∧
    (waveletAt f w th).map Complex.re = w.map fun x => (f.eval x).re := by
  constructor
  · rintro g (rfl | rfl)
    · rfl
    · cases f <;> rfl
  · cases f with
    | real g => simp [waveletAt, Function.comp_def]
    | cplx g =>
      cases th with
      | none => simp [waveletAt, Function.comp_def]
      | some t =>
        simp only [waveletAt]
        split_ifs <;> simp [Function.comp_def]

/-- A complex wavelet that keeps its imaginary part. -/
example : waveletAt (.cplx fun _ => 1 + Complex.I) [1, 2] (some (1 / 10 ^ 8)) = [1 + Complex.I, 1 + Complex.I] :=
  (C83_nonneg_partial (fun _ => 1 + Complex.I) [1, 2] (1 / 10 ^ 8) (by simp) (by simp)).1 (by norm_num)

end Ssq
