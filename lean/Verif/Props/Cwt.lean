import Verif.Lemmas.Cwt
import Verif.Props.Ssqueeze
import Mathlib.Tactic.IntervalCases

/-!
# The continuous wavelet transform: rows, code paths, shifts, linearity (C36, C37)
-/
namespace Ssq
open Complex

/-! ## C37 -/

/-- Entry of a list of rows. -/
abbrev ent (W : List (List ℂ)) (i j : ℕ) : ℂ := (W.getD i []).getD j 0

theorem cwtDt_fin {fs : Option ℝ} {t : Option (List ℝ)} {N : ℕ} {r : ℝ × ℝ} (h : cwtDt fs t N = .ok r) :
    processFsT fs t N = .ok (.fin r.1 r.2) := by
  unfold cwtDt at h
  obtain ⟨q, hq, h⟩ := bind_ok h
  rw [hq]
  cases q with
  | fin a b => simp only [Except.ok.injEq] at h; rw [← h]
  | infinite => simp at h

theorem cwtDt_mul {fs : Option ℝ} {t : Option (List ℝ)} {N : ℕ} {r : ℝ × ℝ} (h : cwtDt fs t N = .ok r) :
    r.1 * r.2 = 1 ∧ r.1 ≠ 0 ∧ r.2 ≠ 0 ∧ r.2 = 1 / r.1 := by
  have h := cwtDt_fin h
  have key : r.1 ≠ 0 ∧ r.2 = 1 / r.1 := by
    unfold processFsT at h
    split at h
    · split at h
      · simp at h
      · split at h
        · simp at h
        · split at h
          · simp at h
          · simp only at h
            split at h
            · simp at h
            · rename_i hs
              simp only [Except.ok.injEq, Rate.fin.injEq] at h
              rw [← h.1, ← h.2]
              exact ⟨one_div_ne_zero hs, rfl⟩
    · split at h
      · simp only [Except.ok.injEq, Rate.fin.injEq] at h
        rw [← h.1, ← h.2]; simp
      · split at h
        · simp at h
        · rename_i hs
          simp only [Except.ok.injEq, Rate.fin.injEq] at h
          rw [← h.1, ← h.2]
          exact ⟨fun h => hs (le_of_eq h), rfl⟩
  obtain ⟨h1, h2⟩ := key
  refine ⟨by rw [h2]; field_simp, h1, by rw [h2]; exact one_div_ne_zero h1, h2⟩

/-- What a successful call went through. -/
theorem cwt_ok {x : List ℝ} {a : CwtArgs} {t : Option PadType} (ht : a.padtype = t.map padName)
    (hx : 0 < x.length) {W : List (List ℂ)} {scales : List ℝ} {dW : List (List ℂ)}
    (h : cwt x a = .ok (W, scales, dW)) :
    ∃ xp, ∃ n1 : ℕ, ∃ r : ℝ × ℝ, Spec.Padded t x xp n1 ∧ n1 + x.length ≤ xp.length ∧
      cwtDt a.fs a.t x.length = .ok r ∧
      (W, dW) = cwtRun a r.2 scales x.length xp n1 := by
  obtain ⟨xp, n1, h1, h2, h3⟩ := cwt_unfold x a t ht hx
  rw [h3] at h
  obtain ⟨r, hr, h⟩ := bind_ok h
  obtain ⟨_, _, h⟩ := bind_ok h
  obtain ⟨sc, hsc, h⟩ := bind_ok h
  simp only [Except.ok.injEq, Prod.mk.injEq] at h
  refine ⟨xp, n1, r, h1, h2, hr, ?_⟩
  obtain ⟨h4, h5, h6⟩ := h
  rw [← h4, ← h5, ← h6]

/-- **C37, rows.** For every wavelet without imaginary part, every signal, scales, pad type,
normalisation, code path and sampling rate: row `i` of `cwt` is
`ifft(psih(scale_i·ξ)·fft(x_padded))` (Nyquist bin halved; times `√scale_i` for the L2 norm), restricted to
the unpadded part unless `rpadded`; and row `i` of the derivative is
`ifft(iξ·fs·psih(scale_i·ξ)·fft(x_padded))`. Missing for the full claim: wavelets with an imaginary
part (see `C37_refuted`). -/
theorem C37_rows_partial (x : List ℝ) (a : CwtArgs) (t : Option PadType)
    (ht : a.padtype = t.map padName) (hx : 0 < x.length)
    (hreal : ∀ w, (a.wavelet.fn.eval w).im = 0)
    (W : List (List ℂ)) (scales : List ℝ) (dW : List (List ℂ)) (h : cwt x a = .ok (W, scales, dW)) :
    ∃ xp, ∃ n1 : ℕ, ∃ fs dt : ℝ, Spec.Padded t x xp n1 ∧
      processFsT a.fs a.t x.length = .ok (.fin fs dt) ∧ fs * dt = 1 ∧
      W.length = scales.length ∧ dW.length = scales.length ∧
      ∀ i (hi : i < scales.length),
        (W.getD i []).length = (if a.rpadded = false ∧ t.isSome then x.length else xp.length) ∧
        (dW.getD i []).length = (if a.rpadded = false ∧ t.isSome then x.length else xp.length) ∧
        ∀ j < (if a.rpadded = false ∧ t.isSome then x.length else xp.length),
          ent W i j = (if a.l1Norm then 1 else ((Real.sqrt scales[i] : ℝ) : ℂ)) *
            idft xp.length (fun k => Spec.wavSample a.wavelet.fn.eval xp.length scales[i] k *
              dft xp.length (fun q => ((xp.getD q 0 : ℝ) : ℂ)) k)
              (if a.rpadded = false ∧ t.isSome then n1 + j else j) ∧
          ent dW i j = (if a.l1Norm then 1 else ((Real.sqrt scales[i] : ℝ) : ℂ)) *
            idft xp.length (fun k => I * ((Spec.xi xp.length k * fs : ℝ) : ℂ) *
              (Spec.wavSample a.wavelet.fn.eval xp.length scales[i] k *
              dft xp.length (fun q => ((xp.getD q 0 : ℝ) : ℂ)) k))
              (if a.rpadded = false ∧ t.isSome then n1 + j else j) := by
  obtain ⟨xp, n1, r, h1, h2, hr, h4⟩ := cwt_ok ht hx h
  rw [cwtRun_eq a _ _ _ _ _ h2] at h4
  simp only [Prod.mk.injEq] at h4
  have hcols : a.cols x.length xp.length =
      (if a.rpadded = false ∧ t.isSome then x.length else xp.length) := by
    unfold CwtArgs.cols CwtArgs.trimmed; rw [ht]
    cases a.rpadded <;> cases t <;> simp
  have hfirst : ∀ j, a.first n1 + j = (if a.rpadded = false ∧ t.isSome then n1 + j else j) := by
    intro j
    unfold CwtArgs.first CwtArgs.trimmed; rw [ht]
    cases a.rpadded <;> cases t <;> simp
  have hnorm : ∀ s, ((a.norm s : ℝ) : ℂ) = (if a.l1Norm then 1 else ((Real.sqrt s : ℝ) : ℂ)) := by
    intro s; unfold CwtArgs.norm; split <;> simp
  refine ⟨xp, n1, r.1, r.2, h1, cwtDt_fin hr, (cwtDt_mul hr).1, ?_, ?_, ?_⟩
  · rw [h4.1]; simp [psihRows_length]
  · rw [h4.2]; simp [psihRows_length]
  · intro i hi
    have hp : (psihRows a.wavelet.fn a.vectorized xp.length scales).getD i [] =
        halveNyquist (sampleRow a.wavelet.fn xp.length scales[i]) := by
      rw [psihRows_real _ hreal, List.getD_eq_getElem _ _ (by simpa using hi)]; simp
    have hs : scales.getD i 0 = scales[i] := List.getD_eq_getElem _ _ hi
    have e1 := fun g => zipWith_getD (γ := List ℂ) g scales
      (psihRows a.wavelet.fn a.vectorized xp.length scales) i (0 : ℝ) ([] : List ℂ) [] hi
      (by rw [psihRows_length]; exact hi)
    rw [← hcols]
    refine ⟨?_, ?_, fun j hj => ⟨?_, ?_⟩⟩
    · rw [h4.1, e1]; simp
    · rw [h4.2, e1]; simp
    · rw [ent, h4.1, e1, getD_map_range _ _ hj, hs, hp, hnorm, hfirst]
      congr 1
      refine idft_congr (fun k hk => ?_) _
      rw [psihRow_getD _ _ _ _ hk]
    · rw [ent, h4.2, e1, getD_map_range _ _ hj, hs, hp, hnorm, hfirst]
      congr 1
      refine idft_congr (fun k hk => ?_) _
      rw [psihRow_getD _ _ _ _ hk, (cwtDt_mul hr).2.2.2]
      have := (cwtDt_mul hr).2.1
      push_cast
      simp only [div_eq_mul_inv, one_mul, inv_inv]
      ring

/-- **C37, success.** `cwt` of a nonempty signal succeeds exactly when the sampling rate, the wavelet's
norm and the scales specification are acceptable; the scales returned are the processed ones, with the `nv`
argument used for named scales and ignored for arrays. -/
theorem C37_succeeds (x : List ℝ) (a : CwtArgs) (t : Option PadType)
    (ht : a.padtype = t.map padName) (hx : 0 < x.length) (fs dt : ℝ)
    (hfs : processFsT a.fs a.t x.length = .ok (.fin fs dt))
    (hg : ∀ b, a.wavelet.gmw = some b → b = a.l1Norm)
    (sc : List ℝ) (st : ScaleType) (na : ℕ) (nv : Nv) (nv' : Option ℚ)
    (hnv1 : (∃ s, a.scales = .str s) → nv' = a.nv) (hnv2 : (∀ s, a.scales ≠ .str s) → nv' = none)
    (hsc : processScales a.scales x.length (some a.wavelet.sw) nv' true a.downsample
      = .ok (sc, st, na, nv)) :
    ∃ W dW, cwt x a = .ok (W, sc, dW) := by
  have hnv : nv' = cwtNv a := by
    unfold cwtNv
    cases ha : a.scales with
    | str s => exact hnv1 ⟨s, ha⟩
    | arr _ _ _ => exact hnv2 (by simp [ha])
    | other => exact hnv2 (by simp [ha])
  subst hnv
  obtain ⟨xp, n1, h1, h2, h3⟩ := cwt_unfold x a t ht hx
  have hd : cwtDt a.fs a.t x.length = .ok (fs, dt) := by
    unfold cwtDt; rw [hfs]; rfl
  have hgm : checkGmw a.wavelet.gmw a.l1Norm = .ok () := by
    unfold checkGmw
    cases hb : a.wavelet.gmw with
    | none => rfl
    | some b => simp only [hg b hb, if_true]
  refine ⟨(cwtRun a dt sc x.length xp n1).1, (cwtRun a dt sc x.length xp n1).2, ?_⟩
  rw [h3, hd, hgm, hsc]
  rfl

/-- A GMW instance of the wrong norm is rejected whatever the signal. -/
theorem C37_gmw_rejected (x : List ℝ) (a : CwtArgs) (b : Bool) (hb : a.wavelet.gmw = some b)
    (hne : b ≠ a.l1Norm) (r : ℝ × ℝ) (hr : cwtDt a.fs a.t x.length = .ok r) :
    cwt x a = .error .valueError := by
  unfold cwt
  rw [hr]
  simp only [ok_bind, checkGmw, hb, if_neg hne, error_bind]

/-- **C37, code paths.** For wavelets without imaginary part the vectorised and the looped computation
return the same. -/
theorem C37_vectorized_partial (x : List ℝ) (a : CwtArgs) (t : Option PadType)
    (ht : a.padtype = t.map padName) (hx : 0 < x.length)
    (hreal : ∀ w, (a.wavelet.fn.eval w).im = 0) :
    cwt x { a with vectorized := true } = cwt x { a with vectorized := false } := by
  unfold cwt
  simp only
  have e : cwtPad x a.padtype = cwtPad x (t.map padName) := by rw [ht]
  obtain ⟨yp, m, hy1, hy2, hy3⟩ := cwtPad_ok t x hx
  rw [e, hy1]
  simp only [ok_bind]
  have hrun : ∀ dt sc, cwtRun { a with vectorized := true } dt sc x.length yp m =
      cwtRun { a with vectorized := false } dt sc x.length yp m := by
    intro dt sc
    rw [cwtRun_eq _ _ _ _ _ _ hy3, cwtRun_eq _ _ _ _ _ _ hy3]
    simp only [psihRows_real _ hreal]
    rfl
  simp only [hrun]
  rfl

/-- The full claim on code paths. -/
def C37_full : Prop :=
  ∀ (x : List ℝ) (a : CwtArgs) (t : Option PadType), a.padtype = t.map padName → 0 < x.length →
    cwt x { a with vectorized := true } = cwt x { a with vectorized := false }

/-- Everything a successful call went through, and its converse. -/
theorem cwt_ok_iff (x : List ℝ) (a : CwtArgs) (W : List (List ℂ)) (scales : List ℝ) (dW : List (List ℂ)) :
    cwt x a = .ok (W, scales, dW) ↔
      ∃ r p sc, cwtDt a.fs a.t x.length = .ok r ∧ checkGmw a.wavelet.gmw a.l1Norm = .ok () ∧
        cwtPad x a.padtype = .ok p ∧
        processScales a.scales x.length (some a.wavelet.sw) (cwtNv a) true a.downsample = .ok sc ∧
        sc.1 = scales ∧ cwtRun a r.2 scales x.length p.1 p.2 = (W, dW) := by
  constructor
  · intro h
    unfold cwt at h
    obtain ⟨r, hr, h⟩ := bind_ok h
    obtain ⟨u, hu, h⟩ := bind_ok h
    obtain ⟨p, hp, h⟩ := bind_ok h
    obtain ⟨sc, hsc, h⟩ := bind_ok h
    simp only [Except.ok.injEq, Prod.mk.injEq] at h
    refine ⟨r, p, sc, hr, hu, hp, hsc, h.2.1, ?_⟩
    rw [← h.2.1, ← h.1, ← h.2.2]
  · rintro ⟨r, p, sc, hr, hu, hp, hsc, rfl, hW⟩
    unfold cwt
    simp only [hr, hu, hp, hsc, ok_bind, hW]

/-! ### A small concrete call -/

/-- Scales `[1, 2, 4]` as a float64 array. -/
def sc124 : ScalesArg := .arr [3] .f64 [1, 2, 4]

theorem process124 (N : ℕ) (wv : Option ScaleWavelet) (up : Bool) (d : ℕ) :
    processScales sc124 N wv none up d = .ok ([1, 2, 4], .log, 3, .int 1) := by
  have hp : positiveInteger (1 : ℤ) = .ok 1 := by simp [positiveInteger]
  simp only [processScales, sc124, infer124, ok_bind, pure_eq_ok, ne_eq,
      not_true_eq_false, false_and, if_false, hp]
  rfl

/-- Arbitrary scale routines. -/
noncomputable def sw0 : ScaleWavelet := ⟨fun _ => .ok 1, fun _ _ _ => .ok 2, fun _ _ _ => .ok 2, fun _ => []⟩

open Classical in
/-- A complex wavelet function. -/
noncomputable def fnC (w : ℝ) : ℂ :=
  if w = Real.pi then 1 + I else if w = 2 * Real.pi then 1 - 3 * I else 0

/-- Arguments of the witness. -/
noncomputable def argsC : CwtArgs where
  wavelet := ⟨.cplx fnC, sw0, none⟩
  scales := sc124
  padtype := none

theorem xi2 : Spec.xi 2 1 = Real.pi := by
  unfold Spec.xi; norm_num

theorem argsC_call (v : Bool) :
    ∃ dW, cwt [1, -1] { argsC with vectorized := v } =
      .ok ((cwtRun { argsC with vectorized := v } 1 [1, 2, 4] 2 [1, -1] ((0 : ℕ) : ℤ)).1, [1, 2, 4], dW) := by
  refine ⟨(cwtRun { argsC with vectorized := v } 1 [1, 2, 4] 2 [1, -1] ((0 : ℕ) : ℤ)).2, ?_⟩
  rw [cwt_ok_iff]
  refine ⟨(1, 1), ([1, -1], 0), ([1, 2, 4], .log, 3, .int 1), ?_, rfl, rfl, process124 _ _ _ _, rfl, rfl⟩
  simp [cwtDt, processFsT, argsC]

theorem rowC (s : ℝ) : halveNyquist (sampleRow (.cplx fnC) 2 s) = [fnC 0, fnC (s * Real.pi) / 2] := by
  apply List.ext_getElem
  · simp [halveNyquist_length, sampleRow_length]
  · intro i h1 h2
    have hi : i < 2 := by simpa using h2
    rw [← List.getD_eq_getElem _ 0 h1, psihRow_getD _ _ _ _ hi]
    interval_cases i
    · simp [Spec.wavSample, Spec.xi, WFn.eval]
    · simp [Spec.wavSample, xi2, WFn.eval]

theorem fnC0 : fnC 0 = 0 := by
  unfold fnC
  rw [if_neg Real.pi_pos.ne, if_neg (by have := Real.pi_pos; intro h; linarith)]

theorem fnC1 : fnC (1 * Real.pi) = 1 + I := by simp [fnC]

theorem fnCpi : fnC Real.pi = 1 + I := by simp [fnC]

theorem fnC2 : fnC (2 * Real.pi) = 1 - 3 * I := by
  unfold fnC
  rw [if_neg (by have := Real.pi_pos; intro h; linarith), if_pos rfl]

theorem fnC4 : fnC (4 * Real.pi) = 0 := by
  unfold fnC
  have := Real.pi_pos
  rw [if_neg (by intro h; linarith), if_neg (by intro h; linarith)]

theorem argsC_rows (v : Bool) : ((psihRows (.cplx fnC) v 2 [1, 2, 4]).getD 0 []).getD 1 0 =
    if v then 1 / 2 else (1 + I) / 2 := by
  have h3 : ∀ l, psihCall (.cplx fnC) 2 l =
      dropImag (.cplx fnC) (l.map fun s => [fnC 0, fnC (s * Real.pi) / 2]) := by
    intro l; unfold psihCall; simp only [rowC]
  unfold psihRows
  cases v
  · simp only [Bool.false_eq_true, if_false, List.map_cons, List.getD_cons_zero, psihOne, h3]
    simp only [List.map_nil, fnC0, fnC1, dropImag]
    rw [if_neg]
    · simp
    · simp [ImagSmall, fnC0, fnCpi, fnC2, fnC4]; norm_num
  · simp only [if_true, h3, List.map_cons, List.map_nil, fnC0, fnC1, fnC2, fnC4, dropImag]
    rw [if_pos]
    · simp
    · simp [ImagSmall, fnC0, fnCpi, fnC2, fnC4]; norm_num

theorem argsC_entry (v : Bool) :
    ent (cwtRun { argsC with vectorized := v } 1 [1, 2, 4] 2 [1, -1] ((0 : ℕ) : ℤ)).1 0 0 =
      if v then 1 / 2 else (1 + I) / 2 := by
  rw [cwtRun_eq _ _ _ _ _ _ (by simp)]
  rw [ent, zipWith_getD _ _ _ _ (0 : ℝ) ([] : List ℂ) _ (by simp) (by simp [psihRows_length]),
    getD_map_range _ _ (by simp [CwtArgs.cols, CwtArgs.trimmed])]
  have h1 := argsC_rows v
  have tw1 : tw 2 (-1) = -1 := by
    unfold tw
    rw [show (2 * (Real.pi : ℂ) * I * ((-1 : ℤ) : ℂ) / ((2 : ℕ) : ℂ)) = -(Real.pi * I) by push_cast; ring,
      Complex.exp_neg, Complex.exp_pi_mul_I]
    norm_num
  simp only [argsC, List.length_cons, List.length_nil, zero_add, idft, dft, Finset.sum_range_succ,
    Finset.sum_range_zero] at *
  rw [h1]
  simp [CwtArgs.norm, CwtArgs.first, CwtArgs.trimmed, tw1]
  split <;> ring

/-- **C37 refuted.** For a complex wavelet the test that drops the imaginary part sees all rows in the
vectorised path and one row in the loop: with `f(π) = 1+i`, `f(2π) = 1-3i` the first row is real in one
and complex in the other. -/
theorem C37_refuted : ¬ C37_full := by
  intro H
  have h := H [1, -1] argsC none rfl (by simp)
  obtain ⟨d1, h1⟩ := argsC_call true
  obtain ⟨d2, h2⟩ := argsC_call false
  rw [h1, h2] at h
  simp only [Except.ok.injEq, Prod.mk.injEq] at h
  have e := argsC_entry true
  rw [h.1, argsC_entry false] at e
  have := congrArg Complex.im e
  simp at this

/-! ### Shifts -/

theorem tw_emod {L : ℕ} (hL : L ≠ 0) (a b : ℕ) : tw L (((a % L : ℕ) : ℤ) * b) = tw L ((a : ℤ) * b) := by
  conv_rhs => rw [← Nat.mod_add_div a L]
  push_cast
  rw [show ((a : ℤ) % L + L * ((a : ℤ) / L)) * b = (a : ℤ) % L * b + L * ((a : ℤ) / L * b) by ring,
    tw_add, tw_mul_n hL, mul_one]

theorem dft_shift {L : ℕ} (f : ℕ → ℂ) (m : ℕ) {k : ℕ} (hk : k < L) :
    dft L (fun q => f ((q + m) % L)) k = tw L ((m : ℤ) * k) * dft L f k := by
  have hL : L ≠ 0 := by omega
  rw [← dft_idft (n := L) (fun k => tw L ((m : ℤ) * k) * dft L f k) hk]
  refine dft_congr (fun j hj => ?_) k
  rw [← idft_dft (n := L) f (Nat.mod_lt _ (by omega))]
  unfold idft
  congr 1
  refine Finset.sum_congr rfl fun k _ => ?_
  rw [tw_emod hL]
  push_cast
  rw [show ((j : ℤ) + m) * k = j * k + m * k by ring, tw_add]
  ring

theorem rotate_getD (x : List ℝ) (m j : ℕ) (hj : j < x.length) :
    (x.rotate m).getD j 0 = x.getD ((j + m) % x.length) 0 := by
  rw [List.getD_eq_getElem _ _ (by simpa using hj), List.getElem_rotate,
    List.getD_eq_getElem _ _ (Nat.mod_lt _ (by omega))]

theorem range_rotate (L m : ℕ) (g : ℕ → ℂ) :
    ((List.range L).map g).rotate m = (List.range L).map fun j => g ((j + m) % L) := by
  apply List.ext_getElem
  · simp
  · intro i h1 h2
    rw [List.getElem_rotate]; simp

/-- **C37, shifts.** Without padding, circularly shifting the signal by any amount circularly shifts
every row of the transform and of its derivative by that amount and leaves the scales alone. For every
wavelet and code path. -/
theorem C37_shift (x : List ℝ) (a : CwtArgs) (hp : a.padtype = none) (m : ℕ)
    (W : List (List ℂ)) (scales : List ℝ) (dW : List (List ℂ)) (h : cwt x a = .ok (W, scales, dW)) :
    cwt (x.rotate m) a = .ok (W.map (·.rotate m), scales, dW.map (·.rotate m)) := by
  obtain ⟨r, p, sc, hr, hu, hpp, hsc, rfl, hW⟩ := (cwt_ok_iff _ _ _ _ _).1 h
  rw [hp] at hpp
  simp only [cwtPad, Except.ok.injEq] at hpp
  rw [cwt_ok_iff]
  refine ⟨r, (x.rotate m, 0), sc, by simpa using hr, hu, by rw [hp]; rfl, by simpa using hsc, rfl, ?_⟩
  rw [← hpp] at hW
  simp only at hW ⊢
  rw [show (0 : ℤ) = ((0 : ℕ) : ℤ) by rfl, cwtRun_eq _ _ _ _ _ _ (by simp)] at hW
  rw [show (0 : ℤ) = ((0 : ℕ) : ℤ) by rfl, cwtRun_eq _ _ _ _ _ _ (by simp)]
  simp only [Prod.mk.injEq] at hW
  rw [← hW.1, ← hW.2]
  have hf : a.first 0 = 0 := by unfold CwtArgs.first; split <;> rfl
  have hc : a.cols x.length x.length = x.length := by unfold CwtArgs.cols; split <;> rfl
  simp only [List.length_rotate, hf, hc, zero_add]
  have hd : ∀ k < x.length, dft x.length (fun q => (((x.rotate m).getD q 0 : ℝ) : ℂ)) k =
      tw x.length ((m : ℤ) * k) * dft x.length (fun q => ((x.getD q 0 : ℝ) : ℂ)) k := by
    intro k hk
    rw [← dft_shift _ m hk]
    refine dft_congr (fun q hq => ?_) k
    rw [rotate_getD _ _ _ hq]
  have key : ∀ (F : ℕ → ℂ) (G : ℕ → ℂ) (c : ℂ), (∀ k < x.length, G k = tw x.length ((m : ℤ) * k) * F k) →
      ((List.range x.length).map fun j : ℕ => c * idft x.length G j) =
      ((List.range x.length).map fun j : ℕ => c * idft x.length F j).rotate m := by
    intro F G c hFG
    rw [range_rotate]
    refine List.map_congr_left fun j hj => ?_
    have hL : x.length ≠ 0 := by have := List.mem_range.1 hj; omega
    unfold idft
    congr 2
    refine Finset.sum_congr rfl fun k hk => ?_
    rw [hFG k (Finset.mem_range.1 hk), tw_emod hL]
    push_cast
    rw [show ((j : ℤ) + m) * k = j * k + m * k by ring, tw_add]
    ring
  congr 1
  · rw [List.map_zipWith]
    congr 1
    funext s p
    exact key _ _ _ fun k hk => by rw [hd k hk]; ring
  · rw [List.map_zipWith]
    congr 1
    funext s p
    exact key _ _ _ fun k hk => by rw [hd k hk]; ring

/-! ## C36: linearity -/

theorem isExtension_lin {t : PadType} {x y : List ℝ} (hxy : x.length = y.length) {E F : ℤ → ℝ}
    (hE : Spec.IsExtension t x E) (hF : Spec.IsExtension t y F) (c d : ℝ) :
    Spec.IsExtension t (List.zipWith (fun u v => c * u + d * v) x y) (fun i => c * E i + d * F i) := by
  have hl : (List.zipWith (fun u v => c * u + d * v) x y).length = x.length := by simp [hxy]
  refine ⟨?_, ?_⟩
  · intro i hi
    have h1 : i < x.length := by omega
    have h2 : i < y.length := by omega
    simp only [List.getElem_zipWith]
    rw [hE.1 i h1, hF.1 i h2]
  · have h1 := hE.2
    have h2 := hF.2
    cases t <;> simp only [hl, ← hxy] at h1 h2 ⊢
    · intro i hi; rw [h1 i hi, h2 i hi]; ring
    · exact ⟨fun i => by rw [h1.1, h2.1], fun i => by rw [h1.2.1, h2.2.1],
        fun hx i => by rw [h1.2.2 hx, h2.2.2 hx]⟩
    · exact ⟨fun i => by rw [h1.1, h2.1], fun i => by rw [h1.2, h2.2]⟩
    · exact ⟨fun i hi => by rw [h1.1 i hi, h2.1 i hi], fun i hi => by rw [h1.2 i hi, h2.2 i hi]⟩
    · intro i; rw [h1 i, h2 i]

theorem padded_lin {t : Option PadType} {x y xp yp : List ℝ} {n1 n2 : ℕ} (hxy : x.length = y.length)
    (hx : 0 < x.length) (h1 : Spec.Padded t x xp n1) (h2 : Spec.Padded t y yp n2) (c d : ℝ)
    {zp : List ℝ} {n3 : ℕ}
    (h3 : Spec.Padded t (List.zipWith (fun u v => c * u + d * v) x y) zp n3) :
    n2 = n1 ∧ n3 = n1 ∧ yp.length = xp.length ∧ zp = List.zipWith (fun u v => c * u + d * v) xp yp := by
  have hl : (List.zipWith (fun u v => c * u + d * v) x y).length = x.length := by simp [hxy]
  cases t with
  | none =>
    obtain ⟨rfl, rfl⟩ := h1
    obtain ⟨rfl, rfl⟩ := h2
    obtain ⟨rfl, rfl⟩ := h3
    exact ⟨rfl, rfl, hxy.symm, rfl⟩
  | some t =>
    obtain ⟨a1, a2, a3, a4⟩ := h1
    obtain ⟨b1, b2, b3, b4⟩ := h2
    obtain ⟨c1, c2, c3, c4⟩ := h3
    rw [hl] at c1 c2
    rw [← hxy] at b1 b2
    obtain rfl : n2 = n1 := by omega
    obtain rfl : n3 = n2 := by omega
    refine ⟨rfl, rfl, by omega, ?_⟩
    obtain ⟨E, hE⟩ := exists_extension t x hx
    obtain ⟨F, hF⟩ := exists_extension t y (by omega)
    apply List.ext_getElem
    · simp; omega
    · intro i i1 i2
      rw [c4 _ (isExtension_lin hxy hE hF c d) i i1]
      simp only [List.getElem_zipWith]
      rw [a4 E hE i (by omega), b4 F hF i (by omega)]

theorem zipWith_getD_r (c d : ℝ) (xp yp : List ℝ) (h : yp.length = xp.length) (q : ℕ) :
    (List.zipWith (fun u v => c * u + d * v) xp yp).getD q 0 = c * xp.getD q 0 + d * yp.getD q 0 := by
  by_cases hq : q < xp.length
  · exact zipWith_getD _ _ _ _ _ _ _ hq (by omega)
  · rw [List.getD_eq_default _ _ (by simp; omega), List.getD_eq_default _ _ (by omega),
      List.getD_eq_default _ _ (by omega)]; simp

/-- **C36.** For every two signals of the same length, every two real factors, every wavelet (real or
complex), scales specification, pad type (or none), norm and code path: the transform and its derivative
of `c·x + d·y` are the same combination of those of `x` and `y`, entry by entry, and the three calls use
the same scales. -/
theorem C36_linear (x y : List ℝ) (hxy : x.length = y.length) (hx : 0 < x.length) (c d : ℝ)
    (a : CwtArgs) (t : Option PadType) (ht : a.padtype = t.map padName)
    (W : List (List ℂ)) (scales : List ℝ) (dW : List (List ℂ)) (h : cwt x a = .ok (W, scales, dW)) :
    ∃ V dV, cwt y a = .ok (V, scales, dV) ∧
      cwt (List.zipWith (fun u v => c * u + d * v) x y) a =
        .ok (List.zipWith (List.zipWith fun u v : ℂ => (c : ℂ) * u + d * v) W V, scales,
          List.zipWith (List.zipWith fun u v : ℂ => (c : ℂ) * u + d * v) dW dV) := by
  have hl : (List.zipWith (fun u v => c * u + d * v) x y).length = x.length := by simp [hxy]
  obtain ⟨r, p, sc, hr, hu, hpp, hsc, rfl, hW⟩ := (cwt_ok_iff _ _ _ _ _).1 h
  obtain ⟨xp, n1, p1, p2, p3⟩ := cwtPad_ok t x hx
  obtain ⟨yp, n2, q1, q2, q3⟩ := cwtPad_ok t y (by omega)
  obtain ⟨zp, n3, r1, r2, r3⟩ := cwtPad_ok t (List.zipWith (fun u v => c * u + d * v) x y) (by omega)
  obtain ⟨rfl, rfl, hlen, rfl⟩ := padded_lin hxy hx p2 q2 c d r2
  rw [ht, p1] at hpp
  simp only [Except.ok.injEq] at hpp
  rw [← hpp] at hW
  refine ⟨(cwtRun a r.2 sc.1 y.length yp n3).1, (cwtRun a r.2 sc.1 y.length yp n3).2, ?_, ?_⟩
  · rw [cwt_ok_iff]
    exact ⟨r, (yp, n3), sc, by rw [← hxy]; exact hr, hu, by rw [ht]; exact q1, by rw [← hxy]; exact hsc,
      rfl, rfl⟩
  · rw [cwt_ok_iff]
    refine ⟨r, (List.zipWith (fun u v => c * u + d * v) xp yp, n3), sc, by rw [hl]; exact hr, hu,
      by rw [ht]; exact r1, by rw [hl]; exact hsc, rfl, ?_⟩
    have hzl : (List.zipWith (fun u v => c * u + d * v) xp yp).length = xp.length := by simp [hlen]
    rw [← hxy] at q3 ⊢
    simp only at hW ⊢
    rw [cwtRun_eq _ _ _ _ _ _ p3] at hW
    rw [hl, cwtRun_eq _ _ _ _ _ _ q3, cwtRun_eq _ _ _ _ _ _ (by omega)]
    simp only [Prod.mk.injEq] at hW
    simp only [← hW.1, ← hW.2, hzl, hlen]
    have hd : ∀ k, dft xp.length (fun q =>
        (((List.zipWith (fun u v => c * u + d * v) xp yp).getD q 0 : ℝ) : ℂ)) k =
        (c : ℂ) * dft xp.length (fun q => ((xp.getD q 0 : ℝ) : ℂ)) k +
          d * dft xp.length (fun q => ((yp.getD q 0 : ℝ) : ℂ)) k := by
      intro k
      rw [← dft_smul, ← dft_smul, ← dft_add]
      refine dft_congr (fun q _ => ?_) k
      rw [zipWith_getD_r c d xp yp hlen]; push_cast; rfl
    have key : ∀ (F G H : ℝ → List ℂ → ℕ → ℂ) (n f L : ℕ), (∀ s p k, H s p k = c * F s p k + d * G s p k) →
        List.zipWith (fun (s : ℝ) (p : List ℂ) => (List.range n).map fun j : ℕ =>
          ((a.norm s : ℝ) : ℂ) * idft L (H s p) (f + j)) sc.1 (psihRows a.wavelet.fn a.vectorized xp.length sc.1) =
        List.zipWith (List.zipWith fun u v : ℂ => (c : ℂ) * u + d * v)
          (List.zipWith (fun (s : ℝ) (p : List ℂ) => (List.range n).map fun j : ℕ =>
            ((a.norm s : ℝ) : ℂ) * idft L (F s p) (f + j)) sc.1 (psihRows a.wavelet.fn a.vectorized xp.length sc.1))
          (List.zipWith (fun (s : ℝ) (p : List ℂ) => (List.range n).map fun j : ℕ =>
            ((a.norm s : ℝ) : ℂ) * idft L (G s p) (f + j)) sc.1 (psihRows a.wavelet.fn a.vectorized xp.length sc.1)) := by
      intro F G H n f L hH
      have hH' : ∀ s p, H s p = fun k => (c : ℂ) * F s p k + d * G s p k := fun s p => by
        funext k; exact hH s p k
      apply List.ext_getElem
      · simp
      · intro i i1 i2
        simp only [List.getElem_zipWith]
        apply List.ext_getElem
        · simp
        · intro j j1 j2
          simp only [List.getElem_zipWith, List.getElem_map, List.getElem_range]
          rw [hH', idft_add, idft_smul, idft_smul]; ring
    congr 1
    · exact key _ _ _ _ _ _ fun s p k => by rw [hd]; ring
    · exact key _ _ _ _ _ _ fun s p k => by rw [hd]; ring

/-! ### The hypotheses are met -/

/-- A real analytic wavelet function. -/
noncomputable def fnR (w : ℝ) : ℝ := if 0 ≤ w then w else 0

/-- A call with scales `[1, 2, 4]`, sampling rate 2, and any pad type. -/
noncomputable def argsR (t : Option PadType) : CwtArgs where
  wavelet := ⟨.real fnR, sw0, none⟩
  scales := sc124
  fs := some 2
  padtype := t.map padName

theorem argsR_ok (x : List ℝ) (hx : 0 < x.length) (t : Option PadType) :
    ∃ W dW, cwt x (argsR t) = .ok (W, [1, 2, 4], dW) :=
  C37_succeeds x (argsR t) t rfl hx 2 (1 / 2) (by simp [processFsT, argsR]) (by simp [argsR])
    [1, 2, 4] .log 3 (.int 1) none (by simp [argsR, sc124]) (fun _ => rfl) (process124 _ _ _ _)

/-- The hypotheses of `C37_rows_partial`, `C37_succeeds`, `C37_vectorized_partial` and `C38_derivative`
hold together for every pad type. -/
example (t : Option PadType) : (argsR t).padtype = t.map padName ∧ 0 < ([3, 1, 4, 1, 5] : List ℝ).length ∧
    (∀ w, ((argsR t).wavelet.fn.eval w).im = 0) ∧
    ∃ W dW, cwt [3, 1, 4, 1, 5] (argsR t) = .ok (W, [1, 2, 4], dW) :=
  ⟨rfl, by simp, fun w => by simp [argsR, WFn.eval], argsR_ok _ (by simp) t⟩

/-- Those of `C37_shift`, for a shift by two samples. -/
example : ∃ W dW, cwt [3, 1, 4, 1, 5] (argsR none) = .ok (W, [1, 2, 4], dW) ∧
    cwt [4, 1, 5, 3, 1] (argsR none) = .ok (W.map (·.rotate 2), [1, 2, 4], dW.map (·.rotate 2)) := by
  obtain ⟨W, dW, h⟩ := argsR_ok [3, 1, 4, 1, 5] (by simp) none
  exact ⟨W, dW, h, C37_shift [3, 1, 4, 1, 5] (argsR none) rfl 2 W _ dW h⟩

/-- Those of `C37_gmw_rejected`. -/
example : cwt [3, 1] { argsR none with wavelet := ⟨.real fnR, sw0, some false⟩ } = .error .valueError :=
  C37_gmw_rejected _ _ false rfl (by simp [argsR]) (2, 1 / 2) (by
    have e : processFsT (some 2) none 2 = .ok (.fin 2 (1 / 2)) := by simp [processFsT]
    simp only [cwtDt, argsR, List.length_cons, List.length_nil, zero_add, Nat.reduceAdd, e, ok_bind])

/-- Those of `C36_linear`, with reflection padding. -/
example : ∃ W V Z dW dV dZ, cwt [3, 1, 4] (argsR (some .reflect)) = .ok (W, [1, 2, 4], dW) ∧
    cwt [1, 5, 9] (argsR (some .reflect)) = .ok (V, [1, 2, 4], dV) ∧
    cwt [2 * 3 + 7 * 1, 2 * 1 + 7 * 5, 2 * 4 + 7 * 9] (argsR (some .reflect)) = .ok (Z, [1, 2, 4], dZ) ∧
    Z = List.zipWith (List.zipWith fun u v : ℂ => ((2 : ℝ) : ℂ) * u + ((7 : ℝ) : ℂ) * v) W V := by
  obtain ⟨W, dW, h⟩ := argsR_ok [3, 1, 4] (by simp) (some .reflect)
  obtain ⟨V, dV, h1, h2⟩ := C36_linear [3, 1, 4] [1, 5, 9] rfl (by simp) 2 7 _ (some .reflect) rfl W _ dW h
  exact ⟨W, V, _, dW, dV, _, h, h1, h2, rfl⟩

end Ssq
