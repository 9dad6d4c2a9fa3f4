import Verif.Model.RoundingL2
import Verif.Props.CwtRounding

/-!
# C162 for `l1_norm=False`
-/
namespace Ssq
open Finset
open Spec (l2)

/-- The same call with `l1_norm=True` (and a wavelet that is not checked for its norm). -/
def CwtArgs.asL1 (a : CwtArgs) : CwtArgs := { a with l1Norm := true, wavelet := { a.wavelet with gmw := none } }

theorem asL1_ok {x : List ℝ} {a : CwtArgs} (ha : a.l1Norm = false) {W : List (List ℂ)} {scales : List ℝ} {dW : List (List ℂ)} (h : cwt x a = .ok (W, scales, dW)) :
    ∃ W0 dW0, cwt x a.asL1 = .ok (W0, scales, dW0) ∧ W = l2Scale false scales W0 ∧ dW = l2Scale false scales dW0 := by
  obtain ⟨r, p, sc, h1, -, h3, h4, h5, h6⟩ := (cwt_ok_iff x a W scales dW).1 h
  refine ⟨(cwtRun a.asL1 r.2 scales x.length p.1 p.2).1, (cwtRun a.asL1 r.2 scales x.length p.1 p.2).2, ?_, ?_, ?_⟩
  · exact (cwt_ok_iff x a.asL1 _ scales _).2 ⟨r, p, sc, h1, rfl, h3, h4, h5, rfl⟩
  · have e := congrArg Prod.fst h6
    simp only [] at e
    rw [← e]
    simp only [cwtRun, ha, CwtArgs.asL1, l2Scale, if_true]
    rfl
  · have e := congrArg Prod.snd h6
    simp only [] at e
    rw [← e]
    simp only [cwtRun, ha, CwtArgs.asL1, l2Scale, if_true]
    rfl

theorem scaled_err {u ε w R s : ℝ} (hu : 0 ≤ u) (hε : 0 ≤ ε) (hR : 0 ≤ R) (hs : 0 ≤ s) {mul : ℂ → ℂ → ℂ}
    (hm : ∀ a b, ‖mul a b - a * b‖ ≤ u * ‖a * b‖) {b a : ℂ} {s' : ℂ} (_hw : 0 ≤ w) (ha : ‖a‖ ≤ R) (hb : ‖b - a‖ ≤ ε * R) (hs' : ‖s' - (s : ℂ)‖ ≤ w * s) :
    ‖mul b s' - a * (s : ℂ)‖ ≤ ((1 + u) * (1 + ε) * (1 + w) - 1) * (R * s) := by
  have hsn : ‖(s : ℂ)‖ = s := by rw [Complex.norm_real, Real.norm_eq_abs, abs_of_nonneg hs]
  have hb' : ‖b‖ ≤ (1 + ε) * R := by
    have := norm_add_le a (b - a)
    rw [add_sub_cancel] at this
    linarith
  have hs'' : ‖s'‖ ≤ (1 + w) * s := by
    have := norm_add_le (s : ℂ) (s' - s)
    rw [add_sub_cancel, hsn] at this
    linarith
  have h1 : ‖mul b s' - b * s'‖ ≤ u * (((1 + ε) * R) * ((1 + w) * s)) := by
    refine (hm b s').trans (mul_le_mul_of_nonneg_left ?_ hu)
    rw [norm_mul]
    exact mul_le_mul hb' hs'' (norm_nonneg _) (by positivity)
  have h2 : ‖b * (s' - s)‖ ≤ ((1 + ε) * R) * (w * s) := by
    rw [norm_mul]
    exact mul_le_mul hb' hs' (norm_nonneg _) (by positivity)
  have h3 : ‖(b - a) * (s : ℂ)‖ ≤ ε * R * s := by
    rw [norm_mul, hsn]
    exact mul_le_mul_of_nonneg_right hb hs
  have e : mul b s' - a * (s : ℂ) = (mul b s' - b * s') + (b * (s' - s) + (b - a) * (s : ℂ)) := by ring
  rw [e]
  have h4 := norm_add_le (mul b s' - b * s') (b * (s' - s) + (b - a) * (s : ℂ))
  have h5 := norm_add_le (b * (s' - s)) ((b - a) * (s : ℂ))
  nlinarith

theorem exactOps_rounds : Spec.FftRounds 0 0 exactOps :=
  ⟨fun l => by simp [exactOps, fftL], fun l => by simp [exactOps, ifftL], fun l => by simp [exactOps, l2], fun l => by simp [exactOps, l2], fun a b => by simp [exactOps]⟩

theorem ifftL_zeros {l : List ℂ} (h : ∀ z ∈ l, z = 0) : ∀ z ∈ ifftL l, z = 0 := by
  have hg : ∀ k, l.getD k 0 = 0 := by
    intro k
    by_cases hk : k < l.length
    · rw [List.getD_eq_getElem _ _ hk]; exact h _ (List.getElem_mem hk)
    · rw [List.getD_eq_default _ _ (by omega)]
  intro z hz
  unfold ifftL at hz
  obtain ⟨k, -, rfl⟩ := List.mem_map.1 hz
  simp only [idft, hg, zero_mul, sum_const_zero, zero_div]

theorem cwtUnpad_mem {a : CwtArgs} {n1 : ℤ} {N : ℕ} {row : List ℂ} {z : ℂ} (h : z ∈ cwtUnpad a n1 N row) : z ∈ row := by
  unfold cwtUnpad at h
  split at h
  · unfold unpad pySlice at h
    exact List.mem_of_mem_drop (List.mem_of_mem_take h)
  · exact h

theorem zipWith_zero_right {l m : List ℂ} (h : ∀ z ∈ m, z = 0) : ∀ z ∈ List.zipWith (fun a b : ℂ => a * b) l m, z = 0 := by
  intro z hz
  obtain ⟨k, hk, rfl⟩ := List.mem_iff_getElem.1 hz
  rw [List.getElem_zipWith, h _ (List.getElem_mem _), mul_zero]

theorem zipWith_zero_left {l m : List ℂ} (h : ∀ z ∈ l, z = 0) : ∀ z ∈ List.zipWith (fun a b : ℂ => a * b) l m, z = 0 := by
  intro z hz
  obtain ⟨k, hk, rfl⟩ := List.mem_iff_getElem.1 hz
  rw [List.getElem_zipWith, h _ (List.getElem_mem _), zero_mul]

/-- The derivative is at most `P D` times the size of the padded signal (exact arithmetic). -/
theorem dW_bound {P D : ℝ} (hP : 0 ≤ P) (hD : 0 ≤ D) (x : List ℝ) (a : CwtArgs) (ha : a.l1Norm = true) (W : List (List ℂ)) (scales : List ℝ) (dW : List (List ℂ))
    (h : cwt x a = .ok (W, scales, dW)) (xp : List ℝ) (n1 : ℤ) (hpad : cwtPad x a.padtype = .ok (xp, n1)) (fs dt : ℝ) (hdt : cwtDt a.fs a.t x.length = .ok (fs, dt))
    (hsamp : ∀ r ∈ cwtSamples a xp.length scales, ∀ z ∈ r, ‖z‖ ≤ P) (hfac : ∀ z ∈ cwtDfactor dt xp.length, ‖z‖ ≤ D) :
    ∀ i < scales.length, (dW.getD i []).length = (W.getD i []).length ∧ ∀ j < (W.getD i []).length, ‖(dW.getD i []).getD j 0‖ ≤ P * D * Real.sqrt (xp.map fun r => r ^ 2).sum := by
  have hΨl : (cwtSamples a xp.length scales).length = scales.length := by rw [cwtSamples_eq]; exact psihRows_length _ _ _ _
  have hz : Spec.Near (1 * D) (List.replicate (cwtDfactor dt xp.length).length 0) (cwtDfactor dt xp.length) := by
    refine ⟨by simp, fun k hk => ?_⟩
    rw [List.getD_eq_getElem _ _ (by simpa using hk), List.getElem_replicate, zero_sub, norm_neg, one_mul, List.getD_eq_getElem _ _ hk]
    exact hfac _ (List.getElem_mem hk)
  obtain ⟨V, dV, hV, -, -, hb⟩ := C162_cwt (η := 0) (u := 0) (v := 0) (v₂ := 1) le_rfl le_rfl le_rfl zero_le_one hP hD exactOps_rounds x a ha W scales dW h xp n1 hpad fs dt hdt hsamp hfac
    (cwtSamples a xp.length scales) hΨl (fun i _ => by rw [zero_mul]; exact near_self _) _ hz
  intro i hi
  obtain ⟨h1, h2, h3⟩ := hb i hi
  have hV1 : V = _ := (congrArg Prod.fst hV).symm
  have hV2 : dV = _ := (congrArg Prod.snd hV).symm
  have hfl : ∀ l, (fftL l).length = l.length := fun l => by simp [fftL]
  have hrow : ∀ p ∈ cwtSamples a xp.length scales, p.length = xp.length := by rw [cwtSamples_eq]; exact psihRows_row _ _ _ _
  have hlen : (dV.getD i []).length = (V.getD i []).length := by
    rw [hV1, hV2]
    simp only [cwtRunWith]
    have hi' : i < (cwtSamples a xp.length scales).length := hΨl ▸ hi
    have hp := hrow _ (List.getElem_mem hi')
    rw [List.getD_eq_getElem _ _ (by simpa using hi'), List.getD_eq_getElem _ _ (by simpa using hi'), List.getElem_map, List.getElem_map]
    refine cwtUnpad_length a n1 x.length ?_
    split <;> simp [dConvVecWith, dConvLoopWith, convRowWith, exactOps, ifftL, fftL, hp, cwtDfactor, xifn_length]
  refine ⟨by rw [← h2, hlen, h1], fun j hj => ?_⟩
  have h4 := (h3 j hj).2.2
  have hz0 : (dV.getD i []).getD j 0 = 0 := by
    have hall : ∀ r ∈ dV, ∀ z ∈ r, z = 0 := by
      rw [hV2]
      intro r hr z hzr
      simp only [cwtRunWith] at hr
      obtain ⟨p, -, rfl⟩ := List.mem_map.1 hr
      have hm := cwtUnpad_mem hzr
      have hrep : ∀ z ∈ List.replicate (cwtDfactor dt xp.length).length (0 : ℂ), z = 0 := fun z hz => List.eq_of_mem_replicate hz
      split at hm
      · exact ifftL_zeros (zipWith_zero_right hrep) z hm
      · exact ifftL_zeros (zipWith_zero_left (zipWith_zero_left hrep)) z hm
    by_cases hil : i < dV.length
    · rw [List.getD_eq_getElem _ _ hil]
      by_cases hjl : j < dV[i].length
      · rw [List.getD_eq_getElem _ _ hjl]; exact hall _ (List.getElem_mem hil) _ (List.getElem_mem hjl)
      · rw [List.getD_eq_default _ _ (by omega)]
    · rw [List.getD_eq_default dV _ (by omega)]; rfl
  rw [hz0, zero_sub, norm_neg] at h4
  refine h4.trans (le_of_eq ?_)
  ring

theorem l2ScaleWith_row (F : FloatOps) (roots : List ℂ) (rows : List (List ℂ)) (hl : roots.length = rows.length) {i : ℕ} (hi : i < rows.length) :
    (l2ScaleWith F roots rows).getD i [] = (rows.getD i []).map fun z => F.mul z (roots.getD i 0) := by
  unfold l2ScaleWith
  rw [List.getD_eq_getElem _ _ (by simp [hl, hi]), List.getElem_zipWith, List.getD_eq_getElem rows _ hi, List.getD_eq_getElem roots _ (hl ▸ hi)]

theorem l2Scale_row (scales : List ℝ) (rows : List (List ℂ)) (hl : scales.length = rows.length) {i : ℕ} (hi : i < rows.length) :
    (l2Scale false scales rows).getD i [] = (rows.getD i []).map fun z => z * ((Real.sqrt (scales.getD i 0) : ℝ) : ℂ) := by
  unfold l2Scale
  simp only [Bool.false_eq_true, if_false]
  rw [List.getD_eq_getElem _ _ (by simp [hl, hi]), List.getElem_zipWith, List.getD_eq_getElem rows _ hi, List.getD_eq_getElem scales _ (hl ▸ hi)]

/-- **C162, `cwt` with `l1_norm=False`.** As `C162_cwt`, with one more product, by roots of the scales of relative error `w`: the bounds of row `i` are multiplied by the root of its scale. -/
theorem C162_cwt_l2 {η u v v₂ w P D : ℝ} (hη : 0 ≤ η) (hu : 0 ≤ u) (hv : 0 ≤ v) (hv₂ : 0 ≤ v₂) (hw : 0 ≤ w) (hP : 0 ≤ P) (hD : 0 ≤ D) {F : FloatOps} (hF : Spec.FftRounds η u F)
    (x : List ℝ) (a : CwtArgs) (ha : a.l1Norm = false) (W : List (List ℂ)) (scales : List ℝ) (dW : List (List ℂ)) (h : cwt x a = .ok (W, scales, dW))
    (xp : List ℝ) (n1 : ℤ) (hpad : cwtPad x a.padtype = .ok (xp, n1)) (fs dt : ℝ) (hdt : cwtDt a.fs a.t x.length = .ok (fs, dt))
    (hsamp : ∀ r ∈ cwtSamples a xp.length scales, ∀ z ∈ r, ‖z‖ ≤ P) (hfac : ∀ z ∈ cwtDfactor dt xp.length, ‖z‖ ≤ D)
    (psih' : List (List ℂ)) (hpl : psih'.length = scales.length) (hps : ∀ i < scales.length, Spec.Near (v * P) (psih'.getD i []) ((cwtSamples a xp.length scales).getD i []))
    (d' : List ℂ) (hd' : Spec.Near (v₂ * D) d' (cwtDfactor dt xp.length))
    (roots : List ℂ) (hrl : roots.length = scales.length) (hrt : ∀ i < scales.length, ‖roots.getD i 0 - ((Real.sqrt (scales.getD i 0) : ℝ) : ℂ)‖ ≤ w * Real.sqrt (scales.getD i 0)) :
    ∃ V dV, cwtRunWithL2 F a x.length n1 psih' d' roots (xp.map fun r : ℝ => (r : ℂ)) = (V, dV) ∧ V.length = W.length ∧ dV.length = dW.length ∧
      ∀ i < scales.length, (V.getD i []).length = (W.getD i []).length ∧ (dV.getD i []).length = (dW.getD i []).length ∧
        ∀ j < (W.getD i []).length,
          ‖(V.getD i []).getD j 0 - (W.getD i []).getD j 0‖ ≤
            ((1 + η) ^ 2 * (1 + u) ^ 2 * (1 + v) * (1 + w) - 1) * (P * Real.sqrt (xp.map fun r => r ^ 2).sum * Real.sqrt (scales.getD i 0)) ∧
          ‖(dV.getD i []).getD j 0 - (dW.getD i []).getD j 0‖ ≤
            ((1 + η) ^ 2 * (1 + u) ^ 3 * (1 + v) * (1 + v₂) * (1 + w) - 1) * (P * D * Real.sqrt (xp.map fun r => r ^ 2).sum * Real.sqrt (scales.getD i 0)) ∧
          ‖(W.getD i []).getD j 0‖ ≤ P * Real.sqrt (xp.map fun r => r ^ 2).sum * Real.sqrt (scales.getD i 0) := by
  obtain ⟨W0, dW0, h0, rfl, rfl⟩ := asL1_ok ha h
  have hb0 := dW_bound hP hD x a.asL1 rfl W0 scales dW0 h0 xp n1 hpad fs dt hdt hsamp hfac
  obtain ⟨V0, dV0, hV, hVl, hdVl, hb⟩ := C162_cwt hη hu hv hv₂ hP hD hF x a.asL1 rfl W0 scales dW0 h0 xp n1 hpad fs dt hdt hsamp hfac psih' hpl hps d' hd'
  have hV' : cwtRunWith F a x.length n1 psih' d' (xp.map fun r : ℝ => (r : ℂ)) = (V0, dV0) := hV
  have hV0l : V0.length = scales.length := by
    have e := congrArg (fun r => r.1.length) hV'
    simpa [cwtRunWith, hpl] using e.symm
  have hdV0l : dV0.length = scales.length := by
    have e := congrArg (fun r => r.2.length) hV'
    simpa [cwtRunWith, hpl] using e.symm
  refine ⟨l2ScaleWith F roots V0, l2ScaleWith F roots dV0, by simp only [cwtRunWithL2, hV'], ?_, ?_, fun i hi => ?_⟩
  · simp [l2ScaleWith, l2Scale, hrl, ← hVl]
  · simp [l2ScaleWith, l2Scale, hrl, ← hdVl]
  obtain ⟨h1, h2, h3⟩ := hb i hi
  obtain ⟨h4, h5⟩ := hb0 i hi
  rw [l2ScaleWith_row F roots V0 (by omega) (by omega), l2ScaleWith_row F roots dV0 (by omega) (by omega), l2Scale_row scales W0 (by omega) (by omega),
    l2Scale_row scales dW0 (by omega) (by omega)]
  refine ⟨by simpa using h1, by simpa using h2, fun j hj => ?_⟩
  rw [List.length_map] at hj
  obtain ⟨b1, b2, b3⟩ := h3 j hj
  have b4 := h5 j hj
  set S := Real.sqrt (xp.map fun r => r ^ 2).sum with hS
  have hS0 : 0 ≤ S := Real.sqrt_nonneg _
  set s := Real.sqrt (scales.getD i 0) with hs
  have hs0 : 0 ≤ s := Real.sqrt_nonneg _
  have gm : ∀ (l : List ℂ) (f : ℂ → ℂ), j < l.length → (l.map f).getD j 0 = f (l.getD j 0) := by
    intro l f hl
    rw [List.getD_eq_getElem _ _ (by simpa using hl), List.getElem_map, List.getD_eq_getElem _ _ hl]
  rw [gm _ _ (h1 ▸ hj), gm _ _ hj, gm _ _ (by omega), gm _ _ (by omega)]
  have p1 : 1 ≤ (1 + η) ^ 2 := one_le_pow₀ (by linarith)
  have p2 : 1 ≤ (1 + η) ^ 2 * (1 + u) := by nlinarith
  have p3 : 1 ≤ (1 + η) ^ 2 * (1 + u) * (1 + v) := by nlinarith
  have p4 : 1 ≤ (1 + η) ^ 2 * (1 + u) ^ 2 := le_trans p2 (by nlinarith [mul_nonneg (sub_nonneg.2 p2) hu])
  have p5 : 1 ≤ (1 + η) ^ 2 * (1 + u) ^ 2 * (1 + v) := by nlinarith
  have p6 : 1 ≤ (1 + η) ^ 2 * (1 + u) ^ 2 * (1 + v) * (1 + v₂) := by nlinarith
  refine ⟨?_, ?_, ?_⟩
  · refine (scaled_err (ε := (1 + η) ^ 2 * (1 + u) * (1 + v) - 1) hu (by linarith) (mul_nonneg hP hS0) hs0 hF.mul_err hw b2 (b1.trans (le_of_eq (by ring))) (hrt i hi)).trans (le_of_eq ?_)
    ring
  · refine (scaled_err (ε := (1 + η) ^ 2 * (1 + u) ^ 2 * (1 + v) * (1 + v₂) - 1) hu (by linarith) (mul_nonneg (mul_nonneg hP hD) hS0) hs0 hF.mul_err hw b4 (b3.trans (le_of_eq (by ring)))
      (hrt i hi)).trans (le_of_eq ?_)
    ring
  · rw [norm_mul, Complex.norm_real, Real.norm_eq_abs, abs_of_nonneg hs0]
    exact mul_le_mul_of_nonneg_right b2 hs0

/-- **C162, round trip with `l1_norm=False`.** As `C162_roundtrip`, with two more factors for the roots of the scales and the products by them: the bound does not grow with the scales. -/
theorem C162_roundtrip_l2 {η u v w P : ℝ} (hη : 0 ≤ η) (hu : 0 ≤ u) (hv : 0 ≤ v) (hw : 0 ≤ w) (hP : 0 ≤ P) {F : FloatOps} (hF : Spec.FftRounds η u F)
    {add mul div : ℝ → ℝ → ℝ} (hadd : Spec.Rounds u add (· + ·)) (hmul : Spec.Rounds u mul (· * ·)) (hdiv : Spec.Rounds u div (· / ·))
    (x : List ℝ) (a : CwtArgs) (ha : a.l1Norm = false) (W : List (List ℂ)) (scales : List ℝ) (dW : List (List ℂ)) (h : cwt x a = .ok (W, scales, dW))
    (xp : List ℝ) (n1 : ℤ) (hpad : cwtPad x a.padtype = .ok (xp, n1)) (hsamp : ∀ r ∈ cwtSamples a xp.length scales, ∀ z ∈ r, ‖z‖ ≤ P)
    (psih' : List (List ℂ)) (hpl : psih'.length = scales.length) (hps : ∀ i < scales.length, Spec.Near (v * P) (psih'.getD i []) ((cwtSamples a xp.length scales).getD i []))
    (roots : List ℂ) (hrl : roots.length = scales.length) (hrt : ∀ i < scales.length, ‖roots.getD i 0 - ((Real.sqrt (scales.getD i 0) : ℝ) : ℂ)‖ ≤ w * Real.sqrt (scales.getD i 0))
    (hpos : ∀ i < scales.length, 0 < scales.getD i 0)
    (d' : List ℂ) (ia : IcwtArgs) (hia : ia.l1Norm = false) (n : ℕ) (st : ScaleType) (hst : st ≠ .logPiecewise) (nv : Nv) (order : SumTree)
    (ho : order.leaves.Perm (List.range scales.length)) (j : ℕ) (hj : j < n) (hrows : ∀ i < scales.length, j < (W.getD i []).length) :
    |icwtColumnWith add mul div order (cwtRunWithL2 F a x.length n1 psih' d' roots (xp.map fun r : ℝ => (r : ℂ))).1
          (fun i => if st = .log then Real.sqrt (scales.getD i 0) else scales.getD i 0 * Real.sqrt (scales.getD i 0)) (icwtFactor ia.admSsq st nv) ia.xMean j -
        (icwtLeaf ia n W scales st nv).getD j 0| ≤
      ((1 + u) ^ (scales.length + 4) * (1 + η) ^ 2 * (1 + v) * (1 + w) - 1) *
          (|icwtFactor ia.admSsq st nv| * (P * Real.sqrt (xp.map fun r => r ^ 2).sum * ∑ i ∈ range scales.length, 1 / |if st = .log then 1 else scales.getD i 0|)) + u * |ia.xMean| := by
  obtain ⟨r, p, sc, hr, -, hp, -, -, hrun⟩ := (cwt_ok_iff x a W scales dW).1 h
  have hfac0 : ∃ D, 0 ≤ D ∧ ∀ z ∈ cwtDfactor r.2 xp.length, ‖z‖ ≤ D := by
    refine ⟨((cwtDfactor r.2 xp.length).map fun z => ‖z‖).sum, ?_, fun z hz => ?_⟩
    · exact List.sum_nonneg fun y hy => by obtain ⟨z, -, rfl⟩ := List.mem_map.1 hy; exact norm_nonneg _
    · exact List.single_le_sum (fun y hy => by obtain ⟨z, -, rfl⟩ := List.mem_map.1 hy; exact norm_nonneg _) _ (List.mem_map_of_mem hz)
  obtain ⟨D, hD, hfac⟩ := hfac0
  obtain ⟨V, dV, hV, hVl, -, hVW⟩ := C162_cwt_l2 hη hu hv le_rfl hw hP hD hF x a ha W scales dW h xp n1 hpad r.1 r.2 hr hsamp hfac psih' hpl hps (cwtDfactor r.2 xp.length)
    (by rw [zero_mul]; exact near_self _) roots hrl hrt
  have hVeq : (cwtRunWithL2 F a x.length n1 psih' d' roots (xp.map fun r : ℝ => (r : ℂ))).1 = V := (congrArg Prod.fst hV : _)
  rw [hVeq]
  have e1 : ∀ i, (icwtNorm st ia.l1Norm (scales.getD i 0)).getD 0 = if st = .log then Real.sqrt (scales.getD i 0) else scales.getD i 0 * Real.sqrt (scales.getD i 0) := by
    intro i
    unfold icwtNorm
    rw [hia]
    cases st with
    | log => simp
    | linear => simp
    | logPiecewise => exact absurd rfl hst
  have hWl : W.length = scales.length := by
    rw [← hVl, ← hVeq]
    simp [cwtRunWithL2, l2ScaleWith, cwtRunWith, hpl, hrl]
  have hε : 0 ≤ (1 + η) ^ 2 * (1 + u) ^ 2 * (1 + v) * (1 + w) - 1 := by
    have h1 : 1 ≤ (1 + η) ^ 2 := one_le_pow₀ (by linarith)
    have h1' : 1 ≤ (1 + u) ^ 2 := one_le_pow₀ (by linarith)
    have h2 : 1 ≤ (1 + η) ^ 2 * (1 + u) ^ 2 := one_le_mul_of_one_le_of_one_le h1 h1'
    have h3 : 1 ≤ (1 + η) ^ 2 * (1 + u) ^ 2 * (1 + v) := one_le_mul_of_one_le_of_one_le h2 (by linarith)
    have h4 := one_le_mul_of_one_le_of_one_le h3 (show 1 ≤ 1 + w by linarith)
    linarith
  have hfin := C162_icwt_rows (R := fun i => P * Real.sqrt (xp.map fun r => r ^ 2).sum * Real.sqrt (scales.getD i 0)) hu hε
    (fun i => mul_nonneg (mul_nonneg hP (Real.sqrt_nonneg _)) (Real.sqrt_nonneg _)) hadd hmul hdiv ia n W V scales st nv order hWl ho j hj
    (fun i hi => ((hVW i hi).2.2 j (hrows i hi)).2.2) (fun i hi => ((hVW i hi).2.2 j (hrows i hi)).1)
  simp only [e1] at hfin
  have hsum : ∑ i ∈ range scales.length, P * Real.sqrt (xp.map fun r => r ^ 2).sum * Real.sqrt (scales.getD i 0) *
        (1 / |if st = .log then Real.sqrt (scales.getD i 0) else scales.getD i 0 * Real.sqrt (scales.getD i 0)|) =
      P * Real.sqrt (xp.map fun r => r ^ 2).sum * ∑ i ∈ range scales.length, 1 / |if st = .log then 1 else scales.getD i 0| := by
    rw [mul_sum]
    refine sum_congr rfl fun i hi => ?_
    have hs := hpos i (mem_range.1 hi)
    have hq := Real.sqrt_pos.2 hs
    rw [mul_assoc]
    congr 1
    split_ifs
    · rw [abs_of_pos hq, abs_one]; field_simp
    · rw [abs_of_pos (mul_pos hs hq), abs_of_pos hs]; field_simp
  rw [hsum] at hfin
  refine hfin.trans (le_of_eq ?_)
  congr 2
  rw [show scales.length + 4 = scales.length + 2 + 2 from rfl, pow_add (1 + u) (scales.length + 2) 2]
  ring

/-- Correctly rounded double precision, five samples, three scales, roots rounded to double precision. -/
example : ∃ W dW V dV, cwt [3, 1, 4, 1, 5] { argsR none with l1Norm := false } = .ok (W, [1, 2, 4], dW) ∧
    cwtRunWithL2 (flOps 53) (argsR none) 5 0 (cwtSamples (argsR none) 5 [1, 2, 4]) (cwtDfactor (1 / 2) 5) ([1, 2, 4].map fun s : ℝ => flC 53 ((Real.sqrt s : ℝ) : ℂ))
      ([3, 1, 4, 1, 5].map fun r : ℝ => (r : ℂ)) = (V, dV) ∧
    ∃ P : ℝ, ∀ j < (W.getD 2 []).length, ‖(V.getD 2 []).getD j 0 - (W.getD 2 []).getD j 0‖ ≤
      ((1 + 1 / 2 ^ 53) ^ 2 * (1 + 1 / 2 ^ 53) ^ 2 * (1 + 0) * (1 + 1 / 2 ^ 53) - 1) * (P * Real.sqrt 52 * 2) := by
  obtain ⟨W0, dW0, h0⟩ := argsR_ok [3, 1, 4, 1, 5] (by simp) none
  obtain ⟨r, p, sc, h1, -, h3, h4, h5, -⟩ := (cwt_ok_iff _ (argsR none) W0 _ dW0).1 h0
  have h := (cwt_ok_iff [3, 1, 4, 1, 5] { argsR none with l1Norm := false } _ [1, 2, 4] _).2 ⟨r, p, sc, h1, rfl, h3, h4, h5, rfl⟩
  have hdt : cwtDt (argsR none).fs (argsR none).t ([3, 1, 4, 1, 5] : List ℝ).length = .ok (2, 1 / 2) := by
    have e : processFsT (some 2) none 5 = .ok (.fin 2 (1 / 2)) := by simp [processFsT]
    simp only [cwtDt, argsR, List.length_cons, List.length_nil, zero_add, Nat.reduceAdd, e, ok_bind]
  have hPex : ∃ P : ℝ, 0 ≤ P ∧ ∀ r ∈ cwtSamples (argsR none) 5 [1, 2, 4], ∀ z ∈ r, ‖z‖ ≤ P := by
    refine ⟨(((cwtSamples (argsR none) 5 [1, 2, 4]).flatten).map fun z => ‖z‖).sum, ?_, fun r hr z hz => ?_⟩
    · exact List.sum_nonneg fun y hy => by obtain ⟨z, -, rfl⟩ := List.mem_map.1 hy; exact norm_nonneg _
    · exact List.single_le_sum (fun y hy => by obtain ⟨z, -, rfl⟩ := List.mem_map.1 hy; exact norm_nonneg _) _ (List.mem_map_of_mem (List.mem_flatten.2 ⟨r, hr, hz⟩))
  obtain ⟨P, hP, hsamp⟩ := hPex
  obtain ⟨V, dV, hV, -, -, hb⟩ := C162_cwt_l2 (η := 1 / 2 ^ 53) (u := 1 / 2 ^ 53) (v := 0) (v₂ := 0) (w := 1 / 2 ^ 53) (P := P) (D := Real.pi / (1 / 2)) (by positivity) (by positivity)
    le_rfl le_rfl (by positivity) hP (by positivity) (flOps_rounds 53) [3, 1, 4, 1, 5] _ rfl _ [1, 2, 4] _ h [3, 1, 4, 1, 5] 0 rfl 2 (1 / 2) hdt hsamp
    (C162_factor (1 / 2) (by norm_num) 5) (cwtSamples (argsR none) 5 [1, 2, 4]) (by rw [cwtSamples_eq]; exact psihRows_length _ _ _ _)
    (fun i _ => by rw [zero_mul]; exact near_self _) (cwtDfactor (1 / 2) 5) (by rw [zero_mul]; exact near_self _)
    ([1, 2, 4].map fun s : ℝ => flC 53 ((Real.sqrt s : ℝ) : ℂ)) (by simp) (fun i hi => by
      have key : ∀ s : ℝ, ‖flC 53 ((Real.sqrt s : ℝ) : ℂ) - ((Real.sqrt s : ℝ) : ℂ)‖ ≤ 1 / 2 ^ 53 * Real.sqrt s := by
        intro s
        have := flC_err 53 ((Real.sqrt s : ℝ) : ℂ)
        rwa [Complex.norm_real, Real.norm_eq_abs, abs_of_nonneg (Real.sqrt_nonneg s)] at this
      rw [List.getD_eq_getElem _ _ (by simpa using hi), List.getElem_map, List.getD_eq_getElem _ _ hi]
      exact key _)
  refine ⟨_, _, V, dV, h, hV, P, fun j hj => ?_⟩
  have := ((hb 2 (by simp)).2.2 j hj).1
  have e4 : Real.sqrt (([1, 2, 4] : List ℝ).getD 2 0) = 2 := by
    show Real.sqrt 4 = 2
    rw [show (4 : ℝ) = 2 ^ 2 by norm_num]
    exact Real.sqrt_sq (by norm_num)
  have e52 : (([3, 1, 4, 1, 5] : List ℝ).map fun r => r ^ 2).sum = 52 := by norm_num
  rw [e4, e52] at this
  exact this

/-- The round trip of the same call: all hypotheses hold, for logarithmic scales, every voice number and every sample. -/
example (nv : Nv) (j : ℕ) (hj : j < 5) (ia : IcwtArgs) (hia : ia.l1Norm = false) : ∃ W dW, cwt [3, 1, 4, 1, 5] { argsR none with l1Norm := false } = .ok (W, [1, 2, 4], dW) ∧
    ∃ P : ℝ, |icwtColumnWith (fun a b => Spec.fl 53 (a + b)) (fun a b => Spec.fl 53 (a * b)) (fun a b => Spec.fl 53 (a / b)) (.node (.node (.leaf 0) (.leaf 1)) (.leaf 2))
        (cwtRunWithL2 (flOps 53) { argsR none with l1Norm := false } 5 0 (cwtSamples (argsR none) 5 [1, 2, 4]) [] ([1, 2, 4].map fun s : ℝ => flC 53 ((Real.sqrt s : ℝ) : ℂ))
          ([3, 1, 4, 1, 5].map fun r : ℝ => (r : ℂ))).1 (fun i => Real.sqrt (([1, 2, 4] : List ℝ).getD i 0)) (icwtFactor ia.admSsq .log nv) ia.xMean j -
        (icwtLeaf ia 5 W [1, 2, 4] .log nv).getD j 0| ≤
      ((1 + 1 / 2 ^ 53) ^ 10 - 1) * (|icwtFactor ia.admSsq .log nv| * (P * Real.sqrt 52 * 3)) + 1 / 2 ^ 53 * |ia.xMean| := by
  obtain ⟨W0, dW0, h0⟩ := argsR_ok [3, 1, 4, 1, 5] (by simp) none
  obtain ⟨r, p, sc, h1, -, h3, h4, h5, -⟩ := (cwt_ok_iff _ (argsR none) W0 _ dW0).1 h0
  have h := (cwt_ok_iff [3, 1, 4, 1, 5] { argsR none with l1Norm := false } _ [1, 2, 4] _).2 ⟨r, p, sc, h1, rfl, h3, h4, h5, rfl⟩
  have hPex : ∃ P : ℝ, 0 ≤ P ∧ ∀ r ∈ cwtSamples (argsR none) 5 [1, 2, 4], ∀ z ∈ r, ‖z‖ ≤ P := by
    refine ⟨(((cwtSamples (argsR none) 5 [1, 2, 4]).flatten).map fun z => ‖z‖).sum, ?_, fun r hr z hz => ?_⟩
    · exact List.sum_nonneg fun y hy => by obtain ⟨z, -, rfl⟩ := List.mem_map.1 hy; exact norm_nonneg _
    · exact List.single_le_sum (fun y hy => by obtain ⟨z, -, rfl⟩ := List.mem_map.1 hy; exact norm_nonneg _) _ (List.mem_map_of_mem (List.mem_flatten.2 ⟨r, hr, hz⟩))
  obtain ⟨P, hP, hsamp⟩ := hPex
  obtain ⟨xq, _, _, _, hxq, -, -, -, -, hlen⟩ := C37_rows_partial _ _ none rfl (by simp) (fun w => by simp [argsR, WFn.eval]) _ _ _ h
  refine ⟨_, _, h, P, ?_⟩
  have := C162_roundtrip_l2 (η := 1 / 2 ^ 53) (u := 1 / 2 ^ 53) (v := 0) (w := 1 / 2 ^ 53) (P := P) (by positivity) (by positivity)
    le_rfl (by positivity) hP (flOps_rounds 53) (C161_ieee 53 (· + ·)) (C161_ieee 53 (· * ·)) (C161_ieee 53 (· / ·)) [3, 1, 4, 1, 5] _ rfl _ [1, 2, 4] _ h [3, 1, 4, 1, 5] 0 rfl hsamp
    (cwtSamples (argsR none) 5 [1, 2, 4]) (by rw [cwtSamples_eq]; exact psihRows_length _ _ _ _)
    (fun i _ => by rw [zero_mul]; exact near_self _)
    ([1, 2, 4].map fun s : ℝ => flC 53 ((Real.sqrt s : ℝ) : ℂ)) (by simp) (fun i hi => by
      have key : ∀ s : ℝ, ‖flC 53 ((Real.sqrt s : ℝ) : ℂ) - ((Real.sqrt s : ℝ) : ℂ)‖ ≤ 1 / 2 ^ 53 * Real.sqrt s := by
        intro s
        have := flC_err 53 ((Real.sqrt s : ℝ) : ℂ)
        rwa [Complex.norm_real, Real.norm_eq_abs, abs_of_nonneg (Real.sqrt_nonneg s)] at this
      rw [List.getD_eq_getElem _ _ (by simpa using hi), List.getElem_map, List.getD_eq_getElem _ _ hi]
      exact key _)
    (fun i hi => by
      have : i < 3 := hi
      interval_cases i <;> norm_num) [] ia hia 5 .log (by simp) nv (.node (.node (.leaf 0) (.leaf 1)) (.leaf 2)) (by simp [SumTree.leaves, List.range_succ]) j hj
    (fun i hi => by rw [(hlen i hi).1, if_neg (by simp), hxq.1]; exact hj)
  have e52 : (([3, 1, 4, 1, 5] : List ℝ).map fun r => r ^ 2).sum = 52 := by norm_num
  rw [e52] at this
  refine this.trans (le_of_eq ?_)
  have es : (∑ i ∈ range ([1, 2, 4] : List ℝ).length, 1 / |if ScaleType.log = .log then (1 : ℝ) else ([1, 2, 4] : List ℝ).getD i 0|) = 3 := by simp
  rw [es]
  simp only [List.length_cons, List.length_nil]
  generalize (1 / 2 ^ 53 : ℝ) = u
  ring

end Ssq
