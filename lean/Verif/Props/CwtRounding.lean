import Verif.Props.Rounding
import Verif.Lemmas.L2
import Verif.Lemmas.Xifn
import Verif.Props.SsqCwtFull

/-!
# C162: rounding errors of `cwt`
-/
namespace Ssq
open Finset
open Spec (l2)

namespace Spec

/-- What is assumed of the FFTs and of complex multiplication: lengths are kept, the error of a transform is at most `η` times its size (root of the sum of squares), and that of a
product at most `u` times its magnitude. -/
structure FftRounds (η u : ℝ) (F : FloatOps) : Prop where
  fft_length : ∀ l, (F.fft l).length = l.length
  ifft_length : ∀ l, (F.ifft l).length = l.length
  fft_err : ∀ l, l2 l.length (fun k => (F.fft l).getD k 0 - (fftL l).getD k 0) ≤ η * l2 l.length fun k => (fftL l).getD k 0
  ifft_err : ∀ l, l2 l.length (fun k => (F.ifft l).getD k 0 - (ifftL l).getD k 0) ≤ η * l2 l.length fun k => (ifftL l).getD k 0
  mul_err : ∀ a b, ‖F.mul a b - a * b‖ ≤ u * ‖a * b‖

end Spec

theorem exact_run (a : CwtArgs) (ha : a.l1Norm = true) (dt : ℝ) (scales : List ℝ) (N : ℕ) (xp : List ℝ) (n1 : ℤ) :
    cwtRun a dt scales N xp n1 =
      cwtRunWith exactOps a N n1 (cwtSamples a xp.length scales) (cwtDfactor dt xp.length) (xp.map fun r : ℝ => (r : ℂ)) := by
  have hl : (fftL (xp.map fun r : ℝ => (r : ℂ))).length = xp.length := by simp [fftL]
  unfold cwtRun cwtRunWith cwtSamples
  simp only [ha, l2Scale, if_true]
  cases hv : a.vectorized
  · simp only [cwtLoop, List.map_map, hl, Bool.false_eq_true, if_false]
    refine Prod.ext rfl ?_
    refine List.map_congr_left fun s _ => ?_
    show cwtUnpad a n1 N (dConvLoop dt _ _) = _
    unfold dConvLoop dConvLoopWith cwtDfactor exactOps
    simp only [List.zipWith_map_left, hl]
    rfl
  · simp only [cwtVectorized, List.map_map, hl, if_true]
    refine Prod.ext rfl ?_
    refine List.map_congr_left fun s _ => ?_
    show cwtUnpad a n1 N (dConvVec dt _ _) = _
    unfold dConvVec dConvVecWith cwtDfactor exactOps
    simp only [List.zipWith_map_right, hl]

theorem fftL_getD (l : List ℂ) {k : ℕ} (hk : k < l.length) : (fftL l).getD k 0 = dft l.length (fun j => l.getD j 0) k := by
  unfold fftL
  exact getD_map_range _ _ hk

theorem ifftL_getD (l : List ℂ) {k : ℕ} (hk : k < l.length) : (ifftL l).getD k 0 = idft l.length (fun j => l.getD j 0) k := by
  unfold ifftL
  exact getD_map_range _ _ hk

theorem idft_sub (n : ℕ) (f g : ℕ → ℂ) (k : ℕ) : idft n f k - idft n g k = idft n (fun i => f i - g i) k := by
  unfold idft
  rw [← sub_div, ← sum_sub_distrib]
  congr 1
  exact sum_congr rfl fun i _ => by ring

/-- The inverse transform of a spectrum with errors. -/
theorem ifft_err {η u : ℝ} (hη : 0 ≤ η) {F : FloatOps} (hF : Spec.FftRounds η u F) {n : ℕ} (hn : 0 < n) {b b' : List ℂ} (hb : b.length = n) (hb' : b'.length = n)
    {R ε : ℝ} (hR : l2 n (fun k => b.getD k 0) ≤ Real.sqrt n * R) (hε : l2 n (fun k => b'.getD k 0 - b.getD k 0) ≤ ε * (Real.sqrt n * R)) :
    l2 n (fun k => (F.ifft b').getD k 0 - (ifftL b).getD k 0) ≤ ((1 + η) * (1 + ε) - 1) * R ∧ l2 n (fun k => (ifftL b).getD k 0) ≤ R := by
  have hs : 0 < Real.sqrt n := Real.sqrt_pos.2 (by exact_mod_cast hn)
  have e1 := hF.ifft_err b'
  rw [hb'] at e1
  have e2 : l2 n (fun k => (ifftL b').getD k 0 - (ifftL b).getD k 0) ≤ ε * R := by
    have : l2 n (fun k => (ifftL b').getD k 0 - (ifftL b).getD k 0) = l2 n (idft n fun k => b'.getD k 0 - b.getD k 0) := by
      refine l2_congr fun k hk => ?_
      rw [ifftL_getD b' (hb'.symm ▸ hk), ifftL_getD b (hb.symm ▸ hk), hb, hb', idft_sub]
    rw [this]
    have h := l2_idft hn fun k => b'.getD k 0 - b.getD k 0
    rw [h] at hε
    exact le_of_mul_le_mul_left (by linarith) hs
  have e3 : l2 n (fun k => (ifftL b).getD k 0) ≤ R := by
    have : l2 n (fun k => (ifftL b).getD k 0) = l2 n (idft n fun k => b.getD k 0) := by
      refine l2_congr fun k hk => ?_
      rw [ifftL_getD b (hb.symm ▸ hk), hb]
    rw [this]
    have h := l2_idft hn fun k => b.getD k 0
    rw [h] at hR
    exact le_of_mul_le_mul_left hR hs
  refine ⟨?_, e3⟩
  have e4 := l2_sub_le n (fun k => (ifftL b').getD k 0) (fun k => (ifftL b).getD k 0)
  have e5 := l2_triangle n (fun k => (F.ifft b').getD k 0) (fun k => (ifftL b').getD k 0) (fun k => (ifftL b).getD k 0)
  have e6 : η * l2 n (fun k => (ifftL b').getD k 0) ≤ η * (R + ε * R) := mul_le_mul_of_nonneg_left (by linarith) hη
  linarith

/-- Products of the spectrum with multipliers with errors. -/
theorem mul_spec_err {n : ℕ} {m m' a a' : ℕ → ℂ} {P ε δ A : ℝ} (hP : 0 ≤ P) (hε : 0 ≤ ε) (hm : ∀ k < n, ‖m k‖ ≤ P)
    (hmul : ∀ k < n, ‖m' k - m k * a' k‖ ≤ ε * P * ‖a' k‖) (ha : l2 n a ≤ A) (hA : l2 n (fun k => a' k - a k) ≤ δ * A) :
    l2 n (fun k => m' k - m k * a k) ≤ ((1 + ε) * (1 + δ) - 1) * (P * A) ∧ l2 n (fun k => m k * a k) ≤ P * A := by
  have h1 : l2 n (fun k => m' k - m k * a' k) ≤ ε * P * l2 n a' := l2_le_mul (mul_nonneg hε hP) hmul
  have h2 : l2 n (fun k => m k * a' k - m k * a k) ≤ P * l2 n (fun k => a' k - a k) := by
    refine l2_le_mul hP fun k hk => ?_
    rw [← mul_sub, norm_mul]
    exact mul_le_mul_of_nonneg_right (hm k hk) (norm_nonneg _)
  have h3 : l2 n (fun k => m k * a k) ≤ P * l2 n a := by
    refine l2_le_mul hP fun k hk => ?_
    rw [norm_mul]
    exact mul_le_mul_of_nonneg_right (hm k hk) (norm_nonneg _)
  have h4 := l2_sub_le n a' a
  have h5 := l2_triangle n m' (fun k => m k * a' k) (fun k => m k * a k)
  have h6 : ε * P * l2 n a' ≤ ε * P * (A + δ * A) := mul_le_mul_of_nonneg_left (by linarith) (mul_nonneg hε hP)
  have h7 : P * l2 n (fun k => a' k - a k) ≤ P * (δ * A) := mul_le_mul_of_nonneg_left hA hP
  have h8 : P * l2 n a ≤ P * A := mul_le_mul_of_nonneg_left ha hP
  exact ⟨by linarith, by linarith⟩

theorem mul_err_two {u v p : ℝ} (hu : 0 ≤ u) {a a' b m : ℂ} (hp : ‖a‖ ≤ p) (ha : ‖a' - a‖ ≤ v * p) (hm : ‖m - a' * b‖ ≤ u * ‖a' * b‖) :
    ‖m - a * b‖ ≤ ((1 + u) * (1 + v) - 1) * p * ‖b‖ := by
  have e1 : m - a * b = (m - a' * b) + (a' - a) * b := by ring
  have e2 := norm_add_le (m - a' * b) ((a' - a) * b)
  rw [← e1, norm_mul] at e2
  rw [norm_mul] at hm
  have e3 : ‖a'‖ ≤ p + v * p := by
    have := norm_le_norm_add_norm_sub' a' a
    linarith
  have e4 : u * (‖a'‖ * ‖b‖) ≤ u * ((p + v * p) * ‖b‖) := mul_le_mul_of_nonneg_left (mul_le_mul_of_nonneg_right e3 (norm_nonneg _)) hu
  have e5 : ‖a' - a‖ * ‖b‖ ≤ v * p * ‖b‖ := mul_le_mul_of_nonneg_right ha (norm_nonneg _)
  linarith

theorem getD_zipWith' {α β γ : Type} (f : α → β → γ) (l : List α) (l' : List β) (d : α) (d' : β) (e : γ) {k : ℕ} (h : k < l.length) (h' : k < l'.length) :
    (List.zipWith f l l').getD k e = f (l.getD k d) (l'.getD k d') := by
  rw [List.getD_eq_getElem _ _ (by simp; omega), List.getElem_zipWith, List.getD_eq_getElem l _ h, List.getD_eq_getElem l' _ h']

/-- **C162, one scale.** -/
theorem C162_row {η u v P : ℝ} (hη : 0 ≤ η) (hu : 0 ≤ u) (hv : 0 ≤ v) (hP : 0 ≤ P) {F : FloatOps} (hF : Spec.FftRounds η u F) (psih psih' x : List ℂ)
    (hl : psih.length = x.length) (hl' : psih'.length = x.length) (hb : ∀ k < x.length, ‖psih.getD k 0‖ ≤ P)
    (hs : ∀ k < x.length, ‖psih'.getD k 0 - psih.getD k 0‖ ≤ v * P) :
    l2 x.length (fun j => (convRowWith F psih' (F.fft x)).getD j 0 - (convRow psih (fftL x)).getD j 0) ≤
        ((1 + η) ^ 2 * (1 + u) * (1 + v) - 1) * P * l2 x.length (fun j => x.getD j 0) ∧
      l2 x.length (fun j => (convRow psih (fftL x)).getD j 0) ≤ P * l2 x.length fun j => x.getD j 0 := by
  rcases Nat.eq_zero_or_pos x.length with h0 | hn
  · rw [h0]; simp [l2]
  set n := x.length with hnd
  have hfl : (fftL x).length = n := by simp [fftL, hnd]
  have hfl' : (F.fft x).length = n := hF.fft_length x
  have hpar : l2 n (fun k => (fftL x).getD k 0) = Real.sqrt n * l2 n fun j => x.getD j 0 := by
    rw [← l2_dft]
    exact l2_congr fun k hk => fftL_getD x hk
  have hspec := mul_spec_err (n := n) (m := fun k => psih.getD k 0) (m' := fun k => F.mul (psih'.getD k 0) ((F.fft x).getD k 0)) (a := fun k => (fftL x).getD k 0)
    (a' := fun k => (F.fft x).getD k 0) (P := P) (ε := (1 + u) * (1 + v) - 1) (δ := η) (A := Real.sqrt n * l2 n fun j => x.getD j 0) hP (by nlinarith) hb
    (fun k hk => mul_err_two hu (hb k hk) (hs k hk) (hF.mul_err _ _)) hpar.le (hpar ▸ hF.fft_err x)
  have h := ifft_err hη hF hn (b := List.zipWith (fun a b : ℂ => a * b) psih (fftL x)) (b' := List.zipWith F.mul psih' (F.fft x)) (by simp [hl, hfl]) (by simp [hl', hfl'])
    (R := P * l2 n fun j => x.getD j 0) (ε := (1 + ((1 + u) * (1 + v) - 1)) * (1 + η) - 1) ?_ ?_
  · obtain ⟨h1, h2⟩ := h
    exact ⟨h1.trans (le_of_eq (by ring)), h2⟩
  · refine le_trans (le_of_eq (l2_congr fun k hk => ?_)) (hspec.2.trans (le_of_eq (by ring)))
    exact getD_zipWith' _ _ _ 0 0 _ (hl ▸ hk) (hfl ▸ hk)
  · refine le_trans (le_of_eq (l2_congr fun k hk => ?_)) (hspec.1.trans (le_of_eq (by ring)))
    rw [getD_zipWith' _ _ _ 0 0 _ (show k < psih'.length from hl' ▸ hk) (show k < (F.fft x).length from hfl' ▸ hk),
      getD_zipWith' _ _ _ 0 0 _ (show k < psih.length from hl ▸ hk) (show k < (fftL x).length from hfl ▸ hk)]

/-- Products with the factor of the derivative. -/
theorem mul_err_three {u v v₂ P D : ℝ} (hu : 0 ≤ u) (hv : 0 ≤ v) (hv₂ : 0 ≤ v₂) (hP : 0 ≤ P) (hD : 0 ≤ D) {mul : ℂ → ℂ → ℂ} (hm : ∀ a b, ‖mul a b - a * b‖ ≤ u * ‖a * b‖) {p p' d d' : ℂ}
    (a' : ℂ) (hp : ‖p‖ ≤ P) (hp' : ‖p' - p‖ ≤ v * P) (hd : ‖d‖ ≤ D) (hd' : ‖d' - d‖ ≤ v₂ * D) :
    ‖mul (mul p' a') d' - p * d * a'‖ ≤ ((1 + u) ^ 2 * (1 + v) * (1 + v₂) - 1) * (P * D) * ‖a'‖ ∧
    ‖mul (mul d' p') a' - p * d * a'‖ ≤ ((1 + u) ^ 2 * (1 + v) * (1 + v₂) - 1) * (P * D) * ‖a'‖ := by
  have hd2 : ‖d'‖ ≤ D + v₂ * D := by
    have := norm_le_norm_add_norm_sub' d' d
    linarith
  constructor
  · set s := mul p' a' with hs
    have h1 : ‖s - p * a'‖ ≤ ((1 + u) * (1 + v) - 1) * P * ‖a'‖ := mul_err_two hu hp hp' (hm _ _)
    have h2 := hm s d'
    have hpa : ‖p * a'‖ ≤ P * ‖a'‖ := by rw [norm_mul]; exact mul_le_mul_of_nonneg_right hp (norm_nonneg _)
    have hs2 : ‖s‖ ≤ (1 + u) * (1 + v) * P * ‖a'‖ := by
      have := norm_le_norm_add_norm_sub' s (p * a')
      linarith
    have e1 : mul s d' - p * d * a' = (mul s d' - s * d') + ((s - p * a') * d' + p * a' * (d' - d)) := by ring
    have e2 := norm_add_le (mul s d' - s * d') ((s - p * a') * d' + p * a' * (d' - d))
    have e3 := norm_add_le ((s - p * a') * d') (p * a' * (d' - d))
    rw [← e1] at e2
    rw [norm_mul (s - p * a'), norm_mul (p * a')] at e3
    rw [norm_mul] at h2
    have f1 : ‖s‖ * ‖d'‖ ≤ (1 + u) * (1 + v) * P * ‖a'‖ * (D + v₂ * D) := mul_le_mul hs2 hd2 (norm_nonneg _) (by positivity)
    have f2 : ‖s - p * a'‖ * ‖d'‖ ≤ ((1 + u) * (1 + v) - 1) * P * ‖a'‖ * (D + v₂ * D) :=
      mul_le_mul h1 hd2 (norm_nonneg _) ((norm_nonneg _).trans h1)
    have f3 : ‖p * a'‖ * ‖d' - d‖ ≤ P * ‖a'‖ * (v₂ * D) := mul_le_mul hpa hd' (norm_nonneg _) (by positivity)
    have f4 := mul_le_mul_of_nonneg_left f1 hu
    calc ‖mul s d' - p * d * a'‖ ≤ u * ((1 + u) * (1 + v) * P * ‖a'‖ * (D + v₂ * D)) + (((1 + u) * (1 + v) - 1) * P * ‖a'‖ * (D + v₂ * D) + P * ‖a'‖ * (v₂ * D)) := by linarith
      _ = _ := by ring
  · set q := mul d' p' with hq
    have h1 : ‖q - d * p'‖ ≤ ((1 + u) * (1 + v₂) - 1) * D * ‖p'‖ := mul_err_two hu hd hd' (hm _ _)
    have hp2 : ‖p'‖ ≤ P + v * P := by
      have := norm_le_norm_add_norm_sub' p' p
      linarith
    have h2 : ‖q - d * p‖ ≤ ((1 + u) * (1 + v₂) * (1 + v) - 1) * (P * D) := by
      have e1 : q - d * p = (q - d * p') + d * (p' - p) := by ring
      have e2 := norm_add_le (q - d * p') (d * (p' - p))
      rw [← e1, norm_mul d] at e2
      have f1 : ((1 + u) * (1 + v₂) - 1) * D * ‖p'‖ ≤ ((1 + u) * (1 + v₂) - 1) * D * (P + v * P) :=
        mul_le_mul_of_nonneg_left hp2 (mul_nonneg (by nlinarith) hD)
      have f2 : ‖d‖ * ‖p' - p‖ ≤ D * (v * P) := mul_le_mul hd hp' (norm_nonneg _) hD
      calc ‖q - d * p‖ ≤ ((1 + u) * (1 + v₂) - 1) * D * (P + v * P) + D * (v * P) := by linarith
        _ = _ := by ring
    have hdp : ‖d * p‖ ≤ P * D := by
      rw [norm_mul, mul_comm P]
      exact mul_le_mul hd hp (norm_nonneg _) hD
    have h3 := mul_err_two hu hdp h2 (hm q a')
    rw [mul_comm d p] at h3
    refine h3.trans (le_of_eq ?_)
    ring

/-- **C162, one scale of the derivative.** -/
theorem C162_drow {η u v v₂ P D : ℝ} (hη : 0 ≤ η) (hu : 0 ≤ u) (hv : 0 ≤ v) (hv₂ : 0 ≤ v₂) (hP : 0 ≤ P) (hD : 0 ≤ D) {F : FloatOps} (hF : Spec.FftRounds η u F) (vec : Bool)
    (psih psih' d d' x : List ℂ)
    (hl : psih.length = x.length) (hl' : psih'.length = x.length) (hd : d.length = x.length) (hd' : d'.length = x.length) (hb : ∀ k < x.length, ‖psih.getD k 0‖ ≤ P)
    (hs : ∀ k < x.length, ‖psih'.getD k 0 - psih.getD k 0‖ ≤ v * P) (hdb : ∀ k < x.length, ‖d.getD k 0‖ ≤ D)
    (hds : ∀ k < x.length, ‖d'.getD k 0 - d.getD k 0‖ ≤ v₂ * D) :
    l2 x.length (fun j => (if vec then dConvVecWith F d' psih' (F.fft x) else dConvLoopWith F d' psih' (F.fft x)).getD j 0 -
        (if vec then dConvVecWith exactOps d psih (fftL x) else dConvLoopWith exactOps d psih (fftL x)).getD j 0) ≤
      ((1 + η) ^ 2 * (1 + u) ^ 2 * (1 + v) * (1 + v₂) - 1) * (P * D) * l2 x.length (fun j => x.getD j 0) := by
  rcases Nat.eq_zero_or_pos x.length with h0 | hn
  · rw [h0]; simp [l2]
  set n := x.length with hnd
  have hfl : (fftL x).length = n := by simp [fftL, hnd]
  have hfl' : (F.fft x).length = n := hF.fft_length x
  have hpar : l2 n (fun k => (fftL x).getD k 0) = Real.sqrt n * l2 n fun j => x.getD j 0 := by
    rw [← l2_dft]
    exact l2_congr fun k hk => fftL_getD x hk
  have hmul := fun k (hk : k < n) => mul_err_three hu hv hv₂ hP hD hF.mul_err ((F.fft x).getD k 0) (hb k hk) (hs k hk) (hdb k hk) (hds k hk)
  have hε : 0 ≤ (1 + u) ^ 2 * (1 + v) * (1 + v₂) - 1 := by
    have h1 : 1 ≤ (1 + u) ^ 2 := one_le_pow₀ (by linarith)
    have h2 : 1 ≤ (1 + u) ^ 2 * (1 + v) := by nlinarith
    nlinarith
  have hbd : ∀ k < n, ‖psih.getD k 0 * d.getD k 0‖ ≤ P * D := by
    intro k hk
    rw [norm_mul]
    exact mul_le_mul (hb k hk) (hdb k hk) (norm_nonneg _) hP
  have hfe : l2 n (fun k => (F.fft x).getD k 0 - (fftL x).getD k 0) ≤ η * (Real.sqrt n * l2 n fun j => x.getD j 0) := hpar ▸ hF.fft_err x
  have main : ∀ (b b' : List ℂ), b.length = n → b'.length = n → (∀ k < n, b.getD k 0 = psih.getD k 0 * d.getD k 0 * (fftL x).getD k 0) →
      (∀ k < n, ‖b'.getD k 0 - psih.getD k 0 * d.getD k 0 * (F.fft x).getD k 0‖ ≤ ((1 + u) ^ 2 * (1 + v) * (1 + v₂) - 1) * (P * D) * ‖(F.fft x).getD k 0‖) →
      l2 n (fun j => (F.ifft b').getD j 0 - (ifftL b).getD j 0) ≤ ((1 + η) ^ 2 * (1 + u) ^ 2 * (1 + v) * (1 + v₂) - 1) * (P * D) * l2 n (fun j => x.getD j 0) := by
    intro b b' hbl hbl' hbk hbk'
    have hspec := mul_spec_err (n := n) (m := fun k => psih.getD k 0 * d.getD k 0) (m' := fun k => b'.getD k 0) (a := fun k => (fftL x).getD k 0)
      (a' := fun k => (F.fft x).getD k 0) (P := P * D) (δ := η) (A := Real.sqrt n * l2 n fun j => x.getD j 0) (mul_nonneg hP hD) hε hbd hbk' hpar.le hfe
    have h := ifft_err hη hF hn hbl hbl' (R := P * D * l2 n fun j => x.getD j 0) (ε := (1 + ((1 + u) ^ 2 * (1 + v) * (1 + v₂) - 1)) * (1 + η) - 1) ?_ ?_
    · exact h.1.trans (le_of_eq (by ring))
    · exact le_trans (le_of_eq (l2_congr hbk)) (hspec.2.trans (le_of_eq (by ring)))
    · refine le_trans (le_of_eq (l2_congr fun k hk => ?_)) (hspec.1.trans (le_of_eq (by ring)))
      rw [hbk k hk]
  cases vec
  · refine main _ _ (by simp [hl, hd, hfl]) (by simp [hl', hd', hfl']) (fun k hk => ?_) (fun k hk => ?_)
    · rw [getD_zipWith' _ _ _ 0 0 _ (by simp [hl, hd, hk]) (by rw [hfl]; exact hk), getD_zipWith' _ _ _ 0 0 _ (by rw [hd]; exact hk) (by rw [hl]; exact hk)]
      simp only [exactOps]
      ring
    · rw [getD_zipWith' _ _ _ 0 0 _ (by simp [hl', hd', hk]) (by rw [hfl']; exact hk), getD_zipWith' _ _ _ 0 0 _ (by rw [hd']; exact hk) (by rw [hl']; exact hk)]
      exact (hmul k hk).2
  · refine main _ _ (by simp [hl, hd, hfl]) (by simp [hl', hd', hfl']) (fun k hk => ?_) (fun k hk => ?_)
    · rw [getD_zipWith' _ _ _ 0 0 _ (by simp [hl, hfl, hk]) (by rw [hd]; exact hk), getD_zipWith' _ _ _ 0 0 _ (by rw [hl]; exact hk) (by rw [hfl]; exact hk)]
      simp only [exactOps]
      ring
    · rw [getD_zipWith' _ _ _ 0 0 _ (by simp [hl', hfl', hk]) (by rw [hd']; exact hk), getD_zipWith' _ _ _ 0 0 _ (by rw [hl']; exact hk) (by rw [hfl']; exact hk)]
      exact (hmul k hk).1

/-- Unpadding keeps some of the samples, the same for every row. -/
theorem cwtUnpad_getD (a : CwtArgs) (n1 : ℤ) (N n : ℕ) : ∃ c, ∀ l : List ℂ, l.length = n → ∀ j < (cwtUnpad a n1 N l).length, c + j < n ∧ (cwtUnpad a n1 N l).getD j 0 = l.getD (c + j) 0 := by
  unfold cwtUnpad
  split
  · refine ⟨sliceBound n n1, fun l hl j hj => ?_⟩
    unfold unpad pySlice at hj ⊢
    simp only [hl] at hj ⊢
    have hj' := hj
    rw [List.length_take, List.length_drop, hl] at hj'
    refine ⟨by omega, ?_⟩
    rw [List.getD_eq_getElem _ _ hj, List.getElem_take, List.getElem_drop, List.getD_eq_getElem l _ (by omega)]
  · exact ⟨0, fun l hl j hj => ⟨by omega, by rw [Nat.zero_add]⟩⟩

theorem cwtUnpad_length (a : CwtArgs) (n1 : ℤ) (N : ℕ) {l l' : List ℂ} (h : l.length = l'.length) : (cwtUnpad a n1 N l).length = (cwtUnpad a n1 N l').length := by
  unfold cwtUnpad
  split
  · unfold unpad pySlice
    simp [h]
  · exact h

theorem cwtSamples_eq (a : CwtArgs) (n : ℕ) (scales : List ℝ) : cwtSamples a n scales = psihRows a.wavelet.fn a.vectorized n scales := rfl

namespace Spec

/-- A sampled array computed with an absolute error of at most `e`. -/
def Near (e : ℝ) (l' l : List ℂ) : Prop := l'.length = l.length ∧ ∀ k < l.length, ‖l'.getD k 0 - l.getD k 0‖ ≤ e

end Spec

/-- **C162, `cwt`.** `cwt` computed with FFTs of relative error `η`, complex products of relative error `u`, sampled wavelets (of magnitude at most `P`) that are off by at most `v P`, and
frequencies (the factor of the derivative, of magnitude at most `D`) off by at most `v₂ D`: every sample of every row, and of every row of the derivative, is within a multiple of the size of the
padded signal `xp` of the exact value. With `η = u = v = v₂ = 0` the bounds are zero. -/
theorem C162_cwt {η u v v₂ P D : ℝ} (hη : 0 ≤ η) (hu : 0 ≤ u) (hv : 0 ≤ v) (hv₂ : 0 ≤ v₂) (hP : 0 ≤ P) (hD : 0 ≤ D) {F : FloatOps} (hF : Spec.FftRounds η u F)
    (x : List ℝ) (a : CwtArgs) (ha : a.l1Norm = true) (W : List (List ℂ)) (scales : List ℝ) (dW : List (List ℂ)) (h : cwt x a = .ok (W, scales, dW))
    (xp : List ℝ) (n1 : ℤ) (hpad : cwtPad x a.padtype = .ok (xp, n1)) (fs dt : ℝ) (hdt : cwtDt a.fs a.t x.length = .ok (fs, dt))
    (hsamp : ∀ r ∈ cwtSamples a xp.length scales, ∀ z ∈ r, ‖z‖ ≤ P) (hfac : ∀ z ∈ cwtDfactor dt xp.length, ‖z‖ ≤ D)
    (psih' : List (List ℂ)) (hpl : psih'.length = scales.length) (hps : ∀ i < scales.length, Spec.Near (v * P) (psih'.getD i []) ((cwtSamples a xp.length scales).getD i []))
    (d' : List ℂ) (hd' : Spec.Near (v₂ * D) d' (cwtDfactor dt xp.length)) :
    ∃ V dV, cwtRunWith F a x.length n1 psih' d' (xp.map fun r : ℝ => (r : ℂ)) = (V, dV) ∧ V.length = W.length ∧ dV.length = dW.length ∧
      ∀ i < scales.length, (V.getD i []).length = (W.getD i []).length ∧ (dV.getD i []).length = (dW.getD i []).length ∧
        ∀ j < (W.getD i []).length,
          ‖(V.getD i []).getD j 0 - (W.getD i []).getD j 0‖ ≤ ((1 + η) ^ 2 * (1 + u) * (1 + v) - 1) * P * Real.sqrt (xp.map fun r => r ^ 2).sum ∧
          ‖(W.getD i []).getD j 0‖ ≤ P * Real.sqrt (xp.map fun r => r ^ 2).sum ∧
          ‖(dV.getD i []).getD j 0 - (dW.getD i []).getD j 0‖ ≤ ((1 + η) ^ 2 * (1 + u) ^ 2 * (1 + v) * (1 + v₂) - 1) * (P * D) * Real.sqrt (xp.map fun r => r ^ 2).sum := by
  obtain ⟨r, p, sc, hr, -, hp, -, -, hW⟩ := (cwt_ok_iff x a W scales dW).1 h
  rw [hpad] at hp
  rw [hdt] at hr
  simp only [Except.ok.injEq] at hp hr
  subst hp
  subst hr
  simp only at hW
  rw [exact_run a ha] at hW
  set xc := xp.map fun r : ℝ => (r : ℂ) with hxc
  have hxl : xc.length = xp.length := by simp [hxc]
  set Ψ := cwtSamples a xp.length scales with hΨ
  have hΨl : Ψ.length = scales.length := by rw [hΨ, cwtSamples_eq]; exact psihRows_length _ _ _ _
  have hΨr : ∀ r ∈ Ψ, r.length = xp.length := by rw [hΨ, cwtSamples_eq]; exact psihRows_row _ _ _ _
  have hnorm : l2 xc.length (fun j => xc.getD j 0) = Real.sqrt (xp.map fun r => r ^ 2).sum := by
    unfold l2
    congr 1
    rw [hxl, hxc]
    clear * -
    induction xp using List.reverseRecOn with
    | nil => simp
    | append_singleton l z ih =>
      rw [List.length_append, List.length_singleton, sum_range_succ, List.map_append, List.map_append, List.sum_append, ← ih]
      congr 1
      · refine sum_congr rfl fun i hi => ?_
        beta_reduce
        rw [List.getD_append _ _ _ _ (by simpa using mem_range.1 hi)]
      · beta_reduce
        rw [List.getD_append_right _ _ _ _ (by simp)]
        simp
  set dd := cwtDfactor dt xp.length with hdd
  have hddl : dd.length = xp.length := by simp [hdd, cwtDfactor, xifn_length]
  have hW1 := congrArg Prod.fst hW
  have hW2 := congrArg Prod.snd hW
  simp only [cwtRunWith] at hW1 hW2
  refine ⟨_, _, rfl, by rw [← hW1]; simp [hpl, hΨl], by rw [← hW2]; simp [hpl, hΨl], fun i hi => ?_⟩
  have hiΨ : i < Ψ.length := hΨl ▸ hi
  have hiψ : i < psih'.length := hpl ▸ hi
  set ψ := Ψ.getD i [] with hψ
  set ψ' := psih'.getD i [] with hψ'
  have hψm : ψ ∈ Ψ := by rw [hψ, List.getD_eq_getElem _ _ hiΨ]; exact List.getElem_mem hiΨ
  have hψl : ψ.length = xc.length := (hΨr ψ hψm).trans hxl.symm
  obtain ⟨hnl, hne⟩ := hps i hi
  have hψl' : ψ'.length = xc.length := hnl.trans hψl
  have hWi : W.getD i [] = cwtUnpad a n1 x.length (convRow ψ (fftL xc)) := by
    rw [← hW1, List.getD_eq_getElem _ _ (by simpa using hiΨ), List.getElem_map, hψ, List.getD_eq_getElem _ _ hiΨ]
    rfl
  have hdWi : dW.getD i [] = cwtUnpad a n1 x.length (if a.vectorized then dConvVecWith exactOps dd ψ (fftL xc) else dConvLoopWith exactOps dd ψ (fftL xc)) := by
    rw [← hW2, List.getD_eq_getElem _ _ (by simpa using hiΨ), List.getElem_map, hψ, List.getD_eq_getElem _ _ hiΨ]
    rfl
  have hVi : (psih'.map fun p => cwtUnpad a n1 x.length (convRowWith F p (F.fft xc))).getD i [] = cwtUnpad a n1 x.length (convRowWith F ψ' (F.fft xc)) := by
    rw [List.getD_eq_getElem _ _ (by simpa using hiψ), List.getElem_map, hψ', List.getD_eq_getElem _ _ hiψ]
  have hdVi : (psih'.map fun p => cwtUnpad a n1 x.length (if a.vectorized then dConvVecWith F d' p (F.fft xc) else dConvLoopWith F d' p (F.fft xc))).getD i [] =
      cwtUnpad a n1 x.length (if a.vectorized then dConvVecWith F d' ψ' (F.fft xc) else dConvLoopWith F d' ψ' (F.fft xc)) := by
    rw [List.getD_eq_getElem _ _ (by simpa using hiψ), List.getElem_map, hψ', List.getD_eq_getElem _ _ hiψ]
  rw [hWi, hdWi, hVi, hdVi]
  have hfl : (fftL xc).length = xc.length := by simp [fftL]
  have hfl' : (F.fft xc).length = xc.length := hF.fft_length xc
  have hdl : dd.length = xc.length := hddl.trans hxl.symm
  have hdl' : d'.length = xc.length := hd'.1.trans hdl
  have l1 : (convRow ψ (fftL xc)).length = xc.length := by simp [convRow, ifftL, hfl, hψl]
  have l2' : (convRowWith F ψ' (F.fft xc)).length = xc.length := by simp [convRowWith, hF.ifft_length, hfl', hψl']
  have l3 : (if a.vectorized then dConvVecWith exactOps dd ψ (fftL xc) else dConvLoopWith exactOps dd ψ (fftL xc)).length = xc.length := by
    split <;> simp [dConvVecWith, dConvLoopWith, exactOps, ifftL, hfl, hψl, hdl]
  have l4 : (if a.vectorized then dConvVecWith F d' ψ' (F.fft xc) else dConvLoopWith F d' ψ' (F.fft xc)).length = xc.length := by
    split <;> simp [dConvVecWith, dConvLoopWith, hF.ifft_length, hfl', hψl', hdl']
  have hb : ∀ k < xc.length, ‖ψ.getD k 0‖ ≤ P := by
    intro k hk
    rw [List.getD_eq_getElem _ _ (hψl ▸ hk)]
    exact hsamp ψ hψm _ (List.getElem_mem _)
  have hdb : ∀ k < xc.length, ‖dd.getD k 0‖ ≤ D := by
    intro k hk
    rw [List.getD_eq_getElem _ _ (hdl ▸ hk)]
    exact hfac _ (List.getElem_mem _)
  have hs : ∀ k < xc.length, ‖ψ'.getD k 0 - ψ.getD k 0‖ ≤ v * P := fun k hk => hne k (hψl ▸ hk)
  have hds : ∀ k < xc.length, ‖d'.getD k 0 - dd.getD k 0‖ ≤ v₂ * D := fun k hk => hd'.2 k (hdl ▸ hk)
  obtain ⟨r1, r2⟩ := C162_row hη hu hv hP hF ψ ψ' xc hψl hψl' hb hs
  have r3 := C162_drow hη hu hv hv₂ hP hD hF a.vectorized ψ ψ' dd d' xc hψl hψl' hdl hdl' hb hs hdb hds
  rw [hnorm] at r1 r2 r3
  obtain ⟨c, hc⟩ := cwtUnpad_getD a n1 x.length xc.length
  refine ⟨cwtUnpad_length a n1 x.length (l2'.trans l1.symm), cwtUnpad_length a n1 x.length (l4.trans l3.symm), fun j hj => ?_⟩
  obtain ⟨hcj, e1⟩ := hc _ l1 j hj
  obtain ⟨-, e2⟩ := hc _ l2' j (by rw [cwtUnpad_length a n1 x.length (l2'.trans l1.symm)]; exact hj)
  obtain ⟨-, e3⟩ := hc _ l3 j (by rw [cwtUnpad_length a n1 x.length (l3.trans l1.symm)]; exact hj)
  obtain ⟨-, e4⟩ := hc _ l4 j (by rw [cwtUnpad_length a n1 x.length (l4.trans l1.symm)]; exact hj)
  rw [e1, e2, e3, e4]
  exact ⟨(le_l2 hcj fun j => (convRowWith F ψ' (F.fft xc)).getD j 0 - (convRow ψ (fftL xc)).getD j 0).trans r1,
    (le_l2 hcj fun j => (convRow ψ (fftL xc)).getD j 0).trans r2,
    (le_l2 hcj fun j => (if a.vectorized then dConvVecWith F d' ψ' (F.fft xc) else dConvLoopWith F d' ψ' (F.fft xc)).getD j 0 -
        (if a.vectorized then dConvVecWith exactOps dd ψ (fftL xc) else dConvLoopWith exactOps dd ψ (fftL xc)).getD j 0).trans r3⟩

/-- **C162, `icwt`.** The one-integral inverse of a transform `V` whose samples in row `i` are within `ε R i` of those of `W`, which are at most `R i`, with operations of relative error `u` and the sum over the
`M` scales in any order and bracketing. -/
theorem C162_icwt_rows {u ε : ℝ} {R : ℕ → ℝ} (hu : 0 ≤ u) (hε : 0 ≤ ε) (hR : ∀ i, 0 ≤ R i) {add mul div : ℝ → ℝ → ℝ} (hadd : Spec.Rounds u add (· + ·)) (hmul : Spec.Rounds u mul (· * ·))
    (hdiv : Spec.Rounds u div (· / ·)) (a : IcwtArgs) (n : ℕ) (W V : List (List ℂ)) (scales : List ℝ) (st : ScaleType) (nv : Nv) (order : SumTree)
    (hW : W.length = scales.length) (ho : order.leaves.Perm (List.range scales.length)) (j : ℕ) (hj : j < n)
    (hb : ∀ i < scales.length, ‖(W.getD i []).getD j 0‖ ≤ R i) (he : ∀ i < scales.length, ‖(V.getD i []).getD j 0 - (W.getD i []).getD j 0‖ ≤ ε * R i) :
    |icwtColumnWith add mul div order V (fun i => (icwtNorm st a.l1Norm (scales.getD i 0)).getD 0) (icwtFactor a.admSsq st nv) a.xMean j -
        (icwtLeaf a n W scales st nv).getD j 0| ≤
      ((1 + u) ^ (scales.length + 2) * (1 + ε) - 1) * (|icwtFactor a.admSsq st nv| * ∑ i ∈ range scales.length, R i * (1 / |(icwtNorm st a.l1Norm (scales.getD i 0)).getD 0|)) + u * |a.xMean| := by
  set M := scales.length with hM
  set nm : ℕ → ℝ := fun i => (icwtNorm st a.l1Norm (scales.getD i 0)).getD 0 with hnm
  set k := icwtFactor a.admSsq st nv with hk
  set m := a.xMean with hm
  set B := ∑ i ∈ range M, R i * (1 / |nm i|) with hB
  set g := 1 + u with hg
  have hg1 : 1 ≤ g := by linarith
  have hB0 : 0 ≤ B := sum_nonneg fun i _ => mul_nonneg (hR i) (by positivity)
  have hexact : (icwtLeaf a n W scales st nv).getD j 0 = (∑ i ∈ range M, ((W.getD i []).getD j 0).re / nm i) * k + m := by
    unfold icwtLeaf icwt1int
    rw [List.map_map, getD_map_range _ _ hj]
    simp only [Function.comp]
    rw [← hk, ← hm]
    congr 2
    have hz : ∀ (s : List ℝ) (w : List (List ℂ)), w.length = s.length →
        (List.zipWith (fun (s : ℝ) (row : List ℂ) => (row.getD j 0).re / (icwtNorm st a.l1Norm s).getD 0) s w).sum =
          ∑ i ∈ range s.length, ((w.getD i []).getD j 0).re / (icwtNorm st a.l1Norm (s.getD i 0)).getD 0 := by
      intro s
      induction s with
      | nil => intro w _; simp
      | cons y s ih =>
        intro w hw
        cases w with
        | nil => simp at hw
        | cons r w =>
          rw [List.zipWith_cons_cons, List.sum_cons, List.length_cons, sum_range_succ', ih w (by simpa using hw), add_comm]
          rfl
    exact hz scales W hW
  rw [hexact]
  unfold icwtColumnWith
  set t : ℕ → ℝ := fun i => div ((V.getD i []).getD j 0).re (nm i) with ht
  set s : ℕ → ℝ := fun i => ((W.getD i []).getD j 0).re / nm i with hs
  have hlist : ∀ f : ℕ → ℝ, (order.leaves.map f).sum = ∑ r ∈ range M, f r := by
    intro f
    rw [(ho.map f).sum_eq]
    generalize M = M'
    clear * -
    induction M' with
    | zero => simp
    | succ M ih => rw [List.range_succ, List.map_append, List.sum_append, ih, sum_range_succ]; simp
  have hM1 : 1 ≤ M := by
    have hlen : ∀ t : SumTree, 1 ≤ t.leaves.length := by
      intro t
      induction t with
      | leaf i => simp [SumTree.leaves]
      | node l r hl hr => simp [SumTree.leaves]; omega
    have h1 := hlen order
    have h2 := ho.length_eq
    rw [List.length_range] at h2
    omega
  have hterm : ∀ i < M, |t i - s i| ≤ (g * (1 + ε) - 1) * (R i * (1 / |nm i|)) ∧ |s i| ≤ R i * (1 / |nm i|) := by
    intro i hi
    have h1 : |s i| ≤ R i * (1 / |nm i|) := by
      simp only [hs]
      rw [abs_div, div_eq_mul_one_div]
      exact mul_le_mul_of_nonneg_right ((Complex.abs_re_le_norm _).trans (hb i hi)) (by positivity)
    refine ⟨?_, h1⟩
    set z := ((V.getD i []).getD j 0).re with hz
    have h2 : |z / nm i - s i| ≤ ε * R i * (1 / |nm i|) := by
      simp only [hs]
      rw [← sub_div, abs_div, div_eq_mul_one_div, hz, ← Complex.sub_re]
      exact mul_le_mul_of_nonneg_right ((Complex.abs_re_le_norm _).trans (he i hi)) (by positivity)
    have h3 := hdiv z (nm i)
    have h4 : |z / nm i| ≤ (1 + ε) * (R i * (1 / |nm i|)) := by
      have := abs_add_le (s i) (z / nm i - s i)
      rw [add_sub_cancel] at this
      linarith
    have h5 := abs_sub_le (t i) (z / nm i) (s i)
    have h6 : u * |z / nm i| ≤ u * ((1 + ε) * (R i * (1 / |nm i|))) := mul_le_mul_of_nonneg_left h4 hu
    change |t i - z / nm i| ≤ _ at h3
    calc |t i - s i| ≤ u * ((1 + ε) * (R i * (1 / |nm i|))) + ε * R i * (1 / |nm i|) := by linarith
      _ = _ := by rw [hg]; ring
  have hsum := C161_sum hu hadd t order
  rw [hlist, hlist, ho.length_eq, List.length_range] at hsum
  set S := order.eval add t with hS
  set x := ∑ i ∈ range M, s i with hx
  have hBs : ∑ i ∈ range M, R i * (1 / |nm i|) = B := hB.symm
  have hts : |∑ i ∈ range M, t i - x| ≤ (g * (1 + ε) - 1) * B := by
    rw [hx, ← sum_sub_distrib, ← hBs, mul_sum]
    exact (abs_sum_le_sum_abs _ _).trans (sum_le_sum fun i hi => (hterm i (mem_range.1 hi)).1)
  have htA : ∑ i ∈ range M, |t i| ≤ g * (1 + ε) * B := by
    rw [← hBs, mul_sum]
    refine sum_le_sum fun i hi => ?_
    obtain ⟨h1, h2⟩ := hterm i (mem_range.1 hi)
    have := abs_add_le (s i) (t i - s i)
    rw [add_sub_cancel] at this
    linarith
  have hxB : |x| ≤ B := by
    rw [hx, ← hBs]
    exact (abs_sum_le_sum_abs _ _).trans (sum_le_sum fun i hi => (hterm i (mem_range.1 hi)).2)
  have hgM : (1 : ℝ) ≤ g ^ (M - 1) := one_le_pow₀ hg1
  have hSx : |S - x| ≤ (g ^ M * (1 + ε) - 1) * B := by
    have h1 := abs_sub_le S (∑ i ∈ range M, t i) x
    have h2 : (g ^ (M - 1) - 1) * ∑ i ∈ range M, |t i| ≤ (g ^ (M - 1) - 1) * (g * (1 + ε) * B) := mul_le_mul_of_nonneg_left htA (by linarith)
    have h3 : g ^ M = g ^ (M - 1) * g := by rw [← pow_succ]; congr 1; omega
    rw [h3]
    nlinarith
  have hSB : |S| ≤ g ^ M * (1 + ε) * B := by
    have := abs_add_le x (S - x)
    rw [add_sub_cancel] at this
    linarith
  have hk0 := abs_nonneg k
  have h1 := hmul S k
  have h2 := hadd (mul S k) m
  simp only at h1 h2
  rw [abs_mul] at h1
  have h3 : |mul S k - x * k| ≤ (g ^ (M + 1) * (1 + ε) - 1) * (|k| * B) := by
    have e1 := abs_sub_le (mul S k) (S * k) (x * k)
    have e2 : |S * k - x * k| = |S - x| * |k| := by rw [← sub_mul, abs_mul]
    have e3 : u * (|S| * |k|) ≤ u * (g ^ M * (1 + ε) * B * |k|) := mul_le_mul_of_nonneg_left (mul_le_mul_of_nonneg_right hSB hk0) hu
    have e4 : |S - x| * |k| ≤ (g ^ M * (1 + ε) - 1) * B * |k| := mul_le_mul_of_nonneg_right hSx hk0
    calc |mul S k - x * k| ≤ u * (g ^ M * (1 + ε) * B * |k|) + (g ^ M * (1 + ε) - 1) * B * |k| := by linarith
      _ = _ := by rw [pow_succ, hg]; ring
  have h4 : |x * k| ≤ |k| * B := by
    rw [abs_mul, mul_comm]
    exact mul_le_mul_of_nonneg_left hxB hk0
  have h5 : |mul S k| ≤ g ^ (M + 1) * (1 + ε) * (|k| * B) := by
    have := abs_add_le (x * k) (mul S k - x * k)
    rw [add_sub_cancel] at this
    linarith
  have h6 := abs_sub_le (add (mul S k) m) (mul S k + m) (x * k + m)
  have h7 : |mul S k + m - (x * k + m)| = |mul S k - x * k| := by congr 1; ring
  have h8 : u * |mul S k + m| ≤ u * (g ^ (M + 1) * (1 + ε) * (|k| * B) + |m|) := by
    refine mul_le_mul_of_nonneg_left ?_ hu
    have := abs_add_le (mul S k) m
    linarith
  calc |add (mul S k) m - (x * k + m)| ≤ u * (g ^ (M + 1) * (1 + ε) * (|k| * B) + |m|) + (g ^ (M + 1) * (1 + ε) - 1) * (|k| * B) := by linarith
    _ = _ := by rw [show M + 2 = M + 1 + 1 from rfl, pow_succ g (M + 1), hg]; ring

/-- **C162, `icwt`.** The one-integral inverse of a transform `V` whose samples are within `ε R` of those of `W`, which are at most `R`, with operations of relative error `u` and the sum over the
`M` scales in any order and bracketing. -/
theorem C162_icwt {u ε R : ℝ} (hu : 0 ≤ u) (hε : 0 ≤ ε) (hR : 0 ≤ R) {add mul div : ℝ → ℝ → ℝ} (hadd : Spec.Rounds u add (· + ·)) (hmul : Spec.Rounds u mul (· * ·))
    (hdiv : Spec.Rounds u div (· / ·)) (a : IcwtArgs) (n : ℕ) (W V : List (List ℂ)) (scales : List ℝ) (st : ScaleType) (nv : Nv) (order : SumTree)
    (hW : W.length = scales.length) (ho : order.leaves.Perm (List.range scales.length)) (j : ℕ) (hj : j < n)
    (hb : ∀ i < scales.length, ‖(W.getD i []).getD j 0‖ ≤ R) (he : ∀ i < scales.length, ‖(V.getD i []).getD j 0 - (W.getD i []).getD j 0‖ ≤ ε * R) :
    |icwtColumnWith add mul div order V (fun i => (icwtNorm st a.l1Norm (scales.getD i 0)).getD 0) (icwtFactor a.admSsq st nv) a.xMean j -
        (icwtLeaf a n W scales st nv).getD j 0| ≤
      ((1 + u) ^ (scales.length + 2) * (1 + ε) - 1) * (|icwtFactor a.admSsq st nv| * (R * ∑ i ∈ range scales.length, 1 / |(icwtNorm st a.l1Norm (scales.getD i 0)).getD 0|)) + u * |a.xMean| := by
  have h := C162_icwt_rows (R := fun _ => R) hu hε (fun _ => hR) hadd hmul hdiv a n W V scales st nv order hW ho j hj hb he
  rwa [← mul_sum] at h

/-! ## Non-vacuity -/

/-- A complex number rounded part by part to `p` digits. -/
noncomputable def flC (p : ℕ) (z : ℂ) : ℂ := ⟨Spec.fl p z.re, Spec.fl p z.im⟩

theorem flC_err (p : ℕ) (z : ℂ) : ‖flC p z - z‖ ≤ 1 / 2 ^ p * ‖z‖ := by
  have h := cAdd_err (u := 1 / 2 ^ p) (by positivity) (C161_ieee p (· + ·)) z 0
  simpa [cAdd, flC] using h

/-- Correctly rounded transforms and products. -/
noncomputable def flOps (p : ℕ) : FloatOps := ⟨fun l => (fftL l).map (flC p), fun l => (ifftL l).map (flC p), fun a b => flC p (a * b)⟩

theorem flOps_rounds (p : ℕ) : Spec.FftRounds (1 / 2 ^ p) (1 / 2 ^ p) (flOps p) := by
  have key : ∀ l : List ℂ, l2 l.length (fun k => (l.map (flC p)).getD k 0 - l.getD k 0) ≤ 1 / 2 ^ p * l2 l.length fun k => l.getD k 0 := by
    intro l
    refine l2_le_mul (by positivity) fun k hk => ?_
    rw [List.getD_eq_getElem _ _ (by simpa using hk), List.getElem_map, List.getD_eq_getElem l _ hk]
    exact flC_err p _
  refine ⟨fun l => by simp [flOps, fftL], fun l => by simp [flOps, ifftL], fun l => ?_, fun l => ?_, fun a b => flC_err p _⟩
  · have h := key (fftL l)
    rwa [show (fftL l).length = l.length by simp [fftL]] at h
  · have h := key (ifftL l)
    rwa [show (ifftL l).length = l.length by simp [ifftL]] at h

theorem xifn_abs_le (n : ℕ) (k : ℕ) (hk : k < n) : |(xifn 1 n : List ℝ).getD k 0| ≤ Real.pi := by
  have hn : (0 : ℝ) < n := by exact_mod_cast (show 0 < n by omega)
  have hpi := Real.pi_pos
  rw [xifn_getD 1 n k hk]
  set m : ℤ := if k ≤ n / 2 then (k : ℤ) else (k : ℤ) - n with hm
  have hm2 : |2 * m| ≤ n := by
    rw [abs_le, hm]
    split <;> omega
  have hm3 : |2 * (m : ℝ)| ≤ n := by exact_mod_cast hm2
  have e : (m : ℝ) * (1 * (2 * Real.pi) / n) = (2 * (m : ℝ)) * (Real.pi / n) := by ring
  rw [e, abs_mul, abs_of_pos (show 0 < Real.pi / n by positivity)]
  calc |2 * (m : ℝ)| * (Real.pi / n) ≤ n * (Real.pi / n) := mul_le_mul_of_nonneg_right hm3 (by positivity)
    _ = Real.pi := by field_simp

/-- The factor of the derivative is at most `π / dt`. -/
theorem C162_factor (dt : ℝ) (hdt : 0 < dt) (n : ℕ) : ∀ z ∈ cwtDfactor dt n, ‖z‖ ≤ Real.pi / dt := by
  intro z hz
  obtain ⟨w, hw, rfl⟩ := List.mem_map.1 hz
  obtain ⟨k, hk, rfl⟩ := List.mem_iff_getElem.1 hw
  rw [xifn_length] at hk
  have h := xifn_abs_le n k hk
  rw [List.getD_eq_getElem (xifn 1 n) 0 (by rw [xifn_length]; exact hk)] at h
  rw [norm_div, norm_mul, Complex.norm_I, one_mul, Complex.norm_real, Complex.norm_real, Real.norm_eq_abs, Real.norm_eq_abs, abs_of_pos hdt]
  exact div_le_div_of_nonneg_right h hdt.le

theorem near_self (l : List ℂ) : Spec.Near 0 l l := ⟨rfl, fun k _ => by simp⟩

/-- **C162, round trip.** The inverse of `cwt`, both in floating point, differs from the inverse in exact arithmetic of the exact `cwt` by at most a multiple of the size of the padded signal. With
the theorems on exact inversion (C40) this bounds the error of the reconstruction. -/
theorem C162_roundtrip {η u v P : ℝ} (hη : 0 ≤ η) (hu : 0 ≤ u) (hv : 0 ≤ v) (hP : 0 ≤ P) {F : FloatOps} (hF : Spec.FftRounds η u F)
    {add mul div : ℝ → ℝ → ℝ} (hadd : Spec.Rounds u add (· + ·)) (hmul : Spec.Rounds u mul (· * ·)) (hdiv : Spec.Rounds u div (· / ·))
    (x : List ℝ) (a : CwtArgs) (ha : a.l1Norm = true) (W : List (List ℂ)) (scales : List ℝ) (dW : List (List ℂ)) (h : cwt x a = .ok (W, scales, dW))
    (xp : List ℝ) (n1 : ℤ) (hpad : cwtPad x a.padtype = .ok (xp, n1)) (hsamp : ∀ r ∈ cwtSamples a xp.length scales, ∀ z ∈ r, ‖z‖ ≤ P)
    (psih' : List (List ℂ)) (hpl : psih'.length = scales.length) (hps : ∀ i < scales.length, Spec.Near (v * P) (psih'.getD i []) ((cwtSamples a xp.length scales).getD i []))
    (d' : List ℂ) (ia : IcwtArgs) (hia : ia.l1Norm = true) (n : ℕ) (st : ScaleType) (nv : Nv) (order : SumTree) (ho : order.leaves.Perm (List.range scales.length))
    (j : ℕ) (hj : j < n) (hrows : ∀ i < scales.length, j < (W.getD i []).length) :
    |icwtColumnWith add mul div order (cwtRunWith F a x.length n1 psih' d' (xp.map fun r : ℝ => (r : ℂ))).1 (fun i => if st = .log then 1 else scales.getD i 0) (icwtFactor ia.admSsq st nv)
          ia.xMean j - (icwtLeaf ia n W scales st nv).getD j 0| ≤
      ((1 + u) ^ (scales.length + 3) * (1 + η) ^ 2 * (1 + v) - 1) *
          (|icwtFactor ia.admSsq st nv| * (P * Real.sqrt (xp.map fun r => r ^ 2).sum * ∑ i ∈ range scales.length, 1 / |if st = .log then 1 else scales.getD i 0|)) + u * |ia.xMean| := by
  obtain ⟨r, p, sc, hr, -, hp, -, -, hrun⟩ := (cwt_ok_iff x a W scales dW).1 h
  have hfac0 : ∃ D, 0 ≤ D ∧ ∀ z ∈ cwtDfactor r.2 xp.length, ‖z‖ ≤ D := by
    refine ⟨((cwtDfactor r.2 xp.length).map fun z => ‖z‖).sum, ?_, fun z hz => ?_⟩
    · exact List.sum_nonneg fun y hy => by obtain ⟨z, -, rfl⟩ := List.mem_map.1 hy; exact norm_nonneg _
    · exact List.single_le_sum (fun y hy => by obtain ⟨z, -, rfl⟩ := List.mem_map.1 hy; exact norm_nonneg _) _ (List.mem_map_of_mem hz)
  obtain ⟨D, hD, hfac⟩ := hfac0
  obtain ⟨V, dV, hV, hVl, -, hVW⟩ := C162_cwt hη hu hv le_rfl hP hD hF x a ha W scales dW h xp n1 hpad r.1 r.2 hr hsamp hfac psih' hpl hps (cwtDfactor r.2 xp.length)
    (by rw [zero_mul]; exact near_self _)
  have hVeq : (cwtRunWith F a x.length n1 psih' d' (xp.map fun r : ℝ => (r : ℂ))).1 = V := (congrArg Prod.fst hV : _)
  rw [hVeq]
  have hnorm : (fun i => (icwtNorm st ia.l1Norm (scales.getD i 0)).getD 0) = fun i => if st = .log then 1 else scales.getD i 0 := by
    funext i
    unfold icwtNorm
    rw [hia]
    by_cases hst : st = .log <;> simp [hst]
  have hWl : W.length = scales.length := by
    rw [← hVl, ← hVeq]
    simp [cwtRunWith, hpl]
  have hε : 0 ≤ (1 + η) ^ 2 * (1 + u) * (1 + v) - 1 := by
    have h1 : 1 ≤ (1 + η) ^ 2 := one_le_pow₀ (by linarith)
    have h2 : 1 ≤ (1 + η) ^ 2 * (1 + u) := by nlinarith
    nlinarith
  have hfin := C162_icwt hu hε (mul_nonneg hP (Real.sqrt_nonneg (xp.map fun r => r ^ 2).sum)) hadd hmul hdiv ia n W V scales st nv order hWl ho j hj
    (fun i hi => ((hVW i hi).2.2 j (hrows i hi)).2.1) (fun i hi => (((hVW i hi).2.2 j (hrows i hi)).1).trans (le_of_eq (by ring)))
  have e1 : ∀ i, (icwtNorm st ia.l1Norm (scales.getD i 0)).getD 0 = if st = .log then 1 else scales.getD i 0 := fun i => congrFun hnorm i
  simp only [e1] at hfin
  refine hfin.trans (le_of_eq ?_)
  congr 2
  rw [show scales.length + 3 = scales.length + 2 + 1 from rfl, pow_succ (1 + u) (scales.length + 2)]
  ring

/-- Correctly rounded double precision, five samples, three scales: the computed transform is within `((1 + 2^-53)^3 - 1) · 4π · √52` of the exact one. -/
example : ∃ W dW V dV, cwt [3, 1, 4, 1, 5] (argsR none) = .ok (W, [1, 2, 4], dW) ∧
    cwtRunWith (flOps 53) (argsR none) 5 0 (cwtSamples (argsR none) 5 [1, 2, 4]) (cwtDfactor (1 / 2) 5) ([3, 1, 4, 1, 5].map fun r : ℝ => (r : ℂ)) = (V, dV) ∧
    ∀ i < 3, ∀ j < (W.getD i []).length, ‖(V.getD i []).getD j 0 - (W.getD i []).getD j 0‖ ≤ ((1 + 1 / 2 ^ 53) ^ 2 * (1 + 1 / 2 ^ 53) * (1 + 0) - 1) * (4 * Real.pi) * Real.sqrt 52 := by
  obtain ⟨W, dW, h⟩ := argsR_ok [3, 1, 4, 1, 5] (by simp) none
  have hpi := Real.pi_pos
  have hsamp : ∀ r ∈ cwtSamples (argsR none) 5 [1, 2, 4], ∀ z ∈ r, ‖z‖ ≤ 4 * Real.pi := by
    have hval : ∀ s ∈ ([1, 2, 4] : List ℝ), ∀ z ∈ halveNyquist (sampleRow (.real fnR) 5 s), ‖z‖ ≤ 4 * Real.pi := by
      intro s hs z hz
      have hlen : (sampleRow (.real fnR) 5 s).length = 5 := by simp [sampleRow, xifn_length]
      unfold halveNyquist at hz
      rw [hlen, if_neg (by norm_num)] at hz
      obtain ⟨w, hw, rfl⟩ := List.mem_map.1 hz
      obtain ⟨k, hk, rfl⟩ := List.mem_iff_getElem.1 hw
      rw [xifn_length] at hk
      have hb := xifn_abs_le 5 k hk
      rw [List.getD_eq_getElem (xifn 1 5) 0 (by rw [xifn_length]; exact hk)] at hb
      have hs4 : 0 < s ∧ s ≤ 4 := by
        simp only [List.mem_cons, List.not_mem_nil, or_false] at hs
        rcases hs with rfl | rfl | rfl <;> norm_num
      simp only [WFn.eval, fnR, Complex.norm_real, Real.norm_eq_abs]
      split
      · rw [abs_mul, abs_of_pos hs4.1]
        exact mul_le_mul hs4.2 hb (abs_nonneg _) (by norm_num)
      · rw [abs_zero]; positivity
    intro r hr z hz
    simp only [cwtSamples, argsR, if_true, psihCall, dropImag] at hr
    obtain ⟨s, hs, rfl⟩ := List.mem_map.1 hr
    exact hval s hs z hz
  have hdt : cwtDt (argsR none).fs (argsR none).t ([3, 1, 4, 1, 5] : List ℝ).length = .ok (2, 1 / 2) := by
    have e : processFsT (some 2) none 5 = .ok (.fin 2 (1 / 2)) := by simp [processFsT]
    simp only [cwtDt, argsR, List.length_cons, List.length_nil, zero_add, Nat.reduceAdd, e, ok_bind]
  obtain ⟨V, dV, hV, -, -, hb⟩ := C162_cwt (η := 1 / 2 ^ 53) (u := 1 / 2 ^ 53) (v := 0) (v₂ := 0) (P := 4 * Real.pi) (D := Real.pi / (1 / 2)) (by positivity) (by positivity) le_rfl le_rfl
    (by positivity) (by positivity) (flOps_rounds 53) [3, 1, 4, 1, 5] (argsR none) rfl W [1, 2, 4] dW h [3, 1, 4, 1, 5] 0 rfl 2 (1 / 2) hdt hsamp
    (C162_factor (1 / 2) (by norm_num) 5) (cwtSamples (argsR none) 5 [1, 2, 4]) (by rw [cwtSamples_eq]; exact psihRows_length _ _ _ _)
    (fun i _ => by rw [zero_mul]; exact near_self _) (cwtDfactor (1 / 2) 5) (by rw [zero_mul]; exact near_self _)
  refine ⟨W, dW, V, dV, h, hV, fun i hi j hj => ?_⟩
  have := ((hb i hi).2.2 j hj).1
  norm_num at this ⊢
  exact this

end Ssq
