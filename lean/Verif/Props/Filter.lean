import Verif.Lemmas.Covariance
import Verif.Props.Tile

/-!
# C208: filtering a signal filters its transform (ssqueezepy/_cwt.py:14-310)
-/
namespace Ssq
open Finset

namespace Spec

/-- Circular convolution of `h` with the samples `x` of one period, over any numbers: `Σ_q h[q]·x[j - q]`, indices modulo the length of `h`. -/
noncomputable def circFilter {α : Type} [AddCommMonoid α] [Module ℝ α] (h : List ℝ) (x : List α) (z : α) : List α :=
  (List.range h.length).map fun j => ∑ q ∈ range h.length, h.getD q 0 • x.getD ((j + (h.length - q)) % h.length) z

end Spec

theorem dft_add' (n : ℕ) (s : Finset ℕ) (f : ℕ → ℕ → ℂ) (c : ℕ → ℂ) (k : ℕ) : dft n (fun j => ∑ q ∈ s, c q * f q j) k = ∑ q ∈ s, c q * dft n (f q) k := by
  unfold dft
  simp only [sum_mul, mul_sum]
  rw [sum_comm]
  exact sum_congr rfl fun q _ => sum_congr rfl fun j _ => by ring

theorem idft_add' (n : ℕ) (s : Finset ℕ) (f : ℕ → ℕ → ℂ) (c : ℕ → ℂ) (j : ℕ) : idft n (fun k => ∑ q ∈ s, c q * f q k) j = ∑ q ∈ s, c q * idft n (f q) j := by
  unfold idft
  simp only [sum_mul, mul_sum, ← mul_div_assoc, ← sum_div]
  rw [sum_comm]
  congr 1
  exact sum_congr rfl fun q _ => sum_congr rfl fun j _ => by ring

theorem circFilter_length {α : Type} [AddCommMonoid α] [Module ℝ α] (h : List ℝ) (x : List α) (z : α) : (Spec.circFilter h x z).length = h.length := by
  simp [Spec.circFilter]

/-- Any multiplier applied to the spectrum of the filtered signal gives the filtered result. -/
theorem idft_filter {h x : List ℝ} (hl : h.length = x.length) (hx : x.length ≠ 0) (G : ℕ → ℂ) (j : ℕ) :
    idft x.length (fun k => G k * dft x.length (fun q => (((Spec.circFilter h x 0).getD q 0 : ℝ) : ℂ)) k) j =
      ∑ q ∈ range x.length, ((h.getD q 0 : ℝ) : ℂ) * idft x.length (fun k => G k * dft x.length (fun q => ((x.getD q 0 : ℝ) : ℂ)) k) ((j + (x.length - q)) % x.length) := by
  have h1 : ∀ k, dft x.length (fun q => (((Spec.circFilter h x 0).getD q 0 : ℝ) : ℂ)) k =
      ∑ q ∈ range x.length, ((h.getD q 0 : ℝ) : ℂ) * (tw x.length ((x.length - q : ℕ) * k) * dft x.length (fun q => ((x.getD q 0 : ℝ) : ℂ)) k) := by
    intro k
    have e : dft x.length (fun q => (((Spec.circFilter h x 0).getD q 0 : ℝ) : ℂ)) k =
        dft x.length (fun j => ∑ q ∈ range x.length, ((h.getD q 0 : ℝ) : ℂ) * ((x.getD ((j + (x.length - q)) % x.length) 0 : ℝ) : ℂ)) k := by
      refine dft_congr (fun j hj => ?_) k
      rw [Spec.circFilter, getD_map_range _ _ (by omega), hl]
      push_cast
      simp [smul_eq_mul]
    rw [e, dft_add']
    refine sum_congr rfl fun q _ => ?_
    rw [dft_rotate hx (x.length - q) (fun q => ((x.getD q 0 : ℝ) : ℂ)) k]
  have h2 : (fun k => G k * dft x.length (fun q => (((Spec.circFilter h x 0).getD q 0 : ℝ) : ℂ)) k) =
      fun k : ℕ => ∑ q ∈ range x.length, ((h.getD q 0 : ℝ) : ℂ) * (tw x.length ((x.length - q : ℕ) * k) * (G k * dft x.length (fun q => ((x.getD q 0 : ℝ) : ℂ)) k)) := by
    funext k
    rw [h1, mul_sum]
    exact sum_congr rfl fun q _ => by ring
  rw [h2, idft_add']
  refine sum_congr rfl fun q _ => ?_
  rw [idft_rotate hx]

theorem zipRows_filter {h x : List ℝ} (hl : h.length = x.length) (n : ℝ → ℝ) (G : List ℂ → ℕ → ℂ) (hx : x.length ≠ 0) (scales : List ℝ) (P : List (List ℂ)) :
    List.zipWith (fun (s : ℝ) (p : List ℂ) => (List.range x.length).map fun j : ℕ =>
        ((n s : ℝ) : ℂ) * idft x.length (fun k => G p k * dft x.length (fun q => (((Spec.circFilter h x 0).getD q 0 : ℝ) : ℂ)) k) j) scales P =
      (List.zipWith (fun (s : ℝ) (p : List ℂ) => (List.range x.length).map fun j : ℕ =>
        ((n s : ℝ) : ℂ) * idft x.length (fun k => G p k * dft x.length (fun q => ((x.getD q 0 : ℝ) : ℂ)) k) j) scales P).map fun row => Spec.circFilter h row 0 := by
  rw [List.map_zipWith]
  congr 1
  funext s p
  have e : ∀ row : List ℂ, Spec.circFilter h row 0 = (List.range x.length).map fun j => ∑ q ∈ range x.length, h.getD q 0 • row.getD ((j + (x.length - q)) % x.length) 0 := by
    intro row
    rw [Spec.circFilter, hl]
  rw [e]
  refine List.map_congr_left fun j _ => ?_
  rw [idft_filter hl hx, mul_sum]
  refine sum_congr rfl fun q _ => ?_
  rw [getD_map_range _ _ (Nat.mod_lt _ (by omega)), Complex.real_smul]
  ring

/-- **C208.** For every signal, filter, wavelet, scales, rate, norm and code path, without padding: `cwt` of the circularly filtered signal is `cwt` of the signal with every row filtered, and
likewise for the derivatives; the scales and exceptions are the same. -/
theorem C208_filter (x h : List ℝ) (hl : h.length = x.length) (hx : 0 < x.length) (a : CwtArgs) (ha : a.padtype = none) :
    cwt (Spec.circFilter h x 0) a = (cwt x a).map fun r => (r.1.map fun row => Spec.circFilter h row 0, r.2.1, r.2.2.map fun row => Spec.circFilter h row 0) := by
  have hc : (Spec.circFilter h x 0).length = x.length := by rw [circFilter_length, hl]
  rw [cwt_unpadded _ a ha, cwt_unpadded _ a ha, hc]
  cases cwtDt a.fs a.t x.length with
  | error e => rfl
  | ok r =>
    cases checkGmw a.wavelet.gmw a.l1Norm with
    | error e => rfl
    | ok u =>
      cases processScales a.scales x.length (some a.wavelet.sw) (cwtNv a) true a.downsample with
      | error e => rfl
      | ok sc =>
        have e1 := cwtRun_unpadded a ha r.2 sc.1 x
        have e2 := cwtRun_unpadded a ha r.2 sc.1 (Spec.circFilter h x 0)
        rw [hc] at e2
        simp only [Except.bind, Except.map, e1, e2]
        have z1 := zipRows_filter hl a.norm (fun p k => p.getD k 0) (by omega) sc.1 (psihRows a.wavelet.fn a.vectorized x.length sc.1)
        have z2 := zipRows_filter hl a.norm (fun p k => Complex.I * ((Spec.xi x.length k : ℝ) : ℂ) / (r.2 : ℂ) * p.getD k 0) (by omega) sc.1
          (psihRows a.wavelet.fn a.vectorized x.length sc.1)
        simp only [mul_assoc] at z1 z2 ⊢
        rw [z1, z2]

/-- The hypotheses are met: a moving average of two samples of a signal of four, and the transform exists. -/
example : ∃ W dW, cwt [1, -2, 3, 0] (argsR none) = .ok (W, [1, 2, 4], dW) ∧ Spec.circFilter [1 / 2, 1 / 2, 0, 0] [1, -2, 3, (0 : ℝ)] 0 = [1 / 2, -1 / 2, 1 / 2, 3 / 2] ∧
    cwt [1 / 2, -1 / 2, 1 / 2, 3 / 2] (argsR none) = .ok (W.map fun row => Spec.circFilter [1 / 2, 1 / 2, 0, 0] row 0, [1, 2, 4], dW.map fun row => Spec.circFilter [1 / 2, 1 / 2, 0, 0] row 0) := by
  obtain ⟨W, dW, h⟩ := argsR_ok [1, -2, 3, 0] (by simp) none
  have hf : Spec.circFilter [1 / 2, 1 / 2, 0, 0] [1, -2, 3, (0 : ℝ)] 0 = [1 / 2, -1 / 2, 1 / 2, 3 / 2] := by
    simp only [Spec.circFilter, List.length_cons, List.length_nil, List.range_succ, List.range_zero, List.nil_append, List.cons_append, List.map_cons, List.map_nil, sum_range_succ, sum_range_zero]
    norm_num
  refine ⟨W, dW, h, hf, ?_⟩
  rw [← hf, C208_filter [1, -2, 3, 0] [1 / 2, 1 / 2, 0, 0] rfl (by simp) (argsR none) rfl, h]
  rfl

end Ssq
