import Verif.Props.Cwt
import Verif.Props.InvErr

/-!
# C186: the rows of the transform are analytic signals
-/
namespace Ssq
open Finset Complex

namespace Spec

/-- The analytic signal of the real signal `y` over a period of `n` samples (as `scipy.signal.hilbert`): negative frequencies removed, positive ones doubled, the mean and
the frequency `n/2` kept. -/
noncomputable def analytic (n : ℕ) (y : ℕ → ℝ) : ℕ → ℂ :=
  idft n fun k => (if k = 0 ∨ 2 * k = n then 1 else if 2 * k < n then 2 else 0) * dft n (fun j => (y j : ℂ)) k

end Spec

theorem dft_conj_symm {n : ℕ} (hn : n ≠ 0) (f : ℕ → ℂ) {k : ℕ} (hk : k ≤ n) :
    dft n (fun j => (starRingEnd ℂ) (f j)) k = (starRingEnd ℂ) (dft n f (n - k)) := by
  unfold dft
  rw [map_sum]
  refine sum_congr rfl fun j _ => ?_
  rw [map_mul, tw_conj]
  congr 1
  rw [Nat.cast_sub hk, show -(-((j : ℤ) * ((n : ℤ) - k))) = -((j : ℤ) * k) + n * j by ring, tw_add, tw_mul_n hn, mul_one]

/-- Samples whose spectrum is zero at zero and at negative frequencies, and real at `n/2`. -/
theorem analytic_of_spectrum {n : ℕ} (hn : n ≠ 0) (z : ℕ → ℂ) (h0 : dft n z 0 = 0) (hneg : ∀ k < n, n < 2 * k → dft n z k = 0)
    (hnyq : ∀ k, 2 * k = n → (dft n z k).im = 0) {j : ℕ} (hj : j < n) : z j = Spec.analytic n (fun j => (z j).re) j := by
  have hre : ∀ k ≤ n, dft n (fun j => (((z j).re : ℝ) : ℂ)) k = (dft n z k + (starRingEnd ℂ) (dft n z (n - k))) / 2 := by
    intro k hk
    rw [← dft_conj_symm hn z hk]
    unfold dft
    rw [← sum_add_distrib, sum_div]
    refine sum_congr rfl fun q _ => ?_
    rw [Complex.re_eq_add_conj]
    ring
  have hn0 : dft n z n = dft n z 0 := by
    unfold dft
    refine sum_congr rfl fun q _ => ?_
    congr 1
    have := tw_mul_n hn (-(q : ℤ))
    rw [show -((q : ℤ) * (n : ℕ)) = n * -q by ring, this]
    simp
  rw [← idft_dft z hj]
  unfold Spec.analytic idft
  congr 1
  refine sum_congr rfl fun k hk => ?_
  have hk := mem_range.1 hk
  congr 1
  show _ = _ * dft n (fun j => (((z j).re : ℝ) : ℂ)) k
  rw [hre k hk.le]
  by_cases k0 : k = 0
  · subst k0
    rw [if_pos (Or.inl rfl), h0, Nat.sub_zero, hn0, h0]
    simp
  by_cases k1 : 2 * k = n
  · rw [if_pos (Or.inr k1), show n - k = k by omega, ← Complex.re_eq_add_conj]
    rw [one_mul]
    apply Complex.ext
    · simp
    · simp [hnyq k k1]
  by_cases k2 : 2 * k < n
  · rw [if_neg (by omega), if_pos k2, hneg (n - k) (by omega) (by omega)]
    simp
    ring
  · rw [if_neg (by omega), if_neg k2, hneg k hk (by omega), zero_mul]

/-- **C186.** For a real wavelet that vanishes at frequencies `≤ 0` and untrimmed rows (`rpadded=True` or `padtype=None`): the rows of the transform and of its derivative
have no zero and no negative frequencies, those of the derivative are `iω` times those of the transform, and each row of the transform is the analytic signal of its real
part, so the imaginary part can be computed from the real one. -/
theorem C186_analytic (x : List ℝ) (a : CwtArgs) (t : Option PadType) (ht : a.padtype = t.map padName) (hx : 0 < x.length) (f : ℝ → ℝ)
    (hf : ∀ w, a.wavelet.fn.eval w = (f w : ℂ)) (hneg : ∀ w ≤ 0, f w = 0)
    (W : List (List ℂ)) (scales : List ℝ) (dW : List (List ℂ)) (h : cwt x a = .ok (W, scales, dW)) (hpos : ∀ s ∈ scales, 0 < s) (hrp : a.rpadded = true ∨ t = none) :
    ∃ fs : ℝ, ∃ n : ℕ, 0 < n ∧ (t = none → n = x.length) ∧ (∀ p, t = some p → n = (p2up x.length).1) ∧
      (∃ dt, processFsT a.fs a.t x.length = .ok (.fin fs dt)) ∧
      ∀ i < scales.length, (W.getD i []).length = n ∧ (dW.getD i []).length = n ∧
        (∀ k < n, k = 0 ∨ n < 2 * k → dft n (ent W i) k = 0 ∧ dft n (ent dW i) k = 0) ∧
        (∀ k < n, 2 * k ≤ n → dft n (ent dW i) k = I * ((2 * Real.pi * k / n * fs : ℝ) : ℂ) * dft n (ent W i) k) ∧
        ∀ j < n, ent W i j = Spec.analytic n (fun j => (ent W i j).re) j := by
  obtain ⟨xp, n1, fs, dt, hpad, hfs, -, hWl, hdl, hrow⟩ := C37_rows_partial x a t ht hx (fun w => by rw [hf, ofReal_im]) W scales dW h
  have hev : a.wavelet.fn.eval = fun w => (f w : ℂ) := funext hf
  have hc : ¬ (a.rpadded = false ∧ t.isSome = true) := by
    rcases hrp with h | h <;> simp [h]
  simp only [if_neg hc] at hrow
  have hn : 0 < xp.length := by
    cases t with
    | none => rw [hpad.1]; exact hx
    | some p =>
      rw [hpad.1]
      have := (padWidths_facts x.length hx none (by simp)).2.1
      have h5 := (padWidths_facts x.length hx none (by simp)).2.2
      simp only [padWidths] at this h5
      omega
  set n := xp.length with hndef
  refine ⟨fs, n, hn, ?_, ?_, ⟨dt, hfs⟩, fun i hi => ?_⟩
  · rintro rfl; rw [hndef, hpad.1]
  · rintro p rfl; exact hpad.1
  obtain ⟨l1, l2, hv⟩ := hrow i hi
  set X := dft n (fun q => ((xp.getD q 0 : ℝ) : ℂ)) with hX
  set c : ℝ := if a.l1Norm then 1 else Real.sqrt scales[i] with hcdef
  have hcc : (if a.l1Norm then (1 : ℂ) else ((Real.sqrt scales[i] : ℝ) : ℂ)) = (c : ℂ) := by
    rw [hcdef]; split <;> simp
  have hs := hpos _ (List.getElem_mem hi)
  have hz : ∀ k < n, k = 0 ∨ n < 2 * k → Spec.wavSample a.wavelet.fn.eval n scales[i] k = 0 := by
    intro k hk hk0
    have hxi : Spec.xi n k ≤ 0 := by
      unfold Spec.xi
      rcases hk0 with rfl | h2
      · simp
      · rw [if_neg (by omega)]
        have : (k : ℝ) < n := by exact_mod_cast hk
        have hpi := Real.pi_pos
        exact div_nonpos_of_nonpos_of_nonneg (mul_nonpos_of_nonneg_of_nonpos (by positivity) (by linarith)) (by positivity)
    have : f (scales[i] * Spec.xi n k) = 0 := hneg _ (mul_nonpos_of_nonneg_of_nonpos hs.le hxi)
    unfold Spec.wavSample
    rw [hf, this]
    simp
  have hW : ∀ k < n, dft n (ent W i) k = c * (Spec.wavSample a.wavelet.fn.eval n scales[i] k * X k) := by
    intro k hk
    rw [dft_congr (g := fun j => (c : ℂ) * idft n (fun k => Spec.wavSample a.wavelet.fn.eval n scales[i] k * X k) j)
      (fun j hj => by rw [(hv j hj).1, hcc]), dft_smul, dft_idft _ hk]
  have hD : ∀ k < n, dft n (ent dW i) k = c * (I * ((Spec.xi n k * fs : ℝ) : ℂ) * (Spec.wavSample a.wavelet.fn.eval n scales[i] k * X k)) := by
    intro k hk
    rw [dft_congr (g := fun j => (c : ℂ) * idft n (fun k => I * ((Spec.xi n k * fs : ℝ) : ℂ) * (Spec.wavSample a.wavelet.fn.eval n scales[i] k * X k)) j)
      (fun j hj => by rw [(hv j hj).2, hcc]), dft_smul, dft_idft _ hk]
  refine ⟨l1, l2, fun k hk hk0 => ⟨?_, ?_⟩, fun k hk hk2 => ?_, fun j hj => ?_⟩
  · rw [hW k hk, hz k hk hk0]; simp
  · rw [hD k hk, hz k hk hk0]; simp
  · rw [hD k hk, hW k hk]
    have : Spec.xi n k = 2 * Real.pi * k / n := by unfold Spec.xi; rw [if_pos hk2]
    rw [this]
    ring
  · refine analytic_of_spectrum hn.ne' _ ?_ ?_ ?_ hj
    · rw [hW 0 hn, hz 0 hn (Or.inl rfl)]; simp
    · intro k hk hk2
      rw [hW k hk, hz k hk (Or.inr hk2)]; simp
    · intro k hk
      rw [hW k (by omega)]
      have hXr : (X k).im = 0 := by
        have := dft_real_symm (n := n) (fun q => xp.getD q 0) (k := k) (by omega) hn.ne'
        rw [show n - k = k by omega] at this
        exact Complex.conj_eq_iff_im.1 this.symm
      have hwr : (Spec.wavSample a.wavelet.fn.eval n scales[i] k).im = 0 := by
        unfold Spec.wavSample
        rw [if_pos hk, hf]
        simp
      rw [im_ofReal_mul, mul_im, hXr, hwr]
      simp

/-- The hypotheses hold for the default Morse wavelet with the scales 1, 2, 4, unpadded or padded in any way and untrimmed. -/
example (t : Option PadType) : ∃ (f : ℝ → ℝ) (W dW : List (List ℂ)), gmw (some 3) (some 60) (.known .bandpass) (.int 0) (some true) false = .ok f ∧
    (∀ w ≤ 0, f w = 0) ∧ cwt [3, 1, 5] { argsF f t with rpadded := true } = .ok (W, [1, 2, 4], dW) ∧ ∀ s ∈ ([1, 2, 4] : List ℝ), 0 < s := by
  have h := gmw_eq (γ := some 3) (β := some 60) (norm := .known .bandpass) (order := .int 0) (n := .bandpass) (k := 0)
    (f32 := false) (some true) (by norm_num) (by norm_num) rfl (by simp [gmwCheckOrder]) rfl (by simp)
  obtain ⟨W, dW, hW⟩ := C37_succeeds [3, 1, 5] { argsF _ t with rpadded := true } t rfl (by simp) 2 (1 / 2) (by simp [processFsT, argsR, argsF]) (by simp [argsR, argsF])
    [1, 2, 4] .log 3 (.int 1) none (by simp [argsR, argsF, sc124]) (fun _ => rfl) (process124 _ _ _ _)
  exact ⟨_, W, dW, h, (C183_gmw h).1.zero, hW, by simp⟩

end Ssq
