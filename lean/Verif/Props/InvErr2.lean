import Verif.Props.InvErr
import Verif.Props.Icwt2

/-!
# C183 for the two-integral inverse
-/
namespace Ssq
open Finset Spec Complex

/-- The square of a function that rises to a peak and falls is one. -/
theorem Spec.Hump.square {f : ℝ → ℝ} {p P : ℝ} (h : Hump f p P) : Hump (fun w => f w ^ 2) p (P ^ 2) where
  peak_pos := h.peak_pos
  zero w hw := by simp [h.zero w hw]
  nonneg w := sq_nonneg _
  rise v w hv hvw hw := pow_le_pow_left₀ (h.nonneg v) (h.rise v w hv hvw hw) 2
  fall v w hv hvw := pow_le_pow_left₀ (h.nonneg w) (h.fall v w hv hvw) 2
  top := by simp [h.top]

/-- The response of the two-integral inverse is that of the one-integral inverse for the squared wavelet. -/
theorem icwt2Gain_square (f : ℝ → ℝ) (L : ℕ) (C : ℝ) (st : ScaleType) (nv : Nv) (v : List ℝ) (k : ℕ) :
    icwt2Gain (fun w => (f w : ℂ)) L C st nv v k = icwtGain (fun w => ((f w ^ 2 : ℝ) : ℂ)) L C st nv v k := by
  unfold icwt2Gain icwtGain
  refine Finset.sum_congr rfl fun i _ => ?_
  congr 1
  unfold wavSample
  simp only
  split
  · push_cast; ring
  · push_cast; ring

/-- **C183** for `icwt(cwt(x), one_int=False)` with at least `n` voices per octave, for a real wavelet that rises to a peak `P` and falls, a signal of `2^m` samples taken
as periodic. With `C` the admissibility constant the inverse divides by and `δ` at least the difference between `C` and the integral of `ψ(w)²/w` over the part of the
axis the scales cover, at each frequency the signal has: the energy of the error is at most `((P² log 2 / n + δ)/C)²` of that of the signal. -/
theorem C183_icwt2 {f : ℝ → ℝ} {pk P : ℝ} (hf : Hump f pk P) (m : ℕ) (hm : 1 ≤ m) (x : List ℝ) (hx : x.length = 2 ^ m) (a : CwtArgs)
    (hp : a.padtype = none) (hfn : ∀ w, a.wavelet.fn.eval w = (f w : ℂ))
    (W : List (List ℂ)) (scales : List ℝ) (dW : List (List ℂ)) (h : cwt x a = .ok (W, scales, dW))
    (b : Icwt2Args) (hbw : b.wavelet = a.wavelet) (hb : b.l1Norm = a.l1Norm) (hbp : b.padtype = some "wrap") (hxl : b.xLen = none) (hC : 0 < b.admCwt)
    (sh : List ℕ) (d : FDtype) (xh : List ℝ) (hi : icwt2 x.length W (.arr sh d scales) b = .ok xh) (n : ℕ) (hg : VoiceGrid d scales n 1) (δ : ℝ)
    (hδ : ∀ k : ℕ, 0 < k → 2 * k ≤ x.length → dft x.length (fun q => ((x.getD q 0 : ℝ) : ℂ)) k ≠ 0 →
      |b.admCwt - ∫ w in (scales.getD 0 0 * (2 * Real.pi * k / x.length))..(scales.getD (scales.length - 1) 0 * (2 * Real.pi * k / x.length)), f w ^ 2 / w| ≤ δ)
    (hδ0 : 0 ≤ δ) :
    xh.length = x.length ∧
    ∑ j ∈ Finset.range x.length, (xh.getD j 0 - (x.getD j 0 - x.sum / x.length + b.xMean)) ^ 2 ≤
      ((Real.log 2 / n * P ^ 2 + δ) / b.admCwt) ^ 2 * ∑ q ∈ Finset.range x.length, x.getD q 0 ^ 2 := by
  obtain ⟨h3, hpos, hinc, st, nv, hs, -, hw, hw'⟩ := voice_weights hg
  have hx0 : 0 < x.length := by rw [hx]; positivity
  have hreal : ∀ w, (a.wavelet.fn.eval w).im = 0 := fun w => by rw [hfn, ofReal_im]
  have hev : a.wavelet.fn.eval = fun w => (f w : ℂ) := funext hfn
  obtain ⟨hinf, hs | ⟨-, h2, -⟩⟩ := hs
  swap
  · omega
  obtain ⟨hl, hv⟩ := C98_filter m hm x hx a hp hreal W scales dW h b hbw hb hbp hxl sh d st nv hinf hs.1 hpos xh hi
  have hq := hf.square
  rw [hev] at hv
  simp only [icwt2Gain_square] at hv
  refine ⟨hl, ?_⟩
  have hl2 : 0 ≤ Real.log 2 := Real.log_nonneg (by norm_num)
  have hn := filter_near x.length hx0 (fun q => x.getD q 0) (icwtGain (fun w => ((f w ^ 2 : ℝ) : ℂ)) x.length b.admCwt st nv scales)
    (fun k _ => icwtGain_im (fun w => ofReal_im _) _ _ _ _ _ _)
    (by
      unfold icwtGain
      refine Finset.sum_eq_zero fun i _ => ?_
      have : wavSample (fun w => ((f w ^ 2 : ℝ) : ℂ)) x.length (scales.getD i 0) 0 = 0 := by
        unfold wavSample xi
        rw [if_neg (by omega), if_pos (by omega)]
        simp [hf.zero 0 le_rfl]
      rw [this, mul_zero])
    ((Real.log 2 / n * P ^ 2 + δ) / b.admCwt) (by positivity)
    (fun k hk hkL hX => (gain_err hq h3 hpos hinc hw hw' x.length k hk hkL b.admCwt hC).trans
      (div_le_div_of_nonneg_right (by have := hδ k hk hkL hX; linarith) hC.le))
  refine le_trans (le_of_eq ?_) hn
  refine Finset.sum_congr rfl fun j hj => ?_
  have hj := Finset.mem_range.1 hj
  rw [hv j hj, list_sum_range]
  ring

/-- The hypotheses hold for the default Morse wavelet with the scales 1, 2, 4. -/
example : ∃ (f : ℝ → ℝ) (W dW : List (List ℂ)) (xh : List ℝ), gmw (some 3) (some 60) (.known .bandpass) (.int 0) (some true) false = .ok f ∧
    Hump f 1 2 ∧ cwt [3, 1] (argsF f none) = .ok (W, [1, 2, 4], dW) ∧
    icwt2 2 W sc124 { wavelet := (argsF f none).wavelet, admSsq := 1, admCwt := 1, padtype := some "wrap" } = .ok xh ∧
    ∃ δ, ∑ j ∈ Finset.range 2, (xh.getD j 0 - (([3, 1] : List ℝ).getD j 0 - 2 + 0)) ^ 2 ≤ (Real.log 2 / (1 : ℕ) * 2 ^ 2 + δ) ^ 2 * 10 := by
  have h := gmw_eq (γ := some 3) (β := some 60) (norm := .known .bandpass) (order := .int 0) (n := .bandpass) (k := 0)
    (f32 := false) (some true) (by norm_num) (by norm_num) rfl (by simp [gmwCheckOrder]) rfl (by simp)
  obtain ⟨h1, h2, h3, h4⟩ := C183_gmw h
  rw [if_pos rfl] at h1
  set f : ℝ → ℝ := fun w => gmwClosed ((some (3 : ℝ)).getD 3) ((some (60 : ℝ)).getD 60) .bandpass 0 (gmwArg ((some true).getD false) (morsefreq ((some (3 : ℝ)).getD 3) ((some (60 : ℝ)).getD 60)) w)
    with hf
  obtain ⟨W, dW, hW⟩ := argsF_ok f [3, 1] (by simp) none
  obtain ⟨_, _, _, _, ⟨rfl, rfl⟩, -, -, hl, -, hrow⟩ := C37_rows_partial [3, 1] (argsF f none) none rfl (by simp)
    (fun w => by simp [argsF, WFn.eval]) W _ dW hW
  have hlen : ∀ w ∈ W, w.length = 2 := by
    intro w hw
    rw [List.mem_iff_getElem] at hw
    obtain ⟨i, hi, rfl⟩ := hw
    have := (hrow i (by omega)).1
    rw [List.getD_eq_getElem _ _ hi] at this
    simpa using this
  obtain ⟨xh, hx⟩ := C98_succeeds 2 (by norm_num) W hlen { wavelet := (argsF f none).wavelet, admSsq := 1, admCwt := 1, padtype := some "wrap" } .wrap rfl rfl
    (by simp [argsF]) [3] .f64 [1, 2, 4] .log (.int 1) infer124 (by simp) hl
    ⟨_, process124 _ _ _ _⟩
  refine ⟨f, W, dW, xh, h, h1, hW, hx, |(1 : ℝ) - ∫ w in (([1, 2, 4] : List ℝ).getD 0 0 * (2 * Real.pi * (1 : ℕ) / (2 : ℕ)))..(([1, 2, 4] : List ℝ).getD 2 0 * (2 * Real.pi * (1 : ℕ) / (2 : ℕ))), f w ^ 2 / w|, ?_⟩
  have := (C183_icwt2 h1 1 le_rfl [3, 1] rfl (argsF f none) rfl (fun w => rfl) W _ dW hW
    { wavelet := (argsF f none).wavelet, admSsq := 1, admCwt := 1, padtype := some "wrap" } rfl rfl rfl rfl one_pos [3] .f64 xh hx 1 voice_124
    |(1 : ℝ) - ∫ w in (([1, 2, 4] : List ℝ).getD 0 0 * (2 * Real.pi * (1 : ℕ) / (2 : ℕ)))..(([1, 2, 4] : List ℝ).getD 2 0 * (2 * Real.pi * (1 : ℕ) / (2 : ℕ))), f w ^ 2 / w|
    (fun k h0 hk _ => by
      obtain rfl : k = 1 := by simp at hk; omega
      exact le_rfl) (abs_nonneg _)).2
  have e1 : ([3, 1] : List ℝ).sum / ([3, 1] : List ℝ).length = 2 := by norm_num
  have e2 : ∑ q ∈ Finset.range ([3, 1] : List ℝ).length, ([3, 1] : List ℝ).getD q 0 ^ 2 = 10 := by
    simp [Finset.sum_range_succ]; norm_num
  rw [e1, e2, div_one] at this
  exact this

end Ssq
