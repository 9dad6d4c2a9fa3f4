import Verif.Props.Psifn
import Verif.Props.Cwt
import Verif.Props.Covariance

/-!
# C195: the CWT convolves with the time-domain wavelet `Wavelet.psifn`
-/
namespace Ssq
open Complex Finset

/-- A product of spectra is a circular convolution. -/
theorem idft_mul_dft_mod {L : ℕ} (hL : L ≠ 0) (P f : ℕ → ℂ) (j : ℕ) :
    idft L (fun k => P k * dft L f k) j = ∑ q ∈ range L, f q * idft L P ((j + (L - q)) % L) := by
  unfold idft dft
  simp only [mul_sum, sum_mul, mul_div_assoc', ← sum_div]
  congr 1
  rw [sum_comm]
  refine sum_congr rfl fun q hq => sum_congr rfl fun k _ => ?_
  have hq' : q < L := mem_range.1 hq
  have e : tw L (((j + (L - q)) % L : ℕ) * (k : ℕ)) = tw L (-((q : ℤ) * k)) * tw L ((j : ℤ) * k) := by
    have h1 := tw_mod hL (j + (L - q)) k
    rw [h1, ← tw_add]
    have h2 : (((j + (L - q) : ℕ) : ℤ) * k) = (-((q : ℤ) * k) + j * k) + L * k := by
      push_cast [Nat.cast_sub hq'.le]
      ring
    rw [h2, tw_add, tw_mul_n hL, mul_one]
  rw [e]
  ring

/-- `psifn` of one scale for an even length, as an inverse transform. -/
theorem psifn_one (f : WFn) (hf : ∀ w, (f.eval w).im = 0) (L : ℕ) (hL : 0 < L) (he : L % 2 = 0) (s : ℝ) (i : ℕ) (hi : i < L) :
    ((psifn f L [s]).getD 0 []).getD i 0 = idft L (Spec.wavSample f.eval L s) ((i + L / 2) % L) := by
  have hc := C108_centered f L hL he [s] 0 (by simp)
  have hrow : (psihCall f L [s]).getD 0 [] = halveNyquist (sampleRow f L s) := by
    rw [psihCall_real f hf]; rfl
  have hlen : (halveNyquist (sampleRow f L s)).length = L := by
    have := psihOne_length f L s
    unfold psihOne at this
    rwa [hrow] at this
  rw [hc, hrow]
  unfold ifftshiftL ifftL
  rw [List.length_map, List.length_range, hlen]
  rw [List.getD_eq_getElem _ _ (by simpa using hi), List.getElem_rotate]
  simp only [List.length_map, List.length_range, List.getElem_map, List.getElem_range]
  exact idft_congr (fun k hk => psihRow_getD f L s k hk) _

theorem p2up_even (n : ℕ) : (p2up n).1 % 2 = 0 := by
  unfold p2up
  simp only
  split
  · rfl
  · rw [pow_add, pow_one, Nat.mul_mod_right]

/-- **C195.** With any padding, or without padding for even lengths, every value of `cwt` is the sum of the samples of the
padded signal `xp` of length `L`, each times the time-domain wavelet `psifn` of that scale and length centred on that sample
(its middle is index `L/2`), circularly; times the root of the scale for the L2 norm. -/
theorem C195_convolution (x : List ℝ) (a : CwtArgs) (t : Option PadType) (ht : a.padtype = t.map padName) (hx : 0 < x.length)
    (hev : t = none → x.length % 2 = 0) (hreal : ∀ w, (a.wavelet.fn.eval w).im = 0)
    (W : List (List ℂ)) (scales : List ℝ) (dW : List (List ℂ)) (h : cwt x a = .ok (W, scales, dW)) :
    ∃ xp, ∃ n1 : ℕ, Spec.Padded t x xp n1 ∧ W.length = scales.length ∧
      ∀ i (hi : i < scales.length), ∀ j < (if a.rpadded = false ∧ t.isSome then x.length else xp.length),
        (W.getD i []).getD j 0 = (if a.l1Norm then 1 else ((Real.sqrt scales[i] : ℝ) : ℂ)) *
          ∑ q ∈ range xp.length, (xp.getD q 0 : ℝ) * ((psifn a.wavelet.fn xp.length [scales[i]]).getD 0 []).getD
            (((if a.rpadded = false ∧ t.isSome then n1 + j else j) + (xp.length - q) + xp.length / 2) % xp.length) 0 := by
  obtain ⟨xp, n1, fs, dt, hp, -, -, hWl, -, hrow⟩ := C37_rows_partial x a t ht hx hreal W scales dW h
  refine ⟨xp, n1, hp, hWl, fun i hi j hj => ?_⟩
  have he : xp.length % 2 = 0 := by
    cases t with
    | none => rw [hp.1]; exact hev rfl
    | some t => rw [hp.1]; exact p2up_even _
  have hL : 0 < xp.length := by
    unfold Spec.Padded at hp
    split at hp
    · rw [hp.1]; exact hx
    · have := hp.2.2.1; omega
  obtain ⟨-, -, hv⟩ := hrow i hi
  have hv := (hv j hj).1
  rw [show (W.getD i []).getD j 0 = ent W i j from rfl, hv, idft_mul_dft_mod (by omega)]
  congr 1
  refine sum_congr rfl fun q hq => ?_
  congr 1
  rw [psifn_one _ hreal _ hL he _ _ (Nat.mod_lt _ hL)]
  congr 1
  rw [Nat.mod_add_mod]
  generalize (if a.rpadded = false ∧ t.isSome then n1 + j else j) = J
  rw [show J + (xp.length - q) + xp.length / 2 + xp.length / 2 = J + (xp.length - q) + xp.length by omega, Nat.add_mod_right]

/-- **C195**, impulse response: without padding and for an even length, the transform of an impulse at sample `p` is the
time-domain wavelet moved to `p`. -/
theorem C195_impulse (N : ℕ) (hN : 0 < N) (he : N % 2 = 0) (p : ℕ) (hp : p < N) (a : CwtArgs) (ht : a.padtype = none)
    (hreal : ∀ w, (a.wavelet.fn.eval w).im = 0)
    (W : List (List ℂ)) (scales : List ℝ) (dW : List (List ℂ))
    (h : cwt ((List.replicate N (0 : ℝ)).set p 1) a = .ok (W, scales, dW)) :
    ∀ i (hi : i < scales.length), ∀ j < N, (W.getD i []).getD j 0 =
      (if a.l1Norm then 1 else ((Real.sqrt scales[i] : ℝ) : ℂ)) *
        ((psifn a.wavelet.fn N [scales[i]]).getD 0 []).getD ((j + (N - p) + N / 2) % N) 0 := by
  obtain ⟨xp, n1, hpad, -, hv⟩ := C195_convolution _ a none (by simpa using ht) (by simpa using hN) (fun _ => by simpa using he) hreal W scales dW h
  obtain ⟨rfl, rfl⟩ := hpad
  have hlen : ((List.replicate N (0 : ℝ)).set p 1).length = N := by simp
  intro i hi j hj
  have := hv i hi j (by simpa using hj)
  rw [this, hlen]
  congr 1
  rw [sum_eq_single_of_mem p (mem_range.2 hp)]
  · rw [List.getD_eq_getElem _ _ (show p < ((List.replicate N (0 : ℝ)).set p 1).length by simpa using hp), List.getElem_set_self]
    simp
  · intro q hq hne
    have hq' : q < N := mem_range.1 hq
    rw [List.getD_eq_getElem _ _ (by rw [hlen]; exact hq'), List.getElem_set_ne (Ne.symm hne)]
    simp

example (t : PadType) : ∃ W dW, cwt [3, 1, 4, 1, 5] (argsR (some t)) = .ok (W, [1, 2, 4], dW) ∧
    ∀ w, ((argsR (some t)).wavelet.fn.eval w).im = 0 := by
  obtain ⟨W, dW, h⟩ := argsR_ok [3, 1, 4, 1, 5] (by simp) (some t)
  exact ⟨W, dW, h, fun w => by simp [argsR, WFn.eval]⟩

example : ∃ W dW, cwt ((List.replicate 8 (0 : ℝ)).set 3 1) (argsR none) = .ok (W, [1, 2, 4], dW) :=
  argsR_ok _ (by simp) none

end Ssq
