import Verif.Props.StftTone
import Verif.Props.LocalStft

/-!
# C212: multiplying the signal by a carrier shifts its STFT in frequency (ssqueezepy/_stft.py:13-180)
-/
namespace Ssq
open Finset Complex

namespace Spec

/-- The signal multiplied by the carrier `cos(2π·k·n/m + φ)`. -/
noncomputable def carried (m k : ℕ) (φ : ℝ) (x : List ℝ) : List ℝ := (List.range x.length).map fun n : ℕ => x.getD n 0 * Real.cos (2 * Real.pi * k * n / m + φ)

/-- The frame of `m` samples centred at sample `p` lies inside a signal of `N` samples. -/
def FrameInside (m p N : ℕ) : Prop := m / 2 ≤ p ∧ p + m ≤ N + m / 2

end Spec

theorem carried_length (m k : ℕ) (φ : ℝ) (x : List ℝ) : (Spec.carried m k φ x).length = x.length := by simp [Spec.carried]

/-- The STFT coefficient of a product with a carrier. -/
theorem specStft_carried (m hop : ℕ) (w : ℕ → ℝ) (E E' : ℤ → ℝ) (md : Bool) (k0 : ℕ) (φ : ℝ) (k j : ℕ) (hk : k0 ≤ k) (hm : 0 < m)
    (hE : ∀ r < m, E' ((j : ℤ) * hop + r - (m / 2 : ℕ)) = E ((j : ℤ) * hop + r - (m / 2 : ℕ)) * Real.cos (2 * Real.pi * k0 * (((j : ℤ) * hop + r - (m / 2 : ℕ) : ℤ) : ℝ) / m + φ)) :
    Spec.stft m hop w E' md k j =
      (exp (((2 * Real.pi * k0 * ((j : ℝ) * hop - (if md then 0 else ((m / 2 : ℕ) : ℝ))) / m + φ : ℝ) : ℂ) * I) * Spec.stft m hop w E md (k - k0) j +
       exp (-(((2 * Real.pi * k0 * ((j : ℝ) * hop - (if md then 0 else ((m / 2 : ℕ) : ℝ))) / m + φ : ℝ) : ℂ) * I)) * Spec.stft m hop w E md (k + k0) j) / 2 := by
  unfold Spec.stft
  generalize m / 2 = h0 at hE ⊢
  rw [mul_sum, mul_sum, ← sum_add_distrib, sum_div]
  refine sum_congr rfl fun r hr => ?_
  rw [hE r (mem_range.1 hr)]
  have hm' : (m : ℂ) ≠ 0 := by exact_mod_cast hm.ne'
  set θ : ℝ := 2 * Real.pi * k0 * (((j : ℤ) * hop + r - h0 : ℤ) : ℝ) / m + φ with hθ
  set c : ℂ := (if md then (h0 : ℂ) else 0) with hc
  set ψ : ℝ := 2 * Real.pi * k0 * ((j : ℝ) * hop - (if md then 0 else (h0 : ℝ))) / m + φ with hψ
  have e1 : exp ((ψ : ℂ) * I) * exp (-(2 * Real.pi * I * ((k - k0 : ℕ) : ℂ) * ((r : ℂ) - c) / m)) = exp ((θ : ℂ) * I) * exp (-(2 * Real.pi * I * k * ((r : ℂ) - c) / m)) := by
    rw [← exp_add, ← exp_add]
    congr 1
    rw [hψ, hθ, hc, Nat.cast_sub hk]
    cases md
    · simp only [Bool.false_eq_true, if_false]
      push_cast
      field_simp
      ring
    · simp only [if_true]
      push_cast
      field_simp
      ring
  have e2 : exp (-((ψ : ℂ) * I)) * exp (-(2 * Real.pi * I * ((k + k0 : ℕ) : ℂ) * ((r : ℂ) - c) / m)) = exp (-((θ : ℂ) * I)) * exp (-(2 * Real.pi * I * k * ((r : ℂ) - c) / m)) := by
    rw [← exp_add, ← exp_add]
    congr 1
    rw [hψ, hθ, hc]
    cases md
    · simp only [Bool.false_eq_true, if_false]
      push_cast
      field_simp
      ring
    · simp only [if_true]
      push_cast
      field_simp
      ring
  have e3 : ((Real.cos θ : ℝ) : ℂ) = (exp ((θ : ℂ) * I) + exp (-((θ : ℂ) * I))) / 2 := by
    rw [Complex.ofReal_cos, Complex.cos, neg_mul]
  rw [Complex.ofReal_mul, Complex.ofReal_mul, e3, Complex.ofReal_mul]
  linear_combination (-((w r : ℂ) * (E ((j : ℤ) * hop + r - h0) : ℂ)) / 2) * e1 + (-((w r : ℂ) * (E ((j : ℤ) * hop + r - h0) : ℂ)) / 2) * e2

theorem carried_getElem (m k : ℕ) (φ : ℝ) (x : List ℝ) (i : ℕ) (h : i < x.length) :
    (Spec.carried m k φ x)[i]'(by rw [carried_length]; exact h) = x[i] * Real.cos (2 * Real.pi * k * i / m + φ) := by
  simp only [Spec.carried, List.getElem_map, List.getElem_range]
  rw [List.getD_eq_getElem _ _ h]

theorem ext_carried_in {m k0 : ℕ} {φ : ℝ} {x : List ℝ} {t : PadType} {E E' : ℤ → ℝ} (hE : Spec.IsExtension t x E) (hE' : Spec.IsExtension t (Spec.carried m k0 φ x) E')
    (q : ℤ) (h0 : 0 ≤ q) (h1 : q < x.length) : E' q = E q * Real.cos (2 * Real.pi * k0 * (q : ℝ) / m + φ) := by
  obtain ⟨n, rfl⟩ := Int.eq_ofNat_of_zero_le h0
  have hn : n < x.length := by omega
  rw [hE'.1 n (by rw [carried_length]; exact hn), hE.1 n hn, carried_getElem _ _ _ _ _ hn]
  simp

theorem ext_carried {m k0 : ℕ} (hm : 0 < m) {φ : ℝ} {x : List ℝ} (hx : 0 < x.length) {t : PadType} {E E' : ℤ → ℝ} (hE : Spec.IsExtension t x E)
    (hE' : Spec.IsExtension t (Spec.carried m k0 φ x) E') (ht : t = .zero ∨ (t = .wrap ∧ m ∣ k0 * x.length)) (q : ℤ) :
    E' q = E q * Real.cos (2 * Real.pi * k0 * (q : ℝ) / m + φ) := by
  rcases ht with rfl | ⟨rfl, hd⟩
  · by_cases h : 0 ≤ q ∧ q < x.length
    · exact ext_carried_in hE hE' q h.1 h.2
    · rw [hE.2 q (by omega), hE'.2 q (by rw [carried_length]; omega), zero_mul]
  · have hp : ∀ i : ℤ, E (i + x.length) * Real.cos (2 * Real.pi * k0 * ((i + x.length : ℤ) : ℝ) / m + φ) = E i * Real.cos (2 * Real.pi * k0 * (i : ℝ) / m + φ) := by
      intro i
      obtain ⟨c, hc⟩ := hd
      have hm' : (m : ℝ) ≠ 0 := by exact_mod_cast hm.ne'
      have hc' : (k0 : ℝ) * x.length = m * c := by exact_mod_cast hc
      have e : 2 * Real.pi * k0 * ((i + x.length : ℤ) : ℝ) / m + φ = 2 * Real.pi * k0 * (i : ℝ) / m + φ + c * (2 * Real.pi) := by
        push_cast
        field_simp
        linear_combination 2 * Real.pi * hc'
      rw [hE.2 i, e, Real.cos_add_nat_mul_two_pi]
    have hF : Spec.IsExtension .wrap (Spec.carried m k0 φ x) fun q : ℤ => E q * Real.cos (2 * Real.pi * k0 * (q : ℝ) / m + φ) := by
      refine ⟨fun i h => ?_, fun i => ?_⟩
      · have hi : i < x.length := by rw [carried_length] at h; exact h
        rw [carried_getElem _ _ _ _ _ hi]
        show E (i : ℤ) * _ = _
        rw [hE.1 i hi]
        simp
      · rw [carried_length]
        exact hp i
    rw [← ext_wrap (by rw [carried_length]; exact hx) hE' q, ← ext_wrap (by rw [carried_length]; exact hx) hF q]

/-- **C212**: the STFT of a signal times the carrier `cos(2π·k0·n/m + φ)`, `m` the length of the FFT: with the carrier's phase `ψ` at the time of the frame, bin `k` is
`(e^{iψ}·S[k - k0] + e^{-iψ}·S[k + k0])/2`, the derivative likewise: with zero padding or, if the carrier has a whole number of cycles, with periodic padding in every frame; with any padding in every frame inside the signal. -/
theorem C212_stft {lib : WinLib} {tiny : ℝ} {x : List ℝ} {a : StftArgs} {m : ℕ} {w dw : List ℝ} {t : PadType} (h : StftValid lib tiny x a m w dw t) (k0 : ℕ) (φ : ℝ) :
    ∃ S dS S' dS', stft lib tiny x a = .ok (m, S, dS) ∧ stft lib tiny (Spec.carried m k0 φ x) a = .ok (m, S', dS') ∧
      S.length = (x.length - 1) / a.hop + 1 ∧ S'.length = S.length ∧ ∀ j < S.length, ∀ k, k0 ≤ k → k + k0 ≤ m / 2 →
        (t = .zero ∨ (t = .wrap ∧ m ∣ k0 * x.length) ∨ Spec.FrameInside m (j * a.hop) x.length) →
        let ψ : ℝ := 2 * Real.pi * k0 * ((j : ℝ) * a.hop - (if a.modulated then 0 else ((m / 2 : ℕ) : ℝ))) / m + φ
        entC S' k j = (exp (ψ * I) * entC S (k - k0) j + exp (-(ψ * I)) * entC S (k + k0) j) / 2 ∧
        entC dS' k j = (exp (ψ * I) * entC dS (k - k0) j + exp (-(ψ * I)) * entC dS (k + k0) j) / 2 := by
  have hl := carried_length m k0 φ x
  have h' : StftValid lib tiny (Spec.carried m k0 φ x) a m w dw t :=
    ⟨by rw [hl]; exact h.hx, h.hhop, h.hm, by rw [hl]; exact h.hnfft, h.hwin, h.hw, h.hpad, by rw [hl]; exact h.hsym⟩
  obtain ⟨E, hE⟩ := exists_extension t x h.hx
  obtain ⟨E', hE'⟩ := exists_extension t (Spec.carried m k0 φ x) (by rw [hl]; exact h.hx)
  obtain ⟨S, dS, a1, a2, a3, a4, a5⟩ := C07_stft_entries h E hE
  obtain ⟨S', dS', b1, b2, b3, b4, b5⟩ := C07_stft_entries h' E' hE'
  rw [hl] at b2 b3
  refine ⟨S, dS, S', dS', a1, b1, a2, by omega, fun j hj k hk1 hk2 hf => ?_⟩
  have hag : ∀ r < m, E' ((j : ℤ) * a.hop + r - (m / 2 : ℕ)) = E ((j : ℤ) * a.hop + r - (m / 2 : ℕ)) * Real.cos (2 * Real.pi * k0 * (((j : ℤ) * a.hop + r - (m / 2 : ℕ) : ℤ) : ℝ) / m + φ) := by
    intro r hr
    rcases hf with hf | hf | hf
    · exact ext_carried h.hm h.hx hE hE' (.inl hf) _
    · exact ext_carried h.hm h.hx hE hE' (.inr hf) _
    · unfold Spec.FrameInside at hf
      have : ((j * a.hop : ℕ) : ℤ) = (j : ℤ) * a.hop := by push_cast; ring
      exact ext_carried_in hE hE' _ (by omega) (by omega)
  have c : ∀ i, i ≤ m / 2 → entC S i j = Spec.stft m a.hop (fun r => w.getD r 0) E a.modulated i j ∧
      entC dS i j = Spec.stft m a.hop (fun r => (if a.modulated then a.fs else 1) * dw.getD r 0) E a.modulated i j := by
    intro i hi
    unfold entC
    rw [List.getD_eq_getElem S _ hj, (a4 j hj).2 i (by omega), List.getD_eq_getElem dS _ (by omega), (a5 j (by omega)).2 i (by omega)]
    exact ⟨rfl, rfl⟩
  have c' : ∀ i, i ≤ m / 2 → entC S' i j = Spec.stft m a.hop (fun r => w.getD r 0) E' a.modulated i j ∧
      entC dS' i j = Spec.stft m a.hop (fun r => (if a.modulated then a.fs else 1) * dw.getD r 0) E' a.modulated i j := by
    intro i hi
    unfold entC
    rw [List.getD_eq_getElem S' _ (by omega), (b4 j (by omega)).2 i (by omega), List.getD_eq_getElem dS' _ (by omega), (b5 j (by omega)).2 i (by omega)]
    exact ⟨rfl, rfl⟩
  rw [(c' k (by omega)).1, (c' k (by omega)).2, (c (k - k0) (by omega)).1, (c (k - k0) (by omega)).2, (c (k + k0) hk2).1, (c (k + k0) hk2).2]
  exact ⟨specStft_carried m a.hop _ E E' a.modulated k0 φ k j hk1 h.hm hag, specStft_carried m a.hop _ E E' a.modulated k0 φ k j hk1 h.hm hag⟩

/-- The hypotheses are met: six samples, FFT length 6, carrier of one cycle, bin 1, a frame reaching beyond the start with periodic padding. -/
example : ∃ S dS S' dS', stft onesLib 0 [1, 4, 1, 5, 9, 2] ex160.stft = .ok (6, S, dS) ∧ stft onesLib 0 (Spec.carried 6 1 0 [1, 4, 1, 5, 9, 2]) ex160.stft = .ok (6, S', dS') ∧
    entC S' 1 0 = (entC S 0 0 + entC S 2 0) / 2 := by
  obtain ⟨S, dS, S', dS', h1, h2, h3, -, h4⟩ := C212_stft (ex160_valid [1, 4, 1, 5, 9, 2] (by simp)) 1 0
  refine ⟨S, dS, S', dS', h1, h2, ?_⟩
  have := (h4 0 (by rw [h3]; simp) 1 le_rfl (by norm_num) (.inr (.inl ⟨rfl, 1, rfl⟩))).1
  simpa [ex160] using this

end Ssq
