import Verif.Props.StftSymEx

/-!
# C191: the rows of the STFT at zero frequency and at half the sampling rate
-/
namespace Ssq
open Finset Complex

/-- **C191.** Row 0 of `stft` is the moving sum of the (padded) signal weighted by the window, whether or not modulated; for
even `n_fft` the last row is the moving sum with alternating signs (1 at the centre tap if modulated, at the first tap otherwise). Both are real. -/
theorem C191_rows {lib : WinLib} {tiny : ℝ} {x : List ℝ} {a : StftArgs} {m : ℕ} {w dw : List ℝ} {t : PadType}
    (h : StftValid lib tiny x a m w dw t) (E : ℤ → ℝ) (hE : Spec.IsExtension t x E) :
    ∃ S dS, stft lib tiny x a = .ok (m, S, dS) ∧ S.length = (x.length - 1) / a.hop + 1 ∧
      ∀ j (hj : j < S.length),
        S[j].getD 0 0 = ((∑ r ∈ range m, w.getD r 0 * E ((j : ℤ) * a.hop + r - (m / 2 : ℕ)) : ℝ) : ℂ) ∧
        (m % 2 = 0 → S[j].getD (m / 2) 0 =
          ((∑ r ∈ range m, (-1) ^ (if a.modulated then r + m / 2 else r) *
            (w.getD r 0 * E ((j : ℤ) * a.hop + r - (m / 2 : ℕ))) : ℝ) : ℂ)) ∧
        (S[j].getD 0 0).im = 0 ∧ (m % 2 = 0 → (S[j].getD (m / 2) 0).im = 0) := by
  obtain ⟨S, dS, h1, h2, -, h4, -⟩ := C07_stft_entries h E hE
  refine ⟨S, dS, h1, h2, fun j hj => ?_⟩
  have hm := h.hm
  have e0 : S[j].getD 0 0 = ((∑ r ∈ range m, w.getD r 0 * E ((j : ℤ) * a.hop + r - (m / 2 : ℕ)) : ℝ) : ℂ) := by
    rw [(h4 j hj).2 0 (by omega)]
    unfold Spec.stft
    push_cast
    refine sum_congr rfl fun r _ => ?_
    simp
  have e1 : m % 2 = 0 → S[j].getD (m / 2) 0 = ((∑ r ∈ range m, (-1) ^ (if a.modulated then r + m / 2 else r) *
            (w.getD r 0 * E ((j : ℤ) * a.hop + r - (m / 2 : ℕ))) : ℝ) : ℂ) := by
    intro he
    rw [(h4 j hj).2 (m / 2) (by omega)]
    unfold Spec.stft
    rw [ofReal_sum]
    refine sum_congr rfl fun r _ => ?_
    have hmc : (m : ℂ) ≠ 0 := by exact_mod_cast hm.ne'
    have hh : ((m / 2 : ℕ) : ℂ) = m / 2 := by
      rw [eq_div_iff two_ne_zero]
      have : m / 2 * 2 = m := by omega
      exact_mod_cast this
    have key : exp (-(2 * Real.pi * I * (m / 2 : ℕ) * ((r : ℂ) - (if a.modulated then ((m / 2 : ℕ) : ℂ) else 0)) / m)) =
        (-1) ^ (if a.modulated then r + m / 2 else r) := by
      have hpi : exp (-(Real.pi * I)) = -1 := by rw [exp_neg, exp_pi_mul_I]; norm_num
      cases a.modulated
      · simp only [Bool.false_eq_true, if_false, sub_zero]
        rw [show -(2 * Real.pi * I * ((m / 2 : ℕ) : ℂ) * (r : ℂ) / m) = (r : ℕ) * (-(Real.pi * I)) by rw [hh]; field_simp,
          exp_nat_mul, hpi]
      · simp only [if_true]
        rw [show -(2 * Real.pi * I * ((m / 2 : ℕ) : ℂ) * ((r : ℂ) - ((m / 2 : ℕ) : ℂ)) / m) =
          (r : ℕ) * (-(Real.pi * I)) + -((m / 2 : ℕ) * (-(Real.pi * I))) by rw [hh]; field_simp; ring,
          exp_add, exp_neg, exp_nat_mul, exp_nat_mul, hpi, pow_add, ← inv_pow]
        norm_num
    rw [key]
    push_cast
    ring
  exact ⟨e0, e1, by rw [e0, ofReal_im], fun he => by rw [e1 he, ofReal_im]⟩

/-- Non-vacuity: the call of `exValid`. -/
example : ∃ S dS, stft onesLib 0 [1, 2, 3, 4] exArgs = .ok (3, S, dS) ∧ (S.getD 1 []).getD 0 0 = 8 := by
  obtain ⟨E, hE⟩ := exists_extension .reflect ([1, 2, 3, 4] : List ℝ) (by simp)
  obtain ⟨S, dS, h1, h2, h3⟩ := C191_rows exValid E hE
  have hS : S.length = 4 := by simpa [exArgs] using h2
  refine ⟨S, dS, h1, ?_⟩
  rw [List.getD_eq_getElem S _ (by omega : 1 < S.length), (h3 1 (by omega)).1]
  have e0 := hE.1 0 (by simp)
  have e1 := hE.1 1 (by simp)
  have e2 := hE.1 2 (by simp)
  simp only [Nat.cast_zero, Nat.cast_one, Nat.cast_ofNat, List.getElem_cons_zero, List.getElem_cons_succ] at e0 e1 e2
  simp only [sum_range_succ, sum_range_zero, exArgs]
  norm_num
  rw [e0, e1, e2]
  norm_num

end Ssq
