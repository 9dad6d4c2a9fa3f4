import Verif.Props.Conv

/-!
# C197: locality of the CWT and edge effects
-/
namespace Ssq
open Complex Finset

/-- The scales of a call do not depend on the samples nor on the padding. -/
theorem cwt_scales_same {x y : List ℝ} (hl : y.length = x.length) {a : CwtArgs} {p : Option String} {W V dW dV : List (List ℂ)}
    {s s' : List ℝ} (h : cwt x a = .ok (W, s, dW)) (h' : cwt y { a with padtype := p } = .ok (V, s', dV)) : s' = s := by
  obtain ⟨r, q, sc, -, -, -, h1, h2, -⟩ := (cwt_ok_iff _ _ _ _ _).1 h
  obtain ⟨r', q', sc', -, -, -, h1', h2', -⟩ := (cwt_ok_iff _ _ _ _ _).1 h'
  have : processScales a.scales y.length (some a.wavelet.sw) (cwtNv a) true a.downsample = .ok sc' := h1'
  rw [hl, h1, Except.ok.injEq] at this
  rw [← h2', ← h2, this]

/-- **C197.** Two signals of one length, padded alike or differently (all paddings give the same length): the transforms at a
scale and a sample differ by at most the sum of the differences of the padded signals, each times the modulus of `psifn` at
its (circular) distance from that sample. -/
theorem C197_local (x y : List ℝ) (hl : y.length = x.length) (a : CwtArgs) (t u : PadType) (ht : a.padtype = some (padName t)) (hx : 0 < x.length)
    (hreal : ∀ w, (a.wavelet.fn.eval w).im = 0) (W V dW dV : List (List ℂ)) (s s' : List ℝ) (h : cwt x a = .ok (W, s, dW))
    (h' : cwt y { a with padtype := some (padName u) } = .ok (V, s', dV)) :
    s' = s ∧ ∃ xp yp, ∃ n1 : ℕ, Spec.Padded (some t) x xp n1 ∧ Spec.Padded (some u) y yp n1 ∧ yp.length = xp.length ∧
      ∀ i (hi : i < s.length), ∀ j < (if a.rpadded = false then x.length else xp.length),
        ‖(W.getD i []).getD j 0 - (V.getD i []).getD j 0‖ ≤ (if a.l1Norm then 1 else Real.sqrt s[i]) *
          ∑ q ∈ range xp.length, |xp.getD q 0 - yp.getD q 0| * ‖((psifn a.wavelet.fn xp.length [s[i]]).getD 0 []).getD
            (((if a.rpadded = false then n1 + j else j) + (xp.length - q) + xp.length / 2) % xp.length) 0‖ := by
  obtain rfl : s' = s := cwt_scales_same hl h h'
  refine ⟨rfl, ?_⟩
  obtain ⟨xp, n1, hp, -, hv⟩ := C195_convolution x a (some t) ht hx (by simp) hreal W s' dW h
  obtain ⟨yp, m1, hp', -, hv'⟩ := C195_convolution y { a with padtype := some (padName u) } (some u) rfl (by omega) (by simp) hreal V s' dV h'
  have hlen : yp.length = xp.length := by rw [hp.1, hp'.1, hl]
  obtain rfl : m1 = n1 := by
    have e1 := hp.2.1
    have e2 := hp'.2.1
    rw [hl] at e2
    omega
  refine ⟨xp, yp, m1, hp, hp', hlen, fun i hi j hj => ?_⟩
  have hif : ∀ α : Type, ∀ b c : α, (if a.rpadded = false ∧ (some t).isSome then b else c) = if a.rpadded = false then b else c := by
    intro α b c; simp
  have hif' : ∀ α : Type, ∀ b c : α, (if a.rpadded = false ∧ (some u).isSome then b else c) = if a.rpadded = false then b else c := by
    intro α b c; simp
  have e1 := hv i hi j (by rw [hif]; exact hj)
  have e2 := hv' i hi j (by
    show j < (if a.rpadded = false ∧ (some u).isSome then y.length else yp.length)
    rw [hif', hl, hlen]; exact hj)
  simp only [hif] at e1
  simp only [hif', hlen] at e2
  rw [e1, e2, ← mul_sub, ← sum_sub_distrib, norm_mul]
  have hn : ‖(if a.l1Norm then (1 : ℂ) else ((Real.sqrt s'[i] : ℝ) : ℂ))‖ = if a.l1Norm then 1 else Real.sqrt s'[i] := by
    split
    · simp
    · rw [Complex.norm_real, Real.norm_eq_abs, abs_of_nonneg (Real.sqrt_nonneg _)]
  rw [hn]
  refine mul_le_mul_of_nonneg_left ?_ (by split <;> positivity)
  refine (norm_sum_le _ _).trans (sum_le_sum fun q _ => ?_)
  rw [← sub_mul, norm_mul, ← Complex.ofReal_sub, Complex.norm_real, Real.norm_eq_abs]

/-- **C197**, edge effects: if `psifn` of a scale is at most `ε` further than `R` samples from its centre, two paddings of the
same signal change the transform, `R` samples or more from the ends, by at most `ε` times the sum of the differences of the
padding samples. -/
theorem C197_edges (x : List ℝ) (a : CwtArgs) (t u : PadType) (ht : a.padtype = some (padName t)) (hx : 0 < x.length)
    (hrp : a.rpadded = false) (hreal : ∀ w, (a.wavelet.fn.eval w).im = 0) (W V dW dV : List (List ℂ)) (s s' : List ℝ)
    (h : cwt x a = .ok (W, s, dW)) (h' : cwt x { a with padtype := some (padName u) } = .ok (V, s', dV)) :
    s' = s ∧ ∃ xp yp, ∃ n1 : ℕ, Spec.Padded (some t) x xp n1 ∧ Spec.Padded (some u) x yp n1 ∧
      ∀ i (hi : i < s.length) (R : ℕ) (ε : ℝ), (∀ k < xp.length, k + R < xp.length / 2 ∨ xp.length / 2 + R < k →
          ‖((psifn a.wavelet.fn xp.length [s[i]]).getD 0 []).getD k 0‖ ≤ ε) →
        ∀ j, R ≤ j → j + R < x.length →
          ‖(W.getD i []).getD j 0 - (V.getD i []).getD j 0‖ ≤ (if a.l1Norm then 1 else Real.sqrt s[i]) *
            (ε * ∑ q ∈ (range xp.length).filter (fun q => q < n1 ∨ n1 + x.length ≤ q), |xp.getD q 0 - yp.getD q 0|) := by
  obtain ⟨hs, xp, yp, n1, hp, hp', hlen, hb⟩ := C197_local x x rfl a t u ht hx hreal W V dW dV s s' h h'
  refine ⟨hs, xp, yp, n1, hp, hp', fun i hi R ε hε j hj hjR => ?_⟩
  refine (hb i hi j (by rw [if_pos hrp]; omega)).trans (mul_le_mul_of_nonneg_left ?_ (by split <;> positivity))
  have hfit := hp.2.2.1
  have hev : xp.length % 2 = 0 := by rw [hp.1]; exact p2up_even _
  have hin : ∀ q, n1 ≤ q → q < n1 + x.length → xp.getD q 0 = yp.getD q 0 := by
    intro q h1 h2
    obtain ⟨E, hE⟩ := exists_extension t x hx
    obtain ⟨E', hE'⟩ := exists_extension u x hx
    rw [List.getD_eq_getElem _ _ (by omega), List.getD_eq_getElem _ _ (by omega), hp.2.2.2 E hE q (by omega), hp'.2.2.2 E' hE' q (by omega)]
    have e : (q : ℤ) - n1 = ((q - n1 : ℕ) : ℤ) := by omega
    rw [e, hE.1 (q - n1) (by omega), hE'.1 (q - n1) (by omega)]
  rw [mul_sum, sum_filter]
  refine sum_le_sum fun q hq => ?_
  have hq' := mem_range.1 hq
  rw [if_pos hrp]
  by_cases hc : q < n1 ∨ n1 + x.length ≤ q
  · rw [if_pos hc, mul_comm]
    refine mul_le_mul_of_nonneg_right (hε _ (Nat.mod_lt _ (by omega)) ?_) (abs_nonneg _)
    generalize xp.length = L at *
    have hkey : ∀ k, k < 2 * L → k % L = if k < L then k else k - L := by
      intro k hk
      split
      · exact Nat.mod_eq_of_lt ‹_›
      · rw [Nat.mod_eq_sub_mod (by omega), Nat.mod_eq_of_lt (by omega)]
    have hkey' : ∀ k, k < 3 * L → k % L = if k < L then k else if k < 2 * L then k - L else k - 2 * L := by
      intro k hk
      by_cases h1 : k < 2 * L
      · rw [hkey k h1]; simp [h1]
      · rw [if_neg (by omega), if_neg h1, Nat.mod_eq_sub_mod (by omega), hkey _ (by omega), if_neg (by omega)]
        omega
    rw [hkey' _ (by omega)]
    split_ifs <;> omega
  · rw [if_neg hc]
    push Not at hc
    rw [hin q hc.1 hc.2]
    simp

example (t u : PadType) : ∃ W V dW dV, cwt [3, 1, 4, 1, 5] (argsR (some t)) = .ok (W, [1, 2, 4], dW) ∧
    cwt [3, 1, 4, 1, 5] { argsR (some t) with padtype := some (padName u) } = .ok (V, [1, 2, 4], dV) ∧
    (argsR (some t)).rpadded = false ∧ ∀ w, ((argsR (some t)).wavelet.fn.eval w).im = 0 := by
  obtain ⟨W, dW, h⟩ := argsR_ok [3, 1, 4, 1, 5] (by simp) (some t)
  obtain ⟨V, dV, h'⟩ := argsR_ok [3, 1, 4, 1, 5] (by simp) (some u)
  exact ⟨W, V, dW, dV, h, h', rfl, fun w => by simp [argsR, WFn.eval]⟩

end Ssq
