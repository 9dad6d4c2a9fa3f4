import Verif.Lemmas.Xifn
import Mathlib.Analysis.SpecialFunctions.Trigonometric.Basic

/-!
# Properties C49 (frequency grid) and C50 (shift pair)
-/
namespace Ssq

/-- The signed frequency, in cycles per `N` samples, of bin `i` of an `N`-point DFT, with the
Nyquist bin of even `N` filed under the positive frequencies: the representative of `i` modulo `N`
in `(-N/2, N/2]`. -/
def Spec.IsSignedFreq (N i : ℕ) (f : ℤ) : Prop :=
  -(N : ℤ) < 2 * f ∧ 2 * f ≤ N ∧ (N : ℤ) ∣ f - i

/-- The representative is unique. -/
theorem isSignedFreq_unique {N i : ℕ} {f g : ℤ} (hf : Spec.IsSignedFreq N i f)
    (hg : Spec.IsSignedFreq N i g) : f = g := by
  obtain ⟨a1, a2, a3⟩ := hf
  obtain ⟨b1, b2, b3⟩ := hg
  have h : (N : ℤ) ∣ f - g := by
    have := dvd_sub a3 b3
    rwa [show f - (i : ℤ) - (g - i) = f - g by ring] at this
  obtain ⟨k, hk⟩ := h
  have h1 : (N : ℤ) * k < N := by omega
  have h2 : -(N : ℤ) < N * k := by omega
  have hN : (0 : ℤ) < N := by omega
  have hk1 : k < 1 := by by_contra hc; nlinarith
  have hk2 : -1 < k := by by_contra hc; nlinarith
  have : k = 0 := by omega
  rw [this] at hk; omega

/-- **C49.** For every `scale` and `N ≥ 1` the grid has `N` entries, and entry `i` is
`2π·scale/N` times the signed frequency of bin `i`; non-negative exactly up to `N//2`. -/
theorem C49_xifn (scale : ℝ) (N : ℕ) (hN : 1 ≤ N) :
    (xifn scale N).length = N ∧
    ∀ (i : ℕ) (hi : i < (xifn scale N).length), ∃ f : ℤ, Spec.IsSignedFreq N i f ∧
      (0 ≤ f ↔ i ≤ N / 2) ∧ (xifn scale N)[i] = 2 * Real.pi * scale / N * f := by
  refine ⟨by simp, fun i hi => ?_⟩
  have hi' : i < N := by simpa using hi
  have h := xifn_getD scale N i hi'
  rw [List.getD_eq_getElem _ _ hi] at h
  refine ⟨if i ≤ N / 2 then (i : ℤ) else (i : ℤ) - N, ⟨?_, ?_, ?_⟩, ?_, ?_⟩
  · split <;> omega
  · split <;> omega
  · split
    · simp
    · exact ⟨-1, by ring⟩
  · split <;> omega
  · rw [h]; ring

example : (xifn 3 5).length = 5 ∧ (xifn 3 5).getD 3 0 = 2 * Real.pi * 3 / 5 * ((-2 : ℤ) : ℝ) := by
  refine ⟨by simp, ?_⟩
  rw [xifn_getD _ _ _ (by norm_num), if_neg (by norm_num)]
  push_cast; ring

/-- **C50 (inverse pair).** `afftshift` and `aifftshift` undo each other on arrays of every
length. -/
theorem C50_inverse {α : Type} [Zero α] (x : List α) :
    aifftshift (afftshift x) = x ∧ afftshift (aifftshift x) = x := by
  by_cases he : x.length % 2 = 0
  · have e1 : afftshift x = afftshiftEven x := by simp [afftshift, he]
    have e2 : aifftshift x = aifftshiftEven x := by simp [aifftshift, he]
    have e3 : aifftshift (afftshift x) = aifftshiftEven (afftshiftEven x) := by
      rw [e1]; simp [aifftshift, afftshiftEven_length, he]
    have e4 : afftshift (aifftshift x) = afftshiftEven (aifftshiftEven x) := by
      rw [e2]; simp [afftshift, aifftshiftEven_length, he]
    rw [e3, e4]
    constructor
    · apply List.ext_getElem
      · rw [aifftshiftEven_length, afftshiftEven_length]
      · intro p hp hp'
        rw [← List.getD_eq_getElem _ 0 hp, ← List.getD_eq_getElem _ 0 hp',
          aifftshiftEven_getD _ (by rw [afftshiftEven_length]; exact he) _
            (by rw [afftshiftEven_length]; exact hp')]
        rw [afftshiftEven_length]
        split
        · rw [afftshiftEven_getD _ _ (by omega), if_neg (by omega)]
          congr 1; omega
        · rw [afftshiftEven_getD _ _ (by omega), if_pos (by omega)]
          congr 1; omega
    · apply List.ext_getElem
      · rw [afftshiftEven_length, aifftshiftEven_length]
      · intro p hp hp'
        rw [← List.getD_eq_getElem _ 0 hp, ← List.getD_eq_getElem _ 0 hp',
          afftshiftEven_getD _ _ (by rw [aifftshiftEven_length]; exact hp')]
        rw [aifftshiftEven_length]
        split
        · rw [aifftshiftEven_getD _ he _ (by omega), if_neg (by omega)]
          congr 1; omega
        · rw [aifftshiftEven_getD _ he _ (by omega), if_pos (by omega)]
          congr 1; omega
  · have e1 : afftshift x = fftshiftL x := by simp [afftshift, he]
    have e2 : aifftshift x = ifftshiftL x := by simp [aifftshift, he]
    have e3 : aifftshift (afftshift x) = ifftshiftL (fftshiftL x) := by
      rw [e1]; simp [aifftshift, fftshiftL, he]
    have e4 : afftshift (aifftshift x) = fftshiftL (ifftshiftL x) := by
      rw [e2]; simp [afftshift, ifftshiftL, he]
    rw [e3, e4]
    unfold fftshiftL ifftshiftL
    simp only [List.length_rotate, List.rotate_rotate]
    constructor
    · rw [show x.length - x.length / 2 + x.length / 2 = x.length by omega, List.rotate_length]
    · rw [show x.length / 2 + (x.length - x.length / 2) = x.length by omega, List.rotate_length]

example : aifftshift [0, 1, 2, 3, -2, -1] = [-2, -1, 0, 1, 2, (3 : ℤ)] ∧
    afftshift [-2, -1, 0, 1, 2, (3 : ℤ)] = [0, 1, 2, 3, -2, -1] := by decide

/-- Full statement of C50's second half. -/
def C50_full : Prop :=
  ∀ N : ℕ, 1 ≤ N → (aifftshift (xifn 1 N)).Pairwise (· < ·)

/-- **C50 (order, even `N`).** For even `N ≥ 2` and positive `scale`, `aifftshift` of the frequency
grid is strictly ascending: entry `p` is `p + 1 - N/2` grid steps. Missing: odd `N`, where it is
false (`C50_odd_refuted`). -/
theorem C50_sorted_partial (scale : ℝ) (hs : 0 < scale) (N : ℕ) (hN : 2 ≤ N) (he : N % 2 = 0) :
    (aifftshift (xifn scale N)).length = N ∧
    (∀ p < N, (aifftshift (xifn scale N)).getD p 0 =
      2 * Real.pi * scale / N * (((p : ℤ) + 1 - (N / 2 : ℕ) : ℤ) : ℝ)) ∧
    (aifftshift (xifn scale N)).Pairwise (· < ·) := by
  have e : aifftshift (xifn scale N) = aifftshiftEven (xifn scale N) := by
    simp [aifftshift, he]
  have hl : (aifftshift (xifn scale N)).length = N := by
    rw [e, aifftshiftEven_length, xifn_length]
  have hv : ∀ p < N, (aifftshift (xifn scale N)).getD p 0 =
      2 * Real.pi * scale / N * (((p : ℤ) + 1 - (N / 2 : ℕ) : ℤ) : ℝ) := by
    intro p hp
    rw [e, aifftshiftEven_getD _ (by simpa using he) _ (by simpa using hp)]
    simp only [xifn_length]
    split
    · rw [xifn_getD _ _ _ (by omega), if_neg (by omega)]
      rw [show (((p + N / 2 + 1 : ℕ) : ℤ) - (N : ℤ)) = (p : ℤ) + 1 - (N / 2 : ℕ) by omega]; ring
    · rw [xifn_getD _ _ _ (by omega), if_pos (by omega)]
      rw [show (((p + 1 - N / 2 : ℕ) : ℤ)) = (p : ℤ) + 1 - (N / 2 : ℕ) by omega]; ring
  refine ⟨hl, hv, ?_⟩
  rw [List.pairwise_iff_getElem]
  intro i j hi hj hij
  rw [← List.getD_eq_getElem _ 0 hi, ← List.getD_eq_getElem _ 0 hj, hv i (by omega), hv j (by omega)]
  have hN' : (0 : ℝ) < N := by exact_mod_cast (by omega : 0 < N)
  apply mul_lt_mul_of_pos_left
  · exact Int.cast_lt.2 (by omega)
  · have := Real.pi_pos; positivity

example : (0 : ℝ) < 1 ∧ 2 ≤ 8 ∧ 8 % 2 = 0 := by norm_num

/-- **C50 is false of the code for odd `N`.** `aifftshift` uses `ifftshift` there, which leaves the
largest positive frequency in front: for every odd `N ≥ 3` the result is not ascending. -/
theorem C50_odd_refuted (N : ℕ) (hN : 3 ≤ N) (ho : N % 2 = 1) :
    ¬ (aifftshift (xifn 1 N)).Pairwise (· < ·) ∧ ¬ C50_full := by
  have key : ¬ (aifftshift (xifn 1 N)).Pairwise (· < ·) := by
    intro h
    rw [List.pairwise_iff_getElem] at h
    have e : aifftshift (xifn 1 N) = ifftshiftL (xifn 1 N) := by
      simp [aifftshift, ho]
    rw [e] at h
    have hl : (ifftshiftL (xifn 1 N)).length = N := by simp [ifftshiftL]
    have h' := h 0 1 (by omega) (by omega) (by omega)
    simp only [ifftshiftL, List.getElem_rotate, xifn_length] at h'
    have q0 : (0 + N / 2) % N = N / 2 := by rw [Nat.zero_add]; exact Nat.mod_eq_of_lt (by omega)
    have q1 : (1 + N / 2) % N = 1 + N / 2 := Nat.mod_eq_of_lt (by omega)
    simp only [q0, q1] at h'
    have w0 := xifn_getD 1 N (N / 2) (by omega)
    have w1 := xifn_getD 1 N (1 + N / 2) (by omega)
    rw [List.getD_eq_getElem _ _ (by simp; omega), if_pos le_rfl] at w0
    rw [List.getD_eq_getElem _ _ (by simp; omega), if_neg (show ¬ 1 + N / 2 ≤ N / 2 by omega)] at w1
    rw [w0, w1] at h'
    have hN' : (0 : ℝ) < N := by exact_mod_cast (by omega : 0 < N)
    have hh : (0 : ℝ) < 1 * (2 * Real.pi) / N := by have := Real.pi_pos; positivity
    have := lt_of_mul_lt_mul_right h' hh.le
    have h3 : ((N / 2 : ℕ) : ℤ) < ((1 + N / 2 : ℕ) : ℤ) - N := Int.cast_lt.1 this
    omega
  exact ⟨key, fun h => key (h N (by omega))⟩

example : 3 ≤ 5 ∧ 5 % 2 = 1 := by norm_num

end Ssq
