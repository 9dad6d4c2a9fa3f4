import Verif.Props.Padding
import Verif.Lemmas.PyM

/-!
# Padding torch tensors (C175)
-/
namespace Ssq
open Spec

variable {α : Type} [Zero α]

/-- The full claim: a tensor is padded like the array with the same samples. -/
def C175_full : Prop :=
  ∀ (x : List ℝ) (s : String) (L : Option ℤ), s = "zero" ∨ s = "reflect" → 0 < x.length → (∀ l, L = some l → (x.length : ℤ) ≤ l) → padsignal false x s L = padsignal true x s L

/-- **C175, zeros.** With `padtype='zero'` a tensor is padded like the array, to any length that is not shorter. -/
theorem C175_zero_partial (x : List α) (L : Option ℤ) (hx : 0 < x.length) (hL : ∀ l, L = some l → (x.length : ℤ) ≤ l) : padsignal false x "zero" L = padsignal true x "zero" L := by
  obtain ⟨h1, h2, h3, h4, h5⟩ := padWidths_facts x.length hx L hL
  unfold padsignal parsePadType
  generalize padWidths x.length L = pw at *
  obtain ⟨nUp, n1, n2⟩ := pw
  simp only [Bool.false_eq_true, if_false, if_true, ok_bind, padNumpy, padTorch] at *
  rw [if_neg (by omega)]

/-- **C175, reflection.** With `padtype='reflect'` a tensor is padded like the array if the padding on the left is shorter than the signal, and refused otherwise; arrays are never refused. -/
theorem C175_reflect_partial (x : List α) (L : Option ℤ) (hx : 0 < x.length) (hL : ∀ l, L = some l → (x.length : ℤ) ≤ l) :
    ∃ xp nUp n1 n2, padsignal true x "reflect" L = .ok (xp, nUp, n1, n2) ∧
      padsignal false x "reflect" L = if n1 < x.length then .ok (xp, nUp, n1, n2) else .error .exception := by
  obtain ⟨h1, h2, h3, h4, h5⟩ := padWidths_facts x.length hx L hL
  obtain ⟨xp, nUp, n1, n2, e, -⟩ := C02_C03_padding_partial x .reflect L hx hL (by simp)
  refine ⟨xp, nUp, n1, n2, e, ?_⟩
  have e' := e
  unfold padsignal parsePadType at e' ⊢
  clear e
  generalize padWidths x.length L = pw at *
  obtain ⟨nUp', n1', n2'⟩ := pw
  simp only [padName, Bool.false_eq_true, if_false, if_true, ok_bind, padNumpy, padTorch] at *
  obtain ⟨y, hy, e'⟩ := bind_ok e'
  simp only [pure_eq_ok, Except.ok.injEq, Prod.mk.injEq] at e'
  obtain ⟨rfl, rfl, rfl, rfl⟩ := e'
  by_cases hlt : n1' < x.length
  · rw [if_neg (by omega), if_pos hlt, hy, ok_bind]
    rfl
  · rw [if_pos (by omega), if_neg hlt]
    rfl

/-- **C175, other schemes.** The other schemes are refused for tensors. -/
theorem C175_others (x : List α) (s : String) (L : Option ℤ) (hz : s ≠ "zero") (hr : s ≠ "reflect") : padsignal false x s L = .error .valueError := by
  unfold padsignal parsePadType
  simp only [Bool.false_eq_true, if_false]
  rfl

/-- **C175, default length.** Padding a tensor by reflection to the default length is refused for signals of exactly 1 and 3 samples. -/
theorem C175_default (x : List α) (hx : 0 < x.length) : padsignal false x "reflect" none = .error .exception ↔ x.length = 1 ∨ x.length = 3 := by
  obtain ⟨xp, nUp, n1, n2, e, e'⟩ := C175_reflect_partial x none hx (by simp)
  have hn : n1 = (p2up x.length).2.1 := by
    unfold padsignal at e
    obtain ⟨t, -, e⟩ := bind_ok e
    obtain ⟨y, -, e⟩ := bind_ok e
    simp only [pure_eq_ok, Except.ok.injEq, Prod.mk.injEq, padWidths] at e
    exact e.2.2.1.symm
  obtain ⟨⟨k, hk⟩, hlow, hhigh, hgt, huniq, h0, hsum, hdiff⟩ := C01_default_pad_length x.length hx
  rw [e', hn]
  have key : (p2up x.length).2.1 < x.length ↔ ¬ (x.length = 1 ∨ x.length = 3) := by
    generalize x.length = N at *
    constructor
    · intro h
      rintro (rfl | rfl)
      · have := huniq 1 (by norm_num) (by norm_num)
        omega
      · have := huniq 3 (by norm_num) (by norm_num)
        omega
    · intro h
      by_contra hcon
      have hup : 3 * N ≤ (p2up N).1 + 1 := by omega
      have hN : N ≤ 5 := by
        by_contra h6
        nlinarith
      have : N = 2 ∨ N = 4 ∨ N = 5 := by omega
      rcases this with rfl | rfl | rfl
      · have := huniq 2 (by norm_num) (by norm_num)
        omega
      · have := huniq 3 (by norm_num) (by norm_num)
        omega
      · have := huniq 3 (by norm_num) (by norm_num)
        omega
  by_cases hlt : (p2up x.length).2.1 < x.length
  · rw [if_pos hlt]
    simp only [reduceCtorEq, false_iff]
    exact key.1 hlt
  · rw [if_neg hlt]
    simp only [true_iff]
    by_contra h
    exact hlt (key.2 h)

/-- **C175, frames.** Padding a tensor by reflection for frames of `n_fft` samples (as `stft` does) is refused exactly if half of a frame, rounded down, is not shorter than the signal. -/
theorem C175_frames (x : List α) (hx : 0 < x.length) (m : ℕ) (hm : 0 < m) : padsignal false x "reflect" (some ((x.length : ℤ) + m - 1)) = .error .exception ↔ x.length ≤ m / 2 := by
  obtain ⟨xp, nUp, n1, n2, e, e'⟩ := C175_reflect_partial x (some ((x.length : ℤ) + m - 1)) hx (by intro l hl; simp only [Option.some.injEq] at hl; omega)
  have hw := padWidths_facts x.length hx (some ((x.length : ℤ) + m - 1)) (by intro l hl; simp only [Option.some.injEq] at hl; omega)
  have hn : n1 = (padWidths x.length (some ((x.length : ℤ) + m - 1))).2.1 := by
    unfold padsignal at e
    obtain ⟨t, -, e⟩ := bind_ok e
    obtain ⟨y, -, e⟩ := bind_ok e
    simp only [pure_eq_ok, Except.ok.injEq, Prod.mk.injEq] at e
    exact e.2.2.1.symm
  obtain ⟨h1, h2, h3, h4, -⟩ := hw
  have h1 := h1 _ rfl
  rw [e']
  by_cases hlt : n1 < x.length
  · rw [if_pos hlt]
    simp only [reduceCtorEq, false_iff]
    omega
  · rw [if_neg hlt]
    simp only [true_iff]
    omega

/-- **C175 is false**: three samples, to the default length of eight. -/
theorem C175_refuted : ¬ C175_full := by
  intro H
  have h := H [1, 2, 3] "reflect" none (Or.inr rfl) (by simp) (by simp)
  rw [(C175_default [1, 2, 3] (by simp)).2 (by simp)] at h
  obtain ⟨xp, nUp, n1, n2, e, -⟩ := C175_reflect_partial ([1, 2, 3] : List ℝ) none (by simp) (by simp)
  rw [e] at h
  exact absurd h (by simp)

/-- Non-vacuity: five samples are padded to eight; seven samples to ten, for frames of four. -/
example : ∃ r, padsignal false ([1, 2, 3, 4, 5] : List ℝ) "reflect" none = .ok r ∧ padsignal true ([1, 2, 3, 4, 5] : List ℝ) "reflect" none = .ok r := by
  obtain ⟨xp, nUp, n1, n2, e, e'⟩ := C175_reflect_partial ([1, 2, 3, 4, 5] : List ℝ) none (by simp) (by simp)
  by_cases h : n1 < ([1, 2, 3, 4, 5] : List ℝ).length
  · rw [if_pos h] at e'
    exact ⟨_, e', e⟩
  · rw [if_neg h] at e'
    have := (C175_default _ (by simp)).1 e'
    simp at this

example : ∃ xp, padsignal false ([1, 2, 3, 4, 5, 6, 7] : List ℝ) "reflect" (some 10) = .ok (xp, 10, 2, 1) := by
  obtain ⟨xp, nUp, n1, n2, e, e'⟩ := C175_reflect_partial ([1, 2, 3, 4, 5, 6, 7] : List ℝ) (some 10) (by simp) (by simp)
  have : padWidths 7 (some 10) = (10, 2, 1) := by simp [padWidths]
  have e0 := e
  unfold padsignal at e0
  obtain ⟨t, -, e0⟩ := bind_ok e0
  obtain ⟨y, -, e0⟩ := bind_ok e0
  simp only [pure_eq_ok, Except.ok.injEq, Prod.mk.injEq, List.length_cons, List.length_nil, zero_add, Nat.reduceAdd, this] at e0
  obtain ⟨-, rfl, rfl, rfl⟩ := e0
  exact ⟨xp, by rw [e']; simp⟩

end Ssq
