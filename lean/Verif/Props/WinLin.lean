import Verif.Props.Stft
import Mathlib.Data.List.GetD

/-!
# The STFT is linear in the window (C230)
-/
namespace Ssq
open Finset Complex
open Spec (IsExtension)

/-- The same call with another window. -/
def StftArgs.withWin (a : StftArgs) (u : List ℝ) : StftArgs := { a with window := .arr u }

/-- The full property: a window that is `α u + β v` gives `α` times the STFT with `u` plus `β` times that with `v`. -/
def C230_full : Prop :=
  ∀ (lib : WinLib) (tiny : ℝ) (x : List ℝ) (a : StftArgs) (m : ℕ) (t : PadType) (u v z : List ℝ) (α β : ℝ) (wu du wv dv wz dz : List ℝ),
    0 < tiny → u.length = z.length → v.length = z.length → (∀ i < z.length, z.getD i 0 = α * u.getD i 0 + β * v.getD i 0) →
    StftValid lib tiny x (a.withWin u) m wu du t → StftValid lib tiny x (a.withWin v) m wv dv t → StftValid lib tiny x (a.withWin z) m wz dz t →
    ∀ U dU V dV Z dZ, stft lib tiny x (a.withWin u) = .ok (m, U, dU) → stft lib tiny x (a.withWin v) = .ok (m, V, dV) → stft lib tiny x (a.withWin z) = .ok (m, Z, dZ) →
      ∀ j < Z.length, ∀ k ≤ m / 2, (Z.getD j []).getD k 0 = (α : ℂ) * (U.getD j []).getD k 0 + (β : ℂ) * (V.getD j []).getD k 0

theorem zeroDen_zero (w : List ℝ) : zeroDenormals 0 w = w := by
  unfold zeroDenormals
  conv_rhs => rw [← List.map_id w]
  refine List.map_congr_left fun v _ => ?_
  rw [if_neg (by rintro ⟨h1, h2⟩; linarith)]
  rfl

theorem getD_padded (w : List ℝ) (l r i : ℕ) : (List.replicate l 0 ++ w ++ List.replicate r 0).getD i 0 = if l ≤ i then w.getD (i - l) 0 else 0 := by
  rw [List.append_assoc]
  split
  · rename_i h
    rw [List.getD_append_right _ _ _ _ (by simpa using h), List.length_replicate]
    rcases Nat.lt_or_ge (i - l) w.length with h2 | h2
    · rw [List.getD_append _ _ _ _ h2]
    · rw [List.getD_append_right _ _ _ _ h2, List.getD_eq_default _ _ h2]
      rcases Nat.lt_or_ge (i - l - w.length) r with h3 | h3
      · rw [List.getD_eq_getElem _ _ (by simpa using h3), List.getElem_replicate]
      · rw [List.getD_eq_default _ _ (by simpa using h3)]
  · rename_i h
    rw [List.getD_append _ _ _ _ (by simp; omega), List.getD_eq_getElem _ _ (by simp; omega), List.getElem_replicate]

theorem raw_lin {lib : WinLib} {u v z ru rv rz : List ℝ} {α β : ℝ} (h1 : u.length = z.length) (h2 : v.length = z.length)
    (e : ∀ i, z.getD i 0 = α * u.getD i 0 + β * v.getD i 0) {n m : ℕ}
    (hu : getWindowRaw lib (.arr u) n (some m) = .ok ru) (hv : getWindowRaw lib (.arr v) n (some m) = .ok rv) (hz : getWindowRaw lib (.arr z) n (some m) = .ok rz) :
    ru.length = rz.length ∧ rv.length = rz.length ∧ ∀ i, rz.getD i 0 = α * ru.getD i 0 + β * rv.getD i 0 := by
  unfold getWindowRaw at hu hv hz
  by_cases hn : n > m
  · simp [hn] at hu
  · simp only [hn, if_false, ok_bind, pure_eq_ok, Except.ok.injEq] at hu hv hz
    rw [h1] at hu
    rw [h2] at hv
    split at hz
    · rename_i hc
      rw [if_pos hc] at hu hv
      subst hu hv hz
      refine ⟨by simp [h1], by simp [h2], fun i => ?_⟩
      rw [getD_padded, getD_padded, getD_padded]
      split
      · exact e _
      · ring
    · rename_i hc
      rw [if_neg hc] at hu hv
      subst hu hv hz
      exact ⟨h1, h2, e⟩

theorem diffWindow_lin {u v z : List ℝ} {α β : ℝ} (h1 : u.length = z.length) (h2 : v.length = z.length) (e : ∀ i, z.getD i 0 = α * u.getD i 0 + β * v.getD i 0) (i : ℕ) :
    (diffWindow z).getD i 0 = α * (diffWindow u).getD i 0 + β * (diffWindow v).getD i 0 := by
  unfold diffWindow
  simp only [h1, h2]
  rcases Nat.lt_or_ge i z.length with hi | hi
  · rw [List.getD_eq_getElem _ _ (by simpa using hi), List.getD_eq_getElem _ _ (by simpa using hi), List.getD_eq_getElem _ _ (by simpa using hi)]
    simp only [List.getElem_map, List.getElem_range]
    rw [← Complex.re_ofReal_mul, ← Complex.re_ofReal_mul, ← Complex.add_re]
    congr 1
    unfold idft dft
    rw [mul_div_assoc', mul_div_assoc', ← add_div, mul_sum, mul_sum, ← sum_add_distrib]
    congr 1
    refine sum_congr rfl fun k _ => ?_
    have : (∑ n ∈ range z.length, ((z.getD n 0 : ℝ) : ℂ) * tw z.length (-((n : ℤ) * k))) =
        α * (∑ n ∈ range z.length, ((u.getD n 0 : ℝ) : ℂ) * tw z.length (-((n : ℤ) * k))) + β * ∑ n ∈ range z.length, ((v.getD n 0 : ℝ) : ℂ) * tw z.length (-((n : ℤ) * k)) := by
      rw [mul_sum, mul_sum, ← sum_add_distrib]
      refine sum_congr rfl fun n _ => ?_
      rw [e]
      push_cast
      ring
    dsimp only
    rw [this]
    ring
  · rw [List.getD_eq_default _ _ (by simpa using hi), List.getD_eq_default _ _ (by simpa using hi), List.getD_eq_default _ _ (by simpa using hi)]
    ring

theorem specStft_lin (m hop : ℕ) {u v z : ℕ → ℝ} {α β : ℝ} (e : ∀ i, z i = α * u i + β * v i) (E : ℤ → ℝ) (b : Bool) (k j : ℕ) :
    Spec.stft m hop z E b k j = α * Spec.stft m hop u E b k j + β * Spec.stft m hop v E b k j := by
  unfold Spec.stft
  rw [mul_sum, mul_sum, ← sum_add_distrib]
  refine sum_congr rfl fun r _ => ?_
  rw [e]
  push_cast
  ring

/-- **C230 (partial), combinations.** Windows given as arrays of one length, one of them `α u + β v`: its STFT and the derivative are these combinations of the others', for all signals,
lengths, hops, paddings and both modulations.
Missing: windows or window derivatives with values so small (below the least normal number of the dtype) that they are replaced by zeros (`C230_refuted`). -/
theorem C230_linear_partial {lib : WinLib} {tiny : ℝ} {x : List ℝ} {a : StftArgs} {m : ℕ} {t : PadType} {u v z : List ℝ} {α β : ℝ} {wu du wv dv wz dz : List ℝ}
    (h1 : u.length = z.length) (h2 : v.length = z.length) (e : ∀ i < z.length, z.getD i 0 = α * u.getD i 0 + β * v.getD i 0)
    (hu : StftValid lib tiny x (a.withWin u) m wu du t) (hv : StftValid lib tiny x (a.withWin v) m wv dv t) (hz : StftValid lib tiny x (a.withWin z) m wz dz t)
    (hn : ∀ q ∈ [u, v, z], getWindowD lib tiny (.arr q) (stftWinLen m (a.withWin q)) (some m) = getWindowD lib 0 (.arr q) (stftWinLen m (a.withWin q)) (some m)) :
    ∃ U dU V dV Z dZ, stft lib tiny x (a.withWin u) = .ok (m, U, dU) ∧ stft lib tiny x (a.withWin v) = .ok (m, V, dV) ∧ stft lib tiny x (a.withWin z) = .ok (m, Z, dZ) ∧
      Z.length = (x.length - 1) / a.hop + 1 ∧ U.length = Z.length ∧ V.length = Z.length ∧ dU.length = Z.length ∧ dV.length = Z.length ∧ dZ.length = Z.length ∧
      ∀ j < Z.length, ∀ k ≤ m / 2, (Z.getD j []).getD k 0 = (α : ℂ) * (U.getD j []).getD k 0 + (β : ℂ) * (V.getD j []).getD k 0 ∧
        (dZ.getD j []).getD k 0 = (α : ℂ) * (dU.getD j []).getD k 0 + (β : ℂ) * (dV.getD j []).getD k 0 := by
  obtain ⟨E, hE⟩ := exists_extension t x hu.hx
  obtain ⟨U, dU, p1, p2, p3, p4, p5⟩ := C07_stft_entries hu E hE
  obtain ⟨V, dV, q1, q2, q3, q4, q5⟩ := C07_stft_entries hv E hE
  obtain ⟨Z, dZ, r1, r2, r3, r4, r5⟩ := C07_stft_entries hz E hE
  change U.length = (x.length - 1) / a.hop + 1 at p2
  change dU.length = (x.length - 1) / a.hop + 1 at p3
  change V.length = (x.length - 1) / a.hop + 1 at q2
  change dV.length = (x.length - 1) / a.hop + 1 at q3
  change Z.length = (x.length - 1) / a.hop + 1 at r2
  change dZ.length = (x.length - 1) / a.hop + 1 at r3
  refine ⟨U, dU, V, dV, Z, dZ, p1, q1, r1, r2, p2.trans r2.symm, q2.trans r2.symm, p3.trans r2.symm, q3.trans r2.symm, r3.trans r2.symm, fun j hj k hk => ?_⟩
  have e' : ∀ i, z.getD i 0 = α * u.getD i 0 + β * v.getD i 0 := by
    intro i
    rcases Nat.lt_or_ge i z.length with hi | hi
    · exact e i hi
    · rw [List.getD_eq_default _ _ hi, List.getD_eq_default _ _ (h1 ▸ hi), List.getD_eq_default _ _ (h2 ▸ hi)]
      ring
  have hl1 : stftWinLen m (a.withWin u) = stftWinLen m (a.withWin z) := by
    unfold stftWinLen StftArgs.withWin
    cases a.winLen <;> simp [h1]
  have hl2 : stftWinLen m (a.withWin v) = stftWinLen m (a.withWin z) := by
    unfold stftWinLen StftArgs.withWin
    cases a.winLen <;> simp [h2]
  have raw : ∀ {q w d : List ℝ} {n : ℕ}, getWindowD lib 0 (.arr q) n (some m) = .ok (w, d) → getWindowRaw lib (.arr q) n (some m) = .ok w ∧ d = diffWindow w := by
    intro q w d n h
    unfold getWindowD at h
    cases hr : getWindowRaw lib (.arr q) n (some m) with
    | error _ => rw [hr] at h; cases h
    | ok r =>
      rw [hr] at h
      simp only [ok_bind, pure_eq_ok, zeroDen_zero, Except.ok.injEq, Prod.mk.injEq] at h
      exact ⟨by rw [h.1], by rw [← h.2, h.1]⟩
  obtain ⟨a1, a2⟩ := raw ((hn u (by simp)).symm.trans hu.hwin)
  obtain ⟨b1, b2⟩ := raw ((hn v (by simp)).symm.trans hv.hwin)
  obtain ⟨c1, c2⟩ := raw ((hn z (by simp)).symm.trans hz.hwin)
  rw [hl1] at a1
  rw [hl2] at b1
  obtain ⟨m1, m2, m3⟩ := raw_lin h1 h2 e' a1 b1 c1
  have hk' : k < m / 2 + 1 := by omega
  have g : ∀ {L : List (List ℂ)} (h : j < L.length), L.getD j [] = L[j] := fun h => List.getD_eq_getElem _ _ h
  rw [g hj, g (by omega), g (by omega), g (by omega), g (by omega), g (by omega), (r4 j hj).2 k hk', (p4 j (by omega)).2 k hk', (q4 j (by omega)).2 k hk',
    (r5 j (by omega)).2 k hk', (p5 j (by omega)).2 k hk', (q5 j (by omega)).2 k hk']
  refine ⟨specStft_lin m a.hop m3 E a.modulated k j, specStft_lin m a.hop (fun i => ?_) E a.modulated k j⟩
  rw [a2, b2, c2]
  change (if a.modulated then a.fs else 1) * _ = α * ((if a.modulated then a.fs else 1) * _) + β * ((if a.modulated then a.fs else 1) * _)
  rw [diffWindow_lin m1 m2 m3]
  ring

/-- **C230 (partial), phase.** Multiplying the window by a factor does not change the quotient of derivative and transform, from which frequencies are taken. -/
theorem C230_phase_partial {lib : WinLib} {tiny : ℝ} {x : List ℝ} {a : StftArgs} {m : ℕ} {t : PadType} {u : List ℝ} {c : ℝ} (hc : c ≠ 0) {wu du wz dz : List ℝ}
    (hu : StftValid lib tiny x (a.withWin u) m wu du t) (hz : StftValid lib tiny x (a.withWin (u.map (c * ·))) m wz dz t)
    (hn : ∀ q ∈ [u, u.map (c * ·)], getWindowD lib tiny (.arr q) (stftWinLen m (a.withWin q)) (some m) = getWindowD lib 0 (.arr q) (stftWinLen m (a.withWin q)) (some m)) :
    ∃ U dU Z dZ, stft lib tiny x (a.withWin u) = .ok (m, U, dU) ∧ stft lib tiny x (a.withWin (u.map (c * ·))) = .ok (m, Z, dZ) ∧
      ∀ j < Z.length, ∀ k ≤ m / 2, (Z.getD j []).getD k 0 = (c : ℂ) * (U.getD j []).getD k 0 ∧
        (dZ.getD j []).getD k 0 / (Z.getD j []).getD k 0 = (dU.getD j []).getD k 0 / (U.getD j []).getD k 0 := by
  have hm : ∀ i < (u.map (c * ·)).length, (u.map (c * ·)).getD i 0 = c * u.getD i 0 + 0 * u.getD i 0 := by
    intro i hi
    rw [List.getD_eq_getElem _ _ hi, List.getElem_map, List.getD_eq_getElem _ _ (by simpa using hi)]
    ring
  obtain ⟨U, dU, V, dV, Z, dZ, p1, p2, p3, -, -, -, -, -, -, p4⟩ := C230_linear_partial (by simp) (by simp) hm hu hu hz
    (fun q hq => hn q (by simp only [List.mem_cons, List.not_mem_nil, or_false] at hq ⊢; tauto))
  refine ⟨U, dU, Z, dZ, p1, p3, fun j hj k hk => ?_⟩
  obtain ⟨r1, r2⟩ := p4 j hj k hk
  simp only [Complex.ofReal_zero, zero_mul, add_zero] at r1 r2
  rw [r1, r2]
  exact ⟨rfl, mul_div_mul_left _ _ (by exact_mod_cast hc)⟩

/-! ### The hypotheses are met, and the counterexample -/

theorem win3_valid (a b c : ℝ) : StftValid onesLib 0 [1, 2, 3, 4] (StftArgs.withWin { nFft := some 3 } [a, b, c]) 3 [a, b, c] (diffWindow [a, b, c]) .reflect := by
  constructor
  · simp
  · simp [StftArgs.withWin]
  · simp
  · rfl
  · unfold getWindowD getWindowRaw
    simp [stftWinLen, StftArgs.withWin, zeroDen_zero]
  · rfl
  · rfl
  · simp

/-- Twice one window less another. -/
example : ∃ U dU V dV Z dZ, stft onesLib 0 [1, 2, 3, 4] (StftArgs.withWin { nFft := some 3 } [1, 2, 1]) = .ok (3, U, dU) ∧
    stft onesLib 0 [1, 2, 3, 4] (StftArgs.withWin { nFft := some 3 } [0, 1, 1]) = .ok (3, V, dV) ∧
    stft onesLib 0 [1, 2, 3, 4] (StftArgs.withWin { nFft := some 3 } [2, 3, 1]) = .ok (3, Z, dZ) ∧ Z.length = 4 ∧
    ∀ j < Z.length, ∀ k ≤ 1, (Z.getD j []).getD k 0 = ((2 : ℝ) : ℂ) * (U.getD j []).getD k 0 + ((-1 : ℝ) : ℂ) * (V.getD j []).getD k 0 := by
  obtain ⟨U, dU, V, dV, Z, dZ, p1, p2, p3, p4, -, -, -, -, -, p5⟩ := C230_linear_partial (α := 2) (β := -1) (a := { nFft := some 3 }) (u := [1, 2, 1]) (v := [0, 1, 1]) (z := [2, 3, 1]) (by simp) (by simp)
    (fun i hi => by
      simp only [List.length_cons, List.length_nil] at hi
      match i, hi with
      | 0, _ => norm_num
      | 1, _ => norm_num
      | 2, _ => norm_num)
    (win3_valid 1 2 1) (win3_valid 0 1 1) (win3_valid 2 3 1) (fun _ _ => rfl)
  exact ⟨U, dU, V, dV, Z, dZ, p1, p2, p3, by simpa using p4, fun j hj k hk => (p5 j hj k (by omega)).1⟩

/-- **C230 refuted.** A window of half the least normal number, twice: each is replaced by zero, the sum is not. -/
theorem C230_refuted : ¬ C230_full := by
  intro Q
  have valid : ∀ s r : ℝ, zeroDenormals (1 / 2 ^ 126) [s] = [r] → StftValid onesLib (1 / 2 ^ 126) [1] (StftArgs.withWin { nFft := some 1 } [s]) 1 [r] (zeroDenormals (1 / 2 ^ 126) (diffWindow [s])) .reflect := by
    intro s r h
    constructor
    · simp
    · simp [StftArgs.withWin]
    · simp
    · rfl
    · unfold getWindowD getWindowRaw
      simp only [stftWinLen, StftArgs.withWin, List.length_cons, List.length_nil]
      simp
      simpa using h
    · rfl
    · rfl
    · simp
  have h1 := valid (1 / 2 ^ 127) 0 (by unfold zeroDenormals; simp only [List.map_cons, List.map_nil]; rw [if_pos (by norm_num)])
  have h2 := valid (1 / 2 ^ 126) (1 / 2 ^ 126) (by unfold zeroDenormals; simp only [List.map_cons, List.map_nil]; rw [if_neg (by norm_num)])
  obtain ⟨E, hE⟩ := exists_extension .reflect ([1] : List ℝ) (by simp)
  obtain ⟨U, dU, p1, p2, -, p4, -⟩ := C07_stft_entries h1 E hE
  obtain ⟨Z, dZ, r1, r2, -, r4, -⟩ := C07_stft_entries h2 E hE
  have hU : 0 < U.length := by rw [p2]; exact Nat.succ_pos _
  have hZ : 0 < Z.length := by rw [r2]; exact Nat.succ_pos _
  have := Q onesLib (1 / 2 ^ 126) [1] { nFft := some 1 } 1 .reflect [1 / 2 ^ 127] [1 / 2 ^ 127] [1 / 2 ^ 126] 1 1 _ _ _ _ _ _ (by positivity) rfl rfl
    (fun i hi => by
      simp only [List.length_cons, List.length_nil] at hi
      obtain rfl : i = 0 := by omega
      norm_num) h1 h1 h2 U dU U dU Z dZ p1 p1 r1 0 hZ 0 (by omega)
  rw [List.getD_eq_getElem _ _ hU, List.getD_eq_getElem _ _ hZ, (p4 0 hU).2 0 (by omega), (r4 0 hZ).2 0 (by omega)] at this
  have hE0 : E 0 = 1 := by
    have := hE.1 0 (by simp)
    simpa using this
  simp [Spec.stft, hE0] at this

end Ssq
