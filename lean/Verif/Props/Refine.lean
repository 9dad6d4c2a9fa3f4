import Verif.Props.Stft

/-!
# C178: a longer FFT only adds bins between those of a shorter one

The window (taps `v` of length `win_len`) stays the same; `n_fft` becomes a multiple of itself. The window is
padded with more zeros, the signal with more samples, and each old bin is found again at the multiple of its
number.
-/
namespace Ssq
open Spec Finset

namespace Spec

/-- Both calls use the same taps `v`: `win_len` is given, or the window is an array and `win_len` its
length; and `get_window` without padding returns `v`. -/
def SameTaps (lib : WinLib) (a : StftArgs) (v : List ℝ) : Prop :=
  (a.winLen = some v.length ∨ (a.winLen = none ∧ a.window = .arr v)) ∧
    getWindowRaw lib a.window v.length none = .ok v

end Spec

variable {lib : WinLib} {tiny : ℝ} {x : List ℝ} {a : StftArgs}

theorem sameTaps_winLen {v : List ℝ} (h : Spec.SameTaps lib a v) (n : Option ℕ) (m : ℕ) :
    stftWinLen m { a with nFft := n } = v.length := by
  unfold stftWinLen
  rcases h.1 with h | ⟨h, h'⟩
  · simp [h]
  · simp [h, h']

theorem getWindowRaw_taps {window : WindowArg} {v : List ℝ} (h : getWindowRaw lib window v.length none = .ok v)
    (m : ℕ) : getWindowRaw lib window v.length (some m) = if v.length > m then .error .valueError else
      .ok (List.replicate ((m - v.length) / 2) 0 ++ v ++ List.replicate (m - v.length - (m - v.length) / 2) 0) := by
  have fin : ∀ u : List ℝ, (if u.length < v.length + 0 + 0 then List.replicate 0 0 ++ u ++ List.replicate 0 0 else u) = u := by
    intro u; split <;> simp
  have pad : ¬ v.length > m → (if v.length < v.length + (m - v.length) / 2 + (m - v.length - (m - v.length) / 2) then
      List.replicate ((m - v.length) / 2) 0 ++ v ++ List.replicate (m - v.length - (m - v.length) / 2) 0 else v) =
      List.replicate ((m - v.length) / 2) 0 ++ v ++ List.replicate (m - v.length - (m - v.length) / 2) 0 := by
    intro hle
    split
    · rfl
    · have e1 : (m - v.length) / 2 = 0 := by omega
      have e2 : m - v.length - (m - v.length) / 2 = 0 := by omega
      rw [e2, e1]; simp
  by_cases hle : v.length > m
  · rw [if_pos hle]
    cases window <;> simp [getWindowRaw, hle]
  · rw [if_neg hle]
    cases window with
    | none =>
      simp only [getWindowRaw, ok_bind] at h
      obtain ⟨u, hu, h⟩ := bind_ok h
      rw [pure_eq_ok, Except.ok.injEq, fin] at h
      subst h
      simp only [getWindowRaw, if_neg hle, ok_bind, hu, pure_eq_ok, pad hle]
    | str q =>
      simp only [getWindowRaw, ok_bind] at h
      obtain ⟨u, hu, h⟩ := bind_ok h
      rw [pure_eq_ok, Except.ok.injEq, fin] at h
      subst h
      simp only [getWindowRaw, if_neg hle, ok_bind, hu, pure_eq_ok, pad hle]
    | arr u =>
      simp only [getWindowRaw, ok_bind] at h
      rw [pure_eq_ok, Except.ok.injEq, fin] at h
      subst h
      simp only [getWindowRaw, if_neg hle, ok_bind, pure_eq_ok, pad hle]
    | other => simp [getWindowRaw] at h

/-- The window in effect is the taps in the middle of zeros. -/
theorem sameTaps_window {u : List ℝ} (h : Spec.SameTaps lib a u) (n : Option ℕ) {m : ℕ} {w dw : List ℝ}
    (hw : getWindowD lib tiny a.window (stftWinLen m { a with nFft := n }) (some m) = .ok (w, dw)) :
    u.length ≤ m ∧ ∀ r < m, w.getD r 0 =
      if (m - u.length) / 2 ≤ r ∧ r < (m - u.length) / 2 + u.length then
        (zeroDenormals tiny u).getD (r - (m - u.length) / 2) 0 else 0 := by
  rw [sameTaps_winLen h] at hw
  unfold getWindowD at hw
  rw [getWindowRaw_taps h.2] at hw
  split at hw
  · simp at hw
  · next hle =>
    simp only [ok_bind, pure_eq_ok, Except.ok.injEq, Prod.mk.injEq] at hw
    obtain ⟨rfl, -⟩ := hw
    refine ⟨by omega, fun r hr => ?_⟩
    generalize (m - u.length) / 2 = p at *
    have z : ∀ (l : List ℝ) (i : ℕ), (zeroDenormals tiny l).getD i 0 =
        if l.getD i 0 < tiny ∧ l.getD i 0 > -tiny then 0 else l.getD i 0 := by
      intro l i
      unfold zeroDenormals
      by_cases hi : i < l.length
      · rw [List.getD_eq_getElem _ _ (by simpa using hi), List.getD_eq_getElem _ _ hi, List.getElem_map]
      · rw [List.getD_eq_default _ _ (by simpa using not_lt.1 hi), List.getD_eq_default _ _ (not_lt.1 hi)]
        simp
    rw [z]
    by_cases hc : p ≤ r ∧ r < p + u.length
    · rw [if_pos hc, z]
      have : (List.replicate p (0 : ℝ) ++ u ++ List.replicate (m - u.length - p) 0).getD r 0 = u.getD (r - p) 0 := by
        rw [List.append_assoc, List.getD_append_right _ _ _ _ (by simpa using hc.1), List.length_replicate,
          List.getD_append _ _ _ _ (by omega)]
      rw [this]
    · rw [if_neg hc]
      have : (List.replicate p (0 : ℝ) ++ u ++ List.replicate (m - u.length - p) 0).getD r 0 = 0 := by
        rcases not_and_or.1 hc with h1 | h1
        · rw [List.append_assoc, List.getD_append _ _ _ _ (by simpa using h1)]
          rw [List.getD_eq_getElem _ _ (by simpa using h1)]
          simp
        · rw [List.getD_append_right _ _ _ _ (by simp; omega), List.getD_eq_getElem?_getD]
          cases hz : (List.replicate (m - u.length - p) (0 : ℝ))[r - (List.replicate p (0 : ℝ) ++ u).length]? with
          | none => rfl
          | some q =>
            have := List.mem_of_getElem? hz
            simp only [List.mem_replicate] at this
            simpa using this.2
      rw [this]
      simp

/-- Sum over the taps. -/
theorem specStft_taps {m hop : ℕ} {W v : ℕ → ℝ} {L : ℕ} (hL : L ≤ m)
    (hW : ∀ r < m, W r = if (m - L) / 2 ≤ r ∧ r < (m - L) / 2 + L then v (r - (m - L) / 2) else 0)
    (E : ℤ → ℝ) (k j : ℕ) :
    Spec.stft m hop W E true k j = ∑ q ∈ range L, ((v q * E ((j : ℤ) * hop + q - ((m / 2 : ℕ) - ((m - L) / 2 : ℕ))) : ℝ) : ℂ) *
      Complex.exp (-(2 * Real.pi * Complex.I * k * ((q : ℂ) - ((m / 2 : ℕ) - ((m - L) / 2 : ℕ))) / m)) := by
  unfold Spec.stft
  generalize hp : (m - L) / 2 = p at *
  have hpm : p + L ≤ m := by omega
  rw [← Finset.sum_subset (s₁ := (range L).map (addLeftEmbedding p))]
  · rw [sum_map]
    refine sum_congr rfl fun q hq => ?_
    have hq := mem_range.1 hq
    simp only [addLeftEmbedding_apply, if_true]
    rw [hW _ (by omega), if_pos (by omega), Nat.add_sub_cancel_left]
    congr 3
    · congr 1
      push_cast; ring_nf
    · push_cast; ring
  · intro r hr
    simp only [mem_map, mem_range, addLeftEmbedding_apply] at hr ⊢
    obtain ⟨q, hq, rfl⟩ := hr
    omega
  · intro r hr hn
    have hr := mem_range.1 hr
    rw [hW r hr, if_neg, zero_mul]
    · simp
    · rintro ⟨h1, h2⟩
      apply hn
      simp only [mem_map, mem_range, addLeftEmbedding_apply]
      exact ⟨r - p, by omega, by omega⟩

/-- **C178.** Multiplying `n_fft` by `c` (same taps; same parity, or a window of even length) keeps the number of
columns and puts the old bin `k` of each column at `c*k`: exactly with `modulated=True`, in modulus
otherwise. -/
theorem C178_refine {m c : ℕ} {w dw w' dw' v : List ℝ} {t : PadType}
    (h : StftValid lib tiny x { a with nFft := some m } m w dw t)
    (h' : StftValid lib tiny x { a with nFft := some (c * m) } (c * m) w' dw' t)
    (hv : Spec.SameTaps lib a v) (hpar : (c * m) % 2 = m % 2 ∨ v.length % 2 = 0)
    {S dS S' dS' : List (List ℂ)} (hS : stft lib tiny x { a with nFft := some m } = .ok (m, S, dS))
    (hS' : stft lib tiny x { a with nFft := some (c * m) } = .ok (c * m, S', dS')) :
    S'.length = S.length ∧ ∀ j < S.length, ∀ k ≤ m / 2,
      c * k ≤ (c * m) / 2 ∧
      (a.modulated = true → (S'.getD j []).getD (c * k) 0 = (S.getD j []).getD k 0) ∧
      ‖(S'.getD j []).getD (c * k) 0‖ = ‖(S.getD j []).getD k 0‖ := by
  have hm := h.hm
  have hm' := h'.hm
  have hc : c ≠ 0 := by rintro rfl; simp at hm'
  obtain ⟨hL, hw⟩ := sameTaps_window hv _ h.hwin
  obtain ⟨hL', hw'⟩ := sameTaps_window hv _ h'.hwin
  have hcen : ((m / 2 : ℕ) : ℤ) - ((m - v.length) / 2 : ℕ) = ((c * m / 2 : ℕ) : ℤ) - ((c * m - v.length) / 2 : ℕ) := by
    generalize c * m = m' at *
    omega
  obtain ⟨E, hE⟩ := exists_extension t x h.hx
  obtain ⟨S1, dS1, e1, l1, -, c1, -⟩ := C07_stft_entries h E hE
  obtain ⟨S2, dS2, e2, l2, -, c2, -⟩ := C07_stft_entries h' E hE
  rw [hS, Except.ok.injEq, Prod.mk.injEq, Prod.mk.injEq] at e1
  rw [hS', Except.ok.injEq, Prod.mk.injEq, Prod.mk.injEq] at e2
  obtain ⟨-, rfl, -⟩ := e1
  obtain ⟨-, rfl, -⟩ := e2
  have hlen : S'.length = S.length := by rw [l1, l2]
  refine ⟨hlen, fun j hj k hk => ?_⟩
  have hck : c * k ≤ c * m / 2 := by
    rw [Nat.le_div_iff_mul_le (by norm_num)]
    calc c * k * 2 = c * (k * 2) := by ring
      _ ≤ c * m := Nat.mul_le_mul_left _ (by omega)
  have key : Spec.stft (c * m) a.hop (fun r => w'.getD r 0) E true (c * k) j =
      Spec.stft m a.hop (fun r => w.getD r 0) E true k j := by
    rw [specStft_taps (v := fun q => (zeroDenormals tiny v).getD q 0) hL hw,
      specStft_taps (v := fun q => (zeroDenormals tiny v).getD q 0) hL' hw']
    refine sum_congr rfl fun q _ => ?_
    rw [hcen]
    congr 2
    have hcz : (((m / 2 : ℕ) : ℂ) - ((m - v.length) / 2 : ℕ)) = (((c * m / 2 : ℕ) : ℂ) - ((c * m - v.length) / 2 : ℕ)) := by
      exact_mod_cast congrArg (fun z : ℤ => (z : ℂ)) hcen
    rw [hcz]
    have : (c : ℂ) ≠ 0 := by exact_mod_cast hc
    have : (m : ℂ) ≠ 0 := by exact_mod_cast hm.ne'
    push_cast
    field_simp
  have hunm : ∀ (m hop : ℕ) (w : ℕ → ℝ) (b : Bool) (k : ℕ), ‖Spec.stft m hop w E b k j‖ = ‖Spec.stft m hop w E true k j‖ := by
    intro m hop w b k
    cases b
    · have : Spec.stft m hop w E true k j = Complex.exp (2 * Real.pi * Complex.I * k * (m / 2 : ℕ) / m) * Spec.stft m hop w E false k j := by
        unfold Spec.stft
        rw [mul_sum]
        refine sum_congr rfl fun r _ => ?_
        simp only [Bool.false_eq_true, if_false, if_true]
        rw [mul_left_comm, ← Complex.exp_add]
        congr 2
        ring
      have e : (2 * Real.pi * Complex.I * k * (m / 2 : ℕ) / m : ℂ)
          = ((2 * Real.pi * k * (m / 2 : ℕ) / m : ℝ) : ℂ) * Complex.I := by push_cast; ring
      rw [this, norm_mul, e, Complex.norm_exp_ofReal_mul_I, one_mul]
    · rfl
  have g1 := (c1 j hj).2 k (by omega)
  have g2 := (c2 j (by omega)).2 (c * k) (by omega)
  rw [List.getD_eq_getElem S _ hj, List.getD_eq_getElem S' _ (by omega), g1, g2]
  refine ⟨hck, fun hmod => ?_, ?_⟩
  · simp only [hmod]
    exact key
  · rw [hunm (c * m), hunm m, key]

/-- Three taps in FFTs of 4 and 8 points: bin 2 of the shorter is bin 4 of the longer. -/
example : ∃ S dS S' dS', stft onesLib 0 [1, 2, 3, 4] { window := .arr [1, 2, 1], nFft := some 4 } = .ok (4, S, dS) ∧
    stft onesLib 0 [1, 2, 3, 4] { window := .arr [1, 2, 1], nFft := some (2 * 4) } = .ok (2 * 4, S', dS') ∧
    (S'.getD 1 []).getD 4 0 = (S.getD 1 []).getD 2 0 := by
  have hw : ∀ n, n = 4 ∨ n = 2 * 4 → ∃ w dw, StftValid onesLib 0 [1, 2, 3, 4]
      ({ ({ window := .arr [1, 2, 1] } : StftArgs) with nFft := some n }) n w dw .reflect := by
    intro n hn
    refine ⟨zeroDenormals 0 (List.replicate ((n - 3) / 2) 0 ++ [1, 2, 1] ++ List.replicate (n - 3 - (n - 3) / 2) 0),
      zeroDenormals 0 (diffWindow (List.replicate ((n - 3) / 2) 0 ++ [1, 2, 1] ++ List.replicate (n - 3 - (n - 3) / 2) 0)), ?_⟩
    constructor
    · simp
    · simp
    · omega
    · rcases hn with rfl | rfl <;> rfl
    · unfold getWindowD
      change (do
        let w ← getWindowRaw onesLib (.arr [1, 2, 1]) ([1, 2, 1] : List ℝ).length (some n)
        pure (zeroDenormals 0 w, zeroDenormals 0 (diffWindow w)) : Py _) = _
      rw [getWindowRaw_taps (by simp [getWindowRaw]), if_neg (by rcases hn with rfl | rfl <;> simp)]
      rfl
    · rw [length_zeroDenormals]; rcases hn with rfl | rfl <;> simp
    · rfl
    · simp
  obtain ⟨w, dw, h⟩ := hw 4 (Or.inl rfl)
  obtain ⟨w', dw', h'⟩ := hw (2 * 4) (Or.inr rfl)
  obtain ⟨E, hE⟩ := exists_extension .reflect ([1, 2, 3, 4] : List ℝ) (by simp)
  obtain ⟨S, dS, e1, l1, -⟩ := C07_stft_entries h E hE
  obtain ⟨S', dS', e2, -⟩ := C07_stft_entries h' E hE
  refine ⟨S, dS, S', dS', e1, e2, ?_⟩
  exact ((C178_refine (v := [1, 2, 1]) h h' ⟨Or.inr ⟨rfl, rfl⟩, by simp [getWindowRaw]⟩ (Or.inl rfl) e1 e2).2 1
    (by rw [l1]; simp) 2 (by norm_num)).2.1 rfl

end Ssq
