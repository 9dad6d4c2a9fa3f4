import Verif.Props.Stft

/-!
# Properties C08–C11: STFT inversion and window preparation
-/
namespace Ssq
open Spec Finset

variable {lib : WinLib} {tiny : ℝ} {x : List ℝ} {a : StftArgs} {m : ℕ} {w dw : List ℝ} {t : PadType}

theorem winCols_false (xp w : List ℝ) (m h : ℕ) (hw : w.length = m) (j : ℕ)
    (hj : j < (winCols xp w m h false).length) :
    (winCols xp w m h false)[j].length = m ∧
      ∀ r < m, (winCols xp w m h false)[j].getD r 0 = xp.getD (j * h + r) 0 * w.getD r 0 := by
  have hj' : j < (xp.length - m) / h + 1 := by simpa [winCols, frames] using hj
  have hlen : (winCols xp w m h false)[j].length = m := by
    simp [winCols, usedWindow, frames, hw]
  refine ⟨hlen, fun r hr => ?_⟩
  rw [getD_lt _ _ (by omega), getD_lt w 0 (by omega)]
  simp [winCols, usedWindow, frames, srcIdx]

theorem divByNorm_get (th : ℝ) (hth : 0 < th) (X W : List ℝ) (xp : List ℝ) (L : ℕ) (hL : 0 < L)
    (hX : X.length = L) (hW : W.length = L)
    (hXW : ∀ p < L, X.getD p 0 = xp.getD p 0 * W.getD p 0) :
    ∃ Y, divByNorm th X W = .ok Y ∧ Y.length = L ∧
      (∀ p < L, th < W.getD p 0 → Y.getD p 0 = xp.getD p 0) ∧
      (∀ p < L, W.getD p 0 = 0 → Y.getD p 0 = 0) := by
  have hne : W ≠ [] := by intro h; rw [h] at hW; simp at hW; omega
  unfold divByNorm
  rw [if_neg hne]
  split
  · refine ⟨_, rfl, by simp [hX, hW], ?_, ?_⟩
    swap
    · intro p hp h0
      have h1 := hXW p hp
      rw [h0, mul_zero, getD_lt X 0 (by omega)] at h1
      rw [getD_lt W 0 (by omega)] at h0
      rw [getD_lt _ _ (by simp; omega), List.getElem_zipWith, h0, h1]
      simp
    intro p hp hlt
    rw [getD_lt _ _ (by simp; omega), List.getElem_zipWith]
    rw [getD_lt W 0 (by omega)] at hlt
    rw [if_pos hlt, ← getD_lt X 0 (by omega), hXW p hp, getD_lt W 0 (by omega)]
    field_simp [ne_of_gt (lt_trans hth hlt)]
  · refine ⟨_, rfl, by simp [hX, hW], ?_, ?_⟩
    swap
    · intro p hp h0
      rw [getD_lt W 0 (by omega)] at h0
      rw [getD_lt _ _ (by simp; omega), List.getElem_zipWith, h0, div_zero]
    intro p hp hlt
    rw [getD_lt _ _ (by simp; omega), List.getElem_zipWith]
    rw [getD_lt W 0 (by omega)] at hlt
    rw [← getD_lt X 0 (by omega), hXW p hp, getD_lt W 0 (by omega)]
    rw [mul_div_assoc, div_self (ne_of_gt (lt_trans hth hlt)), mul_one]

theorem fdiv_hops {N hop : ℕ} (hN : 0 < N) (hh : 0 < hop) (m : ℕ) (hm : 0 < m) :
    (Int.fdiv (((N + m - 1 : ℕ) : ℤ) - m) hop + 1).toNat = (N - 1) / hop + 1 := by
  rw [Int.fdiv_eq_ediv_of_nonneg _ (by omega),
    show (((N + m - 1 : ℕ) : ℤ) - m) = ((N - 1 : ℕ) : ℤ) by omega, ← Int.natCast_ediv]
  generalize (N - 1) / hop = q
  omega

theorem hops_full {N hop : ℕ} (hh : 0 < hop) :
    (hop * ((N - 1) / hop + 1) - 1) / hop = (N - 1) / hop := by
  have h1 : hop * ((N - 1) / hop + 1) - 1 = (hop - 1) + hop * ((N - 1) / hop) := by
    rw [Nat.mul_add, Nat.mul_one]; omega
  rw [h1, Nat.add_mul_div_left _ _ hh, Nat.div_eq_of_lt (by omega), Nat.zero_add]

/-- The whole inversion before the final unpadding slice. -/
theorem istft_run (h : StftValid lib tiny x a m w dw t) (th : ℝ) (hth : 0 < th) (ia : IstftArgs)
    (hn : orElse ia.nFft ((m / 2 + 1 - 1) * 2) = m) (hh : ia.hop = a.hop)
    (hmod : ia.modulated = a.modulated) (hN : ia.N = none ∨ ia.N = some x.length)
    (hwin : getWindow lib tiny ia.window (orElse ia.winLen m) (some m) = .ok w) :
    ∃ (S dS : List (List ℂ)) (Y xp : List ℝ) (N' : ℕ), stft lib tiny x a = .ok (m, S, dS) ∧
      S.length = (x.length - 1) / a.hop + 1 ∧
      N' = (if ia.N = none then a.hop * S.length else x.length) ∧ x.length ≤ N' ∧
      (∀ E, IsExtension t x E → ∀ (p : ℕ) (h : p < xp.length), xp[p] = E ((p : ℤ) - (m / 2 : ℕ))) ∧
      xp.length = x.length + m - 1 ∧
      istft lib tiny th (m / 2 + 1) S ia
        = .ok (pySlice Y (some ((m / 2 : ℕ) : ℤ)) (some (-(((m - 1) / 2 : ℕ) : ℤ)))) ∧
      Y.length = N' + m - 1 ∧
      (∀ p < Y.length, th < winNorm m a.hop S.length ia.winExp (fun r => w.getD r 0) p →
        Y.getD p 0 = xp.getD p 0) ∧
      (∀ p < Y.length, winNorm m a.hop S.length ia.winExp (fun r => w.getD r 0) p = 0 →
        Y.getD p 0 = 0) := by
  obtain ⟨xp, hl, hext, hrun⟩ := stft_run h
  have hx := h.hx
  have hm := h.hm
  have hhop := h.hhop
  have hwl := h.hw
  have hsub : xp.length - m = x.length - 1 := by omega
  set S := (winCols xp w m a.hop a.modulated).map rfftL with hS
  set dS := (winCols xp (if a.modulated then dw.map (· * a.fs) else dw) m a.hop a.modulated).map rfftL
  have hSl : S.length = (x.length - 1) / a.hop + 1 := by simp [hS, winCols, frames_length, hsub]
  set N' := orElse ia.N (ia.hop * S.length) with hN'
  have hN'e : N' = (if ia.N = none then a.hop * S.length else x.length) := by
    rcases hN with e | e
    · rw [hN', e, hh]; simp [orElse]
    · rw [hN', e]
      obtain ⟨k, hk⟩ := Nat.exists_eq_succ_of_ne_zero (show x.length ≠ 0 by omega)
      rw [hk]; simp [orElse]
  have hNle : x.length ≤ N' := by
    rw [hN'e]
    split
    · rw [hSl, Nat.mul_add, Nat.mul_one]
      have := Nat.div_add_mod (x.length - 1) a.hop
      have := Nat.mod_lt (x.length - 1) hhop
      omega
    · exact le_refl _
  have hcolsN : (N' - 1) / a.hop + 1 = S.length := by
    rw [hSl, hN'e]
    split
    · rw [hSl, hops_full hhop]
    · rfl
  set cols := winCols xp w m a.hop false with hcols
  have hcl : cols.length = S.length := by rw [hSl, hcols]; simp [winCols, frames_length, hsub]
  have hxbuf : (if ia.modulated then (S.map (irfftL m)).map fftshiftL else S.map (irfftL m)) = cols := by
    rw [hS, irfft_cols xp w m a.hop a.modulated hwl, hmod]
    exact shift_winCols xp w m a.hop a.modulated hwl
  have hb : ∀ j < cols.length, j * a.hop + m ≤ N' + m - 1 := by
    intro j hj
    have := frame_bound (L := xp.length) (seg := m) (h := a.hop) (i := j) (by omega)
      (by rw [hsub, ← hSl, ← hcl]; exact hj)
    omega
  have hwpow : (if ia.winExp = 0 then w.map (fun _ => (1 : ℝ))
      else if ia.winExp ≠ 1 then w.map (· ^ ia.winExp) else w) = w.map (· ^ ia.winExp) := by
    split
    · rename_i h0; rw [h0]; simp
    · split
      · rfl
      · rename_i h1; simp only [ne_eq, not_not] at h1; rw [h1]; simp
  obtain ⟨X, W, hX, hW, hXl, hWl, hXW, hWn⟩ := overlap_invariant xp w m a.hop ia.winExp (N' + m - 1)
    cols hwl (winCols_false xp w m a.hop hwl) hb _ hwpow
  obtain ⟨Y, hY, hYl, hYv, hYz⟩ := divByNorm_get th hth X W xp (N' + m - 1) (by omega) hXl hWl hXW
  refine ⟨S, dS, Y, xp, N', hrun, hSl, hN'e, hNle, hext, hl, ?_, hYl, ?_, ?_⟩
  · have hnola : checkNOLA w ia.hop = .ok () := by
      unfold checkNOLA
      split
      · rfl
      · rw [if_neg (by omega)]
    have hunb : unbuffer cols w ia.hop m N' ia.winExp = .ok X := by
      unfold unbuffer
      rw [if_neg (by simp [hwl]), hh]
      exact hX
    have hwn : windowNorm w ia.hop m N' ia.winExp = .ok W := by
      unfold windowNorm
      simp only [List.length_replicate]
      rw [hh, fdiv_hops (by omega) hhop m hm, hcolsN, ← hcl]
      simp only [show a.hop ≠ 0 by omega, if_false]
      exact hW
    unfold istft
    simp only [hn, hwin, hnola, ok_bind, show m ≠ 0 by omega, if_false, pure_eq_ok, hxbuf,
      ← hN', hunb, hwn, hY]
  · intro p hp hlt
    rw [hYl] at hp
    exact hYv p hp (by rw [hWn p hp, hcl]; exact hlt)
  · intro p hp h0
    rw [hYl] at hp
    exact hYz p hp (by rw [hWn p hp, hcl]; exact h0)

theorem pySlice_neg {α : Type} (l : List α) (s e : ℕ) (he : 0 < e) (hle : e ≤ l.length) :
    pySlice l (some (s : ℤ)) (some (-(e : ℤ))) = (l.drop s).take (l.length - e - s) := by
  unfold pySlice
  simp only [sliceBound]
  rw [if_neg (show ¬ ((s : ℤ) < 0) by omega), if_pos (show -(e : ℤ) < 0 by omega), Int.toNat_natCast]
  rw [show (-(e : ℤ) + l.length).toNat = l.length - e by omega]
  rcases Nat.lt_or_ge s l.length with h | h
  · rw [Nat.min_eq_left (by omega)]
  · rw [Nat.min_eq_right h, List.drop_of_length_le (le_refl _), List.drop_of_length_le h]; simp

/-- **C08 (what holds).** For every valid `stft` call with `n_fft ≥ 3` and an `istft` call with the
same prepared window, hop, FFT length and modulation (any window exponent; `N` given or not), the
inverse succeeds, has the right length, and equals `x` in exact arithmetic at every sample whose
window-power sum exceeds the float threshold `th`. Missing from the full property: `n_fft ≤ 2`
(C09) and "NOLA implies everywhere", which is false (`C08_nola_refuted`). -/
theorem C08_istft_stft_partial (h : StftValid lib tiny x a m w dw t) (hm3 : 3 ≤ m) (th : ℝ)
    (hth : 0 < th) (ia : IstftArgs)
    (hn : orElse ia.nFft ((m / 2 + 1 - 1) * 2) = m) (hh : ia.hop = a.hop)
    (hmod : ia.modulated = a.modulated) (hN : ia.N = none ∨ ia.N = some x.length)
    (hwin : getWindow lib tiny ia.window (orElse ia.winLen m) (some m) = .ok w) :
    ∃ S dS y, stft lib tiny x a = .ok (m, S, dS) ∧
      istft lib tiny th (m / 2 + 1) S ia = .ok y ∧
      y.length = (if ia.N = none then a.hop * ((x.length - 1) / a.hop + 1) else x.length) ∧
      x.length ≤ y.length ∧
      ∀ n (hn : n < x.length) (hn' : n < y.length),
        th < winNorm m a.hop ((x.length - 1) / a.hop + 1) ia.winExp (fun r => w.getD r 0) (n + m / 2) →
        y[n] = x[n] := by
  obtain ⟨S, dS, Y, xp, N', h1, h2, h3, h4, h5, h6, h7, h8, h9, -⟩ :=
    istft_run h th hth ia hn hh hmod hN hwin
  rw [pySlice_neg _ _ _ (by omega) (by omega)] at h7
  have hlen : ((Y.drop (m / 2)).take (Y.length - (m - 1) / 2 - m / 2)).length = N' := by
    simp; omega
  refine ⟨S, dS, _, h1, h7, by rw [hlen, h3, h2], by omega, ?_⟩
  intro n hnx hny hlt
  rw [hlen] at hny
  rw [List.getElem_take, List.getElem_drop]
  have hp : m / 2 + n < Y.length := by omega
  have := h9 (m / 2 + n) hp (by rw [h2, Nat.add_comm (m / 2)]; exact hlt)
  rw [getD_lt Y 0 hp, getD_lt xp 0 (by omega)] at this
  rw [this]
  obtain ⟨E, hE⟩ := exists_extension t x h.hx
  rw [h5 E hE _ (by omega), ← hE.1 n hnx]
  congr 1; push_cast; ring

/-- Positive windows: the window-power sum exceeds `th` at every sample of the signal as soon as
`hop ≤ ⌈n_fft/2⌉` and every tap to the power exceeds `th`. -/
theorem winNorm_pos (m hop N e : ℕ) (w : ℕ → ℝ) (th : ℝ) (hth : 0 < th) (hhop : 0 < hop)
    (hhop2 : hop ≤ (m + 1) / 2) (hw : ∀ r < m, th < w r ^ (e + 1)) (n : ℕ) (hn : n < N) :
    th < winNorm m hop ((N - 1) / hop + 1) e w (n + m / 2) := by
  unfold winNorm
  have hj : n / hop ∈ range ((N - 1) / hop + 1) := by
    rw [mem_range]
    have := Nat.div_le_div_right (c := hop) (show n ≤ N - 1 by omega)
    omega
  have h1 := Nat.div_mul_le_self n hop
  have h2 := Nat.div_add_mod n hop
  have h3 := Nat.mod_lt n hhop
  have h4 : hop * (n / hop) = n / hop * hop := Nat.mul_comm _ _
  have hin : n / hop * hop ≤ n + m / 2 ∧ n + m / 2 < n / hop * hop + m := by omega
  refine lt_of_lt_of_le (hw (n + m / 2 - n / hop * hop) (by omega)) ?_
  have := single_le_sum (s := range ((N - 1) / hop + 1))
    (f := fun j => if j * hop ≤ n + m / 2 ∧ n + m / 2 < j * hop + m
      then w (n + m / 2 - j * hop) ^ (e + 1) else 0)
    (fun j _ => by
      split
      · rename_i hj; exact le_of_lt (lt_trans hth (hw _ (by omega)))
      · exact le_refl _) hj
  simp only [hin, and_self, if_true] at this
  exact this

/-- **C08 (positive windows).** If moreover every tap of the window, to the power used, exceeds the
threshold and the hop is at most half the FFT length (rounded up), then `istft(stft(x), N=len(x))`
is exactly `x`. -/
theorem C08_positive_window (h : StftValid lib tiny x a m w dw t) (hm3 : 3 ≤ m) (th : ℝ)
    (hth : 0 < th) (ia : IstftArgs)
    (hn : orElse ia.nFft ((m / 2 + 1 - 1) * 2) = m) (hh : ia.hop = a.hop)
    (hmod : ia.modulated = a.modulated) (hN : ia.N = some x.length)
    (hwin : getWindow lib tiny ia.window (orElse ia.winLen m) (some m) = .ok w)
    (hhop2 : a.hop ≤ (m + 1) / 2) (hpos : ∀ r < m, th < w.getD r 0 ^ (ia.winExp + 1)) :
    ∃ S dS, stft lib tiny x a = .ok (m, S, dS) ∧ istft lib tiny th (m / 2 + 1) S ia = .ok x := by
  obtain ⟨S, dS, y, h1, h2, h3, h4, h5⟩ :=
    C08_istft_stft_partial h hm3 th hth ia hn hh hmod (Or.inr hN) hwin
  refine ⟨S, dS, h1, ?_⟩
  rw [h2]
  congr 1
  rw [hN] at h3
  simp only [reduceCtorEq, if_false] at h3
  apply List.ext_getElem h3
  intro n hny hnx
  exact h5 n hnx hny (winNorm_pos m a.hop x.length ia.winExp _ th hth h.hhop hhop2 hpos n hnx)

/-- Non-vacuity: a 3-tap positive window on four samples is inverted exactly. -/
example : ∃ S dS, stft onesLib 0 [1, 2, 3, 4] exArgs = .ok (3, S, dS) ∧
    istft onesLib 0 (1/2) 2 S { window := .arr [1, 2, 1], nFft := some 3, N := some 4 }
      = .ok [1, 2, 3, 4] := by
  refine C08_positive_window exValid (by norm_num) (1/2) (by norm_num) _ rfl rfl rfl rfl ?_
    (by simp [exArgs]) ?_
  · unfold getWindow getWindowRaw
    simp [orElse, zeroDenormals]
  · intro r hr
    interval_cases r <;> norm_num

/-- **C09.** Whatever is inverted, if the FFT length in effect is 1 or 2 and `istft` does not raise,
it returns no samples at all (`x[n_fft//2 : -0]`). -/
theorem C09_short_fft_empty_refuted (th : ℝ) (rows : ℕ) (S : List (List ℂ)) (ia : IstftArgs)
    (hn : orElse ia.nFft ((rows - 1) * 2) ≤ 2) (y : List ℝ)
    (hok : istft lib tiny th rows S ia = .ok y) : y = [] := by
  unfold istft at hok
  simp only [bind_eq_ok] at hok
  obtain ⟨wd, -, u, -, hok⟩ := hok
  split at hok
  · simp at hok
  simp only [bind_eq_ok] at hok
  obtain ⟨X, -, W, -, Y, -, hy⟩ := hok
  simp only [pure_eq_ok, Except.ok.injEq] at hy
  subst hy
  rw [show (orElse ia.nFft ((rows - 1) * 2) - 1) / 2 = 0 by omega]
  simp [pySlice, sliceBound]

/-- A call on which C09 fails: two bins, FFT length 2, four samples in, none out. -/
example : ∃ S dS, stft onesLib 0 [1, 2, 3, 4] { exArgs with window := .arr [1, 1], nFft := some 2 }
      = .ok (2, S, dS) ∧
    istft onesLib 0 (1/2) 2 S { window := .arr [1, 1], nFft := some 2, N := some 4 } = .ok [] := by
  have hv : StftValid onesLib 0 [1, 2, 3, 4] { exArgs with window := .arr [1, 1], nFft := some 2 } 2
      [1, 1] (zeroDenormals 0 (diffWindow [1, 1])) .reflect := by
    constructor
    · simp
    · simp [exArgs]
    · simp
    · rfl
    · unfold getWindowD getWindowRaw
      simp [stftWinLen, exArgs]
      simp [zeroDenormals]
    · rfl
    · rfl
    · simp
  obtain ⟨S, dS, Y, xp, N', h1, -, -, -, -, -, h7, -⟩ := istft_run hv (1/2) (by norm_num)
    { window := .arr [1, 1], nFft := some 2, N := some 4 } rfl rfl rfl (Or.inr rfl)
    (by unfold getWindow getWindowRaw; simp [orElse, zeroDenormals])
  refine ⟨S, dS, h1, ?_⟩
  rw [h7]
  congr 1
  simp [pySlice, sliceBound]

/-- **C09 (what holds).** For FFT lengths of 3 and more the inverse has the length asked for. -/
theorem C09_length_partial (h : StftValid lib tiny x a m w dw t) (hm3 : 3 ≤ m) (th : ℝ)
    (hth : 0 < th) (ia : IstftArgs)
    (hn : orElse ia.nFft ((m / 2 + 1 - 1) * 2) = m) (hh : ia.hop = a.hop)
    (hmod : ia.modulated = a.modulated) (hN : ia.N = some x.length)
    (hwin : getWindow lib tiny ia.window (orElse ia.winLen m) (some m) = .ok w) :
    ∃ S dS y, stft lib tiny x a = .ok (m, S, dS) ∧
      istft lib tiny th (m / 2 + 1) S ia = .ok y ∧ y.length = x.length := by
  obtain ⟨S, dS, y, h1, h2, h3, -⟩ :=
    C08_istft_stft_partial h hm3 th hth ia hn hh hmod (Or.inr hN) hwin
  exact ⟨S, dS, y, h1, h2, by rw [h3, hN]; simp⟩

/-- Samples that no window covers come out as zero. -/
theorem istft_uncovered_zero (h : StftValid lib tiny x a m w dw t) (hm3 : 3 ≤ m) (th : ℝ)
    (hth : 0 < th) (ia : IstftArgs)
    (hn : orElse ia.nFft ((m / 2 + 1 - 1) * 2) = m) (hh : ia.hop = a.hop)
    (hmod : ia.modulated = a.modulated) (hN : ia.N = none ∨ ia.N = some x.length)
    (hwin : getWindow lib tiny ia.window (orElse ia.winLen m) (some m) = .ok w) :
    ∃ S dS y, stft lib tiny x a = .ok (m, S, dS) ∧
      istft lib tiny th (m / 2 + 1) S ia = .ok y ∧
      ∀ n, n < x.length →
        winNorm m a.hop ((x.length - 1) / a.hop + 1) ia.winExp (fun r => w.getD r 0) (n + m / 2) = 0 →
        y[n]? = some 0 := by
  obtain ⟨S, dS, Y, xp, N', h1, h2, h3, h4, h5, h6, h7, h8, -, h9⟩ :=
    istft_run h th hth ia hn hh hmod hN hwin
  rw [pySlice_neg _ _ _ (by omega) (by omega)] at h7
  refine ⟨S, dS, _, h1, h7, ?_⟩
  intro n hnx h0
  have hp : m / 2 + n < Y.length := by omega
  rw [List.getElem?_eq_getElem (by simp; omega), List.getElem_take, List.getElem_drop]
  have := h9 (m / 2 + n) hp (by rw [h2, Nat.add_comm (m / 2)]; exact h0)
  rw [getD_lt Y 0 hp] at this
  rw [this]

/-- The non-zero-overlap-add condition `scipy.signal.check_NOLA` tests (tolerance 0): the squared
taps at distance a multiple of `hop` never all vanish. -/
def Spec.NOLA (m hop : ℕ) (w : ℕ → ℝ) : Prop :=
  ∀ q < hop, 0 < ∑ r ∈ range m, if r % hop = q then w r ^ 2 else 0

/-- The full statement of C08's last clause, for window exponent 1. -/
def C08_full : Prop :=
  ∀ (lib : WinLib) (tiny th : ℝ) (x : List ℝ) (a : StftArgs) (m : ℕ) (w dw : List ℝ) (t : PadType)
    (ia : IstftArgs), StftValid lib tiny x a m w dw t → 3 ≤ m → 0 < th → ia.nFft = some m →
    ia.hop = a.hop → ia.modulated = a.modulated → ia.N = some x.length → ia.winExp = 1 →
    getWindow lib tiny ia.window (orElse ia.winLen m) (some m) = .ok w →
    Spec.NOLA m a.hop (fun r => w.getD r 0) →
    ∃ S dS, stft lib tiny x a = .ok (m, S, dS) ∧ istft lib tiny th (m / 2 + 1) S ia = .ok x

/-- **"NOLA implies perfect inversion" is false of the code**: with a rectangular window of 4 taps
and hop 4 (NOLA holds) four samples produce a single frame, and the third and fourth sample come
back as zero. -/
theorem C08_nola_refuted : ¬ C08_full := by
  intro hfull
  set a : StftArgs := { window := .arr [1, 1, 1, 1], nFft := some 4, hop := 4 } with ha
  set ia : IstftArgs := { window := .arr [1, 1, 1, 1], nFft := some 4, hop := 4, N := some 4 } with hia
  have hv : StftValid onesLib 0 [1, 2, 3, 4] a 4 [1, 1, 1, 1]
      (zeroDenormals 0 (diffWindow [1, 1, 1, 1])) .reflect := by
    constructor
    · simp
    · simp [ha]
    · simp
    · rfl
    · unfold getWindowD getWindowRaw
      simp [stftWinLen, ha]
      simp [zeroDenormals]
    · rfl
    · rfl
    · simp
  have hw : getWindow onesLib 0 ia.window (orElse ia.winLen 4) (some 4) = .ok [1, 1, 1, 1] := by
    unfold getWindow getWindowRaw; simp [orElse, zeroDenormals, hia]
  obtain ⟨S, dS, h1, h2⟩ := hfull onesLib 0 (1/2) [1, 2, 3, 4] a 4 _ _ .reflect ia hv (by norm_num)
    (by norm_num) rfl rfl rfl rfl rfl hw (by
      intro q hq
      simp only [ha] at hq ⊢
      interval_cases q <;> norm_num [sum_range_succ])
  obtain ⟨S', dS', y, h1', h2', h3'⟩ := istft_uncovered_zero hv (by norm_num) (1/2) (by norm_num)
    ia rfl rfl rfl (Or.inr rfl) hw
  rw [h1] at h1'
  simp only [Except.ok.injEq, Prod.mk.injEq] at h1'
  obtain ⟨-, rfl, rfl⟩ := h1'
  rw [h2] at h2'
  simp only [Except.ok.injEq] at h2'
  subst h2'
  have := h3' 2 (by simp) (by norm_num [winNorm, ha])
  simp at this

end Ssq
