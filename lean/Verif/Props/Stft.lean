import Verif.Lemmas.Stft

/-!
# Properties C07–C13: the STFT and its inverse
-/
namespace Ssq
open Spec Finset

/-- A valid `stft` call on `x`: non-empty signal, positive hop, `m` the FFT length in effect, `w`
and `dw` the prepared window and its derivative (both of `m` taps), `t` the padding scheme; for
`'symmetric'` the guard that C02 shows to be necessary. -/
structure StftValid (lib : WinLib) (tiny : ℝ) (x : List ℝ) (a : StftArgs) (m : ℕ)
    (w dw : List ℝ) (t : PadType) : Prop where
  hx : 0 < x.length
  hhop : 0 < a.hop
  hm : 0 < m
  hnfft : stftNfft x.length a = .ok m
  hwin : getWindowD lib tiny a.window (stftWinLen m a) (some m) = .ok (w, dw)
  hw : w.length = m
  hpad : a.padtype = padName t
  hsym : t = .symmetric → 2 ≤ m ∧ m ≤ 2 * x.length + 1

variable {lib : WinLib} {tiny : ℝ} {x : List ℝ} {a : StftArgs} {m : ℕ} {w dw : List ℝ} {t : PadType}

theorem StftValid.hdw (h : StftValid lib tiny x a m w dw t) :
    dw.length = m := by
  have h1 := h.hwin
  unfold getWindowD at h1
  cases hraw : getWindowRaw lib a.window (stftWinLen m a) (some m) with
  | error e => rw [hraw] at h1; simp at h1
  | ok r =>
    rw [hraw] at h1
    simp only [ok_bind, pure_eq_ok, Except.ok.injEq, Prod.mk.injEq] at h1
    obtain ⟨h2, h3⟩ := h1
    rw [← h3, length_zeroDenormals, length_diffWindow]
    have := h.hw
    rw [← h2, length_zeroDenormals] at this
    exact this

theorem stft_run (h : StftValid lib tiny x a m w dw t) :
    ∃ xp : List ℝ, xp.length = x.length + m - 1 ∧
      (∀ E, IsExtension t x E → ∀ (p : ℕ) (h : p < xp.length), xp[p] = E ((p : ℤ) - (m / 2 : ℕ))) ∧
      stft lib tiny x a = .ok (m, (winCols xp w m a.hop a.modulated).map rfftL,
        (winCols xp (if a.modulated then dw.map (· * a.fs) else dw) m a.hop a.modulated).map rfftL) := by
  have hx := h.hx
  have hm := h.hm
  obtain ⟨xp, nUp, n1, n2, h1, h2, h3, h4, h5, h6, -, h8⟩ :=
    C02_C03_padding_partial x t (some ((x.length : ℤ) + m - 1)) hx
      (by intro L hL; simp only [Option.some.injEq] at hL; omega)
      (by intro ht L hL; simp only [Option.some.injEq] at hL; have := h.hsym ht; omega)
  have hUp := h2 _ rfl
  have hlen : xp.length = x.length + m - 1 := by omega
  have hn1 : n1 = ((m / 2 : ℕ) : ℤ) := by omega
  refine ⟨xp, hlen, ?_, ?_⟩
  · intro E hE p hp
    rw [h8 E hE p hp, hn1]
  · have hnola : checkNOLA w a.hop = .ok () := by
      unfold checkNOLA
      have := h.hhop
      split
      · rfl
      · rw [if_neg (by omega)]
    unfold stft
    simp only [h.hnfft, ok_bind, h.hwin, hnola, h.hpad, h1,
      stftCore_ok xp w dw m a.hop a.fs a.modulated h.hhop hm (by omega) h.hw h.hdw, pure_eq_ok]

/-- **C07.** Every valid call returns `(N-1)//hop + 1` columns of `n_fft//2 + 1` bins, and the entry
at bin `k`, hop `j` is the STFT coefficient of the specification: window tap `r` multiplies the
(extended) signal at `j*hop + r - n_fft//2`, so the centre tap multiplies `x[j*hop]`. The same holds
for the derivative with the differentiated window (times `fs` in the modulated variant). -/
theorem C07_stft_entries (h : StftValid lib tiny x a m w dw t)
    (E : ℤ → ℝ) (hE : IsExtension t x E) :
    ∃ S dS, stft lib tiny x a = .ok (m, S, dS) ∧
      S.length = (x.length - 1) / a.hop + 1 ∧ dS.length = (x.length - 1) / a.hop + 1 ∧
      (∀ j (hj : j < S.length), S[j].length = m / 2 + 1 ∧ ∀ k, k < m / 2 + 1 →
        S[j].getD k 0 = Spec.stft m a.hop (fun r => w.getD r 0) E a.modulated k j) ∧
      (∀ j (hj : j < dS.length), dS[j].length = m / 2 + 1 ∧ ∀ k, k < m / 2 + 1 →
        dS[j].getD k 0 = Spec.stft m a.hop
          (fun r => (if a.modulated then a.fs else 1) * dw.getD r 0) E a.modulated k j) := by
  obtain ⟨xp, hl, hext, hrun⟩ := stft_run h
  have hm := h.hm
  have hx := h.hx
  have hsub : xp.length - m = x.length - 1 := by omega
  refine ⟨_, _, hrun, by simp [winCols, frames_length, hsub], by simp [winCols, frames_length, hsub],
    ?_, ?_⟩
  · intro j hj
    exact rfft_winCols xp w m a.hop a.modulated (by omega) hm h.hw _ rfl E (hext E hE) j hj
  · intro j hj
    have hl' : (if a.modulated then dw.map (· * a.fs) else dw).length = m := by
      cases a.modulated <;> simp [h.hdw]
    obtain ⟨h1, h2⟩ := rfft_winCols xp (if a.modulated then dw.map (· * a.fs) else dw) m a.hop
      a.modulated (by omega) hm hl' _ rfl E (hext E hE) j hj
    refine ⟨h1, fun k hk => ?_⟩
    rw [h2 k hk]
    unfold Spec.stft
    refine sum_congr rfl fun r hr => ?_
    have hr := mem_range.1 hr
    congr 4
    have hrd : r < dw.length := by rw [h.hdw]; exact hr
    cases hb : a.modulated
    · simp
    · simp only [if_true]
      rw [getD_lt _ _ (by simpa using hrd), getD_lt _ _ hrd, List.getElem_map, mul_comm]

/-- **C07, FFT length.** The FFT length is the one asked for; with none (or 0) it is `len(x) // hop_len`, at most 512. -/
theorem C07_fft_length {n : ℕ} {S dS : List (List ℂ)} (h : stft lib tiny x a = .ok (n, S, dS)) :
    (∀ k, a.nFft = some k → k ≠ 0 → n = k) ∧ (a.nFft = none ∨ a.nFft = some 0 → n = min (x.length / a.hop) 512) := by
  unfold stft at h
  simp only [bind_eq_ok] at h
  obtain ⟨m, h1, wd, -, u, -, p, -, s, -, h2⟩ := h
  simp only [pure_eq_ok, Except.ok.injEq, Prod.mk.injEq] at h2
  obtain ⟨rfl, -, -⟩ := h2
  unfold stftNfft at h1
  constructor
  · intro k hk hk0
    obtain ⟨j, rfl⟩ := Nat.exists_eq_succ_of_ne_zero hk0
    rw [hk] at h1
    simpa using h1.symm
  · rintro (hk | hk) <;> rw [hk] at h1 <;> simp only at h1 <;> split at h1 <;> simp at h1 <;> exact h1.symm

/-- **C07, the centre tap.** With a window that is 1 at its centre `n_fft//2` and 0 elsewhere, every entry of column `j` of the
modulated transform is the sample `x[j*hop_len]` itself; for the unmodulated one it is that sample times a phase. -/
theorem C07_centre_tap (h : StftValid lib tiny x a m w dw t)
    (hw : ∀ r < m, w.getD r 0 = if r = m / 2 then 1 else 0) :
    ∃ S dS, stft lib tiny x a = .ok (m, S, dS) ∧ S.length = (x.length - 1) / a.hop + 1 ∧
      ∀ j (hj : j < S.length), j * a.hop < x.length ∧ ∀ k < m / 2 + 1,
        (a.modulated = true → S[j].getD k 0 = ((x.getD (j * a.hop) 0 : ℝ) : ℂ)) ∧
        ‖S[j].getD k 0‖ = |x.getD (j * a.hop) 0| := by
  obtain ⟨E, hE⟩ := exists_extension t x h.hx
  obtain ⟨S, dS, h1, h2, -, h4, -⟩ := C07_stft_entries h E hE
  refine ⟨S, dS, h1, h2, fun j hj => ?_⟩
  have hx := h.hx
  have hm := h.hm
  have hjl : j * a.hop < x.length := by
    have : j ≤ (x.length - 1) / a.hop := by omega
    have := (Nat.le_div_iff_mul_le h.hhop).1 this
    omega
  refine ⟨hjl, fun k hk => ?_⟩
  have key : S[j].getD k 0 = ((x.getD (j * a.hop) 0 : ℝ) : ℂ) *
      Complex.exp (-(2 * Real.pi * Complex.I * k * (((m / 2 : ℕ) : ℂ) - (if a.modulated then ((m / 2 : ℕ) : ℂ) else 0)) / m)) := by
    rw [(h4 j hj).2 k hk]
    unfold Spec.stft
    rw [sum_eq_single (m / 2)]
    · simp only []
      rw [hw _ (by omega), if_pos rfl, one_mul, add_sub_cancel_right,
        List.getD_eq_getElem _ _ hjl, ← hE.1 _ hjl]
      push_cast
      rfl
    · intro r hr hne
      simp only []
      rw [hw r (mem_range.1 hr), if_neg hne]
      simp
    · intro hne
      exact (hne (mem_range.2 (by omega))).elim
  rw [key]
  constructor
  · intro hmod
    simp [hmod]
  · rw [norm_mul, Complex.norm_real, Real.norm_eq_abs]
    have : -(2 * Real.pi * Complex.I * k * (((m / 2 : ℕ) : ℂ) - (if a.modulated then ((m / 2 : ℕ) : ℂ) else 0)) / m) =
        ((-(2 * Real.pi * k * (((m / 2 : ℕ) : ℝ) - (if a.modulated then ((m / 2 : ℕ) : ℝ) else 0)) / m) : ℝ) : ℂ) * Complex.I := by
      split_ifs <;> push_cast <;> ring
    rw [this, Complex.norm_exp_ofReal_mul_I, mul_one]

/-- A library of windows for the examples: `ones`. -/
def onesLib : WinLib := ⟨fun _ n => .ok (List.replicate n 1), fun n => .ok (List.replicate n 1)⟩

/-- Arguments used in the examples: an explicit 3-tap window, FFT length 3, hop 1. -/
def exArgs : StftArgs := { window := .arr [1, 2, 1], nFft := some 3 }

theorem exValid : StftValid onesLib 0 [1, 2, 3, 4] exArgs 3 [1, 2, 1]
    (zeroDenormals 0 (diffWindow [1, 2, 1])) .reflect where
  hx := by simp
  hhop := by simp [exArgs]
  hm := by simp
  hnfft := rfl
  hwin := by
    unfold getWindowD getWindowRaw
    simp [exArgs, stftWinLen]
    simp [zeroDenormals]
  hw := rfl
  hpad := rfl
  hsym := by simp

/-- Non-vacuity of C07, C08, C12. -/
example : ∃ E, IsExtension .reflect ([1, 2, 3, 4] : List ℝ) E ∧
    ∃ S dS, stft onesLib 0 [1, 2, 3, 4] exArgs = .ok (3, S, dS) ∧ S.length = 4 := by
  obtain ⟨E, hE⟩ := exists_extension .reflect ([1, 2, 3, 4] : List ℝ) (by simp)
  obtain ⟨S, dS, h1, h2, -⟩ := C07_stft_entries exValid E hE
  exact ⟨E, hE, S, dS, h1, by simpa [exArgs] using h2⟩

/-- Non-vacuity of `C07_centre_tap`: the second column holds the second sample. -/
example : ∃ S dS, stft onesLib 0 [1, 2, 3, 4] { window := .arr [0, 1, 0], nFft := some 3 } = .ok (3, S, dS) ∧
    (S.getD 1 []).getD 1 0 = 2 := by
  have hv : StftValid onesLib 0 [1, 2, 3, 4] { window := .arr [0, 1, 0], nFft := some 3 } 3 [0, 1, 0]
      (zeroDenormals 0 (diffWindow [0, 1, 0])) .reflect := by
    constructor
    · simp
    · simp
    · simp
    · rfl
    · unfold getWindowD getWindowRaw
      simp [stftWinLen]
      simp [zeroDenormals]
    · rfl
    · rfl
    · simp
  obtain ⟨S, dS, h1, h2, h3⟩ := C07_centre_tap hv (by
    intro r hr
    have : r = 0 ∨ r = 1 ∨ r = 2 := by omega
    rcases this with rfl | rfl | rfl <;> simp)
  have hS : S.length = 4 := by simpa using h2
  refine ⟨S, dS, h1, ?_⟩
  have := ((h3 1 (by omega)).2 1 (by norm_num)).1 rfl
  rw [List.getD_eq_getElem S _ (by omega : 1 < S.length), this]
  simp

/-- Non-vacuity of `C07_fft_length`: four samples, no `n_fft`. -/
example : ∃ S dS, stft onesLib 0 [1, 2, 3, 4] { window := .arr [1, 2, 1, 1] } = .ok (4, S, dS) := by
  have hv : StftValid onesLib 0 [1, 2, 3, 4] { window := .arr [1, 2, 1, 1] } 4 [1, 2, 1, 1] (zeroDenormals 0 (diffWindow [1, 2, 1, 1])) .reflect := by
    constructor
    · simp
    · simp
    · simp
    · rfl
    · unfold getWindowD getWindowRaw
      simp [stftWinLen]
      simp [zeroDenormals]
    · rfl
    · rfl
    · simp
  obtain ⟨E, hE⟩ := exists_extension .reflect ([1, 2, 3, 4] : List ℝ) (by simp)
  obtain ⟨S, dS, h1, -⟩ := C07_stft_entries hv E hE
  exact ⟨S, dS, h1⟩

/-- **C12.** For every call, toggling `modulated` multiplies bin `k` of every frame by
`exp(2πi·k·(n_fft//2)/n_fft)`; magnitudes agree. -/
theorem C12_modulation_phase
    (h0 : StftValid lib tiny x { a with modulated := false } m w dw t)
    (h1 : StftValid lib tiny x { a with modulated := true } m w dw t) :
    ∃ S0 S1 dS0 dS1, stft lib tiny x { a with modulated := false } = .ok (m, S0, dS0) ∧
      stft lib tiny x { a with modulated := true } = .ok (m, S1, dS1) ∧
      S0.length = S1.length ∧
      ∀ j (hj0 : j < S0.length) (hj1 : j < S1.length), ∀ k, k < m / 2 + 1 →
        S1[j].getD k 0 = Complex.exp (2 * Real.pi * Complex.I * k * (m / 2 : ℕ) / m) * S0[j].getD k 0 ∧
        ‖S1[j].getD k 0‖ = ‖S0[j].getD k 0‖ := by
  obtain ⟨E, hE⟩ := exists_extension t x h0.hx
  obtain ⟨S0, dS0, e0, l0, _, c0, _⟩ := C07_stft_entries h0 E hE
  obtain ⟨S1, dS1, e1, l1, _, c1, _⟩ := C07_stft_entries h1 E hE
  refine ⟨S0, S1, dS0, dS1, e0, e1, by simp [l0, l1], ?_⟩
  intro j hj0 hj1 k hk
  have key : S1[j].getD k 0
      = Complex.exp (2 * Real.pi * Complex.I * k * (m / 2 : ℕ) / m) * S0[j].getD k 0 := by
    rw [(c0 j hj0).2 k hk, (c1 j hj1).2 k hk]
    unfold Spec.stft
    rw [mul_sum]
    refine sum_congr rfl fun r _ => ?_
    simp only [Bool.false_eq_true, if_false, if_true]
    rw [mul_left_comm, ← Complex.exp_add]
    congr 2
    ring
  refine ⟨key, ?_⟩
  rw [key, norm_mul]
  have : (2 * Real.pi * Complex.I * k * (m / 2 : ℕ) / m : ℂ)
      = ((2 * Real.pi * k * (m / 2 : ℕ) / m : ℝ) : ℂ) * Complex.I := by push_cast; ring
  rw [this, Complex.norm_exp_ofReal_mul_I, one_mul]

theorem validToggle (h : StftValid lib tiny x a m w dw t) (b : Bool) :
    StftValid lib tiny x { a with modulated := b } m w dw t where
  hx := h.hx
  hhop := h.hhop
  hm := h.hm
  hnfft := by have := h.hnfft; unfold stftNfft at this ⊢; exact this
  hwin := by
    have := h.hwin
    have e : stftWinLen m { a with modulated := b } = stftWinLen m a := rfl
    rw [e]; exact this
  hw := h.hw
  hpad := h.hpad
  hsym := h.hsym

/-- The hypotheses of C12 are met together. -/
example : StftValid onesLib 0 [1, 2, 3, 4] { exArgs with modulated := false } 3 [1, 2, 1]
      (zeroDenormals 0 (diffWindow [1, 2, 1])) .reflect ∧
    StftValid onesLib 0 [1, 2, 3, 4] { exArgs with modulated := true } 3 [1, 2, 1]
      (zeroDenormals 0 (diffWindow [1, 2, 1])) .reflect :=
  ⟨validToggle exValid false, validToggle exValid true⟩

theorem validFs (h : StftValid lib tiny x a m w dw t) (f : ℝ) :
    StftValid lib tiny x { a with fs := f } m w dw t where
  hx := h.hx
  hhop := h.hhop
  hm := h.hm
  hnfft := by have := h.hnfft; unfold stftNfft at this ⊢; exact this
  hwin := by
    have := h.hwin
    have e : stftWinLen m { a with fs := f } = stftWinLen m a := rfl
    rw [e]; exact this
  hw := h.hw
  hpad := h.hpad
  hsym := h.hsym

/-- **C13 (modulated case).** The derivative returned with sampling frequency `f` is `f` times the
one returned with sampling frequency 1; the transform itself does not change. Missing for the full
property: `modulated=False`, where it is false (next theorem). -/
theorem C13_derivative_units_partial
    (h : StftValid lib tiny x a m w dw t) (hmod : a.modulated = true) (f : ℝ) :
    ∃ S dS1 dSf, stft lib tiny x { a with fs := 1 } = .ok (m, S, dS1) ∧
      stft lib tiny x { a with fs := f } = .ok (m, S, dSf) ∧ dS1.length = dSf.length ∧
      ∀ j (h1 : j < dS1.length) (h2 : j < dSf.length) (k : ℕ), k < m / 2 + 1 →
        dSf[j].getD k 0 = f * dS1[j].getD k 0 := by
  obtain ⟨E, hE⟩ := exists_extension t x h.hx
  obtain ⟨S1, dS1, e1, l1, m1, c1, d1⟩ := C07_stft_entries (validFs h 1) E hE
  obtain ⟨Sf, dSf, ef, lf, mf, cf, df⟩ := C07_stft_entries (validFs h f) E hE
  have hS : S1 = Sf := by
    apply List.ext_getElem (by rw [l1, lf])
    intro j h1 h2
    apply List.ext_getElem (by rw [(c1 j h1).1, (cf j h2).1])
    intro k hk1 hk2
    rw [← getD_lt _ 0 hk1, ← getD_lt _ 0 hk2, (c1 j h1).2 k (by rw [(c1 j h1).1] at hk1; exact hk1),
      (cf j h2).2 k (by rw [(c1 j h1).1] at hk1; exact hk1)]
  subst hS
  refine ⟨S1, dS1, dSf, e1, ef, by rw [m1, mf], ?_⟩
  intro j h1 h2 k hk
  rw [(d1 j h1).2 k hk, (df j h2).2 k hk]
  unfold Spec.stft
  rw [mul_sum]
  refine sum_congr rfl fun r _ => ?_
  simp only [hmod, if_true]
  push_cast
  ring

/-- **C13 is false for `modulated=False`**: the derivative does not depend on `fs` at all. -/
theorem C13_unmodulated_ignores_fs_refuted
    (h : StftValid lib tiny x a m w dw t) (hmod : a.modulated = false) (f g : ℝ) :
    stft lib tiny x { a with fs := f } = stft lib tiny x { a with fs := g } := by
  unfold stft
  have e1 : ∀ f', stftNfft x.length { a with fs := f' } = .ok m := fun f' => by
    have := h.hnfft; unfold stftNfft at this ⊢; exact this
  simp only [e1, ok_bind, stftWinLen]
  unfold stftCore
  simp only [hmod, Bool.false_eq_true, if_false]

end Ssq
