import Verif.Props.Istft

/-!
# Properties C10, C11: window preparation; C13: the concrete failure
-/
namespace Ssq
open Spec Finset

/-- The taps a window argument stands for: the array itself, or what the library returns for
`win_len` taps. -/
def Spec.taps (lib : WinLib) (winLen : ℕ) : WindowArg → Py (List ℝ)
  | .arr w => .ok w
  | .str s => lib.named s winLen
  | .none => lib.dpss winLen
  | .other => .error .valueError

/-- **C10 (what holds).** Whenever the taps are as many as announced (`win_len`, always so for named
and default windows) and `win_len ≤ n_fft`, the prepared window has exactly `n_fft` taps: the taps
preceded by `(n_fft - win_len)//2` zeros and followed by the remaining ones. Missing: an array whose
length is not `win_len` (only warned about), see the refutation. -/
theorem C10_get_window_partial (lib : WinLib) (window : WindowArg) (winLen m : ℕ) (w : List ℝ)
    (htaps : Spec.taps lib winLen window = .ok w) (hlen : w.length = winLen) (hle : winLen ≤ m) :
    ∃ out, getWindowRaw lib window winLen (some m) = .ok out ∧ out.length = m ∧
      out = List.replicate ((m - winLen) / 2) 0 ++ w
        ++ List.replicate (m - winLen - (m - winLen) / 2) 0 := by
  have hraw : getWindowRaw lib window winLen (some m) = .ok
      (if w.length < winLen + (m - winLen) / 2 + (m - winLen - (m - winLen) / 2) then
        List.replicate ((m - winLen) / 2) 0 ++ w ++ List.replicate (m - winLen - (m - winLen) / 2) 0
      else w) := by
    unfold getWindowRaw
    cases window <;> simp_all [Spec.taps]
  rw [hraw]
  refine ⟨_, rfl, ?_, ?_⟩
  · split
    · simp; omega
    · omega
  · split
    · rfl
    · rw [show m - winLen = 0 by omega]; simp

/-- **C10, final values.** The window returned is the centred one in which taps of modulus below `tiny` are
set to zero and all others are left as they are. -/
theorem C10_values_partial (lib : WinLib) (tiny : ℝ) (window : WindowArg) (winLen m : ℕ) (w : List ℝ)
    (htaps : Spec.taps lib winLen window = .ok w) (hlen : w.length = winLen) (hle : winLen ≤ m) :
    ∃ out, getWindow lib tiny window winLen (some m) = .ok out ∧ out.length = m ∧
      (∀ i < (m - winLen) / 2, out.getD i 0 = 0) ∧
      (∀ i, (m - winLen) / 2 + winLen ≤ i → i < m → out.getD i 0 = 0) ∧
      ∀ i (hi : i < w.length), (tiny ≤ |w[i]| → out.getD ((m - winLen) / 2 + i) 0 = w[i]) ∧
        (|w[i]| < tiny → out.getD ((m - winLen) / 2 + i) 0 = 0) := by
  obtain ⟨o, h1, h2, h3⟩ := C10_get_window_partial lib window winLen m w htaps hlen hle
  have hg : ∀ i (hi : i < o.length), (zeroDenormals tiny o).getD i 0 =
      if o[i] < tiny ∧ o[i] > -tiny then 0 else o[i] := by
    intro i hi
    rw [List.getD_eq_getElem _ _ (by simpa [zeroDenormals] using hi)]
    simp [zeroDenormals]
  refine ⟨zeroDenormals tiny o, by unfold getWindow; simp [h1], by simp [zeroDenormals, h2], ?_, ?_, ?_⟩
  · intro i hi
    rw [hg i (by omega)]
    have : o[i]'(by omega) = 0 := by
      simp only [h3]
      rw [List.getElem_append_left (by simp; omega), List.getElem_append_left (by simpa using hi)]
      simp
    rw [this]; simp
  · intro i hi hm
    rw [hg i (by omega)]
    have : o[i]'(by omega) = 0 := by
      simp only [h3]
      rw [List.getElem_append_right (by simp; omega)]
      simp
    rw [this]; simp
  · intro i hi
    rw [hg ((m - winLen) / 2 + i) (by omega)]
    have : o[(m - winLen) / 2 + i]'(by omega) = w[i] := by
      simp only [h3]
      rw [List.getElem_append_left (by simp; omega), List.getElem_append_right (by simp)]
      simp
    rw [this]
    constructor
    · intro h
      rw [if_neg]
      rintro ⟨ha, hb⟩
      exact absurd (abs_lt.mpr ⟨hb, ha⟩) (not_lt.mpr h)
    · intro h
      rw [if_pos ⟨(abs_lt.mp h).2, (abs_lt.mp h).1⟩]

example : Spec.taps onesLib 3 (.arr [1, 2, 1]) = .ok [1, 2, 1] ∧ [1, 2, 1].length = 3 ∧ 3 ≤ 6 := by
  simp [Spec.taps]

/-- **C10.** `win_len > n_fft` is rejected whatever the window. -/
theorem C10_too_long_rejected (lib : WinLib) (tiny : ℝ) (window : WindowArg) (winLen m : ℕ)
    (h : m < winLen) :
    getWindow lib tiny window winLen (some m) = .error .valueError ∧
    getWindowD lib tiny window winLen (some m) = .error .valueError := by
  have : getWindowRaw lib window winLen (some m) = .error .valueError := by
    unfold getWindowRaw
    simp [show winLen > m by omega]
  unfold getWindow getWindowD
  rw [this]; simp

/-- **C10 (exact length law).** For an array of any length the result has `n_fft` taps exactly when
its length is `win_len` or `n_fft`. -/
theorem C10_array_length_iff (lib : WinLib) (w : List ℝ) (winLen m : ℕ) (hle : winLen ≤ m) :
    ∃ out, getWindowRaw lib (.arr w) winLen (some m) = .ok out ∧
      (out.length = m ↔ w.length = winLen ∨ w.length = m) := by
  unfold getWindowRaw
  simp only [show ¬ winLen > m by omega, if_false, ok_bind, pure_eq_ok]
  refine ⟨_, rfl, ?_⟩
  split
  · simp; omega
  · omega

/-- **C10 is false of the code** for an array whose length differs from `win_len`: one tap with
`win_len = 3`, `n_fft = 5` gives 3 taps. -/
theorem C10_length_refuted (lib : WinLib) :
    getWindowRaw lib (.arr [1]) 3 (some 5) = .ok [0, 1, 0] := by
  unfold getWindowRaw
  simp

/-- **C10 (centring).** The centre tap `win_len//2` of the window lands on the centre `n_fft//2` of
the FFT frame, except when `n_fft` is even and `win_len` odd: then it lands one sample early. -/
theorem C10_centre (winLen m : ℕ) (hle : winLen ≤ m) :
    (m - winLen) / 2 + winLen / 2 = if m % 2 = 0 ∧ winLen % 2 = 1 then m / 2 - 1 else m / 2 := by
  split <;> omega

/-- **C11 is false of the code.** Take any valid `stft` call with an array window of fewer than
`n_fft` taps and no explicit `win_len`: `stft` succeeds, and `istft` of its result with the same
window and `n_fft` raises `ValueError`. -/
theorem C11_short_array_window_refuted {lib : WinLib} {tiny : ℝ} {x : List ℝ} {a : StftArgs} {m : ℕ}
    {w dw : List ℝ} {t : PadType} (h : StftValid lib tiny x a m w dw t) (u : List ℝ)
    (hu : a.window = .arr u) (hlen : u.length < m) (th : ℝ) (ia : IstftArgs)
    (hw : ia.window = a.window) (hwl : ia.winLen = none) (hn : ia.nFft = some m)
    (hh : ia.hop = a.hop) :
    ∃ S dS, stft lib tiny x a = .ok (m, S, dS) ∧
      istft lib tiny th (m / 2 + 1) S ia = .error .valueError := by
  obtain ⟨xp, hl, hext, hrun⟩ := stft_run h
  refine ⟨_, _, hrun, ?_⟩
  have hm := h.hm
  have hnf : orElse ia.nFft ((m / 2 + 1 - 1) * 2) = m := by
    rw [hn]
    obtain ⟨k, rfl⟩ := Nat.exists_eq_succ_of_ne_zero (show m ≠ 0 by omega)
    rfl
  have hwin : getWindow lib tiny ia.window (orElse ia.winLen m) (some m)
      = .ok (zeroDenormals tiny u) := by
    unfold getWindow getWindowRaw
    rw [hw, hu, hwl]
    simp [orElse, hlen]
  have hnola : checkNOLA (zeroDenormals tiny u) ia.hop = .ok () := by
    unfold checkNOLA
    have := h.hhop
    split
    · rfl
    · rw [if_neg (by omega)]
  unfold istft
  simp only [hnf, hwin, hnola, ok_bind, show m ≠ 0 by omega, if_false, pure_eq_ok]
  unfold unbuffer
  rw [if_pos (by rw [length_zeroDenormals]; omega)]
  rfl

/-- The refutation's hypotheses are met: 3 taps, `n_fft = 4`. -/
example : StftValid onesLib 0 [1, 2, 3, 4] { exArgs with nFft := some 4 } 4 [1, 2, 1, 0]
    (zeroDenormals 0 (diffWindow [1, 2, 1, 0])) .reflect := by
  constructor
  · simp
  · simp [exArgs]
  · simp
  · rfl
  · unfold getWindowD getWindowRaw
    simp [stftWinLen, exArgs]
    simp [zeroDenormals]
  · rfl
  · rfl
  · simp

/-- **C11 (what holds).** If `istft` is called with the window, hop, FFT length and the *window
length in effect* of a successful `stft` call, it succeeds. -/
theorem C11_same_window_length_partial {lib : WinLib} {tiny : ℝ} {x : List ℝ} {a : StftArgs} {m : ℕ}
    {w dw : List ℝ} {t : PadType} (h : StftValid lib tiny x a m w dw t) (th : ℝ) (hth : 0 < th)
    (ia : IstftArgs) (hn : ia.nFft = some m) (hh : ia.hop = a.hop)
    (hmod : ia.modulated = a.modulated) (hN : ia.N = none ∨ ia.N = some x.length)
    (hw : ia.window = a.window) (hwl : orElse ia.winLen m = stftWinLen m a) :
    ∃ S dS y, stft lib tiny x a = .ok (m, S, dS) ∧ istft lib tiny th (m / 2 + 1) S ia = .ok y := by
  have hm := h.hm
  have hnf : orElse ia.nFft ((m / 2 + 1 - 1) * 2) = m := by
    rw [hn]
    obtain ⟨k, rfl⟩ := Nat.exists_eq_succ_of_ne_zero (show m ≠ 0 by omega)
    rfl
  have hwin : getWindow lib tiny ia.window (orElse ia.winLen m) (some m) = .ok w := by
    have h1 := h.hwin
    rw [hw, hwl]
    unfold getWindowD at h1
    unfold getWindow
    rw [bind_eq_ok] at h1 ⊢
    obtain ⟨r, hr, h2⟩ := h1
    simp only [pure_eq_ok, Except.ok.injEq, Prod.mk.injEq] at h2
    exact ⟨r, hr, by simp [h2.1]⟩
  obtain ⟨S, dS, Y, xp, N', h1, -, -, -, -, -, h7, -⟩ :=
    istft_run h th hth ia hnf hh hmod hN hwin
  exact ⟨S, dS, _, h1, h7⟩

example : orElse (none : Option ℕ) 3 = stftWinLen 3 exArgs := rfl

/-! ### C13: a concrete call whose derivative is not zero -/

theorem tw4 (j : ℤ) : tw 4 (4 * j) = 1 ∧ tw 4 (4 * j + 1) = Complex.I ∧ tw 4 (4 * j + 2) = -1
    ∧ tw 4 (4 * j + 3) = -Complex.I := by
  have h1 : tw 4 1 = Complex.I := by
    unfold tw
    rw [show (2 * Real.pi * Complex.I * ((1 : ℤ) : ℂ) / ((4 : ℕ) : ℂ) : ℂ)
      = (Real.pi / 2 : ℂ) * Complex.I by push_cast; ring, Complex.exp_pi_div_two_mul_I]
  have h0 : tw 4 (4 * j) = 1 := by
    have := tw_mul_n (n := 4) (by norm_num) j
    exact_mod_cast this
  refine ⟨h0, ?_, ?_, ?_⟩
  · rw [tw_add, h0, h1, one_mul]
  · rw [tw_add, h0, one_mul, show (2 : ℤ) = 1 + 1 by norm_num, tw_add, h1, Complex.I_mul_I]
  · rw [tw_add, h0, one_mul, show (3 : ℤ) = 1 + 1 + 1 by norm_num, tw_add, tw_add, h1,
      Complex.I_mul_I]; ring

theorem xifn4 : xifn 1 4 = [0, Real.pi / 2, Real.pi, -(Real.pi / 2)] := by
  simp only [xifn, writeLoop]
  simp [List.range_succ, List.replicate]
  refine ⟨by ring, by ring, by ring⟩

theorem diffWindow_delta : diffWindow [1, 0, 0, 0] = [0, -(Real.pi / 4), 0, Real.pi / 4] := by
  have d : ∀ k : ℕ, dft 4 (fun i => (([1, 0, 0, 0] : List ℝ).getD i 0 : ℂ)) k = 1 := by
    intro k
    simp [dft, sum_range_succ]
  unfold diffWindow
  simp only [List.length_cons, List.length_nil, Nat.zero_add, Nat.reduceAdd, xifn4]
  simp only [if_true, Nat.reduceDiv, List.set_cons_succ, List.set_cons_zero]
  have h := tw4
  have t0 : tw 4 1 = Complex.I := by simpa using (h 0).2.1
  have t2 : tw 4 2 = -1 := by simpa using (h 0).2.2.1
  have t3 : tw 4 3 = -Complex.I := by simpa using (h 0).2.2.2
  have t6 : tw 4 6 = -1 := by simpa using (h 1).2.2.1
  have t9 : tw 4 9 = Complex.I := by simpa using (h 2).2.1
  simp only [d]
  simp only [List.range_succ, List.range_zero, List.nil_append, List.map_cons,
    List.map_nil, List.cons_append]
  unfold idft
  simp only [sum_range_succ, sum_range_zero]
  norm_num [t0, t2, t3, t6, t9]
  ring

/-- The full statement of C13: whatever the flags, the derivative scales linearly with `fs`. -/
def C13_full : Prop :=
  ∀ (lib : WinLib) (tiny : ℝ) (x : List ℝ) (a : StftArgs) (m : ℕ) (w dw : List ℝ) (t : PadType)
    (f : ℝ), StftValid lib tiny x a m w dw t →
    ∃ S dS1 dSf, stft lib tiny x { a with fs := 1 } = .ok (m, S, dS1) ∧
      stft lib tiny x { a with fs := f } = .ok (m, S, dSf) ∧
      ∀ j k : ℕ, (dSf.getD j []).getD k 0 = f * (dS1.getD j []).getD k 0

/-- **C13 is false of the code** when `modulated=False`: an impulse seen through a 4-tap window has a
non-zero derivative coefficient, and it is the same for `fs = 1` and `fs = 2`. -/
theorem C13_unmodulated_refuted : ¬ C13_full := by
  intro hfull
  set a : StftArgs := { window := .arr [1, 0, 0, 0], nFft := some 4, modulated := false } with ha
  have hv : StftValid onesLib 0 [1, 0, 0, 0, 0] a 4 [1, 0, 0, 0]
      [0, -(Real.pi / 4), 0, Real.pi / 4] .reflect := by
    constructor
    · simp
    · simp [ha]
    · simp
    · rfl
    · unfold getWindowD getWindowRaw
      simp only [stftWinLen, ha, List.length_cons, List.length_nil]
      simp [diffWindow_delta]
      simp [zeroDenormals]
      constructor <;> intro h1 <;> have := Real.pi_pos <;> linarith
    · rfl
    · rfl
    · simp
  obtain ⟨S, d1, d2, h1, h2, h3⟩ := hfull onesLib 0 _ a 4 _ _ .reflect 2 hv
  rw [C13_unmodulated_ignores_fs_refuted hv rfl 2 1, h1] at h2
  simp only [Except.ok.injEq, Prod.mk.injEq, true_and] at h2
  subst h2
  obtain ⟨E, hE⟩ := exists_extension .reflect ([1, 0, 0, 0, 0] : List ℝ) (by simp)
  obtain ⟨S', dS, e, -, l, -, hd⟩ := C07_stft_entries (validFs hv 1) E hE
  rw [h1] at e
  simp only [Except.ok.injEq, Prod.mk.injEq, true_and] at e
  obtain ⟨rfl, rfl⟩ := e
  have hl : d1.length = 5 := by rw [l]; simp [ha]
  have h4 := (hd 1 (by omega)).2 0 (by norm_num)
  have hE0 : E 0 = 1 := hE.1 0 (by simp)
  have hE1 : E 1 = 0 := hE.1 1 (by simp)
  have hE2 : E 2 = 0 := hE.1 2 (by simp)
  have hEm : E (-1) = 0 := by rw [hE.2.1]; exact hE1
  have hval : d1[1].getD 0 0 = ((-(Real.pi / 4) : ℝ) : ℂ) := by
    rw [h4]
    unfold Spec.stft
    simp only [sum_range_succ, sum_range_zero, ha]
    norm_num [hE0, hE1, hE2, hEm]
  have h5 := h3 1 0
  rw [getD_lt d1 [] (by omega), hval] at h5
  have h6 : (-(Real.pi / 4) : ℝ) = 2 * (-(Real.pi / 4)) := by exact_mod_cast h5
  have := Real.pi_pos
  linarith

end Ssq
