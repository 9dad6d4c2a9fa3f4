import Verif.Props.Squeeze
import Verif.Props.Phase

/-!
# C163: what small changes of the transform do to the phase, the rows and the column sums
-/
namespace Ssq
open Finset

/-- The quotient of two perturbed numbers. -/
theorem div_perturb {W V dW dV : ℂ} {e e' g : ℝ} (hg : 0 < g) (hW : W ≠ 0) (hV : g ≤ ‖V‖) (he : ‖V - W‖ ≤ e) (he' : ‖dV - dW‖ ≤ e') :
    |(dV / V).im - (dW / W).im| ≤ (e' + ‖dW / W‖ * e) / g := by
  have hV0 : V ≠ 0 := norm_pos_iff.1 (lt_of_lt_of_le hg hV)
  rw [← Complex.sub_im]
  refine (Complex.abs_im_le_norm _).trans ?_
  have e1 : dV / V - dW / W = ((dV - dW) - dW / W * (V - W)) / V := by field_simp; ring
  rw [e1, norm_div]
  have e2 : ‖(dV - dW) - dW / W * (V - W)‖ ≤ e' + ‖dW / W‖ * e := by
    refine (norm_sub_le _ _).trans ?_
    rw [norm_mul]
    have := mul_le_mul_of_nonneg_left he (norm_nonneg (dW / W))
    linarith
  exact div_le_div₀ ((norm_nonneg _).trans e2) e2 hg hV

/-- **C163, phases.** Let a cell of the transform change by at most `e` and of its derivative by at most `e'`. If its magnitude is at least `gamma + e`, it is kept before and after, and its
frequency changes by at most `(e' + |dWx / Wx| e) / (2π gamma)`; if it is less than `gamma - e`, it is dropped before and after. -/
theorem C163_phase (gamma : ℝ) (hg : 0 < gamma) (Wx dWx Vx dVx : ℕ → ℕ → ℂ) (Sfs : ℕ → ℝ) (i j : ℕ) (e e' : ℝ)
    (he : ‖Vx i j - Wx i j‖ ≤ e) (he' : ‖dVx i j - dWx i j‖ ≤ e') :
    (gamma + e ≤ ‖Wx i j‖ →
      (∃ f f', phaseCwt gamma Wx dWx i j = .fin f ∧ phaseCwt gamma Vx dVx i j = .fin f' ∧ |f' - f| ≤ (e' + ‖dWx i j / Wx i j‖ * e) / (2 * Real.pi * gamma)) ∧
      ∃ f f', phaseStft gamma Sfs Wx dWx i j = .fin f ∧ phaseStft gamma Sfs Vx dVx i j = .fin f' ∧ |f' - f| ≤ (e' + ‖dWx i j / Wx i j‖ * e) / (2 * Real.pi * gamma)) ∧
    (‖Wx i j‖ < gamma - e →
      (phaseCwt gamma Wx dWx i j = .inf ∧ phaseCwt gamma Vx dVx i j = .inf) ∧ phaseStft gamma Sfs Wx dWx i j = .inf ∧ phaseStft gamma Sfs Vx dVx i j = .inf) := by
  have he0 : 0 ≤ e := (norm_nonneg _).trans he
  have hpi : (0 : ℝ) < 2 * Real.pi := by have := Real.pi_pos; positivity
  have t1 := norm_le_norm_add_norm_sub' (Vx i j) (Wx i j)
  have t2 := norm_le_norm_add_norm_sub' (Wx i j) (Vx i j)
  rw [norm_sub_rev (Wx i j)] at t2
  constructor
  · intro h
    have hW : gamma ≤ ‖Wx i j‖ := by linarith
    have hV : gamma ≤ ‖Vx i j‖ := by linarith
    have hW0 : Wx i j ≠ 0 := norm_pos_iff.1 (lt_of_lt_of_le hg hW)
    have hd := div_perturb hg hW0 hV he he'
    have hdiv : |(dVx i j / Vx i j).im - (dWx i j / Wx i j).im| / (2 * Real.pi) ≤ (e' + ‖dWx i j / Wx i j‖ * e) / (2 * Real.pi * gamma) := by
      rw [mul_comm (2 * Real.pi) gamma, ← div_div (e' + _) gamma]
      exact div_le_div_of_nonneg_right hd hpi.le
    refine ⟨⟨_, _, (C70_phase_cwt gamma hg Wx dWx i j).2 hW, (C70_phase_cwt gamma hg Vx dVx i j).2 hV, ?_⟩,
      _, _, (C70_phase_stft gamma hg Sfs Wx dWx i j).2 hW, (C70_phase_stft gamma hg Sfs Vx dVx i j).2 hV, ?_⟩
    · rw [← sub_div, abs_div, abs_of_pos hpi]
      refine le_trans ?_ hdiv
      exact div_le_div_of_nonneg_right (abs_abs_sub_abs_le_abs_sub _ _) hpi.le
    · refine (abs_abs_sub_abs_le_abs_sub _ _).trans (le_trans (le_of_eq ?_) hdiv)
      rw [show Sfs i - (dVx i j / Vx i j).im / (2 * Real.pi) - (Sfs i - (dWx i j / Wx i j).im / (2 * Real.pi)) =
        -(((dVx i j / Vx i j).im - (dWx i j / Wx i j).im) / (2 * Real.pi)) by ring, abs_neg, abs_div, abs_of_pos hpi]
  · intro h
    exact ⟨⟨(C70_phase_cwt gamma hg Wx dWx i j).1 (by linarith), (C70_phase_cwt gamma hg Vx dVx i j).1 (by linarith)⟩,
      (C70_phase_stft gamma hg Sfs Wx dWx i j).1 (by linarith), (C70_phase_stft gamma hg Sfs Vx dVx i j).1 (by linarith)⟩

theorem rnd_lip {m n : ℤ} {t s : ℝ} (h1 : |s - m| ≤ 1 / 2) (h2 : |t - n| ≤ 1 / 2) : |(n : ℝ) - m| ≤ |t - s| + 1 := by
  have e : (n : ℝ) - m = (t - s) + ((s - m) - (t - n)) := by ring
  rw [e]
  refine (abs_add_le _ _).trans ?_
  have := abs_sub (s - m) (t - n)
  linarith

theorem min_lip (a b c : ℤ) : |min a c - min b c| ≤ |a - b| := by
  rcases abs_cases (a - b) with ⟨h, _⟩ | ⟨h, _⟩ <;> rcases abs_cases (min a c - min b c) with ⟨h', _⟩ | ⟨h', _⟩ <;> omega

theorem clamp_lip (omax a b : ℤ) (ho : 0 ≤ omax) :
    |(if omax + 1 ≤ a then omax else if a < 0 then 0 else a) - (if omax + 1 ≤ b then omax else if b < 0 then 0 else b)| ≤ |a - b| := by
  rcases abs_cases (a - b) with ⟨h, _⟩ | ⟨h, _⟩ <;> rw [h, abs_le] <;> constructor <;> split_ifs <;> omega

theorem max_zero_lip (s t : ℝ) : |max t 0 - max s 0| ≤ |t - s| := abs_max_sub_max_le_abs t s 0

/-- **C163, rows.** A change of a frequency by `ε` moves it by at most `ε / step + 1` rows of a linear grid, on every device and in the one-pass and two-pass kernels; on a logarithmic grid the same with
the change of its logarithm. -/
theorem C163_rows (d : Device) (omax : ℤ) (ho : 0 ≤ omax) (vmin dv : ℝ) (hdv : 0 < dv) (w w' : ℝ) :
    (|((binTP d (.lin vmin dv) omax w' : ℤ) : ℝ) - binTP d (.lin vmin dv) omax w| ≤ |w' - w| / dv + 1 ∧
      |((binF d (.lin vmin dv) omax w' : ℤ) : ℝ) - binF d (.lin vmin dv) omax w| ≤ |w' - w| / dv + 1) ∧
    (0 < w → 0 < w' →
      |((binTP d (.log vmin dv) omax w' : ℤ) : ℝ) - binTP d (.log vmin dv) omax w| ≤ |Real.logb 2 w' - Real.logb 2 w| / dv + 1 ∧
      |((binF d (.log vmin dv) omax w' : ℤ) : ℝ) - binF d (.log vmin dv) omax w| ≤ |Real.logb 2 w' - Real.logb 2 w| / dv + 1) := by
  have hq : ∀ s t : ℝ, |(t - vmin) / dv - (s - vmin) / dv| = |t - s| / dv := by
    intro s t
    rw [← sub_div, abs_div, abs_of_pos hdv]
    congr 2
    ring
  have cpu : ∀ s t : ℝ, |((min (roundHalfEven (max ((t - vmin) / dv) 0)) omax : ℤ) : ℝ) - (min (roundHalfEven (max ((s - vmin) / dv) 0)) omax : ℤ)| ≤ |t - s| / dv + 1 := by
    intro s t
    have h1 := min_lip (roundHalfEven (max ((t - vmin) / dv) 0)) (roundHalfEven (max ((s - vmin) / dv) 0)) omax
    have h1' : |((min (roundHalfEven (max ((t - vmin) / dv) 0)) omax : ℤ) : ℝ) - (min (roundHalfEven (max ((s - vmin) / dv) 0)) omax : ℤ)| ≤
        |((roundHalfEven (max ((t - vmin) / dv) 0) : ℤ) : ℝ) - (roundHalfEven (max ((s - vmin) / dv) 0) : ℤ)| := by exact_mod_cast h1
    have h2 := rnd_lip (rhe_abs (max ((s - vmin) / dv) 0)) (rhe_abs (max ((t - vmin) / dv) 0))
    have h3 := max_zero_lip ((s - vmin) / dv) ((t - vmin) / dv)
    rw [hq] at h3
    linarith
  have gpu : ∀ s t : ℝ, |(((if omax + 1 ≤ roundHalfAway ((t - vmin) / dv) then omax else if roundHalfAway ((t - vmin) / dv) < 0 then 0 else roundHalfAway ((t - vmin) / dv)) : ℤ) : ℝ) -
      ((if omax + 1 ≤ roundHalfAway ((s - vmin) / dv) then omax else if roundHalfAway ((s - vmin) / dv) < 0 then 0 else roundHalfAway ((s - vmin) / dv)) : ℤ)| ≤ |t - s| / dv + 1 := by
    intro s t
    have h1 := clamp_lip omax (roundHalfAway ((t - vmin) / dv)) (roundHalfAway ((s - vmin) / dv)) ho
    have h2 := rnd_lip (rha_abs ((s - vmin) / dv)) (rha_abs ((t - vmin) / dv))
    rw [hq] at h2
    refine le_trans ?_ h2
    have h1' := (Int.cast_le (R := ℝ)).2 h1
    rw [Int.cast_abs, Int.cast_abs, Int.cast_sub, Int.cast_sub] at h1'
    exact h1'
  have hlog : ∀ x : ℝ, 0 < x → log2E x = ((Real.logb 2 x : ℝ) : WithBot ℝ) := by
    intro x hx
    unfold log2E
    rw [if_neg hx.ne']
  refine ⟨⟨?_, ?_⟩, fun hw hw' => ⟨?_, ?_⟩⟩
  · cases d
    · exact cpu w w'
    · exact gpu w w'
  · cases d
    · exact cpu w w'
    · exact gpu w w'
  · cases d
    · simp only [binTP, binTwoPass, hlog w hw, hlog w' hw', relPos]
      exact cpu _ _
    · simp only [binTP, binGpu, hlog w hw, hlog w' hw']
      exact gpu _ _
  · cases d
    · simp only [binF, binFused, hlog w hw, hlog w' hw', relPos]
      exact cpu _ _
    · simp only [binF, binGpu, hlog w hw, hlog w' hw']
      exact gpu _ _

open Classical in
/-- What one cell may change in the sum of its column: `e` if it is kept whatever happens, nothing if it is dropped whatever happens, and the threshold otherwise. -/
noncomputable def Spec.cellChange (gamma e r : ℝ) : ℝ := if gamma + e < r then e else if r ≤ gamma - e then 0 else gamma + e

open Classical in
theorem kept_change {gamma e c : ℝ} (hg : 0 ≤ gamma) {W V : ℂ} (he : ‖V - W‖ ≤ e) :
    ‖(if gamma < ‖V‖ then V * (c : ℂ) else 0) - (if gamma < ‖W‖ then W * (c : ℂ) else 0)‖ ≤ |c| * Spec.cellChange gamma e ‖W‖ := by
  have he0 : 0 ≤ e := (norm_nonneg _).trans he
  have t1 := norm_le_norm_add_norm_sub' V W
  have t2 := norm_le_norm_add_norm_sub' W V
  rw [norm_sub_rev W] at t2
  have hc : ∀ z : ℂ, ‖z * (c : ℂ)‖ = |c| * ‖z‖ := by
    intro z
    rw [norm_mul, Complex.norm_real, Real.norm_eq_abs, mul_comm]
  unfold Spec.cellChange
  by_cases h1 : gamma + e < ‖W‖
  · rw [if_pos h1, if_pos (by linarith), if_pos (by linarith), ← sub_mul, hc]
    exact mul_le_mul_of_nonneg_left he (abs_nonneg c)
  by_cases h2 : ‖W‖ ≤ gamma - e
  · rw [if_neg h1, if_pos h2, if_neg (by linarith), if_neg (by linarith), sub_zero, norm_zero, mul_zero]
  rw [if_neg h1, if_neg h2]
  by_cases hV : gamma < ‖V‖ <;> by_cases hW : gamma < ‖W‖
  · rw [if_pos hV, if_pos hW, ← sub_mul, hc]
    exact mul_le_mul_of_nonneg_left (by linarith) (abs_nonneg c)
  · rw [if_pos hV, if_neg hW, sub_zero, hc]
    exact mul_le_mul_of_nonneg_left (by linarith) (abs_nonneg c)
  · rw [if_neg hV, if_pos hW, zero_sub, norm_neg, hc]
    exact mul_le_mul_of_nonneg_left (by linarith) (abs_nonneg c)
  · rw [if_neg hV, if_neg hW, sub_zero, norm_zero]
    exact mul_nonneg (abs_nonneg c) (by linarith)

/-- **C163, column sums.** Although single entries of the squeezed transform jump, the column sums, from which the inverse is made, change by no more than the changes of the cells, plus the threshold
for each cell near the threshold: for every grid, both devices, any derivatives, and CWT and STFT. -/
theorem C163_columns_partial (d : Device) (th : ℝ) (hth : 0 < th) (M N : ℕ) (Wx dWx Vx dVx : ℕ → ℕ → ℂ) (v : List ℝ) (const : ConstArg) (logscale flipud : Bool) (gamma : ℝ)
    (hg : 0 ≤ gamma) (Sfs : Option (ℕ → ℝ)) (hls : Sfs.isSome → logscale = false) (hgrid : Spec.SafeGrid th v logscale M) (Tx Ux : ℤ → ℕ → ℂ)
    (hW : ssqueezeFast d th M N (fun _ _ => 0) Wx dWx v const logscale flipud gamma Sfs = .ok Tx)
    (hV : ssqueezeFast d th M N (fun _ _ => 0) Vx dVx v const logscale flipud gamma Sfs = .ok Ux)
    (e : ℕ → ℝ) (j : ℕ) (hj : j < N) (he : ∀ i < M, ‖Vx i j - Wx i j‖ ≤ e i) :
    ∃ c, constArr M const = .ok c ∧
      ‖∑ r ∈ range M, Ux r j - ∑ r ∈ range M, Tx r j‖ ≤ ∑ i ∈ range M, |c.getD i 0| * Spec.cellChange gamma (e i) ‖Wx i j‖ := by
  classical
  have key : ∃ c, constArr M const = .ok c ∧
      ∑ r ∈ range M, Tx r j = ∑ i ∈ range M, (if gamma < ‖Wx i j‖ then Wx i j * ((c.getD i 0 : ℝ) : ℂ) else 0) ∧
      ∑ r ∈ range M, Ux r j = ∑ i ∈ range M, if gamma < ‖Vx i j‖ then Vx i j * ((c.getD i 0 : ℝ) : ℂ) else 0 := by
    cases Sfs with
    | none =>
      obtain ⟨c, hc, h1⟩ := C16_fused_cwt d th hth M N Wx dWx v const logscale flipud gamma hgrid Tx hW
      obtain ⟨c', hc', h2⟩ := C16_fused_cwt d th hth M N Vx dVx v const logscale flipud gamma hgrid Ux hV
      rw [hc] at hc'
      simp only [Except.ok.injEq] at hc'
      subst hc'
      refine ⟨c, hc, (h1 j hj).trans (sum_congr rfl fun i _ => ?_), (h2 j hj).trans (sum_congr rfl fun i _ => ?_)⟩ <;> congr
    | some f =>
      have hl : logscale = false := hls rfl
      subst hl
      obtain ⟨c, hc, h1⟩ := C16_fused_stft d th M N Wx dWx v const flipud gamma f Tx hW
      obtain ⟨c', hc', h2⟩ := C16_fused_stft d th M N Vx dVx v const flipud gamma f Ux hV
      rw [hc] at hc'
      simp only [Except.ok.injEq] at hc'
      subst hc'
      refine ⟨c, hc, (h1 j hj).trans (sum_congr rfl fun i _ => ?_), (h2 j hj).trans (sum_congr rfl fun i _ => ?_)⟩ <;> congr
  obtain ⟨c, hc, h1, h2⟩ := key
  refine ⟨c, hc, ?_⟩
  rw [h1, h2, ← sum_sub_distrib]
  refine (norm_sum_le _ _).trans (sum_le_sum fun i hi => ?_)
  exact kept_change hg (he i (mem_range.1 hi))

/-- The full claim: small changes of the transform and its derivative make small changes of every entry of the squeezed transform. -/
def C163_full : Prop :=
  ∀ (d : Device) (th : ℝ) (M N : ℕ) (Wx dWx : ℕ → ℕ → ℂ) (v : List ℝ) (const : ConstArg) (logscale flipud : Bool) (gamma : ℝ) (Tx : ℤ → ℕ → ℂ),
    ssqueezeFast d th M N (fun _ _ => 0) Wx dWx v const logscale flipud gamma none = .ok Tx → ∀ ε > 0, ∃ δ > 0, ∀ (Vx dVx : ℕ → ℕ → ℂ) (Ux : ℤ → ℕ → ℂ),
      ssqueezeFast d th M N (fun _ _ => 0) Vx dVx v const logscale flipud gamma none = .ok Ux → (∀ i j, ‖Vx i j - Wx i j‖ ≤ δ ∧ ‖dVx i j - dWx i j‖ ≤ δ) →
        ∀ r, ∀ j < N, ‖Ux r j - Tx r j‖ ≤ ε

theorem jump_entry (t : ℝ) (ht : 0 ≤ t) (ht1 : t < 1 / 4) : ∃ Tx : ℤ → ℕ → ℂ,
    ssqueezeFast .cpu 1 2 1 (fun _ _ => 0) (fun i _ => if i = 0 then 1 else 0) (fun _ _ => 2 * Real.pi * Complex.I * ((1 / 2 + t : ℝ) : ℂ)) [0, 1] (.scalar 1) false false (1 / 2) none = .ok Tx ∧
      Tx 0 0 = if t = 0 then 1 else 0 := by
  have hex : ∃ Tx, ssqueezeFast .cpu 1 2 1 (fun _ _ => 0) (fun i _ => if i = 0 then 1 else 0) (fun _ _ => 2 * Real.pi * Complex.I * ((1 / 2 + t : ℝ) : ℂ)) [0, 1] (.scalar 1) false false (1 / 2)
      none = .ok Tx := ⟨_, rfl⟩
  obtain ⟨Tx, hT⟩ := hex
  refine ⟨Tx, hT, ?_⟩
  obtain ⟨c, p, hc, hp, h⟩ := fast_cwt_ok hT
  simp only [constArr, OfNat.ofNat_ne_one, if_false, Except.ok.injEq] at hc
  simp only [processSsqParams, Bool.false_eq_true, if_false, Except.ok.injEq] at hp
  subst hc hp
  have hens : ensureNonzeroNonneg (1 - 0) = 1 := by
    unfold ensureNonzeroNonneg eps64
    norm_num
  have hpi := Real.pi_pos
  have hf : cwtFreq 1 (2 * Real.pi * Complex.I * ((1 / 2 + t : ℝ) : ℂ)) = 1 / 2 + t := by
    rw [cwtFreq_eq _ _ one_ne_zero, div_one]
    have : (2 * (Real.pi : ℂ) * Complex.I * ((1 / 2 + t : ℝ) : ℂ)).im = 2 * Real.pi * (1 / 2 + t) := by
      simp [Complex.mul_im, Complex.mul_re]
    rw [this, abs_of_pos (by positivity)]
    field_simp
  rw [h 0 0 one_pos, sum_range_succ, sum_range_one]
  simp only [if_true, one_ne_zero, if_false, norm_one, norm_zero, hf, hens]
  rw [if_neg (by norm_num : ¬ ((1 / 2 : ℝ) < 0 ∧ _))]
  have hbin : flipRow false ((2 : ℕ) - 1) (binF .cpu (.lin 0 1) (((2 : ℕ) : ℤ) - 1) (1 / 2 + t)) = if t = 0 then 0 else 1 := by
    simp only [flipRow, binF, binFused, sub_zero, div_one, Bool.false_eq_true, if_false]
    rw [max_eq_left (by linarith)]
    split
    · rename_i h0
      subst h0
      have := rhe_tie (K := ℝ) 0
      rw [add_zero, show (1 / 2 : ℝ) = ((0 : ℤ) : ℝ) + 1 / 2 by norm_num, this]
      norm_num
    · rename_i h0
      have hpos : 0 < t := lt_of_le_of_ne ht (Ne.symm h0)
      rw [rhe_unique (n := 1) (by push_cast; linarith) (by push_cast; linarith)]
      norm_num
  rw [hbin]
  by_cases h0 : t = 0
  · rw [if_pos h0, if_pos h0, if_pos ⟨by norm_num, rfl⟩]
    simp
  · rw [if_neg h0, if_neg h0, if_neg (by simp)]
    simp

/-- A frequency midway between two rows: an arbitrarily small change of the derivative moves the whole coefficient to the other row. -/
theorem C163_refuted : ¬ C163_full := by
  intro h
  obtain ⟨Tx, hT, hT0⟩ := jump_entry 0 le_rfl (by norm_num)
  obtain ⟨δ, hδ, H⟩ := h _ _ _ _ _ _ _ _ _ _ _ _ hT (1 / 2) (by norm_num)
  have hpi := Real.pi_pos
  set t := min (δ / (2 * Real.pi)) (1 / 8) with ht
  have htpos : 0 < t := lt_min (by positivity) (by norm_num)
  obtain ⟨Ux, hU, hU0⟩ := jump_entry t htpos.le (lt_of_le_of_lt (min_le_right _ _) (by norm_num))
  have := H _ _ _ hU (fun i j => ⟨by simp [hδ.le], ?_⟩) 0 0 one_pos
  · rw [hT0, hU0, if_pos rfl, if_neg htpos.ne', zero_sub, norm_neg, norm_one] at this
    norm_num at this
  · rw [← mul_sub, ← Complex.ofReal_sub, norm_mul, norm_mul, norm_mul, Complex.norm_I, Complex.norm_real, Complex.norm_real, Real.norm_eq_abs, Real.norm_eq_abs,
      abs_of_pos hpi, show (1 / 2 + t - (1 / 2 + 0) : ℝ) = t by ring, abs_of_pos htpos]
    have h1 : t ≤ δ / (2 * Real.pi) := min_le_left _ _
    rw [le_div_iff₀ (by positivity)] at h1
    rw [show ‖(2 : ℂ)‖ = 2 by simp]
    linarith

/-! ## Non-vacuity -/

/-- A cell of magnitude 1 with threshold 1/2, changed by 1/10. -/
example : ∃ f f', phaseCwt (1 / 2) (fun _ _ => 1) (fun _ _ => Complex.I) 0 0 = .fin f ∧ phaseCwt (1 / 2) (fun _ _ => ((11 / 10 : ℝ) : ℂ)) (fun _ _ => Complex.I) 0 0 = .fin f' ∧
    |f' - f| ≤ (0 + ‖Complex.I / 1‖ * (1 / 10)) / (2 * Real.pi * (1 / 2)) := by
  refine ((C163_phase (1 / 2) (by norm_num) (fun _ _ => 1) (fun _ _ => Complex.I) (fun _ _ => ((11 / 10 : ℝ) : ℂ)) (fun _ _ => Complex.I) (fun _ => 0) 0 0 (1 / 10) 0 ?_ (by simp)).1 ?_).1
  · rw [← Complex.ofReal_one, ← Complex.ofReal_sub, Complex.norm_real, Real.norm_eq_abs]
    norm_num [abs_of_pos]
  · rw [norm_one]; norm_num

/-- The two calls of the refutation meet the hypotheses of `C163_columns_partial`: the column sums agree though the entries do not. -/
example : ∃ Tx Ux : ℤ → ℕ → ℂ, Tx 0 0 = 1 ∧ Ux 0 0 = 0 ∧ ∑ r ∈ range 2, Ux r 0 = ∑ r ∈ range 2, Tx r 0 := by
  obtain ⟨Tx, hT, hT0⟩ := jump_entry 0 le_rfl (by norm_num)
  obtain ⟨Ux, hU, hU0⟩ := jump_entry (1 / 8) (by norm_num) (by norm_num)
  refine ⟨Tx, Ux, by simpa using hT0, by simpa using hU0, ?_⟩
  obtain ⟨c, -, h⟩ := C163_columns_partial .cpu 1 one_pos 2 1 _ _ _ _ [0, 1] (.scalar 1) false false (1 / 2) (by norm_num) none (by simp) (.inl rfl) Tx Ux hT hU (fun _ => 0) 0 one_pos (by simp)
  have h0 : ∑ i ∈ range 2, |c.getD i 0| * Spec.cellChange (1 / 2) 0 ‖(if i = 0 then 1 else 0 : ℂ)‖ = 0 := by
    rw [sum_range_succ, sum_range_one]
    simp [Spec.cellChange]
    norm_num
  have h1 : ‖∑ r ∈ range 2, Ux r 0 - ∑ r ∈ range 2, Tx r 0‖ ≤ 0 := h.trans (le_of_eq h0)
  exact sub_eq_zero.1 (norm_le_zero_iff.1 h1)

end Ssq
