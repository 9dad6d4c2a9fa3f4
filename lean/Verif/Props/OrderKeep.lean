import Verif.Props.Squeeze
import Verif.Lemmas.Near
import Verif.Props.SqueezeEx

/-!
# C210: squeezing keeps frequencies in order (ssqueezepy/algos.py:22-250, 356-374, 859-984, 1006-1294)
-/
namespace Ssq

/-- Parameter sets whose index function is monotone. -/
def ParamsMono (omax : ℤ) : BinParams → Prop
  | .lin _ d => 0 < d
  | .log _ d => 0 < d
  | .logPiecewise v0 v1 d0 d1 idx1 => 0 < d1 ∧ (v1 - v0) / d0 ≤ idx1 ∧ 0 < d0 ∧ idx1 ≤ omax ∧ 0 ≤ idx1

theorem log2E_mono {x y : ℝ} (hx : 0 ≤ x) (h : x ≤ y) : log2E x = ⊥ ∨ ∃ a b : ℝ, log2E x = (a : WithBot ℝ) ∧ log2E y = (b : WithBot ℝ) ∧ a ≤ b := by
  rcases hx.eq_or_lt with rfl | hx
  · exact .inl log2E_zero
  · exact .inr ⟨_, _, log2E_pos hx, log2E_pos (hx.trans_le h), Real.logb_le_logb_of_le one_lt_two hx h⟩

theorem binTP_mono (d : Device) {p : BinParams} {omax : ℤ} (ho : 0 ≤ omax) (hp : ParamsMono omax p) {x y : ℝ} (hx : 0 ≤ x) (h : x ≤ y) :
    binTP d p omax x ≤ binTP d p omax y := by
  have hy := hx.trans h
  rcases p with ⟨a, s⟩ | ⟨a, s⟩ | ⟨v0, v1, d0, d1, idx1⟩
  · rw [bin_lin, bin_lin]
    exact nr_mono d ho (div_le_div_of_nonneg_right (by linarith) (le_of_lt hp))
  · rcases hx.eq_or_lt with rfl | hx
    · rw [bin_log_zero d a s ho]
      exact (bin_range (d := d) (p := .log a s) ho trivial y).1.1
    · rw [bin_log d a s omax hx, bin_log d a s omax (hx.trans_le h)]
      exact nr_mono d ho (div_le_div_of_nonneg_right (by linarith [Real.logb_le_logb_of_le one_lt_two hx h]) (le_of_lt hp))
  · obtain ⟨h1, h2, h3, h4, h5⟩ := hp
    have hr : ∀ z, 0 ≤ binTP d (.logPiecewise v0 v1 d0 d1 idx1) omax z := fun z =>
      (bin_range (d := d) ho (p := .logPiecewise v0 v1 d0 d1 idx1) ⟨h5, h1, h2.trans (by exact_mod_cast h4), h3⟩ z).1.1
    rcases log2E_mono hx h with e | ⟨a, b, e1, e2, hab⟩
    · refine le_trans (le_of_eq ?_) (hr y)
      rcases d with _ | _
      · simp only [binTP, binTwoPass, e, rhe_zero]
      · simp only [binTP, binGpu, e]
    · have hlow : ∀ z : ℝ, ¬ v1 < z → (z - v0) / d0 ≤ idx1 := fun z hz => (div_le_div_of_nonneg_right (by linarith [not_lt.1 hz]) h3.le).trans h2
      rcases d with _ | _
      · simp only [binTP, binTwoPass, e1, e2]
        split_ifs with c1 c2 c2
        · exact min_le_min_right _ (by linarith [rhe_mono (div_le_div_of_nonneg_right (sub_le_sub_right hab v1) h1.le)])
        · exact absurd (c1.trans_le hab) c2
        · refine le_min ?_ ?_
          · refine (rhe_le_of_le (n := idx1) (max_le (hlow a c1) (by exact_mod_cast h5))).trans ?_
            linarith [rhe_nonneg (div_nonneg (by linarith : (0 : ℝ) ≤ b - v1) h1.le)]
          · exact (rhe_le_of_le (n := idx1) (max_le (hlow a c1) (by exact_mod_cast h5))).trans h4
        · exact rhe_mono (max_le_max_right _ (div_le_div_of_nonneg_right (sub_le_sub_right hab v0) h3.le))
      · simp only [binTP, binGpu, e1, e2]
        have m1 : roundHalfAway ((a - v1) / d1) ≤ roundHalfAway ((b - v1) / d1) := rha_mono (div_le_div_of_nonneg_right (sub_le_sub_right hab v1) h1.le)
        have m0 : roundHalfAway ((a - v0) / d0) ≤ roundHalfAway ((b - v0) / d0) := rha_mono (div_le_div_of_nonneg_right (sub_le_sub_right hab v0) h3.le)
        by_cases c2 : v1 < b
        · rw [if_pos c2]
          by_cases c1 : v1 < a
          · rw [if_pos c1]
            split_ifs <;> omega
          · rw [if_neg c1]
            have := rha_le_of_le (n := idx1) (hlow a c1)
            have := rha_nonneg (div_nonneg (by linarith : (0 : ℝ) ≤ b - v1) h1.le)
            split_ifs <;> omega
        · rw [if_neg c2, if_neg (fun c1 => c2 (c1.trans_le hab))]
          split_ifs <;> omega

theorem binF_eq (d : Device) (p : BinParams) (omax : ℤ) (x : ℝ) : binF d p omax x = binTP d p omax x := by
  rcases d with _ | _
  · exact binFused_eq p omax x
  · rfl

theorem safe_mono {th : ℝ} (hth : 0 < th) {v : List ℝ} {ls : Bool} {M : ℕ} {p : BinParams} (hs : Spec.SafeGrid th v ls M) (hp : processSsqParams th v ls = .ok p) :
    ParamsMono ((M : ℤ) - 1) p := by
  unfold processSsqParams at hp
  rcases ls with _ | _
  · simp only [Bool.false_eq_true, if_false] at hp
    split at hp
    · simp only [Except.ok.injEq] at hp; rw [← hp]; exact ensure_pos _
    · simp at hp
  · simp only [if_true] at hp
    have hnone : logscaleTransitionIdx th v = .ok none → ParamsMono ((M : ℤ) - 1) p := by
      intro h
      unfold paramsFindClosestLog at hp
      rw [h] at hp
      simp only [ok_bind, pure_eq_ok, Except.ok.injEq] at hp
      rw [← hp]; exact ensure_pos _
    rcases hs with h | h | ⟨q, a, d0, d1, h, hd0, hM⟩
    · simp at h
    · exact hnone h
    · by_cases hne : d0 = d1
      · apply hnone
        subst hne
        have h2 := h.2.1
        have h1 := h.1
        refine transition_geometric (a := a) (d := d0) ?_ (by omega)
        intro i hi
        refine ⟨(h.2.2 i hi).1, ?_⟩
        rw [(h.2.2 i hi).2]
        split
        · rfl
        · ring
      · rw [twoSeg_params hth h hne] at hp
        simp only [Except.ok.injEq] at hp
        rw [← hp]
        have h2 := h.2.1
        refine ⟨ensure_pos _, ?_, ensure_pos _, by omega, by positivity⟩
        rw [div_le_iff₀ (ensure_pos _)]
        have : d0 ≤ ensureNonzeroNonneg d0 := by
          unfold ensureNonzeroNonneg; split
          · next h => exact h.le
          · exact le_rfl
        push_cast
        nlinarith [mul_le_mul_of_nonneg_left this (Nat.cast_nonneg (α := ℝ) q)]

/-- Two rows are ordered as the frequencies; `flipud` turns the order around. -/
def Spec.RowsOrdered (flipud : Bool) (r r' : ℤ) : Prop := if flipud then r' ≤ r else r ≤ r'

theorem flip_ordered (flipud : Bool) (omax k k' : ℤ) (h : k ≤ k') : Spec.RowsOrdered flipud (flipRow flipud omax k) (flipRow flipud omax k') := by
  unfold Spec.RowsOrdered flipRow
  split <;> omega

/-- **C210, two-pass kernels.** A cell with a lower frequency is never moved to a row of a higher frequency than that of a cell with a higher one. -/
theorem C210_two_pass (d : Device) (th : ℝ) (hth : 0 < th) (M : ℕ) (Wx : ℕ → ℕ → ℂ) (w : ℕ → ℕ → Phase) (v : List ℝ) (const : ConstArg) (logscale flipud : Bool)
    (hgrid : Spec.SafeGrid th v logscale M) (body : ℕ → ℕ → Option (AddOp ℂ)) (hb : onflyBody d th M Wx w v const logscale flipud = .ok body)
    (i i' j j' : ℕ) (hi : i < M) (o o' : AddOp ℂ) (ho : body i j = some o) (ho' : body i' j' = some o') :
    ∃ x y, w i j = .fin x ∧ w i' j' = .fin y ∧ (0 ≤ x → x ≤ y → Spec.RowsOrdered flipud o.row o'.row) := by
  unfold onflyBody at hb
  simp only [bind_eq_ok] at hb
  obtain ⟨c, _, p, hp, hb⟩ := hb
  simp only [pure_eq_ok, Except.ok.injEq] at hb
  subst hb
  have hm := safe_mono hth hgrid hp
  unfold indexedSumBody at ho ho'
  cases hw : w i j with
  | inf => rw [hw] at ho; simp at ho
  | fin x =>
    cases hw' : w i' j' with
    | inf => rw [hw'] at ho'; simp at ho'
    | fin y =>
      rw [hw] at ho
      rw [hw'] at ho'
      simp only [Option.some.injEq] at ho ho'
      refine ⟨x, y, rfl, rfl, fun h0 hxy => ?_⟩
      rw [← ho, ← ho']
      exact flip_ordered _ _ _ _ (binTP_mono d (by omega) hm h0 hxy)

/-- The frequency the fused kernels measure at a cell. -/
noncomputable def Spec.cellFreq (Sfs : Option (ℕ → ℝ)) (Wx dWx : ℕ → ℕ → ℂ) (i j : ℕ) : ℝ :=
  match Sfs with
  | none => |(dWx i j / Wx i j).im| / (2 * Real.pi)
  | some f => |f i - (dWx i j / Wx i j).im / (2 * Real.pi)|

theorem im_div (W D : ℂ) : (D / W).im = (D.im * W.re - D.re * W.im) / (W.re ^ 2 + W.im ^ 2) := by
  rw [Complex.div_im, Complex.normSq_apply, ← sub_div]
  ring

theorem cellFreq_cwt (Wx dWx : ℕ → ℕ → ℂ) (i j : ℕ) : Spec.cellFreq none Wx dWx i j = cwtFreq (Wx i j) (dWx i j) := by
  show |(dWx i j / Wx i j).im| / (2 * Real.pi) = _
  unfold cwtFreq
  rw [im_div, ← div_div _ _ (2 * Real.pi), abs_div (_ / _) (2 * Real.pi), abs_of_pos (by positivity : 0 < 2 * Real.pi)]

theorem cellFreq_stft (f : ℕ → ℝ) (Wx dWx : ℕ → ℕ → ℂ) (i j : ℕ) : Spec.cellFreq (some f) Wx dWx i j = stftFreq (f i) (Wx i j) (dWx i j) := by
  show |f i - (dWx i j / Wx i j).im / (2 * Real.pi)| = _
  unfold stftFreq
  rw [im_div, ← div_div _ _ (2 * Real.pi)]

/-- **C210, fused kernels.** -/
theorem C210_fused (d : Device) (th : ℝ) (hth : 0 < th) (M : ℕ) (Wx dWx : ℕ → ℕ → ℂ) (v : List ℝ) (const : ConstArg) (logscale flipud : Bool) (gamma : ℝ)
    (Sfs : Option (ℕ → ℝ)) (hgrid : Spec.SafeGrid th v logscale M) (body : ℕ → ℕ → Option (AddOp ℂ))
    (hb : fastBody d th M Wx dWx v const logscale flipud gamma Sfs = .ok body)
    (i i' j j' : ℕ) (hi : i < M) (o o' : AddOp ℂ) (ho : body i j = some o) (ho' : body i' j' = some o')
    (hf : Spec.cellFreq Sfs Wx dWx i j ≤ Spec.cellFreq Sfs Wx dWx i' j') : Spec.RowsOrdered flipud o.row o'.row := by
  unfold fastBody at hb
  simp only [bind_eq_ok] at hb
  obtain ⟨c, _, p, hp, hb⟩ := hb
  have hm := safe_mono hth hgrid hp
  rcases Sfs with _ | f
  · simp only [pure_eq_ok, Except.ok.injEq] at hb
    subst hb
    rw [cellFreq_cwt, cellFreq_cwt] at hf
    unfold ssqCwtBody at ho ho'
    split at ho
    · split at ho'
      · simp only [Option.some.injEq] at ho ho'
        rw [← ho, ← ho']
        simp only [binF_eq]
        exact flip_ordered _ _ _ _ (binTP_mono d (by omega) hm (abs_nonneg _) hf)
      · simp at ho'
    · simp at ho
  · rcases p with ⟨vmin, dv⟩ | _ | _
    · simp only [pure_eq_ok, Except.ok.injEq] at hb
      subst hb
      rw [cellFreq_stft, cellFreq_stft] at hf
      unfold ssqStftBody at ho ho'
      split at ho
      · split at ho'
        · simp only [Option.some.injEq] at ho ho'
          rw [← ho, ← ho']
          simp only [binF_eq]
          exact flip_ordered _ _ _ _ (binTP_mono d (by omega) hm (abs_nonneg _) hf)
        · simp at ho'
      · simp at ho
    · simp at hb
    · simp at hb

/-- The hypotheses are met on a two-segment grid of four rows: the kernel runs, and both cells are moved. -/
example : Spec.SafeGrid (1 / 10 ^ 14) [1, 2, 4, 16] true 4 ∧ ∃ body,
    fastBody .cpu (1 / 10 ^ 14) 4 (fun _ _ => 1) (fun i _ => Complex.I * i) [1, 2, 4, 16] (.scalar 1) true true 0 none = .ok body ∧
    (body 1 0).isSome ∧ (body 2 0).isSome ∧ Spec.cellFreq none (fun _ _ => 1) (fun i _ => Complex.I * i) 1 0 ≤ Spec.cellFreq none (fun _ _ => 1) (fun i _ => Complex.I * i) 2 0 := by
  refine ⟨Or.inr (Or.inr ⟨2, 0, 1, 2, two_1_2_4_16, by norm_num, by simp⟩), ?_⟩
  unfold fastBody constArr processSsqParams
  rw [if_pos rfl, twoSeg_params (by norm_num) two_1_2_4_16 (by norm_num)]
  refine ⟨_, rfl, by simp [ssqCwtBody], by simp [ssqCwtBody], ?_⟩
  simp only [Spec.cellFreq, div_one]
  refine div_le_div_of_nonneg_right ?_ (by positivity)
  norm_num

end Ssq
