import Verif.Props.SsqAlign

/-!
# C190: squeezing moves, it does not add
-/
namespace Ssq
open Finset

/-- Every kernel run is: each cell with a finite phase is added, times its constant, to one row. -/
theorem kernel_dest {a : SsqArgs} {W : ℕ → ℕ → ℂ} {v : List ℝ} {const : ConstArg} {ls : Bool}
    {Tx : ℤ → ℕ → ℂ} (h : ssqKernel a W v const ls = .ok Tx) :
    ∃ (c : List ℝ) (dest : ℕ → ℕ → ℤ), constArr a.M const = .ok c ∧
      ∀ r, ∀ j < a.N, Tx r j = ∑ i ∈ range a.M,
        if dest i j = r then
          (match Spec.usedPhase a W i j with | .inf => 0 | .fin _ => W i j * ((c.getD i 0 : ℝ) : ℂ)) else 0 := by
  classical
  unfold ssqKernel at h
  cases hw : a.w with
  | some w =>
    rw [hw] at h
    obtain ⟨c, p, hc, -, hT⟩ := onfly_ok h
    refine ⟨c, fun i j => match w i j with
      | .inf => 0
      | .fin x => flipRow a.flipud ((a.M : ℤ) - 1) (binTP a.dev p ((a.M : ℤ) - 1) x), hc, ?_⟩
    intro r j hj
    rw [hT r j hj, zero_add]
    apply sum_congr rfl
    intro i _
    unfold Spec.usedPhase
    rw [hw]
    rcases hp : w i j with _ | x <;> simp [hp]
  | none =>
    rw [hw] at h
    cases hS : a.Sfs with
    | none =>
      rw [hS] at h
      obtain ⟨c, p, hc, -, hT⟩ := fast_cwt_ok h
      refine ⟨c, fun i j => flipRow a.flipud ((a.M : ℤ) - 1)
        (binF a.dev p ((a.M : ℤ) - 1) (cwtFreq (W i j) ((a.dWx.getD fun _ _ => 0) i j))), hc, ?_⟩
      intro r j hj
      rw [hT r j hj, zero_add]
      apply sum_congr rfl
      intro i _
      unfold Spec.usedPhase
      rw [hw, hS]
      by_cases hg : a.gamma.getD 0 < ‖W i j‖ <;> simp [hg]
    | some f =>
      rw [hS] at h
      obtain ⟨c, vmin, dv, hc, -, hT⟩ := fast_stft_ok h
      refine ⟨c, fun i j => flipRow a.flipud ((a.M : ℤ) - 1)
        (binF a.dev (.lin vmin dv) ((a.M : ℤ) - 1)
          (stftFreq (f i) (W i j) ((a.dWx.getD fun _ _ => 0) i j))), hc, ?_⟩
      intro r j hj
      rw [hT r j hj, zero_add]
      apply sum_congr rfl
      intro i _
      unfold Spec.usedPhase
      rw [hw, hS]
      by_cases hg : a.gamma.getD 0 < ‖W i j‖ <;> simp [hg]

namespace Spec

/-- Cell `(i, j)` takes part in the reassignment: its phase is finite. -/
def Moved (a : SsqArgs) (W : ℕ → ℕ → ℂ) (i j : ℕ) : Prop := ∃ x, usedPhase a W i j = .fin x

/-- The weights of the cells: the spacing of the first two frequencies in the order in which they were
used (STFT), or the measure of the row's scale (CWT). -/
def CellWeights (a : SsqArgs) (f : List ℝ) (c : ℕ → ℝ) : Prop :=
  (a.transform = .stft → ∀ i < a.M, c i =
    (if a.flipud then f.reverse else f).getD 1 0 - (if a.flipud then f.reverse else f).getD 0 0) ∧
  (a.transform = .cwt → ∀ sh d sv st nv, a.scales = some (.arr sh d sv) → sv.length = a.M →
    inferScaletype d sv = .ok (st, nv) → (∀ l, nv = .arr l → l.length = a.M) →
    ∀ i < a.M, c i = scaleMeasure st nv sv i)

end Spec

theorem ssqueeze_dest {a : SsqArgs} {Tx : ℤ → ℕ → ℂ} {f : List ℝ} (h : ssqueeze a = .ok (Tx, f)) :
    ∃ (c : ℕ → ℝ) (dest : ℕ → ℕ → ℤ), Spec.CellWeights a f c ∧
      ∀ r, ∀ j < a.N, Tx r j = ∑ i ∈ range a.M, if dest i j = r then
        (match Spec.usedPhase a (applySqueezing a.squeezing a.M a.Wx) i j with
          | .inf => 0
          | .fin _ => applySqueezing a.squeezing a.M a.Wx i j * ((c i : ℝ) : ℂ)) else 0 := by
  obtain ⟨dt, sc, fr, const, ls, h1, h2, h3, h4, h5, h6, h7⟩ := ssqueeze_ok h
  obtain ⟨c, dest, hc, hT⟩ := kernel_dest h6
  refine ⟨fun i => c.getD i 0, dest, ⟨?_, ?_⟩, hT⟩
  · intro ht i hi
    have e := const_stft ht h4
    subst e
    have hrev : ssqReverses a.transform a.flipud = a.flipud := by
      unfold ssqReverses; rw [ht]; cases a.flipud <;> rfl
    have hv : (if a.flipud then f.reverse else f) = fr.1 := by
      rw [h7, hrev]; cases a.flipud <;> simp
    rw [hv]
    exact constArr_scalar hc i hi
  · intro ht sh d sv st nv hsc hl hi hnv i hiM
    exact const_cwt ht hsc hi hl hnv h2 h4 hc i hiM

open Classical in
/-- **C190.** Squeezing moves cells of a column, it never adds to it: the moduli of a column of `Tx` sum to at
most the weighted moduli of the cells with a finite phase, and the column has at most as many nonzero rows as
there are nonzero cells with a finite phase. Whatever the frequencies, `flipud`, squeezing measure, device, two-pass or fused. -/
theorem C190_column (a : SsqArgs) (Tx : ℤ → ℕ → ℂ) (f : List ℝ) (h : ssqueeze a = .ok (Tx, f)) :
    ∃ c : ℕ → ℝ, Spec.CellWeights a f c ∧ ∀ j < a.N,
      ∑ r ∈ range a.M, ‖Tx r j‖ ≤ ∑ i ∈ range a.M,
        (if Spec.Moved a (applySqueezing a.squeezing a.M a.Wx) i j
          then ‖applySqueezing a.squeezing a.M a.Wx i j‖ * |c i| else 0) ∧
      ((range a.M).filter fun (r : ℕ) => Tx r j ≠ 0).card ≤
        ((range a.M).filter fun i => Spec.Moved a (applySqueezing a.squeezing a.M a.Wx) i j ∧
          applySqueezing a.squeezing a.M a.Wx i j ≠ 0).card := by
  obtain ⟨c, dest, hc, hT⟩ := ssqueeze_dest h
  generalize applySqueezing a.squeezing a.M a.Wx = W at *
  refine ⟨c, hc, fun j hj => ⟨?_, ?_⟩⟩
  · have h1 : ∀ r ∈ range a.M, ‖Tx (r : ℤ) j‖ ≤ ∑ i ∈ range a.M, if dest i j = (r : ℤ) then
        (if Spec.Moved a W i j then ‖W i j‖ * |c i| else 0) else 0 := by
      intro r _
      rw [hT r j hj]
      refine (norm_sum_le _ _).trans (sum_le_sum fun i _ => ?_)
      unfold Spec.Moved
      split_ifs with e hk
      · obtain ⟨x, hx⟩ := hk
        rw [hx]
        simp
      · rcases hp : Spec.usedPhase a W i j with _ | x
        · simp
        · exact (hk ⟨x, hp⟩).elim
      · simp
    refine (sum_le_sum h1).trans ?_
    rw [sum_comm]
    apply sum_le_sum
    intro i _
    have hnn : 0 ≤ (if Spec.Moved a W i j then ‖W i j‖ * |c i| else 0) := by
      split_ifs <;> positivity
    by_cases he : ∃ r ∈ range a.M, dest i j = ((r : ℕ) : ℤ)
    · obtain ⟨r, hr, he⟩ := he
      rw [sum_eq_single r]
      · rw [if_pos he]
      · intro b _ hb
        rw [if_neg]; rw [he]; intro h'; exact hb (by exact_mod_cast h'.symm)
      · intro h'; exact (h' hr).elim
    · rw [sum_eq_zero]
      · exact hnn
      · intro r hr
        rw [if_neg fun h' => he ⟨r, hr, h'⟩]
  · have hex : ∀ r ∈ (range a.M).filter (fun (r : ℕ) => Tx r j ≠ 0), ∃ i, i ∈ (range a.M).filter
        (fun i => Spec.Moved a W i j ∧ W i j ≠ 0) ∧ dest i j = (r : ℤ) := by
      intro r hr
      rw [mem_filter] at hr
      obtain ⟨_, hr⟩ := hr
      rw [hT r j hj] at hr
      obtain ⟨i, hi, hne⟩ := exists_ne_zero_of_sum_ne_zero hr
      rcases hp : Spec.usedPhase a W i j with _ | x
      · rw [hp] at hne; simp at hne
      · rw [hp] at hne
        simp only [ne_eq, ite_eq_right_iff, mul_eq_zero, not_forall, not_or] at hne
        obtain ⟨he, hw, _⟩ := hne
        exact ⟨i, mem_filter.mpr ⟨hi, ⟨x, hp⟩, hw⟩, he⟩
    choose! g hg he using hex
    refine card_le_card_of_injOn g (fun r hr => by simpa using hg r (by simpa using hr)) ?_
    intro r hr s hs hrs
    have := (he r (by simpa using hr)).symm.trans ((congrArg (dest · j) hrs).trans (he s (by simpa using hs)))
    exact_mod_cast this

/-- **C190, CWT over logarithmic scales with `nv` voices.** `Σ_r |Tx[r, j]| ≤ (ln 2 / nv) Σ_i |Wx[i, j]|`. -/
theorem C190_cwt_log (a : SsqArgs) (Tx : ℤ → ℕ → ℂ) (f : List ℝ) (h : ssqueeze a = .ok (Tx, f))
    (htr : a.transform = .cwt) (hsq : a.squeezing = .sum ∨ a.squeezing = .abs) (sh : List ℕ) (d : FDtype) (sv : List ℝ)
    (hsc : a.scales = some (.arr sh d sv)) (hlen : sv.length = a.M) (st : ScaleType) (nv : ℕ) (hst : st ≠ .linear)
    (hi : inferScaletype d sv = .ok (st, .int nv)) :
    ∀ j < a.N, ∑ r ∈ range a.M, ‖Tx r j‖ ≤ Real.log 2 / nv * ∑ i ∈ range a.M, ‖a.Wx i j‖ := by
  classical
  obtain ⟨c, hc, hT⟩ := C190_column a Tx f h
  intro j hj
  have hc' := hc.2 htr sh d sv st (.int nv) hsc hlen hi (by simp)
  refine (hT j hj).1.trans ?_
  rw [mul_sum]
  apply sum_le_sum
  intro i hi'
  have e : c i = Real.log 2 / nv := by
    rw [hc' i (mem_range.mp hi')]
    unfold Spec.scaleMeasure
    cases st with
    | linear => exact (hst rfl).elim
    | log => rfl
    | logPiecewise => rfl
  have hn : ‖applySqueezing a.squeezing a.M a.Wx i j‖ = ‖a.Wx i j‖ := by
    rcases hsq with h | h <;> rw [h] <;> simp [applySqueezing]
  have hl : 0 ≤ Real.log 2 / (nv : ℝ) := div_nonneg (Real.log_nonneg (by norm_num)) (Nat.cast_nonneg _)
  split_ifs
  · rw [hn, e, abs_of_nonneg hl, mul_comm]
  · positivity

/-- Non-vacuity: the call of `ex124`, three cells of which one is kept. -/
example : ∃ Tx, ssqueeze (ex124 true) = .ok (Tx, [4, 2, 1]) ∧
    ∀ j < 1, ∑ r ∈ range 3, ‖Tx r j‖ ≤ Real.log 2 / (1 : ℕ) * ∑ _i ∈ range 3, ‖(1 : ℂ)‖ := by
  obtain ⟨Tx, h⟩ := ex124_ok true
  exact ⟨Tx, h, C190_cwt_log (ex124 true) Tx _ h rfl (Or.inl rfl) [3] .f64 [1, 2, 4] rfl rfl .log 1 (by simp) infer124⟩

end Ssq
