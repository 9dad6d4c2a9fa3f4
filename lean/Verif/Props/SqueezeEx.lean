import Verif.Props.SqueezeGrid
import Mathlib.Analysis.SpecialFunctions.Log.Deriv
import Mathlib.Analysis.Complex.ExponentialBounds
import Mathlib.Tactic.NormNum

/-!
# Non-vacuity of C16–C25 and the grid on which rows leave the array (C69)
-/
namespace Ssq
open Finset

theorem eps64_le_one : eps64 ≤ 1 := by unfold eps64; norm_num

theorem geo124 : Spec.Geometric [1, 2, 4] 0 1 := by
  intro i hi
  have h4 : Real.logb 2 4 = 2 := by
    rw [show (4 : ℝ) = 2 ^ (2 : ℝ) by norm_num, Real.logb_rpow (by norm_num) (by norm_num)]
  have h2 : Real.logb 2 2 = 1 := by
    rw [Real.logb_self_eq_one (by norm_num)]
  simp only [List.length_cons, List.length_nil] at hi
  match i, hi with
  | 0, _ => simp
  | 1, _ => simp [h2]
  | 2, _ => simp [h4]

theorem two_1_2_4_16 : Spec.TwoSegment [1, 2, 4, 16] 2 0 1 2 := by
  have h4 : Real.logb 2 4 = 2 := by
    rw [show (4 : ℝ) = 2 ^ (2 : ℝ) by norm_num, Real.logb_rpow (by norm_num) (by norm_num)]
  have h16 : Real.logb 2 16 = 4 := by
    rw [show (16 : ℝ) = 2 ^ (4 : ℝ) by norm_num, Real.logb_rpow (by norm_num) (by norm_num)]
  have h2 : Real.logb 2 2 = 1 := by
    rw [Real.logb_self_eq_one (by norm_num)]
  refine ⟨by norm_num, by norm_num, ?_⟩
  intro i hi
  simp only [List.length_cons, List.length_nil] at hi
  match i, hi with
  | 0, _ => simp
  | 1, _ => simp [h2]
  | 2, _ => simp [h4]
  | 3, _ => simp [h16]; norm_num

theorem uni012 : Spec.Uniform [0, 1, 2] 0 1 := by
  intro i hi
  simp only [List.length_cons, List.length_nil] at hi
  match i, hi with
  | 0, _ => simp
  | 1, _ => simp
  | 2, _ => simp

/-- C16/C17/C18 hypotheses are met by a 3-row linear grid: the call succeeds. -/
example (w : ℕ → ℕ → Phase) (Wx : ℕ → ℕ → ℂ) : ∃ Tx,
    indexedSumOnfly .cpu (1/10^14) 3 5 (fun _ _ => 0) Wx w [0, 1, 2] (.scalar 2) false true =
      .ok Tx := by
  unfold indexedSumOnfly onflyBody constArr processSsqParams
  simp only [ok_bind, pure_eq_ok, Bool.false_eq_true, if_false, OfNat.ofNat_ne_one]
  exact ⟨_, rfl⟩

/-- C16/C17/C19 hypotheses are met by a 3-row geometric grid: it is safe and the call succeeds. -/
example (w : ℕ → ℕ → Phase) (Wx : ℕ → ℕ → ℂ) :
    Spec.SafeGrid (1/10^14) [1, 2, 4] true 3 ∧ ∃ Tx,
    indexedSumOnfly .gpu (1/10^14) 3 5 (fun _ _ => 0) Wx w [1, 2, 4] (.array [1, 2, 3]) true false =
      .ok Tx := by
  refine ⟨Or.inr (Or.inl (transition_geometric geo124 (by norm_num))), ?_⟩
  unfold indexedSumOnfly onflyBody constArr processSsqParams paramsFindClosestLog
  rw [transition_geometric geo124 (by norm_num)]
  simp only [ok_bind, pure_eq_ok, OfNat.ofNat_ne_one, if_false, if_true, List.length_cons,
    List.length_nil]
  exact ⟨_, rfl⟩

/-- C16/C17/C20 hypotheses are met by a 4-row two-segment grid: it is safe and the call succeeds. -/
example (w : ℕ → ℕ → Phase) (Wx : ℕ → ℕ → ℂ) :
    Spec.SafeGrid (1/10^14) [1, 2, 4, 16] true 4 ∧ eps64 ≤ 1 ∧ eps64 ≤ 2 ∧ ∃ Tx,
    indexedSumOnfly .cpu (1/10^14) 4 5 (fun _ _ => 0) Wx w [1, 2, 4, 16] (.scalar 1) true true =
      .ok Tx := by
  refine ⟨Or.inr (Or.inr ⟨2, 0, 1, 2, two_1_2_4_16, by norm_num, by simp⟩), eps64_le_one,
    by linarith [eps64_le_one], ?_⟩
  unfold indexedSumOnfly onflyBody constArr processSsqParams
  rw [twoSeg_params (by norm_num) two_1_2_4_16 (by norm_num)]
  simp only [ok_bind, pure_eq_ok, OfNat.ofNat_ne_one, if_false, if_true]
  exact ⟨_, rfl⟩

/-- C23's hypothesis is met: a transform of modulus 1 and threshold 1/2. -/
example : ∀ i j : ℕ, ‖(fun _ _ => 1 : ℕ → ℕ → ℂ) i j‖ ≠ 1/2 := by
  intro i j; simp

/-- C24's hypothesis is met by two different transforms: they differ in a cell below
threshold. -/
example : ∀ i j : ℕ, ((fun i _ => if i = 0 then 0 else 5 : ℕ → ℕ → ℂ) i j =
      (fun i _ => if i = 0 then 1 else 5 : ℕ → ℕ → ℂ) i j ∧ (0 : ℂ) = 0) ∨
    (‖(fun i _ => if i = 0 then 0 else 5 : ℕ → ℕ → ℂ) i j‖ < 2 ∧
      ‖(fun i _ => if i = 0 then 1 else 5 : ℕ → ℕ → ℂ) i j‖ < 2) := by
  intro i j
  by_cases h : i = 0
  · right; simp [h]
  · left; simp [h]

/-! ## C69: rows for an arbitrary log grid -/

/-- The full statement of **C69**: for every strictly increasing positive frequency grid with one
frequency per row, every update goes to a row of the array. -/
def C69_full : Prop :=
  ∀ (d : Device) (M : ℕ) (Wx : ℕ → ℕ → ℂ) (w : ℕ → ℕ → Phase) (v : List ℝ) (const : ConstArg)
    (logscale flipud : Bool) (body : ℕ → ℕ → Option (AddOp ℂ)),
    v.length = M → (∀ x ∈ v, 0 < x) → v.Pairwise (· < ·) →
    (∀ i j x, w i j = .fin x → 0 ≤ x) →
    onflyBody d (1/10^14) M Wx w v const logscale flipud = .ok body →
    ∀ i < M, ∀ j o, body i j = some o → 0 ≤ o.row ∧ o.row < M

/-- the witness grid: log-spacings `s, 11 s, 1` with `s = 9e-16` -/
noncomputable def badGrid : List ℝ :=
  [Real.exp 0, Real.exp (9/10^16), Real.exp (12 * (9/10^16)), Real.exp (1 + 12 * (9/10^16))]

theorem badGrid_d2 : absDiff2Log badGrid = [10 * (9/10^16), 1 - 11 * (9/10^16)] := by
  unfold absDiff2Log badGrid
  simp only [List.length_cons, List.length_nil, Nat.reduceAdd, Nat.reduceSub, List.range_succ,
    List.range_zero, List.nil_append, List.map_append, List.map_cons, List.map_nil,
    List.cons_append, List.getD_cons_succ, List.getD_cons_zero, Real.log_exp, zero_add]
  congr 1
  · rw [abs_of_nonneg (by norm_num)]; norm_num
  · congr 1
    rw [abs_of_nonneg (by norm_num)]; norm_num

theorem badGrid_idx : logscaleTransitionIdx (1/10^14) badGrid = .ok (some 3) := by
  have harg : argmaxL [10 * (9/10^16 : ℝ), 1 - 11 * (9/10^16)] = 1 := by
    apply argmaxL_eq _ _ (by simp)
    · intro y hy
      simp only [List.mem_cons, List.not_mem_nil, or_false] at hy
      rcases hy with rfl | rfl <;> simp <;> norm_num
    · intro i hi
      have : i = 0 := by omega
      subst this; simp; norm_num
  unfold logscaleTransitionIdx
  simp only [badGrid_d2, harg]
  rw [if_neg (by simp), if_neg, if_neg]
  · push Not
    intro y hy
    simp only [Nat.reduceAdd, Nat.reduceSub, List.set_cons_succ, List.set_cons_zero,
      List.mem_cons, List.not_mem_nil, or_false] at hy
    rcases hy with rfl | rfl
    · rw [abs_of_nonneg (by norm_num)]; norm_num
    · norm_num
  · simp; norm_num

/-- **C69 refuted.** The transition test tolerates small deviations from a two-segment grid, and the
branch below the transition has no upper clamp: on a grid whose first two log-steps are
`9e-16` and `11 * 9e-16`, a phase equal to the third frequency is sent to row 12 of a 4-row array
(numba does not check bounds). -/
theorem C69_refuted : ¬ C69_full := by
  intro H
  have hl : (0 : ℝ) < Real.log 2 := Real.log_pos (by norm_num)
  have hl1 : Real.log 2 < 1 := by have := Real.log_two_lt_d9; linarith
  have hlb : ∀ y : ℝ, Real.logb 2 (Real.exp y) = y / Real.log 2 := fun y => by
    rw [Real.logb, Real.log_exp]
  have hens : ensureNonzeroNonneg ((9/10^16) / Real.log 2 - 0 / Real.log 2) =
      (9/10^16) / Real.log 2 := by
    rw [zero_div, sub_zero]
    apply ensure_of_le
    have : eps64 ≤ 9/10^16 := by unfold eps64; norm_num
    refine this.trans ?_
    rw [le_div_iff₀ hl]
    nlinarith
  have hp : paramsFindClosestLog (1/10^14) badGrid = .ok (.logPiecewise (0 / Real.log 2)
      (12 * (9/10^16) / Real.log 2) ((9/10^16) / Real.log 2)
      (ensureNonzeroNonneg ((1 + 12 * (9/10^16)) / Real.log 2 - 12 * (9/10^16) / Real.log 2)) 2) := by
    unfold paramsFindClosestLog
    rw [badGrid_idx]
    simp only [ok_bind, pure_eq_ok, badGrid, Nat.reduceSub, List.getD_cons_succ,
      List.getD_cons_zero, hlb, hens]
    norm_num
  have hb : onflyBody .cpu (1/10^14) 4 (fun _ _ => 1)
      (fun _ _ => .fin (Real.exp (12 * (9/10^16)))) badGrid (.scalar 1) true false =
      .ok (indexedSumBody (fun (a : ℂ) (b : ℝ) => a * (b : ℂ))
        (binTP .cpu (.logPiecewise (0 / Real.log 2)
      (12 * (9/10^16) / Real.log 2) ((9/10^16) / Real.log 2)
      (ensureNonzeroNonneg ((1 + 12 * (9/10^16)) / Real.log 2 - 12 * (9/10^16) / Real.log 2)) 2)
          (((4 : ℕ) : ℤ) - 1)) (((4 : ℕ) : ℤ) - 1) false (fun _ _ => 1)
        (fun _ _ => .fin (Real.exp (12 * (9/10^16)))) (fun i => [1, 1, 1, 1].getD i 0)) := by
    unfold onflyBody processSsqParams constArr
    simp only [hp, if_true, OfNat.ofNat_ne_one, if_false, ok_bind, pure_eq_ok]
    rfl
  have hpw : badGrid.Pairwise (· < ·) := by
    unfold badGrid
    simp only [List.pairwise_cons, List.mem_cons, List.not_mem_nil, or_false, forall_eq_or_imp,
      forall_eq, Real.exp_lt_exp, false_imp_iff, implies_true, List.Pairwise.nil, and_true]
    norm_num
  have := H .cpu 4 (fun _ _ => 1) (fun _ _ => .fin (Real.exp (12 * (9/10^16)))) badGrid (.scalar 1)
    true false _ rfl (by
      unfold badGrid
      intro x hx
      simp only [List.mem_cons, List.not_mem_nil, or_false] at hx
      rcases hx with rfl | rfl | rfl | rfl <;> exact Real.exp_pos _) hpw
    (by
      intro i j x hx
      simp only [Phase.fin.injEq] at hx
      rw [← hx]; exact (Real.exp_pos _).le) hb 0 (by norm_num) 0 _ rfl
  have hrow := this.2
  simp only [binTP, binTwoPass, log2E_pos (Real.exp_pos _), hlb, lt_irrefl, if_false, flipRow,
    Bool.false_eq_true] at hrow
  have e : (12 * (9/10^16) / Real.log 2 - 0 / Real.log 2) / ((9/10^16) / Real.log 2) =
      ((12 : ℤ) : ℝ) := by
    field_simp; norm_num
  rw [e, max_eq_left (by norm_num), rhe_intCast] at hrow
  norm_num at hrow

/-- **C69, the grids for which it holds.** For every positive grid: if the part below the transition, if one is found, is no longer than `M - 1` of its first steps (in the logarithm),
every update goes to a row of the array. (Missing: grids of which this is not so, as in `C69_refuted`.) -/
theorem C69_partial (d : Device) (th : ℝ) (M : ℕ) (Wx : ℕ → ℕ → ℂ) (w : ℕ → ℕ → Phase) (v : List ℝ) (const : ConstArg) (logscale flipud : Bool)
    (body : ℕ → ℕ → Option (AddOp ℂ))
    (hseg : ∀ q, logscaleTransitionIdx th v = .ok (some (q + 1)) → Real.log (v.getD q 1) - Real.log (v.getD 0 1) ≤ (M - 1) * (Real.log (v.getD 1 1) - Real.log (v.getD 0 1)))
    (hb : onflyBody d th M Wx w v const logscale flipud = .ok body) :
    ∀ i < M, ∀ j o, body i j = some o → 0 ≤ o.row ∧ o.row < M ∧ o.col = j := by
  intro i hi j o ho
  unfold onflyBody at hb
  simp only [bind_eq_ok, pure_eq_ok, Except.ok.injEq] at hb
  obtain ⟨c, _, p, hp, rfl⟩ := hb
  have h0 : (0 : ℤ) ≤ (M : ℤ) - 1 := by omega
  have hM : (0 : ℝ) ≤ (M : ℝ) - 1 := by
    have : (1 : ℝ) ≤ M := by exact_mod_cast (by omega : 1 ≤ M)
    linarith
  have hok : ParamsOK ((M : ℤ) - 1) p := by
    unfold processSsqParams at hp
    rcases logscale with _ | _
    · simp only [Bool.false_eq_true, if_false] at hp
      split at hp
      · simp only [Except.ok.injEq] at hp; rw [← hp]; trivial
      · simp at hp
    · simp only [if_true] at hp
      unfold paramsFindClosestLog at hp
      rw [bind_eq_ok] at hp
      obtain ⟨idx, hidx, hp⟩ := hp
      rcases idx with _ | idx
      · simp only [pure_eq_ok, Except.ok.injEq] at hp
        rw [← hp]; trivial
      · simp only [pure_eq_ok, Except.ok.injEq] at hp
        have hi2 : 2 ≤ idx := by
          unfold logscaleTransitionIdx at hidx
          simp only at hidx
          split at hidx
          · simp at hidx
          · split at hidx
            · simp at hidx
            · split at hidx
              · simp at hidx
              · simp only [Except.ok.injEq, Option.some.injEq] at hidx
                omega
        obtain ⟨q, rfl⟩ : ∃ q, idx = q + 1 := ⟨idx - 1, by omega⟩
        have hs := hseg q hidx
        rw [← hp]
        refine ⟨by push_cast; omega, ensure_pos _, ?_, ensure_pos _⟩
        have hl : (0 : ℝ) < Real.log 2 := Real.log_pos (by norm_num)
        rw [div_le_iff₀ (ensure_pos _), Nat.add_sub_cancel]
        have he : Real.logb 2 (v.getD 1 1) - Real.logb 2 (v.getD 0 1) ≤ ensureNonzeroNonneg (Real.logb 2 (v.getD 1 1) - Real.logb 2 (v.getD 0 1)) := by
          unfold ensureNonzeroNonneg; split
          · next h => exact h.le
          · exact le_rfl
        have hc : (((M : ℤ) - 1 : ℤ) : ℝ) = (M : ℝ) - 1 := by push_cast; ring
        rw [hc]
        refine le_trans ?_ (mul_le_mul_of_nonneg_left he hM)
        unfold Real.logb
        rw [← sub_div, ← sub_div, ← mul_div_assoc]
        exact div_le_div_of_nonneg_right hs hl.le
  have hcol := indexedSumBody_cols _ _ _ _ _ _ _ _ _ _ ho
  unfold indexedSumBody at ho
  split at ho
  · simp at ho
  · next x hx =>
    simp only [Option.some.injEq] at ho
    have hr := (bin_range (d := d) h0 hok x).1
    have := flipRow_range (flipud := flipud) hr.1 hr.2
    rw [← ho]
    exact ⟨this.1, by have := this.2; simp only; omega, rfl⟩

/-- C69's condition is met where a transition is found: 1, 2, 4, 16 in four rows. -/
example : Real.log 4 - Real.log 1 ≤ ((4 : ℕ) - 1 : ℝ) * (Real.log 2 - Real.log 1) := by
  have : Real.log 4 = 2 * Real.log 2 := by
    rw [show (4 : ℝ) = 2 ^ 2 by norm_num, Real.log_pow]; norm_num
  have hl : (0 : ℝ) < Real.log 2 := Real.log_pos (by norm_num)
  rw [this, Real.log_one]
  norm_num
  linarith

end Ssq
