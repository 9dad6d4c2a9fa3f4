import Verif.Model.Rounding
import Verif.Lemmas.Squeeze
import Mathlib.Algebra.Order.BigOperators.Group.Finset
import Mathlib.Data.Int.Log

/-!
# C161: rounding errors of synchrosqueezing and its inverse
-/
namespace Ssq
open Finset

namespace Spec

/-- Every operation has a relative error of at most `u` (for IEEE double precision without overflow and underflow, `u = 2^-53`). -/
def Rounds (u : ℝ) (op exact : ℝ → ℝ → ℝ) : Prop := ∀ a b, |op a b - exact a b| ≤ u * |exact a b|

/-- What cell `i` of column `j` adds to row `r`, if `row` is the row chosen for a frequency. -/
noncomputable def cellInto (Wx : ℕ → ℕ → ℂ) (w : ℕ → ℕ → Phase) (const : ℕ → ℝ) (row : ℝ → ℤ) (r : ℤ) (j i : ℕ) : ℂ :=
  match w i j with
  | .inf => 0
  | .fin x => if row x = r then Wx i j * (const i : ℂ) else 0

/-- What cell `i` of column `j` adds to the column. -/
noncomputable def cellAny (Wx : ℕ → ℕ → ℂ) (w : ℕ → ℕ → Phase) (const : ℕ → ℝ) (j i : ℕ) : ℂ :=
  match w i j with
  | .inf => 0
  | .fin _ => Wx i j * (const i : ℂ)

end Spec

theorem cAdd_err {u : ℝ} {add : ℝ → ℝ → ℝ} (hu : 0 ≤ u) (h : Spec.Rounds u add (· + ·)) (a b : ℂ) : ‖cAdd add a b - (a + b)‖ ≤ u * ‖a + b‖ := by
  have h1 := h a.re b.re
  have h2 := h a.im b.im
  rw [Complex.norm_def, Complex.norm_def, ← Real.sqrt_sq hu, ← Real.sqrt_mul (sq_nonneg u)]
  apply Real.sqrt_le_sqrt
  rw [Complex.normSq_apply, Complex.normSq_apply]
  have e1 := pow_le_pow_left₀ (abs_nonneg _) h1 2
  have e2 := pow_le_pow_left₀ (abs_nonneg _) h2 2
  rw [mul_pow, sq_abs, sq_abs] at e1 e2
  simp only [cAdd, Complex.sub_re, Complex.add_re, Complex.sub_im, Complex.add_im]
  nlinarith

theorem cMul_err {u : ℝ} {mul : ℝ → ℝ → ℝ} (hu : 0 ≤ u) (h : Spec.Rounds u mul (· * ·)) (a : ℂ) (b : ℝ) : ‖cMul mul a b - a * (b : ℂ)‖ ≤ u * ‖a * (b : ℂ)‖ := by
  have h1 := h a.re b
  have h2 := h a.im b
  rw [Complex.norm_def, Complex.norm_def, ← Real.sqrt_sq hu, ← Real.sqrt_mul (sq_nonneg u)]
  apply Real.sqrt_le_sqrt
  rw [Complex.normSq_apply, Complex.normSq_apply]
  have e1 := pow_le_pow_left₀ (abs_nonneg _) h1 2
  have e2 := pow_le_pow_left₀ (abs_nonneg _) h2 2
  rw [mul_pow, sq_abs, sq_abs] at e1 e2
  simp only [cMul, Complex.sub_re, Complex.sub_im, Complex.re_mul_ofReal, Complex.im_mul_ofReal]
  nlinarith

open Classical in
/-- One column of the kernel. -/
theorem colOps_err {u : ℝ} (hu : 0 ≤ u) {add : ℂ → ℂ → ℂ} {mul : ℂ → ℝ → ℂ} (ha : ∀ a b, ‖add a b - (a + b)‖ ≤ u * ‖a + b‖)
    (hm : ∀ a (b : ℝ), ‖mul a b - a * (b : ℂ)‖ ≤ u * ‖a * (b : ℂ)‖) (bin : ℝ → ℤ) (omax : ℤ) (flipud : Bool)
    (Wx : ℕ → ℕ → ℂ) (w : ℕ → ℕ → Phase) (const : ℕ → ℝ) (r : ℤ) (j M : ℕ) :
    ‖runOps add (fun _ _ => 0) (colOps M (indexedSumBody mul bin omax flipud Wx w const) j) r j -
        ∑ i ∈ range M, Spec.cellInto Wx w const (fun x => flipRow flipud omax (bin x)) r j i‖ ≤
      ((1 + u) ^ (((range M).filter fun i => ∃ x, w i j = .fin x ∧ flipRow flipud omax (bin x) = r).card + 1) - 1) *
        ∑ i ∈ range M, ‖Spec.cellInto Wx w const (fun x => flipRow flipud omax (bin x)) r j i‖ := by
  set row : ℝ → ℤ := fun x => flipRow flipud omax (bin x) with hrow
  set hit : ℕ → Prop := fun i => ∃ x, w i j = .fin x ∧ row x = r with hhit
  induction M with
  | zero => simp [colOps, runOps]
  | succ M ih =>
    set acc := runOps add (fun _ _ => 0) (colOps M (indexedSumBody mul bin omax flipud Wx w const) j) r j with hacc
    set n := ((range M).filter hit).card with hn
    set A := ∑ i ∈ range M, ‖Spec.cellInto Wx w const row r j i‖ with hA
    set s := ∑ i ∈ range M, Spec.cellInto Wx w const row r j i with hs
    rw [sum_range_succ, sum_range_succ, ← hs, ← hA]
    have hstep : runOps add (fun _ _ => 0) (colOps (M + 1) (indexedSumBody mul bin omax flipud Wx w const) j) r j =
        if hit M then add acc (mul (Wx M j) (const M)) else acc := by
      unfold colOps runOps
      rw [List.range_succ, List.filterMap_append, List.foldl_append]
      cases hw : w M j with
      | inf =>
        have : ¬ hit M := by rintro ⟨x, hx, -⟩; rw [hw] at hx; simp at hx
        rw [if_neg this]
        simp only [List.filterMap_cons, List.filterMap_nil, indexedSumBody, hw, List.foldl_nil]
        rfl
      | fin x =>
        simp only [List.filterMap_cons, List.filterMap_nil, indexedSumBody, hw, List.foldl_cons, List.foldl_nil, applyAdd, and_true]
        by_cases hr : row x = r
        · rw [if_pos (show r = flipRow flipud omax (bin x) from hr.symm), if_pos ⟨x, hw, hr⟩]
          rfl
        · rw [if_neg (show ¬ r = flipRow flipud omax (bin x) from fun e => hr e.symm), if_neg]
          · rfl
          · rintro ⟨y, hy, hyr⟩
            rw [hw] at hy
            simp only [Phase.fin.injEq] at hy
            rw [hy] at hr
            exact hr hyr
    rw [hstep]
    by_cases hh : hit M
    · have hcard : ((range (M + 1)).filter hit).card = n + 1 := by
        rw [range_add_one, filter_insert, if_pos hh, card_insert_of_notMem (by simp)]
      rw [if_pos hh, hcard]
      obtain ⟨x, hx, hxr⟩ := hh
      have hv : Spec.cellInto Wx w const row r j M = Wx M j * (const M : ℂ) := by
        unfold Spec.cellInto
        rw [hx]
        simp only
        rw [if_pos hxr]
      rw [hv]
      set v := Wx M j * (const M : ℂ) with hvd
      set v' := mul (Wx M j) (const M) with hv'
      have e1 : ‖v' - v‖ ≤ u * ‖v‖ := hm _ _
      have e2 := ha acc v'
      have hA0 : 0 ≤ A := sum_nonneg fun _ _ => norm_nonneg _
      have hsA : ‖s‖ ≤ A := norm_sum_le _ _
      have hg : (1 : ℝ) ≤ (1 + u) ^ n := one_le_pow₀ (by linarith)
      have e3 : ‖acc‖ ≤ (1 + u) ^ (n + 1) * A := by
        have := norm_le_norm_add_norm_sub' acc s
        linarith
      have e4 : ‖v'‖ ≤ (1 + u) * ‖v‖ := by
        have := norm_le_norm_add_norm_sub' v' v
        linarith
      have e5 : ‖add acc v' - (s + v)‖ ≤ u * ‖acc + v'‖ + ‖acc - s‖ + ‖v' - v‖ := by
        have t1 : add acc v' - (s + v) = (add acc v' - (acc + v')) + ((acc - s) + (v' - v)) := by ring
        rw [t1]
        refine (norm_add_le _ _).trans ?_
        have := norm_add_le (acc - s) (v' - v)
        linarith
      have e6 := norm_add_le acc v'
      have e7 : u * ‖acc + v'‖ ≤ u * ((1 + u) ^ (n + 1) * A + (1 + u) * ‖v‖) := mul_le_mul_of_nonneg_left (by linarith) hu
      have e8 : (1 + u) ^ 2 * ‖v‖ ≤ (1 + u) ^ (n + 1 + 1) * ‖v‖ :=
        mul_le_mul_of_nonneg_right (pow_le_pow_right₀ (by linarith) (by omega)) (norm_nonneg _)
      have e9 : (1 + u) ^ (n + 1 + 1) = (1 + u) ^ (n + 1) * (1 + u) := pow_succ _ _
      nlinarith
    · have hcard : ((range (M + 1)).filter hit).card = n := by
        rw [range_add_one, filter_insert, if_neg hh]
      rw [if_neg hh, hcard]
      have hv : Spec.cellInto Wx w const row r j M = 0 := by
        unfold Spec.cellInto
        cases hw : w M j with
        | inf => rfl
        | fin x =>
          simp only
          rw [if_neg fun e => hh ⟨x, hw, e⟩]
      rw [hv, add_zero, norm_zero, add_zero]
      exact ih

open Classical in
/-- **C161, kernels.** For every addition and multiplication with relative errors of at most `u`, every rule `bin` that takes frequencies to rows (so however the row itself is rounded), every
transform, phase and constants, and every schedule of the parallel loop: row `r` of column `j` differs from the exact sum of its `n` cells by at most `(1+u)^(n+1) - 1` times the sum of
their magnitudes; the serial loop gives the same numbers. -/
theorem C161_kernel {u : ℝ} (hu : 0 ≤ u) {add mul : ℝ → ℝ → ℝ} (ha : Spec.Rounds u add (· + ·)) (hm : Spec.Rounds u mul (· * ·)) (bin : ℝ → ℤ) (omax : ℤ) (flipud : Bool)
    (Wx : ℕ → ℕ → ℂ) (w : ℕ → ℕ → Phase) (const : ℕ → ℝ) (M N : ℕ) (sched : List (Micro ℂ)) (reg : ℕ → ℂ)
    (hs : IsParRun M N (indexedSumBody (cMul mul) bin omax flipud Wx w const) sched) :
    (sched.foldl (Mem.step (cAdd add)) ⟨fun _ _ => 0, reg⟩).out = runOps (cAdd add) (fun _ _ => 0) (serialOps M N (indexedSumBody (cMul mul) bin omax flipud Wx w const)) ∧
    ∀ r, ∀ j < N, ‖(sched.foldl (Mem.step (cAdd add)) ⟨fun _ _ => 0, reg⟩).out r j - ∑ i ∈ range M, Spec.cellInto Wx w const (fun x => flipRow flipud omax (bin x)) r j i‖ ≤
      ((1 + u) ^ (((range M).filter fun i => ∃ x, w i j = .fin x ∧ flipRow flipud omax (bin x) = r).card + 1) - 1) *
        ∑ i ∈ range M, ‖Spec.cellInto Wx w const (fun x => flipRow flipud omax (bin x)) r j i‖ := by
  have hpar := par_eq_serial (cAdd add) _ (indexedSumBody_cols (cMul mul) bin omax flipud Wx w const) M N sched hs (fun _ _ => 0) reg
  refine ⟨hpar, fun r j hj => ?_⟩
  rw [hpar, runOps_congr_col (cAdd add) j _ _ (fun _ _ => 0) (fun _ => rfl), serialOps_filter _ (indexedSumBody_cols (cMul mul) bin omax flipud Wx w const), if_pos hj]
  exact colOps_err hu (cAdd_err hu ha) (cMul_err hu hm) bin omax flipud Wx w const r j M

/-- **C161, sums.** However a sum is ordered and bracketed, its relative error is at most `(1+u)^(n-1) - 1`, in terms of the sum of the magnitudes of its `n` terms. -/
theorem C161_sum {u : ℝ} (hu : 0 ≤ u) {add : ℝ → ℝ → ℝ} (ha : Spec.Rounds u add (· + ·)) (f : ℕ → ℝ) (t : SumTree) :
    |t.eval add f - (t.leaves.map f).sum| ≤ ((1 + u) ^ (t.leaves.length - 1) - 1) * (t.leaves.map fun i => |f i|).sum := by
  have hlen : ∀ t : SumTree, 1 ≤ t.leaves.length := by
    intro t
    induction t with
    | leaf i => simp [SumTree.leaves]
    | node l r hl hr => simp [SumTree.leaves]; omega
  have habs : ∀ l : List ℕ, |(l.map f).sum| ≤ (l.map fun i => |f i|).sum ∧ 0 ≤ (l.map fun i => |f i|).sum := by
    intro l
    induction l with
    | nil => simp
    | cons a l ih =>
      simp only [List.map_cons, List.sum_cons]
      exact ⟨(abs_add_le _ _).trans (add_le_add_right ih.1 _), add_nonneg (abs_nonneg _) ih.2⟩
  induction t with
  | leaf i => simp [SumTree.eval, SumTree.leaves]
  | node l r hl hr =>
    simp only [SumTree.eval, SumTree.leaves, List.map_append, List.sum_append, List.length_append]
    have nl := hlen l
    have nr := hlen r
    obtain ⟨al, al0⟩ := habs l.leaves
    obtain ⟨ar, ar0⟩ := habs r.leaves
    set sl := (l.leaves.map f).sum
    set sr := (r.leaves.map f).sum
    set Al := (l.leaves.map fun i => |f i|).sum
    set Ar := (r.leaves.map fun i => |f i|).sum
    set el := l.eval add f
    set er := r.eval add f
    obtain ⟨p, hp⟩ : ∃ p, l.leaves.length = p + 1 := ⟨_, (Nat.sub_add_cancel nl).symm⟩
    obtain ⟨q, hq⟩ : ∃ q, r.leaves.length = q + 1 := ⟨_, (Nat.sub_add_cancel nr).symm⟩
    rw [hp] at hl ⊢
    rw [hq] at hr ⊢
    rw [Nat.add_sub_cancel] at hl hr
    rw [show p + 1 + (q + 1) - 1 = p + q + 1 by omega]
    have h0 := ha el er
    simp only at h0
    have b1 : |el| ≤ (1 + u) ^ p * Al := by
      have : |el| ≤ |sl| + |el - sl| := by
        have := abs_add_le sl (el - sl)
        rwa [add_sub_cancel] at this
      linarith
    have b2 : |er| ≤ (1 + u) ^ q * Ar := by
      have : |er| ≤ |sr| + |er - sr| := by
        have := abs_add_le sr (er - sr)
        rwa [add_sub_cancel] at this
      linarith
    have b3 : |add el er - (sl + sr)| ≤ u * |el + er| + |el - sl| + |er - sr| := by
      have t1 : add el er - (sl + sr) = (add el er - (el + er)) + ((el - sl) + (er - sr)) := by ring
      rw [t1]
      refine (abs_add_le _ _).trans ?_
      have := abs_add_le (el - sl) (er - sr)
      linarith
    have b4 := abs_add_le el er
    have b5 : u * |el + er| ≤ u * ((1 + u) ^ p * Al + (1 + u) ^ q * Ar) := mul_le_mul_of_nonneg_left (by linarith) hu
    have g1 : (1 + u) ^ p * (1 + u) ≤ (1 + u) ^ (p + q + 1) := by
      rw [← pow_succ]; exact pow_le_pow_right₀ (by linarith) (by omega)
    have g2 : (1 + u) ^ q * (1 + u) ≤ (1 + u) ^ (p + q + 1) := by
      rw [← pow_succ]; exact pow_le_pow_right₀ (by linarith) (by omega)
    have g3 := mul_le_mul_of_nonneg_right g1 al0
    have g4 := mul_le_mul_of_nonneg_right g2 ar0
    nlinarith

theorem cellInto_sum (Wx : ℕ → ℕ → ℂ) (w : ℕ → ℕ → Phase) (const : ℕ → ℝ) (row : ℝ → ℤ) (M j i : ℕ) (hrow : ∀ x, w i j = .fin x → 0 ≤ row x ∧ row x < M) :
    ∑ r ∈ range M, Spec.cellInto Wx w const row (r : ℤ) j i = Spec.cellAny Wx w const j i ∧
    ∑ r ∈ range M, ‖Spec.cellInto Wx w const row (r : ℤ) j i‖ = ‖Spec.cellAny Wx w const j i‖ := by
  unfold Spec.cellInto Spec.cellAny
  cases hw : w i j with
  | inf => simp
  | fin x =>
    obtain ⟨h0, h1⟩ := hrow x hw
    simp only
    have hmem : (row x).toNat ∈ range M := mem_range.2 (by omega)
    have hne : ∀ r ∈ range M, r ≠ (row x).toNat → ¬ row x = (r : ℤ) := by
      intro r _ hr e
      exact hr (by omega)
    constructor
    · rw [sum_eq_single_of_mem _ hmem fun r hr hn => if_neg (hne r hr hn), if_pos (by omega)]
    · rw [sum_eq_single_of_mem _ hmem fun r hr hn => by rw [if_neg (hne r hr hn), norm_zero], if_pos (by omega)]

/-- **C161, inverse.** The inverse of the transform computed in floating point, with the sum over the `M` rows taken in any order and bracketing, differs from the exact value, the sum over all cells
with a finite phase, by at most `(1+u)^(2 M + 1) - 1` times the sum of their magnitudes. Neither the value nor the bound depends on the rows to which the cells were moved, so errors in the
phases and in the rows do not matter for the inverse. -/
theorem C161_inverse {u : ℝ} (hu : 0 ≤ u) {add mul : ℝ → ℝ → ℝ} (ha : Spec.Rounds u add (· + ·)) (hm : Spec.Rounds u mul (· * ·)) (bin : ℝ → ℤ) (omax : ℤ) (flipud : Bool)
    (Wx : ℕ → ℕ → ℂ) (w : ℕ → ℕ → Phase) (const : ℕ → ℝ) (M N : ℕ) (order : SumTree) (ho : order.leaves.Perm (List.range M)) (k : ℝ) (j : ℕ) (hj : j < N)
    (hrow : ∀ i < M, ∀ x, w i j = .fin x → 0 ≤ flipRow flipud omax (bin x) ∧ flipRow flipud omax (bin x) < M) :
    |invertColumn add mul order (runOps (cAdd add) (fun _ _ => 0) (serialOps M N (indexedSumBody (cMul mul) bin omax flipud Wx w const))) k j -
        k * ∑ i ∈ range M, (Spec.cellAny Wx w const j i).re| ≤
      |k| * ((1 + u) ^ (2 * M + 1) - 1) * ∑ i ∈ range M, ‖Spec.cellAny Wx w const j i‖ := by
  classical
  set row : ℝ → ℤ := fun x => flipRow flipud omax (bin x) with hrd
  set T := runOps (cAdd add) (fun _ _ => 0) (serialOps M N (indexedSumBody (cMul mul) bin omax flipud Wx w const)) with hT
  set E : ℤ → ℂ := fun r => ∑ i ∈ range M, Spec.cellInto Wx w const row r j i with hE
  set Q : ℤ → ℝ := fun r => ∑ i ∈ range M, ‖Spec.cellInto Wx w const row r j i‖ with hQ
  set A := ∑ i ∈ range M, ‖Spec.cellAny Wx w const j i‖ with hA
  set g := 1 + u with hg
  have hg1 : 1 ≤ g := by linarith
  have hQ0 : ∀ r, 0 ≤ Q r := fun r => sum_nonneg fun _ _ => norm_nonneg _
  have hA0 : 0 ≤ A := sum_nonneg fun _ _ => norm_nonneg _
  have hTr : ∀ r, ‖T r j - E r‖ ≤ (g ^ (M + 1) - 1) * Q r := by
    intro r
    have h := colOps_err hu (cAdd_err hu ha) (cMul_err hu hm) bin omax flipud Wx w const r j M
    have e : T r j = runOps (cAdd add) (fun _ _ => 0) (colOps M (indexedSumBody (cMul mul) bin omax flipud Wx w const) j) r j := by
      rw [hT, runOps_congr_col (cAdd add) j _ _ (fun _ _ => 0) (fun _ => rfl), serialOps_filter _ (indexedSumBody_cols (cMul mul) bin omax flipud Wx w const), if_pos hj]
    rw [e]
    refine h.trans (mul_le_mul_of_nonneg_right ?_ (hQ0 r))
    have hcard := (card_filter_le (range M) fun i => ∃ x, w i j = .fin x ∧ flipRow flipud omax (bin x) = r).trans_eq (card_range M)
    have := pow_le_pow_right₀ hg1 (Nat.add_le_add_right hcard 1)
    linarith
  have hQA : ∑ r ∈ range M, Q r = A := by
    simp only [hQ]
    rw [sum_comm, hA]
    exact sum_congr rfl fun i hi => (cellInto_sum Wx w const row M j i (hrow i (mem_range.1 hi))).2
  have hEA : ∑ r ∈ range M, (E r).re = ∑ i ∈ range M, (Spec.cellAny Wx w const j i).re := by
    rw [← Complex.re_sum, ← Complex.re_sum]
    simp only [hE]
    rw [sum_comm]
    exact congrArg Complex.re (sum_congr rfl fun i hi => (cellInto_sum Wx w const row M j i (hrow i (mem_range.1 hi))).1)
  by_cases hM : M = 0
  · -- the sum has at least one row
    exfalso
    subst hM
    have := ho.length_eq
    have hlen : ∀ t : SumTree, 1 ≤ t.leaves.length := by
      intro t
      induction t with
      | leaf i => simp [SumTree.leaves]
      | node l r hl hr => simp [SumTree.leaves]; omega
    have h2 := hlen order
    rw [List.length_range] at this
    omega
  have hsum := C161_sum hu ha (fun r => (T r j).re) order
  have hlist : ∀ f : ℕ → ℝ, (order.leaves.map f).sum = ∑ r ∈ range M, f r := by
    intro f
    rw [(ho.map f).sum_eq]
    clear_value row
    clear * -
    induction M with
    | zero => simp
    | succ M ih => rw [List.range_succ, List.map_append, List.sum_append, ih, sum_range_succ]; simp
  rw [hlist, hlist, ho.length_eq, List.length_range] at hsum
  set S := order.eval add fun r => (T r j).re with hS
  set x := ∑ i ∈ range M, (Spec.cellAny Wx w const j i).re with hx
  have hTn : ∀ r : ℕ, |(T r j).re| ≤ g ^ (M + 1) * Q r := by
    intro r
    refine (Complex.abs_re_le_norm _).trans ?_
    have h1 := hTr r
    have h2 : ‖E r‖ ≤ Q r := norm_sum_le _ _
    have h3 := norm_le_norm_add_norm_sub' (T r j) (E r)
    linarith
  have hTn' : ∑ r ∈ range M, |(T (r : ℤ) j).re| ≤ g ^ (M + 1) * A := by
    rw [← hQA, mul_sum]
    exact sum_le_sum fun r _ => hTn r
  have hdiff : |∑ r ∈ range M, (T (r : ℤ) j).re - x| ≤ (g ^ (M + 1) - 1) * A := by
    rw [← hEA, ← sum_sub_distrib, ← hQA, mul_sum]
    refine (abs_sum_le_sum_abs _ _).trans (sum_le_sum fun r _ => ?_)
    rw [← Complex.sub_re]
    exact (Complex.abs_re_le_norm _).trans (hTr r)
  have hgM : (1 : ℝ) ≤ g ^ (M - 1) := one_le_pow₀ hg1
  have hSx : |S - x| ≤ (g ^ (2 * M) - 1) * A := by
    have h1 := abs_sub_le S (∑ r ∈ range M, (T (r : ℤ) j).re) x
    have h2 : (g ^ (M - 1) - 1) * ∑ r ∈ range M, |(T (r : ℤ) j).re| ≤ (g ^ (M - 1) - 1) * (g ^ (M + 1) * A) := mul_le_mul_of_nonneg_left hTn' (by linarith)
    have h3 : g ^ (2 * M) = g ^ (M - 1) * g ^ (M + 1) := by rw [← pow_add]; congr 1; omega
    rw [h3]
    nlinarith
  have hxA : |x| ≤ A := by
    refine (abs_sum_le_sum_abs _ _).trans (sum_le_sum fun i _ => Complex.abs_re_le_norm _)
  have hSA : |S| ≤ g ^ (2 * M) * A := by
    have := abs_add_le x (S - x)
    rw [add_sub_cancel] at this
    linarith
  unfold invertColumn
  have hk := hm S k
  simp only at hk
  have h1 : |mul S k - k * x| ≤ |mul S k - S * k| + |S * k - k * x| := abs_sub_le _ _ _
  have h2 : |S * k - k * x| = |k| * |S - x| := by
    rw [← abs_mul]; congr 1; ring
  rw [h2] at h1
  rw [abs_mul] at hk
  have hk0 := abs_nonneg k
  have h3 : u * (|S| * |k|) ≤ u * (g ^ (2 * M) * A * |k|) := mul_le_mul_of_nonneg_left (mul_le_mul_of_nonneg_right hSA hk0) hu
  have h4 : |k| * |S - x| ≤ |k| * ((g ^ (2 * M) - 1) * A) := mul_le_mul_of_nonneg_left hSx hk0
  have h5 : g ^ (2 * M + 1) = g ^ (2 * M) * (1 + u) := by rw [pow_succ]
  rw [h5]
  nlinarith

/-! ## Non-vacuity -/

namespace Spec

/-- The nearest number with `p` significant binary digits, ties to even, exponents unbounded: IEEE 754 rounding without overflow and underflow. -/
noncomputable def fl (p : ℕ) (x : ℝ) : ℝ := (roundHalfEven (x / 2 ^ (Int.log 2 |x| - p + 1 : ℤ)) : ℝ) * 2 ^ (Int.log 2 |x| - p + 1 : ℤ)

end Spec

/-- Floating-point arithmetic with `p` digits has relative errors of at most `2^-p`, for every operation. -/
theorem C161_ieee (p : ℕ) (op : ℝ → ℝ → ℝ) : Spec.Rounds (1 / 2 ^ p) (fun a b => Spec.fl p (op a b)) op := by
  intro a b
  show |Spec.fl p (op a b) - op a b| ≤ _
  generalize op a b = x
  by_cases hx : x = 0
  · subst hx
    simp [Spec.fl, roundHalfEven]
  set e : ℤ := Int.log 2 |x| with he
  have hpow : (2 : ℝ) ^ e ≤ |x| := Int.zpow_log_le_self (by norm_num) (abs_pos.2 hx)
  set d : ℝ := 2 ^ (e - p + 1 : ℤ) with hd
  have hd0 : 0 < d := by positivity
  have hr := rhe_abs (x / d)
  rw [abs_sub_comm] at hr
  unfold Spec.fl
  rw [← he, ← hd]
  have e1 : (roundHalfEven (x / d) : ℝ) * d - x = ((roundHalfEven (x / d) : ℝ) - x / d) * d := by field_simp
  rw [e1, abs_mul, abs_of_pos hd0]
  have e2 : 1 / 2 * d = 1 / 2 ^ p * (2 : ℝ) ^ e := by
    rw [hd, show e - (p : ℤ) + 1 = e + (-(p : ℤ) + 1) by ring, zpow_add₀ (by norm_num), zpow_add₀ (by norm_num), zpow_neg, zpow_natCast]
    field_simp
  have e3 : 1 / 2 ^ p * (2 : ℝ) ^ e ≤ 1 / 2 ^ p * |x| := mul_le_mul_of_nonneg_left hpow (by positivity)
  nlinarith

/-- Double precision, two cells of one column moved to one row. -/
example : ∃ T : ℤ → ℕ → ℂ, T = runOps (cAdd fun a b => Spec.fl 53 (a + b)) (fun _ _ => 0)
      (serialOps 2 1 (indexedSumBody (cMul fun a b => Spec.fl 53 (a * b)) (fun _ => 1) 1 false (fun _ _ => 1 / 3) (fun _ _ => .fin 0) (fun _ => 1 / 10))) ∧
    |invertColumn (fun a b => Spec.fl 53 (a + b)) (fun a b => Spec.fl 53 (a * b)) (.node (.leaf 1) (.leaf 0)) T 2 0 - 2 * (1 / 30 + 1 / 30)| ≤
      2 * ((1 + 1 / 2 ^ 53) ^ 5 - 1) * (1 / 30 + 1 / 30) := by
  refine ⟨_, rfl, ?_⟩
  have h := C161_inverse (u := 1 / 2 ^ 53) (by positivity) (C161_ieee 53 (· + ·)) (C161_ieee 53 (· * ·)) (fun _ => 1) 1 false (fun _ _ => 1 / 3) (fun _ _ => .fin 0) (fun _ => 1 / 10) 2 1
    (.node (.leaf 1) (.leaf 0)) (by simpa [SumTree.leaves, List.range_succ] using List.Perm.swap 0 1 []) 2 0 one_pos (by simp [flipRow])
  have hc : Spec.cellAny (fun _ _ => 1 / 3) (fun _ _ => .fin 0) (fun _ => 1 / 10) 0 = fun _ => ((1 / 30 : ℝ) : ℂ) := by
    funext i
    simp only [Spec.cellAny]
    push_cast
    norm_num
  simp only [hc, sum_range_succ, sum_range_zero, Complex.ofReal_re, Complex.norm_real, Real.norm_eq_abs] at h
  rw [abs_of_pos (show (0 : ℝ) < 1 / 30 by norm_num), abs_of_pos (show (0 : ℝ) < 2 by norm_num), zero_add] at h
  exact h

end Ssq
