import Verif.Model.Gmw
import Mathlib.Analysis.Calculus.ContDiff.Deriv
import Mathlib.Analysis.Calculus.ContDiff.Operations
import Mathlib.Analysis.Calculus.IteratedDeriv.Lemmas
import Mathlib.Analysis.SpecialFunctions.Log.Deriv
import Mathlib.Data.Nat.Choose.Factorization
import Mathlib.Tactic.FieldSimp
import Mathlib.Data.List.GetD

/-!
# Binomials, moments and cumulants (C54)
-/
namespace Ssq

open scoped ContDiff

theorem prod_desc (n r : ℕ) (h : r ≤ n) :
    ((List.range r).map fun i : ℕ => (n : ℚ) - (i : ℚ)).prod = (n.descFactorial r : ℚ) := by
  induction r with
  | zero => simp
  | succ r ih =>
    rw [List.range_succ, List.map_append, List.prod_append, ih (by omega), Nat.descFactorial_succ]
    simp only [List.map_cons, List.map_nil, List.prod_cons, List.prod_nil, mul_one]
    rw [Nat.cast_mul, Nat.cast_sub (by omega)]
    ring

theorem prod_fact (r : ℕ) : ((List.range r).map fun i : ℕ => (i : ℚ) + 1).prod = (r.factorial : ℚ) := by
  induction r with
  | zero => simp
  | succ r ih =>
    rw [List.range_succ, List.map_append, List.prod_append, ih, Nat.factorial_succ]
    simp only [List.map_cons, List.map_nil, List.prod_cons, List.prod_nil, mul_one]
    push_cast
    ring

/-- **C54** (`nCk`). For `0 ≤ k ≤ n`, `nCk(n, k)` is the binomial coefficient. -/
theorem C54_nCk (n k : ℕ) (h : k ≤ n) : nCk n k = (n.choose k : ℚ) := by
  have key : ∀ r ≤ n, ((List.range r).map fun i : ℕ => (n : ℚ) - (i : ℚ)).prod /
      ((List.range r).map fun i : ℕ => (i : ℚ) + 1).prod = (n.choose r : ℚ) := fun r hr => by
    rw [prod_desc n r hr, prod_fact, Nat.choose_eq_descFactorial_div_factorial,
      Nat.cast_div (Nat.factorial_dvd_descFactorial n r) (by exact_mod_cast Nat.factorial_ne_zero r)]
  unfold nCk
  simp only
  rcases Nat.le_total k (n - k) with h' | h'
  · have : (min (k : ℤ) ((n : ℤ) - k)).toNat = k := by omega
    rw [this, key k h]
  · have : (min (k : ℤ) ((n : ℤ) - k)).toNat = n - k := by omega
    rw [this, key (n - k) (by omega), Nat.choose_symm h]

/-- Beyond `n` the function returns 1, not 0. -/
theorem C54_nCk_beyond (n k : ℕ) (h : n < k) : nCk n k = 1 := by
  unfold nCk
  have : (min (k : ℤ) ((n : ℤ) - k)).toNat = 0 := by omega
  simp only [this]
  simp

example : nCk 5 2 = 10 ∧ nCk 2 5 = 1 := ⟨by rw [C54_nCk 5 2 (by norm_num)]; rfl, C54_nCk_beyond 2 5 (by norm_num)⟩

/-! ## cumulants -/

/-- The derivatives at 0 of a smooth function: its moments, if it is a moment generating function. -/
noncomputable def Spec.derivs (g : ℝ → ℝ) (N : ℕ) : List ℝ := (List.range N).map fun n => iteratedDeriv n g 0

theorem derivs_getD (g : ℝ → ℝ) {N n : ℕ} (h : n < N) : (Spec.derivs g N).getD n 0 = iteratedDeriv n g 0 := by
  unfold Spec.derivs
  rw [List.getD_eq_getElem?_getD, List.getElem?_map, List.getElem?_range h]
  rfl

theorem log_smooth {g : ℝ → ℝ} (hg : ContDiffAt ℝ ∞ g 0) (h0 : 0 < g 0) :
    ContDiffAt ℝ ∞ (fun t => Real.log (g t)) 0 := hg.log h0.ne'

theorem deriv_smooth {g : ℝ → ℝ} (hg : ContDiffAt ℝ ∞ g 0) (n : ℕ) : ContDiffAt ℝ n (deriv g) 0 :=
  hg.derivWithin (by exact_mod_cast le_top)

/-- `g^{(n+1)} = Σ C(n,i) (log g)^{(i+1)} g^{(n-i)}` at 0. -/
theorem leibniz_log {g : ℝ → ℝ} (hg : ContDiffAt ℝ ∞ g 0) (h0 : 0 < g 0) (n : ℕ) :
    iteratedDeriv (n + 1) g 0 = ∑ i ∈ Finset.range (n + 1),
      (n.choose i : ℝ) * iteratedDeriv (i + 1) (fun t => Real.log (g t)) 0 * iteratedDeriv (n - i) g 0 := by
  have hd : ∀ᶠ t in nhds (0 : ℝ), DifferentiableAt ℝ g t ∧ 0 < g t := by
    have h1 : ContDiffAt ℝ 1 g 0 := hg.of_le (by exact_mod_cast le_top)
    have h2 : ∀ᶠ t in nhds (0 : ℝ), ContDiffAt ℝ 1 g t := h1.eventually (by simp)
    have h3 : ∀ᶠ t in nhds (0 : ℝ), 0 < g t := hg.continuousAt.eventually (lt_mem_nhds h0)
    filter_upwards [h2, h3] with t ha hb
    exact ⟨ha.differentiableAt one_ne_zero, hb⟩
  have he : deriv g =ᶠ[nhds 0] (deriv fun t => Real.log (g t)) * g := by
    filter_upwards [hd] with t ht
    rw [Pi.mul_apply, deriv.log ht.1 ht.2.ne', div_mul_cancel₀ _ ht.2.ne']
  rw [iteratedDeriv_succ', he.iteratedDeriv_eq, iteratedDeriv_mul (deriv_smooth (log_smooth hg h0) n)
    (hg.of_le (by exact_mod_cast le_top))]
  simp_rw [← iteratedDeriv_succ']

theorem sum_range'_list (f : ℕ → ℝ) (n : ℕ) : ((List.range' 1 n).map f).sum = ∑ i ∈ Finset.range n, f (i + 1) := by
  induction n with
  | zero => simp
  | succ n ih => rw [List.range'_concat, Finset.sum_range_succ]; simp [ih, add_comm]

theorem cumStep_eq {g : ℝ → ℝ} (hg : ContDiffAt ℝ ∞ g 0) (h0 : 0 < g 0) {N n : ℕ} (hn : n + 1 < N) :
    cumStep (Spec.derivs g N) (Spec.derivs (fun t => Real.log (g t)) (n + 1)) =
      Spec.derivs (fun t => Real.log (g t)) (n + 2) := by
  have hl : (Spec.derivs (fun t => Real.log (g t)) (n + 1)).length = n + 1 := by simp [Spec.derivs]
  unfold cumStep
  rw [hl]
  simp only [Nat.add_sub_cancel]
  rw [sum_range'_list]
  have hsum : ∀ i ∈ Finset.range n, (nCk n (i + 1 - 1) : ℝ) * (Spec.derivs (fun t => Real.log (g t)) (n + 1)).getD (i + 1) 0 *
      ((Spec.derivs g N).getD (n + 1 - (i + 1)) 0 / (Spec.derivs g N).getD 0 0) =
      ((n.choose i : ℝ) * iteratedDeriv (i + 1) (fun t => Real.log (g t)) 0 * iteratedDeriv (n - i) g 0) / g 0 :=
    fun i hi => by
    rw [Finset.mem_range] at hi
    rw [derivs_getD _ (by omega), derivs_getD _ (by omega), derivs_getD _ (by omega), Nat.add_sub_cancel,
      C54_nCk n i (by omega), iteratedDeriv_zero, show n + 1 - (i + 1) = n - i by omega]
    push_cast
    ring
  rw [Finset.sum_congr rfl hsum, ← Finset.sum_div, derivs_getD _ hn, derivs_getD _ (by omega), iteratedDeriv_zero,
    leibniz_log hg h0, Finset.sum_range_succ, Nat.choose_self, Nat.sub_self, iteratedDeriv_zero]
  have hval : ∀ S k : ℝ, (S + ((1 : ℕ) : ℝ) * k * g 0) / g 0 - S / g 0 = k := fun S k => by
    have := h0.ne'
    push_cast
    field_simp
    ring
  rw [hval]
  unfold Spec.derivs
  rw [List.range_succ (n := n + 1), List.map_append]
  rfl

/-- **C54** (cumulants). If the moments are the derivatives at 0 of a smooth generating function `g` with `g 0 > 0`, the
returned cumulants are the derivatives at 0 of `log g`, to any order. (Every list of moments with `M0 > 0` is of this form,
`C54_every_list`.) -/
theorem C54_cumulants {g : ℝ → ℝ} (hg : ContDiffAt ℝ ∞ g 0) (h0 : 0 < g 0) (N : ℕ) (hN : 0 < N) :
    momentsToCumulants (Spec.derivs g N) = Spec.derivs (fun t => Real.log (g t)) N := by
  have key : ∀ n, n + 1 ≤ N → (List.range n).foldl (fun K _ => cumStep (Spec.derivs g N) K)
      [Real.log ((Spec.derivs g N).getD 0 0)] = Spec.derivs (fun t => Real.log (g t)) (n + 1) := fun n => by
    induction n with
    | zero =>
      intro _
      rw [derivs_getD _ hN]
      simp [Spec.derivs]
    | succ n ih =>
      intro h
      rw [List.range_succ, List.foldl_append, ih (by omega)]
      exact cumStep_eq hg h0 (by omega)
  unfold momentsToCumulants
  have hl : (Spec.derivs g N).length = N := by simp [Spec.derivs]
  rw [hl, key (N - 1) (by omega), Nat.sub_add_cancel hN]

/-- The polynomial with given derivatives at 0. -/
noncomputable def Spec.taylor (M : List ℝ) (t : ℝ) : ℝ :=
  ∑ n ∈ Finset.range M.length, M.getD n 0 / (n.factorial : ℝ) * t ^ n

theorem taylor_smooth (M : List ℝ) : ContDiff ℝ ∞ (Spec.taylor M) := by
  unfold Spec.taylor
  fun_prop

theorem derivs_taylor (M : List ℝ) : Spec.derivs (Spec.taylor M) M.length = M := by
  refine List.ext_getElem (by simp [Spec.derivs]) fun n h1 h2 => ?_
  simp only [Spec.derivs, List.getElem_map, List.getElem_range]
  unfold Spec.taylor
  rw [iteratedDeriv_fun_sum fun i _ => by fun_prop]
  have e : ∀ i ∈ Finset.range M.length, iteratedDeriv n (fun z : ℝ => M.getD i 0 / (i.factorial : ℝ) * z ^ i) 0 =
      if i = n then M.getD n 0 else 0 := fun i _ => by
    rw [iteratedDeriv_const_mul_field, iteratedDeriv_fun_pow_zero]
    split_ifs with ha hb hb
    · subst hb
      have : (i.factorial : ℝ) ≠ 0 := by exact_mod_cast Nat.factorial_ne_zero i
      field_simp
    · exact absurd ha.symm hb
    · exact absurd hb.symm ha
    · simp
  rw [Finset.sum_congr rfl e, Finset.sum_ite_eq' , if_pos (Finset.mem_range.2 h2), List.getD_eq_getElem _ _ h2]

/-- **C54** (every moment list). For every list of moments with `M0 > 0`, the cumulants are the derivatives at 0 of the
logarithm of the generating polynomial `Σ M_n t^n / n!`. -/
theorem C54_every_list (M : List ℝ) (h0 : 0 < M.getD 0 0) :
    momentsToCumulants M = Spec.derivs (fun t => Real.log (Spec.taylor M t)) M.length := by
  have hN : 0 < M.length := by
    rcases M with _ | ⟨a, l⟩
    · simp at h0
    · simp
  have hg : Spec.taylor M 0 = M.getD 0 0 := by
    have h := derivs_getD (Spec.taylor M) hN
    rw [derivs_taylor, iteratedDeriv_zero] at h
    exact h.symm
  have := C54_cumulants (taylor_smooth M).contDiffAt (by rw [hg]; exact h0) M.length hN
  rwa [derivs_taylor] at this

/-- **C54** (additivity). Multiplying generating functions adds the cumulants. -/
theorem C54_additive {g h : ℝ → ℝ} (hg : ContDiffAt ℝ ∞ g 0) (hh : ContDiffAt ℝ ∞ h 0) (g0 : 0 < g 0) (h0 : 0 < h 0)
    (N : ℕ) (hN : 0 < N) :
    momentsToCumulants (Spec.derivs (fun t => g t * h t) N) =
      List.zipWith (fun a b : ℝ => a + b) (momentsToCumulants (Spec.derivs g N)) (momentsToCumulants (Spec.derivs h N)) := by
  rw [C54_cumulants (hg.mul hh) (by positivity) N hN, C54_cumulants hg g0 N hN, C54_cumulants hh h0 N hN]
  unfold Spec.derivs
  refine List.ext_getElem (by simp) fun n h1 h2 => ?_
  simp only [List.getElem_map, List.getElem_range, List.getElem_zipWith]
  have he : (fun t => Real.log (g t * h t)) =ᶠ[nhds 0] (fun t => Real.log (g t)) + fun t => Real.log (h t) := by
    filter_upwards [hg.continuousAt.eventually (lt_mem_nhds g0), hh.continuousAt.eventually (lt_mem_nhds h0)] with t ha hb
    rw [Pi.add_apply, Real.log_mul ha.ne' hb.ne']
  rw [he.iteratedDeriv_eq, iteratedDeriv_add ((log_smooth hg g0).of_le (by exact_mod_cast le_top))
    ((log_smooth hh h0).of_le (by exact_mod_cast le_top))]

/-- Moments `1, 1, 2` have cumulants `0, 1, 1`. -/
example : momentsToCumulants [1, 1, 2] = [0, 1, 1] := by
  simp [momentsToCumulants, cumStep, List.range_succ, List.range'_succ, nCk]
  norm_num

end Ssq
