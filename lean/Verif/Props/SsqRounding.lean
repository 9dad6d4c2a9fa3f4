import Verif.Props.CwtRounding
import Verif.Props.IssqCwt
import Verif.Props.IcwtAny

/-!
# Rounding errors of `issq_cwt(ssq_cwt(x))` (C171)
-/
namespace Ssq
open Finset

namespace Spec

/-- The computed phases follow the threshold up to a relative error `u` of the comparison: cells clearly above it have a (finite) frequency, cells clearly below have none. What the frequencies
are is left open. -/
def FollowsThreshold (u gamma : ℝ) (M N : ℕ) (V : ℕ → ℕ → ℂ) (w : ℕ → ℕ → Phase) : Prop :=
  ∀ i < M, ∀ j < N, ((1 + u) * gamma < ‖V i j‖ → ∃ f, w i j = .fin f) ∧ (‖V i j‖ < (1 - u) * gamma → w i j = .inf)

open Classical in
/-- What one cell of magnitude `r` may change in the sum of its column if it is known up to `e`: `e` if it is kept whatever happens, nothing if it is dropped whatever happens, and the threshold
otherwise. -/
noncomputable def cellDoubt (gamma e r : ℝ) : ℝ := if gamma + e < r then e else if r < gamma - e then 0 else gamma + e

end Spec

theorem cellDoubt_nonneg {gamma e r : ℝ} (hg : 0 ≤ gamma) (he : 0 ≤ e) : 0 ≤ Spec.cellDoubt gamma e r := by
  unfold Spec.cellDoubt
  split_ifs <;> linarith

open Classical in
/-- One cell: the computed one (kept or not, as the computed phase says) against the exact one. -/
theorem cell_doubt {u gamma e : ℝ} (hu : 0 ≤ u) (hg : 0 ≤ gamma) {V W : ℂ} (he : ‖V - W‖ ≤ e) (keep kept : Prop)
    (h1 : (1 + u) * gamma < ‖V‖ → keep) (h2 : ‖V‖ < (1 - u) * gamma → ¬ keep) (h3 : gamma < ‖W‖ → kept) (h4 : ‖W‖ < gamma → ¬ kept) :
    ‖(if keep then V else 0) - (if kept then W else 0)‖ ≤ Spec.cellDoubt gamma (e + u * gamma) ‖W‖ := by
  have he0 : 0 ≤ e := (norm_nonneg _).trans he
  have hug : 0 ≤ u * gamma := mul_nonneg hu hg
  have t1 := norm_le_norm_add_norm_sub' V W
  have t2 := norm_le_norm_add_norm_sub' W V
  rw [norm_sub_rev W] at t2
  unfold Spec.cellDoubt
  by_cases c1 : gamma + (e + u * gamma) < ‖W‖
  · rw [if_pos c1, if_pos (h1 (by linarith)), if_pos (h3 (by linarith))]
    linarith
  rw [if_neg c1]
  by_cases c2 : ‖W‖ < gamma - (e + u * gamma)
  · rw [if_pos c2, if_neg (h2 (by linarith)), if_neg (h4 (by linarith))]
    simp
  rw [if_neg c2]
  by_cases k1 : keep <;> by_cases k2 : kept
  · rw [if_pos k1, if_pos k2]; linarith
  · rw [if_pos k1, if_neg k2, sub_zero]
    have : ‖W‖ ≤ gamma := not_lt.1 fun h => k2 (h3 h)
    linarith
  · rw [if_neg k1, if_pos k2, zero_sub, norm_neg]
    have : ‖V‖ ≤ (1 + u) * gamma := not_lt.1 fun h => k1 (h1 h)
    linarith
  · rw [if_neg k1, if_neg k2, sub_zero, norm_zero]; linarith

open Classical in
/-- Squeezing and inverting in floating point, for cells known up to `e`: the inverse against the sum of the exact cells that exceed the threshold. -/
theorem squeeze_inverse_err {u gamma e R : ℝ} (hu : 0 ≤ u) (hg : 0 ≤ gamma) (he : 0 ≤ e) (hR : 0 ≤ R) {add mul div : ℝ → ℝ → ℝ} (ha : Spec.Rounds u add (· + ·))
    (hm : Spec.Rounds u mul (· * ·)) (hd : Spec.Rounds u div (· / ·)) (bin : ℝ → ℤ) (omax : ℤ) (flipud : Bool) (V W : ℕ → ℕ → ℂ) (w : ℕ → ℕ → Phase) (μ c : ℕ → ℝ) (M N : ℕ)
    (sched : List (Micro ℂ)) (reg : ℕ → ℂ) (hs : IsParRun M N (indexedSumBody (cMul mul) bin omax flipud V w c) sched)
    (order : SumTree) (ho : order.leaves.Perm (List.range M)) (css : ℝ) (j : ℕ) (hj : j < N) (kept : ℕ → Prop)
    (hrow : ∀ i < M, ∀ f, w i j = .fin f → 0 ≤ flipRow flipud omax (bin f) ∧ flipRow flipud omax (bin f) < M)
    (hVW : ∀ i < M, ‖V i j - W i j‖ ≤ e) (hW : ∀ i < M, ‖W i j‖ ≤ R) (hc : ∀ i < M, |c i - μ i| ≤ u * |μ i|) (hth : Spec.FollowsThreshold u gamma M N V w)
    (hk : ∀ i < M, (gamma < ‖W i j‖ → kept i) ∧ (‖W i j‖ < gamma → ¬ kept i)) :
    |invertColumn add mul order (sched.foldl (Mem.step (cAdd add)) ⟨fun _ _ => 0, reg⟩).out (div 2 css) j - 2 / css * ∑ i ∈ range M, if kept i then (W i j).re * μ i else 0| ≤
      |2 / css| * ∑ i ∈ range M, |μ i| * (((1 + u) ^ (2 * M + 3) - 1) * (R + e) + (1 + u) * Spec.cellDoubt gamma (e + u * gamma) ‖W i j‖) := by
  rw [(C161_kernel hu ha hm bin omax flipud V w c M N sched reg hs).1]
  set g := 1 + u with hgd
  have hg1 : 1 ≤ g := by linarith
  have hinv := C161_inverse hu ha hm bin omax flipud V w c M N order ho (div 2 css) j hj hrow
  set T := runOps (cAdd add) (fun _ _ => 0) (serialOps M N (indexedSumBody (cMul mul) bin omax flipud V w c)) with hT
  set A' := ∑ i ∈ range M, (Spec.cellAny V w c j i).re with hA'
  set A := ∑ i ∈ range M, (if kept i then (W i j).re * μ i else 0) with hA
  set k' := div 2 css with hk'
  set k := 2 / css with hkd
  have hkk : |k' - k| ≤ u * |k| := hd 2 css
  have hk'b : |k'| ≤ g * |k| := by
    have := abs_sub_abs_le_abs_sub k' k
    rw [hgd]; linarith
  have hk0 := abs_nonneg k
  set Dt : ℕ → ℝ := fun i => Spec.cellDoubt gamma (e + u * gamma) ‖W i j‖ with hDt
  have hD0 : ∀ i, 0 ≤ Dt i := fun i => cellDoubt_nonneg hg (by positivity)
  have hVb : ∀ i < M, ‖V i j‖ ≤ R + e := by
    intro i hi
    have h1 := norm_le_norm_add_norm_sub' (V i j) (W i j)
    have h2 := hVW i hi
    have h3 := hW i hi
    linarith
  have hcb : ∀ i < M, |c i| ≤ g * |μ i| := by
    intro i hi
    have h1 := abs_sub_abs_le_abs_sub (c i) (μ i)
    have h2 := hc i hi
    rw [hgd]; linarith
  -- the magnitudes of the computed cells
  have hmag : ∀ i ∈ range M, ‖Spec.cellAny V w c j i‖ ≤ g * |μ i| * (R + e) := by
    intro i hi
    rw [mem_range] at hi
    have h0 : 0 ≤ g * |μ i| * (R + e) := by positivity
    unfold Spec.cellAny
    cases w i j with
    | inf => simpa using h0
    | fin f =>
      simp only
      rw [norm_mul, Complex.norm_real, Real.norm_eq_abs, mul_comm]
      exact mul_le_mul (hcb i hi) (hVb i hi) (norm_nonneg _) (by positivity)
  -- the computed cells against the exact ones
  have hcell : ∀ i ∈ range M, |(Spec.cellAny V w c j i).re - (if kept i then (W i j).re * μ i else 0)| ≤ |μ i| * (u * (R + e) + Dt i) := by
    intro i hi
    rw [mem_range] at hi
    have hdoubt := cell_doubt hu hg (hVW i hi) (∃ f, w i j = .fin f) (kept i) (hth i hi j hj).1 (fun h => by rw [(hth i hi j hj).2 h]; simp) (hk i hi).1 (hk i hi).2
    have e1 : Spec.cellAny V w c j i = (if (∃ f, w i j = .fin f) then V i j else 0) * (c i : ℂ) := by
      unfold Spec.cellAny
      cases hwi : w i j with
      | inf => simp
      | fin f => simp
    set Vk := (if (∃ f, w i j = .fin f) then V i j else 0) with hVk
    set Wk := (if kept i then W i j else 0) with hWk
    have e2 : (if kept i then (W i j).re * μ i else 0) = (Wk * (μ i : ℂ)).re := by
      rw [hWk]
      split <;> simp
    have hVkb : ‖Vk‖ ≤ R + e := by
      rw [hVk]
      split
      · exact hVb i hi
      · simp; positivity
    rw [e1, e2, ← Complex.sub_re]
    refine (Complex.abs_re_le_norm _).trans ?_
    have e3 : Vk * (c i : ℂ) - Wk * (μ i : ℂ) = Vk * ((c i - μ i : ℝ) : ℂ) + (Vk - Wk) * (μ i : ℂ) := by push_cast; ring
    rw [e3]
    refine (norm_add_le _ _).trans ?_
    rw [norm_mul, norm_mul, Complex.norm_real, Complex.norm_real, Real.norm_eq_abs, Real.norm_eq_abs]
    have h1 : ‖Vk‖ * |c i - μ i| ≤ (R + e) * (u * |μ i|) := mul_le_mul hVkb (hc i hi) (abs_nonneg _) (by positivity)
    have h2 : ‖Vk - Wk‖ * |μ i| ≤ Dt i * |μ i| := mul_le_mul_of_nonneg_right hdoubt (abs_nonneg _)
    linarith
  have hAA : |A' - A| ≤ ∑ i ∈ range M, |μ i| * (u * (R + e) + Dt i) := by
    rw [hA', hA, ← sum_sub_distrib]
    exact (abs_sum_le_sum_abs _ _).trans (sum_le_sum hcell)
  have hAb : |A| ≤ ∑ i ∈ range M, |μ i| * R := by
    rw [hA]
    refine (abs_sum_le_sum_abs _ _).trans (sum_le_sum fun i hi => ?_)
    have h0 : 0 ≤ |μ i| * R := by positivity
    split
    · rw [abs_mul, mul_comm]
      exact mul_le_mul_of_nonneg_left ((Complex.abs_re_le_norm _).trans (hW i (mem_range.1 hi))) (abs_nonneg _)
    · simpa using h0
  set S := ∑ i ∈ range M, |μ i| with hS
  have hS0 : 0 ≤ S := sum_nonneg fun _ _ => abs_nonneg _
  set Q := ∑ i ∈ range M, |μ i| * Dt i with hQ
  have hQ0 : 0 ≤ Q := sum_nonneg fun i _ => mul_nonneg (abs_nonneg _) (hD0 i)
  have s1 : ∑ i ∈ range M, |μ i| * (u * (R + e) + Dt i) = S * (u * (R + e)) + Q := by
    rw [hS, hQ, sum_mul, ← sum_add_distrib]
    exact sum_congr rfl fun i _ => by ring
  have s2 : ∑ i ∈ range M, |μ i| * R = S * R := by rw [hS, sum_mul]
  have s3 : ∑ i ∈ range M, ‖Spec.cellAny V w c j i‖ ≤ g * S * (R + e) := by
    refine (sum_le_sum hmag).trans (le_of_eq ?_)
    rw [hS, mul_sum, sum_mul]
  have s4 : ∑ i ∈ range M, |μ i| * ((g ^ (2 * M + 3) - 1) * (R + e) + g * Dt i) = S * ((g ^ (2 * M + 3) - 1) * (R + e)) + g * Q := by
    rw [hS, hQ, sum_mul, mul_sum, ← sum_add_distrib]
    exact sum_congr rfl fun i _ => by ring
  rw [s1] at hAA
  rw [s2] at hAb
  rw [s4]
  set X := invertColumn add mul order T k' j with hX
  have hp : 1 ≤ g ^ (2 * M + 1) := one_le_pow₀ hg1
  have hp' : g ^ (2 * M + 3) = g ^ (2 * M + 1) * g * g := by rw [pow_succ, pow_succ]
  have b1 : |X - k' * A'| ≤ g * |k| * ((g ^ (2 * M + 1) - 1) * (g * S * (R + e))) := by
    refine hinv.trans ?_
    rw [mul_assoc]
    refine mul_le_mul hk'b (mul_le_mul_of_nonneg_left s3 (by linarith)) ?_ (by positivity)
    exact mul_nonneg (by linarith) (sum_nonneg fun _ _ => norm_nonneg _)
  have b2 : |k' * A' - k * A| ≤ g * |k| * (S * (u * (R + e)) + Q) + u * |k| * (S * R) := by
    have : k' * A' - k * A = k' * (A' - A) + (k' - k) * A := by ring
    rw [this]
    refine (abs_add_le _ _).trans ?_
    rw [abs_mul, abs_mul]
    exact add_le_add (mul_le_mul hk'b hAA (abs_nonneg _) (by positivity)) (mul_le_mul hkk hAb (abs_nonneg _) (by positivity))
  have b3 : |X - k * A| ≤ |X - k' * A'| + |k' * A' - k * A| := abs_sub_le _ _ _
  refine (b3.trans (add_le_add b1 b2)).trans ?_
  have hRe : R ≤ R + e := by linarith
  have b4 : u * |k| * (S * R) ≤ u * |k| * (S * (R + e)) := mul_le_mul_of_nonneg_left (mul_le_mul_of_nonneg_left hRe hS0) (by positivity)
  have hu' : u = g - 1 := by rw [hgd]; ring
  rw [hp']
  set p := g ^ (2 * M + 1) with hpd
  have : g * |k| * ((p - 1) * (g * S * (R + e))) + (g * |k| * (S * (u * (R + e)) + Q) + u * |k| * (S * (R + e))) = |k| * (S * ((p * g * g - 1) * (R + e)) + g * Q) := by
    rw [hu']; ring
  linarith

/-- **C171.** `issq_cwt(ssq_cwt(x))`, both in floating point, against the same in exact arithmetic: for all FFTs of relative error `η` and operations of relative error `u`, wavelet samples known up
to `v`, every rule that takes frequencies to rows, whatever frequencies were computed for the cells, every schedule of the parallel loops and every order of the final sums. The error of sample
`j` is at most a multiple of the size of the padded signal, plus, for the cells within rounding of the threshold, the threshold. -/
theorem C171_roundtrip {η u v P : ℝ} (hη : 0 ≤ η) (hu : 0 ≤ u) (hv : 0 ≤ v) (hP : 0 ≤ P) {F : FloatOps} (hF : Spec.FftRounds η u F)
    {add mul div : ℝ → ℝ → ℝ} (hadd : Spec.Rounds u add (· + ·)) (hmul : Spec.Rounds u mul (· * ·)) (hdiv : Spec.Rounds u div (· / ·))
    (x : List ℝ) (a : SsqCwtArgs) (t : Option PadType) (ht : a.padtype = t.map padName) (o : SsqCwtOut) (h : ssqCwt x a = .ok o) (hsq : a.squeezing = .sum) (hth : 0 < a.th)
    (hgrid : Spec.SafeGrid a.th o.freqs.reverse true o.scales.length ∨ Spec.CwtLinearFreqs x.length a) (css : ℝ) (gamma : ℝ) (hgam : gamma = a.gamma.getD (10 * a.eps)) (hg0 : 0 ≤ gamma)
    (fs dt : ℝ) (hdt : processFsT a.fs a.t x.length = .ok (.fin fs dt)) (xp : List ℝ) (n1 : ℤ) (hpad : cwtPad x a.padtype = .ok (xp, n1))
    (hsamp : ∀ r ∈ cwtSamples (a.cwtArgs fs o.scales) xp.length o.scales, ∀ z ∈ r, ‖z‖ ≤ P)
    (psih' : List (List ℂ)) (hpl : psih'.length = o.scales.length)
    (hps : ∀ i < o.scales.length, Spec.Near (v * P) (psih'.getD i []) ((cwtSamples (a.cwtArgs fs o.scales) xp.length o.scales).getD i []))
    (d' : List ℂ) (V : ℕ → ℕ → ℂ) (hV : V = ent (cwtRunWith F (a.cwtArgs fs o.scales) x.length n1 psih' d' (xp.map fun r : ℝ => (r : ℂ))).1)
    (w : ℕ → ℕ → Phase) (hw : Spec.FollowsThreshold u gamma o.scales.length x.length V w)
    (st : ScaleType) (nv : Nv) (hst : inferScaletype a.dtype o.scales = .ok (st, nv)) (c : ℕ → ℝ)
    (hc : ∀ i < o.scales.length, |c i - Spec.scaleMeasure st nv o.scales i| ≤ u * |Spec.scaleMeasure st nv o.scales i|)
    (bin : ℝ → ℤ) (omax : ℤ) (flipud : Bool)
    (hrow : ∀ i < o.scales.length, ∀ j < x.length, ∀ f, w i j = .fin f → 0 ≤ flipRow flipud omax (bin f) ∧ flipRow flipud omax (bin f) < o.scales.length)
    (sched : List (Micro ℂ)) (reg : ℕ → ℂ) (hs : IsParRun o.scales.length x.length (indexedSumBody (cMul mul) bin omax flipud V w c) sched)
    (order : SumTree) (ho : order.leaves.Perm (List.range o.scales.length)) :
    ∃ y, issqOf x.length o css = .ok (.full y) ∧ y.length = x.length ∧ ∀ j < x.length,
      |invertColumn add mul order (sched.foldl (Mem.step (cAdd add)) ⟨fun _ _ => 0, reg⟩).out (div 2 css) j - y.getD j 0| ≤
        |2 / css| * ∑ i ∈ range o.scales.length, |Spec.scaleMeasure st nv o.scales i| *
          (((1 + u) ^ (2 * o.scales.length + 3) - 1) * ((1 + η) ^ 2 * (1 + u) * (1 + v) * (P * Real.sqrt (xp.map fun r => r ^ 2).sum)) +
            (1 + u) * Spec.cellDoubt gamma (((1 + η) ^ 2 * (1 + u) * (1 + v) - 1) * (P * Real.sqrt (xp.map fun r => r ^ 2).sum) + u * gamma) ‖ent o.Wx i j‖) := by
  classical
  obtain ⟨fs', dt', st', na', nv', h1, h2, h3, h4⟩ := ssqCwt_ok h
  rw [hdt] at h1
  simp only [Except.ok.injEq, Rate.fin.injEq] at h1
  obtain ⟨rfl, rfl⟩ := h1
  obtain ⟨st'', nv'', hi, hsum⟩ := ssqCwt_colsum x a o h hsq hth hgrid
  rw [hst] at hi
  simp only [Except.ok.injEq, Prod.mk.injEq] at hi
  obtain ⟨rfl, rfl⟩ := hi
  set M := o.scales.length with hM
  set R := P * Real.sqrt (xp.map fun r => r ^ 2).sum with hR
  have hR0 : 0 ≤ R := mul_nonneg hP (Real.sqrt_nonneg _)
  have hε : 0 ≤ (1 + η) ^ 2 * (1 + u) * (1 + v) - 1 := by
    have h1 : 1 ≤ (1 + η) ^ 2 := one_le_pow₀ (by linarith)
    have h2 : 1 ≤ (1 + η) ^ 2 * (1 + u) := by nlinarith
    nlinarith
  refine ⟨_, rfl, by simp [realColSum], fun j hj => ?_⟩
  -- the computed transform
  obtain ⟨r, p, sc, hr, -, hp, hsc, he, hrun⟩ := (cwt_ok_iff _ _ _ _ _).1 h3
  have hfac0 : ∃ D, 0 ≤ D ∧ ∀ z ∈ cwtDfactor r.2 xp.length, ‖z‖ ≤ D := by
    refine ⟨((cwtDfactor r.2 xp.length).map fun z => ‖z‖).sum, ?_, fun z hz => ?_⟩
    · exact List.sum_nonneg fun y hy => by obtain ⟨z, -, rfl⟩ := List.mem_map.1 hy; exact norm_nonneg _
    · exact List.single_le_sum (fun y hy => by obtain ⟨z, -, rfl⟩ := List.mem_map.1 hy; exact norm_nonneg _) _ (List.mem_map_of_mem hz)
  obtain ⟨D, hD, hfac⟩ := hfac0
  obtain ⟨V', dV', hV', hVl, -, hVW⟩ := C162_cwt hη hu hv le_rfl hP hD hF x (a.cwtArgs fs o.scales) rfl o.Wx o.scales o.dWx h3 xp n1 hpad r.1 r.2 hr hsamp hfac psih' hpl hps
    (cwtDfactor r.2 xp.length) (by rw [zero_mul]; exact near_self _)
  have hVeq : V = ent V' := by rw [hV]; exact congrArg ent (congrArg Prod.fst hV' : _)
  have hrows : ∀ i < M, j < (o.Wx.getD i []).length := by
    obtain ⟨xp', n1', _, _, hp', -, -, -, -, h6⟩ := C37_rows_any x (a.cwtArgs fs o.scales) t ht (by omega) _ _ _ h3
    intro i hi
    rw [(h6 i hi).1]
    cases t with
    | none => simpa [hp'.1] using hj
    | some t => simpa [SsqCwtArgs.cwtArgs] using hj
  have e1 : ((realColSum o.scales.length x.length (fun r j => o.Tx r j)).map (· * (2 / css))).getD j 0 =
      2 / css * ∑ i ∈ range M, if Spec.Kept a (ent o.Wx i j) then (ent o.Wx i j).re * Spec.scaleMeasure st nv o.scales i else 0 := by
    unfold realColSum
    rw [List.map_map, getD_map_range _ _ hj]
    simp only [Function.comp]
    rw [← Complex.re_sum, hsum j hj, Complex.re_sum, mul_comm]
    congr 1
    refine sum_congr rfl fun i _ => ?_
    split
    · rw [mul_comm (ent o.Wx i j), Complex.re_ofReal_mul, mul_comm]
    · rfl
  have hmain := squeeze_inverse_err (e := ((1 + η) ^ 2 * (1 + u) * (1 + v) - 1) * R) hu hg0 (mul_nonneg hε hR0) hR0 hadd hmul hdiv bin omax flipud V (ent o.Wx) w
    (Spec.scaleMeasure st nv o.scales) c M x.length sched reg hs order ho css j hj (fun i => Spec.Kept a (ent o.Wx i j)) (fun i hi f => hrow i hi j hj f)
    (fun i hi => by
      rw [hVeq]
      exact (((hVW i hi).2.2 j (hrows i hi)).1).trans (le_of_eq (by rw [hR]; ring)))
    (fun i hi => ((hVW i hi).2.2 j (hrows i hi)).2.1) hc hw
    (fun i hi => by
      unfold Spec.Kept
      rw [← hgam]
      split
      · exact ⟨fun h => h.le, fun h => not_le.2 h⟩
      · exact ⟨fun h => h, fun h => not_lt.2 h.le⟩)
  refine le_trans (le_of_eq ?_) (hmain.trans (le_of_eq ?_))
  · rw [← e1]
  · have : R + ((1 + η) ^ 2 * (1 + u) * (1 + v) - 1) * R = (1 + η) ^ 2 * (1 + u) * (1 + v) * R := by ring
    rw [this]

theorem mem_halveNyquist_le {B : ℝ} (hB : 0 ≤ B) {l : List ℂ} (h : ∀ z ∈ l, ‖z‖ ≤ B) : ∀ z ∈ halveNyquist l, ‖z‖ ≤ B := by
  intro z hz
  unfold halveNyquist at hz
  split at hz
  · rcases List.mem_or_eq_of_mem_set hz with h1 | rfl
    · exact h z h1
    · rw [norm_div, Complex.norm_ofNat]
      by_cases hl : l.length / 2 < l.length
      · rw [List.getD_eq_getElem _ _ hl]
        have := h _ (List.getElem_mem hl)
        linarith [norm_nonneg l[l.length / 2]]
      · rw [List.getD_eq_default _ _ (by omega)]
        simpa using hB
  · exact h z hz

/-- Correctly rounded double precision, three scales, any signal without padding: the hypotheses hold for every schedule, with every cell assigned to the middle row. -/
example (x : List ℝ) (hx : 0 < x.length) : ∃ o, ssqCwt x (exS [1, 2, 4] none) = .ok o ∧ ∃ y, issqOf x.length o 2 = .ok (.full y) ∧
    ∀ V, V = ent (cwtRunWith (flOps 53) ((exS [1, 2, 4] none).cwtArgs 8 [1, 2, 4]) x.length 0 (cwtSamples ((exS [1, 2, 4] none).cwtArgs 8 [1, 2, 4]) x.length [1, 2, 4]) [] (x.map fun r : ℝ => (r : ℂ))).1 →
    ∀ sched, IsParRun 3 x.length (indexedSumBody (cMul fun a b => Spec.fl 53 (a * b)) (fun _ => 1) 2 false V (fun _ _ => .fin 0) (fun _ => Real.log 2 / 1)) sched → ∀ j < x.length,
      |invertColumn (fun a b => Spec.fl 53 (a + b)) (fun a b => Spec.fl 53 (a * b)) (.node (.node (.leaf 0) (.leaf 1)) (.leaf 2))
          (sched.foldl (Mem.step (cAdd fun a b => Spec.fl 53 (a + b))) ⟨fun _ _ => 0, fun _ => 0⟩).out (Spec.fl 53 (2 / 2)) j - y.getD j 0| ≤
        ∑ i ∈ range 3, |Real.log 2| * (((1 + 1 / 2 ^ 53) ^ 9 - 1) * ((1 + 1 / 2 ^ 53) ^ 2 * (1 + 1 / 2 ^ 53) * (1 + 0) * (4 * Real.pi * Real.sqrt (x.map fun r => r ^ 2).sum)) +
          (1 + 1 / 2 ^ 53) * Spec.cellDoubt 0 (((1 + 1 / 2 ^ 53) ^ 2 * (1 + 1 / 2 ^ 53) * (1 + 0) - 1) * (4 * Real.pi * Real.sqrt (x.map fun r => r ^ 2).sum) + 1 / 2 ^ 53 * 0) ‖ent o.Wx i j‖) := by
  obtain ⟨o, ho, hsc, hf⟩ := exS_ok [1, 2, 4] none x hx .log (.int (1 : ℕ)) (by simp)
    (fun sh N wv up ds hsh => process_geometric (dt := .f64) (by decide) (n := 1) le_rfl
      (by simpa using geo124) (by simp) hsh N wv up ds) (fun v => ⟨_, _, rfl, rfl⟩)
  have hpi := Real.pi_pos
  have hsamp : ∀ r ∈ cwtSamples ((exS [1, 2, 4] none).cwtArgs 8 o.scales) x.length o.scales, ∀ z ∈ r, ‖z‖ ≤ 4 * Real.pi := by
    rw [hsc]
    have hval : ∀ s ∈ ([1, 2, 4] : List ℝ), ∀ z ∈ halveNyquist (sampleRow (.real fnR) x.length s), ‖z‖ ≤ 4 * Real.pi := by
      intro s hs z hz
      refine mem_halveNyquist_le (by positivity) (fun z hz => ?_) z hz
      obtain ⟨w, hw, rfl⟩ := List.mem_map.1 hz
      obtain ⟨k, hk, rfl⟩ := List.mem_iff_getElem.1 hw
      rw [xifn_length] at hk
      have hb := xifn_abs_le x.length k hk
      rw [List.getD_eq_getElem (xifn 1 x.length) 0 (by rw [xifn_length]; exact hk)] at hb
      have hs4 : 0 < s ∧ s ≤ 4 := by
        simp only [List.mem_cons, List.not_mem_nil, or_false] at hs
        rcases hs with rfl | rfl | rfl <;> norm_num
      simp only [WFn.eval, fnR, Complex.norm_real, Real.norm_eq_abs]
      split
      · rw [abs_mul, abs_of_pos hs4.1]
        exact mul_le_mul hs4.2 hb (abs_nonneg _) (by norm_num)
      · rw [abs_zero]; positivity
    intro r hr z hz
    simp only [cwtSamples, SsqCwtArgs.cwtArgs, exS, exSsq, if_true, psihCall, dropImag] at hr
    obtain ⟨s, hs, rfl⟩ := List.mem_map.1 hr
    exact hval s hs z hz
  have hr : processFsT (some 8) none x.length = .ok (.fin 8 (1 / 8)) := by simp [processFsT]
  refine ⟨o, ho, ?_⟩
  have main := fun V hV sched hs => C171_roundtrip (η := 1 / 2 ^ 53) (u := 1 / 2 ^ 53) (v := 0) (P := 4 * Real.pi) (by positivity) (by positivity) le_rfl (by positivity) (flOps_rounds 53)
    (C161_ieee 53 (· + ·)) (C161_ieee 53 (· * ·)) (C161_ieee 53 (· / ·)) x (exS [1, 2, 4] none) none rfl o ho rfl (by simp [exS, exSsq]) (Or.inl (safe124 hf _)) 2 0 (by simp [exS]) le_rfl
    8 (1 / 8) hr x 0 rfl hsamp (cwtSamples ((exS [1, 2, 4] none).cwtArgs 8 o.scales) x.length o.scales) (by rw [cwtSamples_eq]; exact psihRows_length _ _ _ _) (fun i _ => by rw [zero_mul]; exact near_self _) [] V hV (fun _ _ => .fin 0)
    (fun i _ j _ => ⟨fun _ => ⟨0, rfl⟩, fun h => absurd h (by simp)⟩) .log (.int 1) (by rw [hsc]; exact infer124) (fun _ => Real.log 2 / 1)
    (fun i _ => by simp [Spec.scaleMeasure]) (fun _ => 1) 2 false (fun i _ j _ f _ => by rw [hsc]; simp [flipRow]) sched (fun _ => 0) hs (.node (.node (.leaf 0) (.leaf 1)) (.leaf 2))
    (by rw [hsc]; simp [SumTree.leaves, List.range_succ])
  refine ⟨_, rfl, fun V hV sched hs j hj => ?_⟩
  obtain ⟨y, hy, -, hb⟩ := main V (by rw [hsc]; exact hV) sched (by rw [hsc]; exact hs)
  have hb := hb j hj
  have hy := Inverse.full.inj (Except.ok.inj hy)
  rw [← hy] at hb
  refine hb.trans (le_of_eq ?_)
  rw [hsc]
  simp [Spec.scaleMeasure]

end Ssq
