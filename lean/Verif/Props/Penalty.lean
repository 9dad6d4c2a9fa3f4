import Verif.Props.Ridge
import Mathlib.Analysis.Complex.ExponentialBounds

/-!
# C193 — what the penalty of `extract_ridges` does (ssqueezepy/ridge_extraction.py:11-232)

A greater penalty never gives a rougher first ridge, and never one of greater energy; a great enough penalty gives a
ridge that stays on one row.
-/
namespace Ssq

namespace Spec

/-- Where a row sits: its log scale for 'cwt', its scale (or frequency) otherwise. -/
noncomputable def place (a : RidgeArgs) (f : ℕ) : ℝ := if a.isCwt then Real.log (a.scales f) else a.scales f

/-- Roughness of a row sequence: the sum of its squared jumps from each time to the next. -/
noncomputable def roughness (a : RidgeArgs) (q : ℕ → ℕ) : ℝ :=
  ∑ t ∈ Finset.range (a.nT - 1), (place a (q (t + 1)) - place a (q t)) ^ 2

/-- How far a row sequence keeps from the strongest row of every column, in log energy: the sum over the times of
`-log (energy / greatest energy of the column + eps)`. -/
noncomputable def deficit (a : RidgeArgs) (q : ℕ → ℕ) : ℝ :=
  ∑ t ∈ Finset.range a.nT, -Real.log (‖a.Tf (q t) t‖ ^ 2 / peak a.nF (fun f t => ‖a.Tf f t‖ ^ 2) t + a.eps)

end Spec

theorem pathCost_split (a : RidgeArgs) (hT : 0 < a.nT) (q : ℕ → ℕ) :
    Spec.pathCost (Spec.cellCost a fun f t => ‖a.Tf f t‖ ^ 2) (Spec.jump a) q (a.nT - 1) =
      Spec.deficit a q + a.penalty * Spec.roughness a q := by
  unfold Spec.pathCost Spec.deficit Spec.roughness Spec.cellCost
  rw [Nat.sub_add_cancel hT, Finset.mul_sum]
  congr 1
  refine Finset.sum_congr rfl fun t _ => ?_
  unfold Spec.jump Spec.place
  split <;> rfl

theorem first_ridge_lt (a : RidgeArgs) (s : RidgeSched) (out : List Ridge) (hs : Spec.ValidSched a s)
    (h : extractRidges a s = .ok out) (hk : 0 < out.length) (t : ℕ) : (out[0]).idx t < a.nF := by
  obtain ⟨_, h2, h3⟩ := extract_spec h
  rw [(h3 0 hk).1]
  exact track_lt _ _ _ _ (by have := h2 hk; omega) hs _

/-- The first ridge costs at most `(nT - 1) * eps` more than any row sequence. -/
theorem first_ridge_best (a : RidgeArgs) (s : RidgeSched) (out : List Ridge) (hs : Spec.ValidSched a s)
    (heps : 0 < a.eps) (hT : 0 < a.nT) (hFT : a.nF ≤ a.nT) (h : extractRidges a s = .ok out) (hk : 0 < out.length)
    (hal : ∀ t < a.nT, ∃ f < a.nF, a.Tf f t ≠ 0) (q : ℕ → ℕ) (hq : ∀ t, q t < a.nF) :
    Spec.deficit a (out[0]).idx + a.penalty * Spec.roughness a (out[0]).idx ≤
      Spec.deficit a q + a.penalty * Spec.roughness a q + (a.nT - 1 : ℕ) * a.eps := by
  have := C33_global_partial a s out hs heps hT hFT h 0 hk (by
    intro t ht
    obtain ⟨f, hf, hne⟩ := hal t ht
    rw [remaining_zero]
    exact ⟨f, hf, pow_pos (norm_pos_iff.2 hne) 2⟩) q (fun t _ => hq t)
  rw [remaining_zero, pathCost_split a hT, pathCost_split a hT] at this
  exact this

/-- **C193.** `extract_ridges` is run twice on the same transform with silence nowhere and at least as many times as rows,
the second time with a greater penalty. The first ridge of the second run is not rougher than that of the first (up to
`2 (nT - 1) eps` over the difference of the penalties), and its energies do not exceed, over all, those of the first
(up to a like amount) — whatever order the parallel loops ran in. -/
theorem C193_smoother (a : RidgeArgs) (p : ℝ) (hp0 : 0 ≤ a.penalty) (hp : a.penalty < p) (s s' : RidgeSched)
    (hs : Spec.ValidSched a s) (hs' : Spec.ValidSched a s') (out out' : List Ridge) (heps : 0 < a.eps)
    (hFT : a.nF ≤ a.nT) (hal : ∀ t < a.nT, ∃ f < a.nF, a.Tf f t ≠ 0)
    (h : extractRidges a s = .ok out) (h' : extractRidges { a with penalty := p } s' = .ok out')
    (hk : 0 < out.length) (hk' : 0 < out'.length) :
    Spec.roughness a (out'[0]).idx ≤
        Spec.roughness a (out[0]).idx + 2 * ((a.nT - 1 : ℕ) * a.eps) / (p - a.penalty) ∧
      Spec.deficit a (out[0]).idx ≤ Spec.deficit a (out'[0]).idx +
        (1 + 2 * a.penalty / (p - a.penalty)) * ((a.nT - 1 : ℕ) * a.eps) := by
  have h2 := (extract_spec h).2.1 hk
  have hT : 0 < a.nT := by omega
  have e1 := first_ridge_best a s out hs heps hT hFT h hk hal (out'[0]).idx
    (first_ridge_lt { a with penalty := p } s' out' hs' h' hk')
  have e2 := first_ridge_best { a with penalty := p } s' out' hs' heps hT hFT h' hk' hal (out[0]).idx
    (first_ridge_lt a s out hs h hk)
  set δ : ℝ := ((a.nT - 1 : ℕ) : ℝ) * a.eps with hδ
  have e2' : Spec.deficit a (out'[0]).idx + p * Spec.roughness a (out'[0]).idx ≤
      Spec.deficit a (out[0]).idx + p * Spec.roughness a (out[0]).idx + δ := e2
  have hd : 0 < p - a.penalty := by linarith
  have hR : Spec.roughness a (out'[0]).idx ≤ Spec.roughness a (out[0]).idx + 2 * δ / (p - a.penalty) := by
    rw [← sub_le_iff_le_add', le_div_iff₀ hd]
    nlinarith
  refine ⟨hR, ?_⟩
  have := mul_le_mul_of_nonneg_left hR hp0
  have e3 : a.penalty * (2 * δ / (p - a.penalty)) = 2 * a.penalty / (p - a.penalty) * δ := by ring
  nlinarith

theorem deficit_bounds (a : RidgeArgs) (heps : 0 < a.eps) (hn : 0 < a.nF) (q : ℕ → ℕ) (hq : ∀ t, q t < a.nF)
    (hal : ∀ t < a.nT, ∃ f < a.nF, a.Tf f t ≠ 0) :
    -(a.nT * a.eps) ≤ Spec.deficit a q ∧ Spec.deficit a q ≤ a.nT * -Real.log a.eps := by
  unfold Spec.deficit
  have key : ∀ t ∈ Finset.range a.nT, -a.eps ≤
      -Real.log (‖a.Tf (q t) t‖ ^ 2 / Spec.peak a.nF (fun f t => ‖a.Tf f t‖ ^ 2) t + a.eps) ∧
      -Real.log (‖a.Tf (q t) t‖ ^ 2 / Spec.peak a.nF (fun f t => ‖a.Tf f t‖ ^ 2) t + a.eps) ≤ -Real.log a.eps := by
    intro t ht
    obtain ⟨f, hf, hne⟩ := hal t (Finset.mem_range.1 ht)
    obtain ⟨hpk, hle⟩ := peak_spec hn (fun f t => ‖a.Tf f t‖ ^ 2) t
    have h1 := hle f hf
    have h2 := hle (q t) (hq t)
    have hpos : 0 < Spec.peak a.nF (fun f t => ‖a.Tf f t‖ ^ 2) t :=
      lt_of_lt_of_le (pow_pos (norm_pos_iff.2 hne) 2) h1
    have h3 : ‖a.Tf (q t) t‖ ^ 2 / Spec.peak a.nF (fun f t => ‖a.Tf f t‖ ^ 2) t ≤ 1 := (div_le_one hpos).2 h2
    have h4 : 0 ≤ ‖a.Tf (q t) t‖ ^ 2 / Spec.peak a.nF (fun f t => ‖a.Tf f t‖ ^ 2) t := by positivity
    constructor
    · have := Real.log_le_sub_one_of_pos (x := ‖a.Tf (q t) t‖ ^ 2 / Spec.peak a.nF (fun f t => ‖a.Tf f t‖ ^ 2) t + a.eps)
        (by linarith)
      linarith
    · have := Real.log_le_log heps (show a.eps ≤ ‖a.Tf (q t) t‖ ^ 2 / Spec.peak a.nF (fun f t => ‖a.Tf f t‖ ^ 2) t + a.eps by
        linarith)
      linarith
  constructor
  · have := Finset.sum_le_sum fun t ht => (key t ht).1
    simpa using this
  · have := Finset.sum_le_sum fun t ht => (key t ht).2
    simpa using this

/-- **C193.** When the penalty of the smallest jump exceeds `nT * (log (1 / eps) + 2 eps)`, the first ridge never leaves the
row it starts on. -/
theorem C193_straight (a : RidgeArgs) (hp0 : 0 ≤ a.penalty) (s : RidgeSched) (hs : Spec.ValidSched a s)
    (out : List Ridge) (heps : 0 < a.eps) (hFT : a.nF ≤ a.nT) (hal : ∀ t < a.nT, ∃ f < a.nF, a.Tf f t ≠ 0)
    (h : extractRidges a s = .ok out) (hk : 0 < out.length)
    (hbig : ∀ f < a.nF, ∀ g < a.nF, f ≠ g →
      a.nT * (Real.log (1 / a.eps) + 2 * a.eps) < a.penalty * (Spec.place a f - Spec.place a g) ^ 2) :
    ∀ t < a.nT, (out[0]).idx t = (out[0]).idx 0 := by
  have h2 := (extract_spec h).2.1 hk
  have hT : 0 < a.nT := by omega
  have hn : 0 < a.nF := by omega
  have hlt := first_ridge_lt a s out hs h hk
  have hb := first_ridge_best a s out hs heps hT hFT h hk hal (fun _ => 0) (fun _ => hn)
  have d1 := (deficit_bounds a heps hn _ hlt hal).1
  have d2 := (deficit_bounds a heps hn (fun _ => 0) (fun _ => hn) hal).2
  have r0 : Spec.roughness a (fun _ => 0) = 0 := by simp [Spec.roughness]
  rw [r0, mul_zero, add_zero] at hb
  have hT1 : ((a.nT - 1 : ℕ) : ℝ) ≤ a.nT := by exact_mod_cast Nat.sub_le _ _
  have hT2 := mul_le_mul_of_nonneg_right hT1 heps.le
  have hlog : Real.log (1 / a.eps) = -Real.log a.eps := by rw [one_div, Real.log_inv]
  rw [hlog] at hbig
  have hstep : ∀ t, t + 1 < a.nT → (out[0]).idx (t + 1) = (out[0]).idx t := by
    intro t ht
    by_contra hne
    have h3 := hbig _ (hlt (t + 1)) _ (hlt t) hne
    have h4 : (Spec.place a ((out[0]).idx (t + 1)) - Spec.place a ((out[0]).idx t)) ^ 2 ≤
        Spec.roughness a (out[0]).idx := by
      unfold Spec.roughness
      exact Finset.single_le_sum (f := fun t => (Spec.place a ((out[0]).idx (t + 1)) - Spec.place a ((out[0]).idx t)) ^ 2)
        (fun _ _ => sq_nonneg _) (Finset.mem_range.2 (by omega))
    have h5 := mul_le_mul_of_nonneg_left h4 hp0
    nlinarith
  intro t
  induction t with
  | zero => intro _; rfl
  | succ t ih => intro ht; rw [hstep t ht, ih (by omega)]

theorem exRidge_ok_pen (nT : ℕ) (Tf : ℕ → ℕ → ℂ) (p : ℝ) (s : RidgeSched) :
    ∃ r, extractRidges { exRidge nT Tf with penalty := p } s = .ok [r] := by
  unfold extractRidges
  simp only [exRidge, one_ne_zero, if_false, OfNat.ofNat_ne_zero, OfNat.ofNat_ne_one, ridgeLoop]
  exact ⟨_, rfl⟩

/-- Two rows, two columns, the strong row alternating: penalty 0 against penalty 5, with the schedules of any two runs. -/
example (s s' : RidgeSched) (hs : Spec.ValidSched (exRidge 2 fun f t => if f = t then 2 else 1) s)
    (hs' : Spec.ValidSched (exRidge 2 fun f t => if f = t then 2 else 1) s') :
    ∃ r r', extractRidges (exRidge 2 fun f t => if f = t then 2 else 1) s = .ok [r] ∧
      extractRidges { exRidge 2 (fun f t => if f = t then 2 else 1) with penalty := 5 } s' = .ok [r'] ∧
      Spec.roughness (exRidge 2 fun f t => if f = t then 2 else 1) r'.idx ≤
        Spec.roughness (exRidge 2 fun f t => if f = t then 2 else 1) r.idx + 2 / 5 / 2 ^ 52 := by
  obtain ⟨r, hr⟩ := exRidge_ok 2 (fun f t => if f = t then 2 else 1) s
  obtain ⟨r', hr'⟩ := exRidge_ok_pen 2 (fun f t => if f = t then 2 else 1) 5 s'
  refine ⟨r, r', hr, hr', ?_⟩
  have := (C193_smoother (exRidge 2 fun f t => if f = t then 2 else 1) 5 le_rfl (by simp [exRidge]) s s' hs hs' [r] [r']
    (exRidge_eps 2 fun f t => if f = t then 2 else 1).1 (by simp [exRidge]) (fun t ht => ⟨0, by simp [exRidge], by
      simp only [exRidge]; split <;> norm_num⟩) hr hr' (by simp) (by simp)).1
  refine this.trans (le_of_eq ?_)
  simp [exRidge]
  norm_num

/-- … and a penalty of 1000 is great enough for a straight ridge there. -/
example (s : RidgeSched) (hs : Spec.ValidSched (exRidge 2 fun f t => if f = t then 2 else 1) s) :
    ∃ r, extractRidges { exRidge 2 (fun f t => if f = t then 2 else 1) with penalty := 1000 } s = .ok [r] ∧
      r.idx 1 = r.idx 0 := by
  obtain ⟨r, hr⟩ := exRidge_ok_pen 2 (fun f t => if f = t then 2 else 1) 1000 s
  refine ⟨r, hr, C193_straight { exRidge 2 (fun f t => if f = t then 2 else 1) with penalty := 1000 } (by norm_num) s hs [r]
    (exRidge_eps 2 fun f t => if f = t then 2 else 1).1 (by simp [exRidge]) (fun t ht => ⟨0, by simp [exRidge], by
      simp only [exRidge]; split <;> norm_num⟩) hr (by simp) ?_ 1 (by simp [exRidge])⟩
  have hl2 := Real.log_two_gt_d9
  have hl2' := Real.log_two_lt_d9
  have hlog : Real.log (2 ^ 52) = 52 * Real.log 2 := by rw [Real.log_pow]; norm_num
  have hsq : (0.48 : ℝ) < Real.log 2 ^ 2 := by nlinarith
  intro f hf g hg hne
  have hf2 : f < 2 := hf
  have hg2 : g < 2 := hg
  simp only [Spec.place, exRidge, if_true, one_div, inv_inv, hlog, Nat.cast_ofNat]
  interval_cases f <;> interval_cases g
  · exact absurd rfl hne
  · norm_num
    nlinarith
  · norm_num
    nlinarith
  · exact absurd rfl hne

end Ssq
