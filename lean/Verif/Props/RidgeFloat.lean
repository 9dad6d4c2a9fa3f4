import Verif.Model.RidgeFloat
import Verif.Lemmas.Ridge
import Verif.Props.Ridge
import Verif.Props.Rounding

/-!
# C187: ridge tracking in floating point
-/
namespace Ssq
open Finset

theorem flMin_spec {n : ℕ} (hn : 0 < n) (g : ℕ → ℝ) :
    (∃ f < n, g f = flMin ((List.range n).map g)) ∧ ∀ f < n, flMin ((List.range n).map g) ≤ g f := by
  unfold flMin
  cases h : ((List.range n).map g).min? with
  | none => simp at h; omega
  | some m =>
    obtain ⟨h1, h2⟩ := List.min?_eq_some_iff.1 h
    refine ⟨?_, fun f hf => h2 _ (List.mem_map.2 ⟨f, List.mem_range.2 hf, rfl⟩)⟩
    obtain ⟨f, hf, rfl⟩ := List.mem_map.1 h1
    exact ⟨f, List.mem_range.1 hf, rfl⟩

/-- The accumulated costs, by recursion over time. -/
noncomputable def flBell (add : ℝ → ℝ → ℝ) (nF : ℕ) (P c : ℕ → ℕ → ℝ) : ℕ → ℕ → ℝ
  | f, 0 => c f 0
  | f, t + 1 => add (c f (t + 1)) (flMin ((List.range nF).map fun g : ℕ => add (flBell add nF P c g t) (P f g)))

theorem flFwStep_fold (add : ℝ → ℝ → ℝ) (nF : ℕ) (P : ℕ → ℕ → ℝ) (t : ℕ) (l : List ℕ) (hl : l.Nodup) (pe : ℕ → ℕ → ℝ) (f t' : ℕ) :
    (l.foldl (flFwStep add nF P (t + 1)) pe) f t' =
      if f ∈ l ∧ t' = t + 1 then add (pe f (t + 1)) (flMin ((List.range nF).map fun g : ℕ => add (pe g t) (P f g)))
      else pe f t' := by
  induction l generalizing pe with
  | nil => simp
  | cons a l ih =>
    obtain ⟨ha, hl⟩ := List.nodup_cons.1 hl
    rw [List.foldl_cons, ih hl]
    have hcol : ∀ g, flFwStep add nF P (t + 1) pe a g t = pe g t := by
      intro g; unfold flFwStep; rw [if_neg (by omega)]
    simp only [hcol]
    by_cases ht : t' = t + 1
    · subst ht
      by_cases hfa : f = a
      · subst hfa
        simp only [ha, false_and, if_false, List.mem_cons, true_or, and_self, if_true]
        unfold flFwStep
        simp
      · have : flFwStep add nF P (t + 1) pe a f (t + 1) = pe f (t + 1) := by
          unfold flFwStep; rw [if_neg (by simp [hfa])]
        simp only [this, List.mem_cons, hfa, false_or, and_true]
    · have : flFwStep add nF P (t + 1) pe a f t' = pe f t' := by
        unfold flFwStep; rw [if_neg (by simp [ht])]
      simp only [this, ht, and_false, if_false]

theorem flFw_eq (add : ℝ → ℝ → ℝ) (nF nT : ℕ) (P : ℕ → ℕ → ℝ) (sched : ℕ → List ℕ) (hs : ∀ t, (sched t).Perm (List.range nF))
    (c : ℕ → ℕ → ℝ) (f t : ℕ) (hf : f < nF) (ht : t < nT) : flFw add nF nT P sched c f t = flBell add nF P c f t := by
  have key : ∀ k, ∀ f < nF, ∀ t, ((List.range k).foldl (fun pe k => (sched (k + 1)).foldl (flFwStep add nF P (k + 1)) pe) c)
      f t = if t ≤ k then flBell add nF P c f t else c f t := by
    intro k
    induction k with
    | zero =>
      intro f hf t
      simp only [List.range_zero, List.foldl_nil, Nat.le_zero]
      split
      · next h => subst h; rfl
      · rfl
    | succ k ih =>
      intro f hf t
      rw [List.range_succ, List.foldl_append, List.foldl_cons, List.foldl_nil,
        flFwStep_fold add nF P k _ ((hs _).nodup_iff.2 List.nodup_range)]
      have hmem : f ∈ sched (k + 1) := (hs _).mem_iff.2 (List.mem_range.2 hf)
      by_cases htk : t = k + 1
      · subst htk
        rw [if_pos ⟨hmem, rfl⟩, if_pos le_rfl, ih f hf (k + 1), if_neg (by omega), flBell]
        congr 2
        apply List.map_congr_left
        intro g hg
        rw [ih g (List.mem_range.1 hg) k, if_pos le_rfl]
      · rw [if_neg (by simp [htk]), ih f hf t]
        by_cases h : t ≤ k
        · rw [if_pos h, if_pos (by omega)]
        · rw [if_neg h, if_neg (by omega)]
  unfold flFw
  rw [key (nT - 1) f hf t, if_pos (by omega)]

open Classical in
/-- The test of the backward pass. -/
noncomputable def flMatch (add sub : ℝ → ℝ → ℝ) (P : ℕ → ℕ → ℝ) (eps : ℝ) (e pe : ℕ → ℕ → ℝ) (r1 t f : ℕ) : Bool :=
  decide (|sub (sub (pe r1 (t + 1)) (e r1 (t + 1))) (add (pe f t) (P r1 f))| < eps)

theorem flBwTime_spec (add sub : ℝ → ℝ → ℝ) (P : ℕ → ℕ → ℝ) (eps : ℝ) (e pe : ℕ → ℕ → ℝ) (order : List ℕ) (t : ℕ) (r : ℕ → ℕ) :
    (∀ s ≠ t, flBwTime add sub P eps e pe order t r s = r s) ∧
      flBwTime add sub P eps e pe order t r t =
        ((order.filter fun f => flMatch add sub P eps e pe (r (t + 1)) t f).getLast?).getD (r t) := by
  unfold flBwTime flMatch
  generalize hv : sub (pe (r (t + 1)) (t + 1)) (e (r (t + 1)) (t + 1)) = val
  clear hv
  induction order generalizing r with
  | nil => simp
  | cons f l ih =>
    rw [List.foldl_cons]
    have hstep : flBwStep add sub P eps pe t val r f (t + 1) = r (t + 1) := by
      unfold flBwStep; split
      · rw [Function.update_of_ne (by omega)]
      · rfl
    obtain ⟨i1, i2⟩ := ih (flBwStep add sub P eps pe t val r f)
    rw [hstep] at i2
    refine ⟨fun s hs => ?_, ?_⟩
    · rw [i1 s hs]
      unfold flBwStep; split
      · rw [Function.update_of_ne hs]
      · rfl
    · rw [i2]
      by_cases hm : |sub val (add (pe f t) (P (r (t + 1)) f))| < eps
      · rw [List.filter_cons, if_pos (by simpa using hm), List.getLast?_cons, Option.getD_some]
        unfold flBwStep
        rw [if_pos hm, Function.update_self]
      · rw [List.filter_cons, if_neg (by simpa using hm)]
        unfold flBwStep
        rw [if_neg hm]

theorem flBw_spec (add sub : ℝ → ℝ → ℝ) (nT : ℕ) (P : ℕ → ℕ → ℝ) (eps : ℝ) (e pe : ℕ → ℕ → ℝ) (sched : ℕ → List ℕ) (r0 : ℕ → ℕ) :
    (∀ t, nT ≤ t + 1 → flBw add sub nT P eps e pe sched r0 t = r0 t) ∧
    ∀ t, t + 1 < nT → flBw add sub nT P eps e pe sched r0 t =
      (((sched t).filter fun f => flMatch add sub P eps e pe (flBw add sub nT P eps e pe sched r0 (t + 1)) t f).getLast?).getD
        (r0 t) := by
  set B : ℕ → ℕ → ℕ := fun k =>
    (List.range k).foldl (fun r k => flBwTime add sub P eps e pe (sched (nT - 2 - k)) (nT - 2 - k) r) r0 with hB
  have hsucc : ∀ k, B (k + 1) = flBwTime add sub P eps e pe (sched (nT - 2 - k)) (nT - 2 - k) (B k) := by
    intro k
    simp only [hB, List.range_succ, List.foldl_append, List.foldl_cons, List.foldl_nil]
  have h0 : B 0 = r0 := rfl
  have hlow : ∀ k, k ≤ nT - 1 → ∀ t, (nT ≤ t + 1 ∨ t + k + 1 < nT) → B k t = r0 t := by
    intro k
    induction k with
    | zero => intro _ t _; rw [h0]
    | succ k ih =>
      intro hk t ht
      rw [hsucc, (flBwTime_spec _ _ _ _ _ _ _ _ _).1 t (by omega), ih (by omega) t (by omega)]
  have hkeep : ∀ m k, k + m ≤ nT - 1 → ∀ t, nT ≤ t + k + 1 → B (k + m) t = B k t := by
    intro m
    induction m with
    | zero => intro k _ t _; rfl
    | succ m ih =>
      intro k hk t ht
      rw [show k + (m + 1) = (k + m) + 1 by omega, hsucc, (flBwTime_spec _ _ _ _ _ _ _ _ _).1 t (by omega),
        ih k (by omega) t ht]
  have hfin : flBw add sub nT P eps e pe sched r0 = B (nT - 1) := rfl
  rw [hfin]
  refine ⟨fun t ht => hlow _ le_rfl t (Or.inl ht), fun t ht => ?_⟩
  have e1 : B (nT - 1) t = B (nT - 2 - t + 1) t := by
    have := hkeep (nT - 1 - (nT - 2 - t + 1)) (nT - 2 - t + 1) (by omega) t (by omega)
    rwa [show nT - 2 - t + 1 + (nT - 1 - (nT - 2 - t + 1)) = nT - 1 by omega] at this
  have e2 : B (nT - 1) (t + 1) = B (nT - 2 - t) (t + 1) := by
    have := hkeep (nT - 1 - (nT - 2 - t)) (nT - 2 - t) (by omega) (t + 1) (by omega)
    rwa [show nT - 2 - t + (nT - 1 - (nT - 2 - t)) = nT - 1 by omega] at this
  rw [e1, e2, hsucc, show nT - 2 - (nT - 2 - t) = t by omega, (flBwTime_spec _ _ _ _ _ _ _ _ _).2,
    hlow (nT - 2 - t) (by omega) t (Or.inr (by omega))]

/-! ### The errors of the accumulated costs -/

section err

variable {add sub : ℝ → ℝ → ℝ} {nF nT : ℕ} {P c : ℕ → ℕ → ℝ} {A B D : ℝ}

/-- One step of the recursion, up to the rounding errors `2 D`. -/
theorem flBell_step (hn : 0 < nF) (hA0 : 0 ≤ A) (hB0 : 0 ≤ B) (hD : 4 * D ≤ A + B)
    (hadd : ∀ a b, |a + b| ≤ 4 * (nT + 1) * (A + B) → |add a b - (a + b)| ≤ D)
    (hc : ∀ f < nF, ∀ t < nT, |c f t| ≤ A) (hP : ∀ f < nF, ∀ g < nF, 0 ≤ P f g ∧ P f g ≤ B) :
    ∀ t < nT, ∀ f < nF, |flBell add nF P c f t| ≤ (t + 1) * (3 / 2 * (A + B)) ∧
      ∀ s, s + 1 = t → (∃ g < nF, |add (flBell add nF P c g s) (P f g) - (flBell add nF P c g s + P f g)| ≤ D ∧
          flBell add nF P c f t = add (c f t) (add (flBell add nF P c g s) (P f g)) ∧
          |flBell add nF P c f t - (c f t + add (flBell add nF P c g s) (P f g))| ≤ D) ∧
        ∀ g < nF, flBell add nF P c f t ≤ c f t + (flBell add nF P c g s + P f g) + 2 * D := by
  intro t
  induction t with
  | zero =>
    intro ht f hf
    refine ⟨?_, fun s hs => by omega⟩
    have := hc f hf 0 ht
    rw [flBell]
    push_cast
    nlinarith
  | succ t ih =>
    intro ht f hf
    have iht := ih (by omega)
    have htn : (t : ℝ) + 2 ≤ nT := by exact_mod_cast ht
    have ht0 : (0 : ℝ) ≤ t := Nat.cast_nonneg t
    have hb : ∀ g < nF, |flBell add nF P c g t + P f g| ≤ (t + 1) * (3 / 2 * (A + B)) + B := by
      intro g hg
      have h1 := (iht g hg).1
      have h2 := hP f hf g hg
      calc _ ≤ |flBell add nF P c g t| + |P f g| := abs_add_le _ _
        _ ≤ _ := by rw [abs_of_nonneg h2.1]; linarith [h2.2]
    have hAB : 0 ≤ A + B := by linarith
    have hprod : ((t : ℝ) + 2) * (A + B) ≤ nT * (A + B) := mul_le_mul_of_nonneg_right htn hAB
    have htp : 0 ≤ (t : ℝ) * (A + B) := mul_nonneg ht0 hAB
    have hr : ∀ g < nF, |add (flBell add nF P c g t) (P f g) - (flBell add nF P c g t + P f g)| ≤ D := by
      intro g hg
      apply hadd
      have := hb g hg
      nlinarith
    have hb2 : ∀ g < nF, |add (flBell add nF P c g t) (P f g)| ≤ (t + 1) * (3 / 2 * (A + B)) + B + D := by
      intro g hg
      have h1 := hb g hg
      have h2 := hr g hg
      have h3 := abs_sub_abs_le_abs_sub (add (flBell add nF P c g t) (P f g)) (flBell add nF P c g t + P f g)
      linarith
    obtain ⟨⟨g0, hg0, hge⟩, hle⟩ := flMin_spec hn (fun g => add (flBell add nF P c g t) (P f g))
    have hcf := hc f hf (t + 1) ht
    have hV : flBell add nF P c f (t + 1) = add (c f (t + 1)) (add (flBell add nF P c g0 t) (P f g0)) := by
      rw [flBell]; congr 1; exact hge.symm
    have hs : |c f (t + 1) + add (flBell add nF P c g0 t) (P f g0)| ≤ (t + 1) * (3 / 2 * (A + B)) + B + D + A := by
      have := abs_add_le (c f (t + 1)) (add (flBell add nF P c g0 t) (P f g0))
      have := hb2 g0 hg0
      linarith
    have hr2 : |flBell add nF P c f (t + 1) - (c f (t + 1) + add (flBell add nF P c g0 t) (P f g0))| ≤ D := by
      rw [hV]
      apply hadd
      nlinarith
    refine ⟨?_, fun s hst => ?_⟩
    · have h3 := abs_sub_abs_le_abs_sub (flBell add nF P c f (t + 1)) (c f (t + 1) + add (flBell add nF P c g0 t) (P f g0))
      push_cast
      nlinarith
    · obtain rfl : s = t := by omega
      refine ⟨⟨g0, hg0, hr g0 hg0, hV, hr2⟩, fun g hg => ?_⟩
      have h4 := hle g hg
      rw [← hge] at h4
      have h5 := (abs_le.1 (hr g hg)).2
      have h6 := (abs_le.1 hr2).2
      linarith

/-- The accumulated cost exceeds the cost of no path by more than the rounding errors, and is the cost of some path up to the rounding errors. -/
theorem flBell_cost (hn : 0 < nF) (hA0 : 0 ≤ A) (hB0 : 0 ≤ B) (hD : 4 * D ≤ A + B)
    (hadd : ∀ a b, |a + b| ≤ 4 * (nT + 1) * (A + B) → |add a b - (a + b)| ≤ D)
    (hc : ∀ f < nF, ∀ t < nT, |c f t| ≤ A) (hP : ∀ f < nF, ∀ g < nF, 0 ≤ P f g ∧ P f g ≤ B) :
    ∀ t < nT, (∀ q, Spec.IsPath nF t q → flBell add nF P c (q t) t ≤ Spec.pathCost c P q t + 2 * D * t) ∧
      ∀ f < nF, ∃ q, Spec.IsPath nF t q ∧ q t = f ∧ Spec.pathCost c P q t ≤ flBell add nF P c f t + 2 * D * t := by
  intro t
  induction t with
  | zero =>
    intro ht
    refine ⟨fun q hq => by rw [pathCost_zero, flBell]; simp, fun f hf => ⟨fun _ => f, fun _ _ => hf, rfl, by rw [pathCost_zero, flBell]; simp⟩⟩
  | succ t ih =>
    intro ht
    obtain ⟨i1, i2⟩ := ih (by omega)
    have hst := flBell_step hn hA0 hB0 hD hadd hc hP (t + 1) ht
    constructor
    · intro q hq
      have h1 := i1 q fun s hs => hq s (by omega)
      have h2 := ((hst (q (t + 1)) (hq _ le_rfl)).2 t rfl).2 (q t) (hq t (by omega))
      rw [pathCost_succ]
      push_cast
      linarith
    · intro f hf
      obtain ⟨⟨g, hg, hr1, hV, hr2⟩, -⟩ := (hst f hf).2 t rfl
      obtain ⟨q, hq, hqg, hqc⟩ := i2 g hg
      refine ⟨fun s => if s ≤ t then q s else f, ?_, by simp, ?_⟩
      · intro s hs
        by_cases h : s ≤ t
        · simp only [if_pos h]; exact hq s h
        · simp only [if_neg h]; exact hf
      · rw [pathCost_succ]
        have : Spec.pathCost c P (fun s => if s ≤ t then q s else f) t = Spec.pathCost c P q t := by
          unfold Spec.pathCost
          congr 1
          · apply Finset.sum_congr rfl
            intro s hs
            have := Finset.mem_range.1 hs
            simp only [if_pos (show s ≤ t by omega)]
          · apply Finset.sum_congr rfl
            intro s hs
            have := Finset.mem_range.1 hs
            simp only [if_pos (show s ≤ t by omega), if_pos (show s + 1 ≤ t by omega)]
        rw [this]
        simp only [le_refl, if_true, if_neg (show ¬ t + 1 ≤ t by omega), hqg]
        have h5 := (abs_le.1 hr1).1
        have h6 := (abs_le.1 hr2).1
        push_cast
        linarith

theorem flTrack_step (eps : ℝ) (hn : 0 < nF) (hT : nF ≤ nT) (fw bw : ℕ → List ℕ) (hfw : ∀ t, (fw t).Perm (List.range nF)) (hbw : ∀ t, (bw t).Perm (List.range nF)) :
    (∀ t < nT, ridgeTrackFl add sub nF nT P eps c fw bw t < nF) ∧
    (∀ f < nF, flBell add nF P c (ridgeTrackFl add sub nF nT P eps c fw bw (nT - 1)) (nT - 1) ≤ flBell add nF P c f (nT - 1)) ∧
    ∀ t, t + 1 < nT →
      flMatch add sub P eps c (flBell add nF P c) (ridgeTrackFl add sub nF nT P eps c fw bw (t + 1)) t (ridgeTrackFl add sub nF nT P eps c fw bw t) = true ∨
      ((∀ f < nF, flMatch add sub P eps c (flBell add nF P c) (ridgeTrackFl add sub nF nT P eps c fw bw (t + 1)) t f = false) ∧
        ∀ f < nF, flBell add nF P c (ridgeTrackFl add sub nF nT P eps c fw bw t) t ≤ flBell add nF P c f t) := by
  set pe := flFw add nF nT P fw c with hpe
  have hr : ridgeTrackFl add sub nF nT P eps c fw bw = flBw add sub nT P eps c pe bw (flInit nF nT pe) := rfl
  rw [hr]
  set r := flBw add sub nT P eps c pe bw (flInit nF nT pe) with hrdef
  have hpeV : ∀ f < nF, ∀ t < nT, pe f t = flBell add nF P c f t := fun f hf t ht => flFw_eq add nF nT P fw hfw c f t hf ht
  obtain ⟨b1, b2⟩ := flBw_spec add sub nT P eps c pe bw (flInit nF nT pe)
  rw [← hrdef] at b1 b2
  have hinit : ∀ t < nT, flInit nF nT pe t < nF ∧ ∀ f < nF, flBell add nF P c (flInit nF nT pe t) t ≤ flBell add nF P c f t := by
    intro t ht
    obtain ⟨h1, h2⟩ := nfArgmin_some hn (fun f => pe f t)
    have e : flInit nF nT pe t = nfArgmin ((List.range nF).map fun f : ℕ => some (pe f t)) := Nat.mod_eq_of_lt (by omega)
    rw [← e] at h1 h2
    refine ⟨h1, fun f hf => ?_⟩
    have := h2 f hf
    rwa [hpeV _ h1 t ht, hpeV f hf t ht] at this
  have hstep : ∀ t, t + 1 < nT → (r t < nF ∧ flMatch add sub P eps c pe (r (t + 1)) t (r t) = true) ∨
      ((∀ f < nF, flMatch add sub P eps c pe (r (t + 1)) t f = false) ∧ r t = flInit nF nT pe t) := by
    intro t ht
    have hb := b2 t ht
    cases hl : ((bw t).filter fun f => flMatch add sub P eps c pe (r (t + 1)) t f).getLast? with
    | none =>
      right
      rw [hl] at hb
      refine ⟨fun f hf => ?_, hb⟩
      rw [List.getLast?_eq_none_iff, List.filter_eq_nil_iff] at hl
      simpa using hl f ((hbw t).mem_iff.2 (List.mem_range.2 hf))
    | some g =>
      left
      rw [hl, Option.getD_some] at hb
      have := List.mem_filter.1 (List.mem_of_getLast? hl)
      rw [hb]
      exact ⟨List.mem_range.1 ((hbw t).mem_iff.1 this.1), this.2⟩
  have hlt : ∀ t < nT, r t < nF := by
    intro t ht
    by_cases h : t + 1 < nT
    · rcases hstep t h with h1 | h1
      · exact h1.1
      · rw [h1.2]; exact (hinit t ht).1
    · rw [b1 t (by omega)]; exact (hinit t ht).1
  have hm : ∀ t, t + 1 < nT → ∀ f < nF, flMatch add sub P eps c pe (r (t + 1)) t f = flMatch add sub P eps c (flBell add nF P c) (r (t + 1)) t f := by
    intro t ht f hf
    unfold flMatch
    rw [hpeV f hf t (by omega), hpeV _ (hlt (t + 1) ht) (t + 1) ht]
  refine ⟨hlt, ?_, fun t ht => ?_⟩
  · rw [b1 (nT - 1) (by omega)]
    exact (hinit (nT - 1) (by omega)).2
  · rcases hstep t ht with h1 | h1
    · left; rw [← hm t ht _ h1.1]; exact h1.2
    · right
      refine ⟨fun f hf => by rw [← hm t ht f hf]; exact h1.1 f hf, ?_⟩
      rw [h1.2]; exact (hinit t (by omega)).2

theorem flTrack_cost (eps : ℝ) (hn : 0 < nF) (hT : nF ≤ nT) (fw bw : ℕ → List ℕ) (hfw : ∀ t, (fw t).Perm (List.range nF)) (hbw : ∀ t, (bw t).Perm (List.range nF))
    (hD0 : 0 ≤ D) (hA0 : 0 ≤ A) (hB0 : 0 ≤ B) (hD : 4 * D ≤ A + B)
    (hadd : ∀ a b, |a + b| ≤ 4 * (nT + 1) * (A + B) → |add a b - (a + b)| ≤ D)
    (hsub : ∀ a b, |a - b| ≤ 4 * (nT + 1) * (A + B) → |sub a b - (a - b)| ≤ D)
    (hc : ∀ f < nF, ∀ t < nT, |c f t| ≤ A) (hP : ∀ f < nF, ∀ g < nF, 0 ≤ P f g ∧ P f g ≤ B) (r : ℕ → ℕ) (hr : ridgeTrackFl add sub nF nT P eps c fw bw = r) :
    ∃ S : Finset ℕ, S ⊆ range (nT - 1) ∧ (∀ t ∈ S, ∀ f < nF, flBell add nF P c (r t) t ≤ flBell add nF P c f t) ∧ (3 * D < eps → S = ∅) ∧
      Spec.pathCost c P r (nT - 1) ≤ flBell add nF P c (r (nT - 1)) (nT - 1) + ((nT - 1 : ℕ) : ℝ) * (|eps| + 3 * D) + ∑ t ∈ S, P (r (t + 1)) (r t) := by
  obtain ⟨hlt, -, hst⟩ := flTrack_step (add := add) (sub := sub) (P := P) (c := c) eps hn hT fw bw hfw hbw
  rw [hr] at hlt hst
  set V := flBell add nF P c with hV
  have hstep := flBell_step hn hA0 hB0 hD hadd hc hP
  have hAB : 0 ≤ A + B := by linarith
  -- the errors of the comparison
  have herr : ∀ t, t + 1 < nT → ∀ f < nF, |sub (V (r (t + 1)) (t + 1)) (c (r (t + 1)) (t + 1)) - (V (r (t + 1)) (t + 1) - c (r (t + 1)) (t + 1))| ≤ D ∧
      |add (V f t) (P (r (t + 1)) f) - (V f t + P (r (t + 1)) f)| ≤ D ∧
      |sub (sub (V (r (t + 1)) (t + 1)) (c (r (t + 1)) (t + 1))) (add (V f t) (P (r (t + 1)) f)) -
        (sub (V (r (t + 1)) (t + 1)) (c (r (t + 1)) (t + 1)) - add (V f t) (P (r (t + 1)) f))| ≤ D := by
    intro t ht f hf
    have h1 := (hstep (t + 1) ht (r (t + 1)) (hlt _ ht)).1
    have h2 := (hstep t (by omega) f hf).1
    have h3 := hc (r (t + 1)) (hlt _ ht) (t + 1) ht
    have h4 := hP (r (t + 1)) (hlt _ ht) f hf
    have htn : (t : ℝ) + 2 ≤ nT := by exact_mod_cast ht
    have ht0 : (0 : ℝ) ≤ t := Nat.cast_nonneg t
    have hprod : ((t : ℝ) + 2) * (A + B) ≤ nT * (A + B) := mul_le_mul_of_nonneg_right htn hAB
    have htp : 0 ≤ (t : ℝ) * (A + B) := mul_nonneg ht0 hAB
    have e1 : |V (r (t + 1)) (t + 1) - c (r (t + 1)) (t + 1)| ≤ (t + 2) * (3 / 2 * (A + B)) + A := by
      have := abs_sub (V (r (t + 1)) (t + 1)) (c (r (t + 1)) (t + 1))
      push_cast at h1
      rw [← hV] at h1
      nlinarith
    have e2 : |V f t + P (r (t + 1)) f| ≤ (t + 1) * (3 / 2 * (A + B)) + B := by
      have := abs_add_le (V f t) (P (r (t + 1)) f)
      rw [abs_of_nonneg h4.1] at this
      rw [← hV] at h2
      linarith [h4.2]
    have d1 := hsub (V (r (t + 1)) (t + 1)) (c (r (t + 1)) (t + 1)) (by nlinarith)
    have d2 := hadd (V f t) (P (r (t + 1)) f) (by nlinarith)
    refine ⟨d1, d2, hsub _ _ ?_⟩
    have e3 := abs_sub (sub (V (r (t + 1)) (t + 1)) (c (r (t + 1)) (t + 1))) (add (V f t) (P (r (t + 1)) f))
    have e4 := abs_sub_abs_le_abs_sub (sub (V (r (t + 1)) (t + 1)) (c (r (t + 1)) (t + 1))) (V (r (t + 1)) (t + 1) - c (r (t + 1)) (t + 1))
    have e5 := abs_sub_abs_le_abs_sub (add (V f t) (P (r (t + 1)) f)) (V f t + P (r (t + 1)) f)
    nlinarith
  set miss : ℕ → Prop := fun t => ∀ f < nF, flMatch add sub P eps c V (r (t + 1)) t f = false with hmiss
  classical
  have hS : ∀ t, t + 1 < nT → miss t → ∀ f < nF, V (r t) t ≤ V f t := by
    intro t ht hm
    rcases hst t ht with h | h
    · exact absurd h (by rw [hm _ (hlt t (by omega))]; simp)
    · exact h.2
  refine ⟨(range (nT - 1)).filter miss, filter_subset _ _, fun t ht => ?_, fun he => ?_, ?_⟩
  · have := mem_filter.1 ht
    exact hS t (by have := mem_range.1 this.1; omega) this.2
  · rw [filter_eq_empty_iff]
    intro t ht hm
    have ht' : t + 1 < nT := by have := mem_range.1 ht; omega
    obtain ⟨⟨g, hg, hr1, hV1, hr2⟩, -⟩ := (hstep (t + 1) ht' (r (t + 1)) (hlt _ ht')).2 t rfl
    obtain ⟨d1, -, d3⟩ := herr t ht' g hg
    have := hm g hg
    simp only [flMatch, decide_eq_false_iff_not, not_lt] at this
    rw [← hV] at hr2
    have k : |sub (sub (V (r (t + 1)) (t + 1)) (c (r (t + 1)) (t + 1))) (add (V g t) (P (r (t + 1)) g))| ≤ 3 * D := by
      rw [abs_le] at d1 d3 hr2 ⊢
      constructor <;> linarith [d1.1, d1.2, d3.1, d3.2, hr2.1, hr2.2]
    linarith
  · have key : ∀ t < nT, Spec.pathCost c P r t ≤ V (r t) t + (t : ℝ) * (|eps| + 3 * D) + ∑ s ∈ (range t).filter miss, P (r (s + 1)) (r s) := by
      intro t
      induction t with
      | zero => intro _; rw [pathCost_zero]; simp [hV, flBell]
      | succ t ih =>
        intro ht
        have ih := ih (by omega)
        rw [pathCost_succ, range_add_one, filter_insert]
        have hPn := hP (r (t + 1)) (hlt _ ht) (r t) (hlt t (by omega))
        have heps := le_abs_self eps
        have heps0 := abs_nonneg eps
        rcases hst t ht with h | ⟨h, hmin⟩
        · have hnm : ¬ miss t := fun hm => by rw [hm _ (hlt t (by omega))] at h; simp at h
          rw [if_neg hnm]
          obtain ⟨d1, d2, d3⟩ := herr t ht (r t) (hlt t (by omega))
          simp only [flMatch, decide_eq_true_eq] at h
          rw [abs_le] at d1 d2 d3
          have h' := abs_lt.1 h
          push_cast
          linarith [d1.1, d1.2, d2.1, d2.2, d3.1, d3.2, h'.1, h'.2]
        · rw [if_pos h, sum_insert (by simp)]
          obtain ⟨⟨g, hg, hr1, hV1, hr2⟩, -⟩ := (hstep (t + 1) ht (r (t + 1)) (hlt _ ht)).2 t rfl
          have h1 := hmin g hg
          have h2 := (hP (r (t + 1)) (hlt _ ht) g hg).1
          rw [← hV] at hr1 hr2
          rw [abs_le] at hr1 hr2
          push_cast
          linarith [hr1.1, hr2.1]
    exact key (nT - 1) (by omega)

end err

/-- **C187** (the proved part). Ridge tracking where every addition and subtraction errs by at most `u` times its exact result (`u = 2^-53` for double precision): for costs up to
`A` and penalties up to `B`, at least as many columns as rows and any order of the iterations, the ridge stays on the rows of the transform, and its cost exceeds that of no row
sequence by more than the tolerance and the rounding errors, plus the penalties of its jumps at the times in `S`. At the times in `S` it is at the end of a cheapest row sequence up to
that time. `S` is empty if the tolerance exceeds the rounding errors of one comparison. -/
theorem C187_cost_partial (add sub : ℝ → ℝ → ℝ) {u : ℝ} (hu : 0 ≤ u) (hadd : Spec.Rounds u add (· + ·)) (hsub : Spec.Rounds u sub (· - ·))
    {nF nT : ℕ} (hn : 0 < nF) (hT : nF ≤ nT) (hsmall : 16 * u * (nT + 1) ≤ 1) (P c : ℕ → ℕ → ℝ) {A B eps : ℝ} (heps : 0 ≤ eps)
    (hc : ∀ f < nF, ∀ t < nT, |c f t| ≤ A) (hP : ∀ f < nF, ∀ g < nF, 0 ≤ P f g ∧ P f g ≤ B)
    (fw bw : ℕ → List ℕ) (hfw : ∀ t, (fw t).Perm (List.range nF)) (hbw : ∀ t, (bw t).Perm (List.range nF))
    (r : ℕ → ℕ) (hr : ridgeTrackFl add sub nF nT P eps c fw bw = r) (D : ℝ) (hD : D = 4 * u * (nT + 1) * (A + B)) :
    (∀ t < nT, r t < nF) ∧
    ∃ S : Finset ℕ, (∀ t ∈ S, t + 1 < nT) ∧ (3 * D < eps → S = ∅) ∧
      (∀ t ∈ S, ∃ p, Spec.IsPath nF t p ∧ p t = r t ∧ ∀ q, Spec.IsPath nF t q → Spec.pathCost c P p t ≤ Spec.pathCost c P q t + 4 * D * t) ∧
      ∀ q, Spec.IsPath nF (nT - 1) q → Spec.pathCost c P r (nT - 1) ≤
        Spec.pathCost c P q (nT - 1) + (nT - 1 : ℕ) * (eps + 5 * D) + ∑ t ∈ S, P (r (t + 1)) (r t) := by
  have hA0 : 0 ≤ A := (abs_nonneg _).trans (hc 0 hn 0 (by omega))
  have hB0 : 0 ≤ B := (hP 0 hn 0 hn).1.trans (hP 0 hn 0 hn).2
  have hAB : 0 ≤ A + B := by linarith
  have hD0 : 0 ≤ D := by rw [hD]; positivity
  have hD4 : 4 * D ≤ A + B := by
    rw [hD]; nlinarith
  have ha : ∀ a b, |a + b| ≤ 4 * (nT + 1) * (A + B) → |add a b - (a + b)| ≤ D := by
    intro a b h
    have := hadd a b
    have h2 := mul_le_mul_of_nonneg_left h hu
    rw [hD]
    simp only at this
    linarith
  have hs : ∀ a b, |a - b| ≤ 4 * (nT + 1) * (A + B) → |sub a b - (a - b)| ≤ D := by
    intro a b h
    have := hsub a b
    have h2 := mul_le_mul_of_nonneg_left h hu
    rw [hD]
    simp only at this
    linarith
  obtain ⟨S, hS1, hS2, hS3, hS4⟩ := flTrack_cost eps hn hT fw bw hfw hbw hD0 hA0 hB0 hD4 ha hs hc hP r hr
  obtain ⟨hlt, hlast, -⟩ := flTrack_step (add := add) (sub := sub) (P := P) (c := c) eps hn hT fw bw hfw hbw
  rw [hr] at hlt hlast
  have hcost := flBell_cost hn hA0 hB0 hD4 ha hc hP
  refine ⟨hlt, S, fun t ht => by have := mem_range.1 (hS1 ht); omega, hS3, fun t ht => ?_, fun q hq => ?_⟩
  · have htn : t < nT := by have := mem_range.1 (hS1 ht); omega
    obtain ⟨p, hp, hpr, hpc⟩ := (hcost t htn).2 (r t) (hlt t htn)
    refine ⟨p, hp, hpr, fun q hq => ?_⟩
    have h1 := (hcost t htn).1 q hq
    have h2 := hS2 t ht (q t) (hq t le_rfl)
    linarith
  · have h1 := (hcost (nT - 1) (by omega)).1 q hq
    have h2 := hlast (q (nT - 1)) (hq _ le_rfl)
    rw [abs_of_nonneg heps] at hS4
    linarith

/-- The hypotheses hold for double precision, two rows and three columns. -/
example : ∃ r, ridgeTrackFl (fun a b => Spec.fl 53 (a + b)) (fun a b => Spec.fl 53 (a - b)) 2 3 (fun f g => if f = g then 0 else 1) (1 / 2 ^ 52)
      (fun f t => if f = t % 2 then 0 else 1 / 3) (fun _ => List.range 2) (fun _ => [1, 0]) = r ∧ (∀ t < 3, r t < 2) ∧
    ∃ S : Finset ℕ, (∀ t ∈ S, t + 1 < 3) ∧ ∀ q, Spec.IsPath 2 2 q → Spec.pathCost (fun f t => if f = t % 2 then 0 else 1 / 3) (fun f g => if f = g then 0 else 1) r 2 ≤
      Spec.pathCost (fun f t => if f = t % 2 then 0 else 1 / 3) (fun f g => if f = g then 0 else 1) q 2 +
        2 * (1 / 2 ^ 52 + 5 * (4 * (1 / 2 ^ 53) * (3 + 1) * (1 / 3 + 1))) + ∑ t ∈ S, if r (t + 1) = r t then 0 else 1 := by
  refine ⟨_, rfl, ?_⟩
  obtain ⟨h1, S, h2, -, -, h3⟩ := C187_cost_partial (fun a b => Spec.fl 53 (a + b)) (fun a b => Spec.fl 53 (a - b)) (u := 1 / 2 ^ 53) (by positivity) (C161_ieee 53 (· + ·))
    (C161_ieee 53 (· - ·)) (nF := 2) (nT := 3) (by norm_num) (by norm_num) (by norm_num) (fun f g => if f = g then 0 else 1) (fun f t => if f = t % 2 then 0 else 1 / 3) (A := 1 / 3) (B := 1)
    (eps := 1 / 2 ^ 52) (by positivity) (fun f _ t _ => by split_ifs <;> norm_num) (fun f _ g _ => by split_ifs <;> norm_num) (fun _ => List.range 2) (fun _ => [1, 0])
    (fun _ => List.Perm.refl _) (fun _ => List.Perm.swap 0 1 []) _ rfl _ rfl
  refine ⟨h1, S, h2, fun q hq => ?_⟩
  have := h3 q hq
  norm_num at this ⊢
  exact this

/-! ### The exact model is the special case without rounding -/

theorem flMin_some {n : ℕ} (hn : 0 < n) (g : ℕ → ℝ) :
    nfMin ((List.range n).map fun f : ℕ => some (g f)) = some (flMin ((List.range n).map g)) := by
  obtain ⟨m, hm, ⟨f, hf, hfm⟩, hle⟩ := nfMin_some hn g
  obtain ⟨⟨f', hf', hfm'⟩, hle'⟩ := flMin_spec hn g
  rw [hm]
  congr 1
  apply le_antisymm
  · rw [← hfm']; exact hle f' hf'
  · rw [← hfm]; exact hle' f hf

/-- Without rounding, and when every column has energy, this is the model of `Model/Ridge.lean` on the costs of `extract_ridges`. -/
theorem C187_exact (a : RidgeArgs) (s : RidgeSched) (i : ℕ) (E : ℕ → ℕ → ℝ) (hn : 0 < a.nF) (hE : ∀ t, colMax a.nF E t ≠ 0) :
    ridgeTrack a s i E = ridgeTrackFl (· + ·) (· - ·) a.nF a.nT (ridgePenalty a) a.eps (fun f t => -Real.log (E f t / colMax a.nF E t + a.eps)) (s.fw i) (s.bw i) := by
  set c : ℕ → ℕ → ℝ := fun f t => -Real.log (E f t / colMax a.nF E t + a.eps) with hc
  have hcost : ridgeCost a E = fun f t => some (c f t) := by
    funext f t; unfold ridgeCost; rw [if_neg (hE t)]
  set P := ridgePenalty a
  have hstep : ∀ (pe : ℕ → ℕ → ℝ) t f, ridgeFwStep a.nF P t (fun f t => some (pe f t)) f = fun f' t' => some (flFwStep (· + ·) a.nF P t pe f f' t') := by
    intro pe t f
    funext f' t'
    unfold ridgeFwStep flFwStep
    split
    · simp only [nfAdd]
      rw [flMin_some hn]
    · rfl
  have hfold : ∀ (l : List ℕ) (pe : ℕ → ℕ → ℝ) t, l.foldl (ridgeFwStep a.nF P t) (fun f t => some (pe f t)) = fun f' t' => some (l.foldl (flFwStep (· + ·) a.nF P t) pe f' t') := by
    intro l
    induction l with
    | nil => intro pe t; rfl
    | cons f l ih => intro pe t; rw [List.foldl_cons, List.foldl_cons, hstep, ih]
  have hfw : ridgeFw a.nF a.nT P (s.fw i) (fun f t => some (c f t)) = fun f t => some (flFw (· + ·) a.nF a.nT P (s.fw i) c f t) := by
    unfold ridgeFw flFw
    generalize List.range (a.nT - 1) = l
    generalize c = c
    induction l generalizing c with
    | nil => rfl
    | cons k l ih => rw [List.foldl_cons, List.foldl_cons, hfold, ih]
  show ridgeBw a.nT P a.eps (ridgeCost a E) (ridgeFw a.nF a.nT P (s.fw i) (ridgeCost a E)) (s.bw i) (ridgeInit a.nF a.nT (ridgeFw a.nF a.nT P (s.fw i) (ridgeCost a E))) = _
  rw [hcost, hfw]
  unfold ridgeTrackFl
  set pe := flFw (· + ·) a.nF a.nT P (s.fw i) c
  have hbstep : ∀ t val, ridgeBwStep P a.eps (fun f t => some (pe f t)) t (some val) = flBwStep (· + ·) (· - ·) P a.eps pe t val := by
    intro t val
    funext r f
    unfold ridgeBwStep flBwStep
    simp only [nfClose, nfSub, nfAdd, decide_eq_true_eq]
  unfold ridgeBw flBw
  have htime : ∀ order t r, ridgeBwTime P a.eps (fun f t => some (c f t)) (fun f t => some (pe f t)) order t r = flBwTime (· + ·) (· - ·) P a.eps c pe order t r := by
    intro order t r
    unfold ridgeBwTime flBwTime
    simp only [nfSub, hbstep]
  simp only [htime]
  rfl

/-! ### Double precision: the property fails -/

/-- Numbers with at most 53 significant digits are unchanged. -/
theorem fl_exact {x : ℝ} (m e : ℤ) (hm : |m| < 2 ^ 53) (hx : x = m * 2 ^ e) : Spec.fl 53 x = x := by
  by_cases h0 : x = 0
  · rw [h0]; simp [Spec.fl, roundHalfEven]
  have hax : |x| = |(m : ℝ)| * 2 ^ e := by rw [hx, abs_mul, abs_of_pos (by positivity : (0 : ℝ) < 2 ^ e)]
  have hlog : Int.log 2 |x| < e + 53 := by
    rw [← Int.lt_zpow_iff_log_lt (by norm_num) (abs_pos.2 h0), hax]
    have h1 : |(m : ℝ)| < 2 ^ 53 := by exact_mod_cast hm
    push_cast
    rw [zpow_add₀ (by norm_num : (2 : ℝ) ≠ 0), mul_comm]
    exact mul_lt_mul_of_pos_left (by exact_mod_cast h1) (by positivity)
  unfold Spec.fl
  set l := Int.log 2 |x| with hl
  obtain ⟨k, hk⟩ : ∃ k : ℕ, e - (l - (53 : ℕ) + 1) = k := ⟨(e - (l - (53 : ℕ) + 1)).toNat, by push_cast; omega⟩
  have e1 : x / 2 ^ (l - (53 : ℕ) + 1 : ℤ) = ((m * 2 ^ k : ℤ) : ℝ) := by
    rw [hx, mul_div_assoc, ← zpow_sub₀ (by norm_num : (2 : ℝ) ≠ 0), hk]
    push_cast
    rw [zpow_natCast]
  rw [e1, rhe_intCast, ← e1]
  field_simp

/-- A sum that falls between two floats. -/
theorem fl_five : Spec.fl 53 (5 + 1 / 2 ^ 52) = 5 := by
  have hlog : Int.log 2 |(5 + 1 / 2 ^ 52 : ℝ)| = 2 := by
    rw [abs_of_pos (by positivity)]
    apply le_antisymm
    · have := (Int.lt_zpow_iff_log_lt (b := 2) (by norm_num) (by positivity : (0 : ℝ) < 5 + 1 / 2 ^ 52) (x := 3)).1 (by norm_num)
      omega
    · exact (Int.zpow_le_iff_le_log (b := 2) (by norm_num) (by positivity : (0 : ℝ) < 5 + 1 / 2 ^ 52)).1 (by norm_num)
  unfold Spec.fl
  rw [hlog]
  have e1 : (5 + 1 / 2 ^ 52 : ℝ) / 2 ^ ((2 : ℤ) - (53 : ℕ) + 1) = ((5 * 2 ^ 50 : ℤ) : ℝ) + 1 / 4 := by
    norm_num
  rw [e1]
  have e2 : roundHalfEven (((5 * 2 ^ 50 : ℤ) : ℝ) + 1 / 4) = 5 * 2 ^ 50 := by
    have hf : ⌊((5 * 2 ^ 50 : ℤ) : ℝ) + 1 / 4⌋ = 5 * 2 ^ 50 := by
      rw [Int.floor_eq_iff]; constructor <;> push_cast <;> linarith
    simp only [roundHalfEven, hf]
    norm_num
  rw [e2]
  norm_num

/-- **C187**, full statement (false of the code): in double precision, the cost of the ridge exceeds that of any row sequence by at most a constant per column. Costs are floats between
0 and 36.05 (`-log(eps)` rounded up); penalties are floats and multiples of squared differences of the rows' positions. -/
def C187_full : Prop :=
  ∃ K : ℝ, ∀ (nF nT : ℕ) (pen : ℝ) (s : ℕ → ℝ) (P c : ℕ → ℕ → ℝ) (fw bw : ℕ → List ℕ), 0 < nF → nF ≤ nT → 0 ≤ pen →
    (∀ f g, P f g = pen * (s f - s g) ^ 2 ∧ Spec.fl 53 (P f g) = P f g) → (∀ f t, 0 ≤ c f t ∧ c f t ≤ 36.05 ∧ Spec.fl 53 (c f t) = c f t) →
    (∀ t, (fw t).Perm (List.range nF)) → (∀ t, (bw t).Perm (List.range nF)) →
    ∀ q, Spec.IsPath nF (nT - 1) q →
      Spec.pathCost c P (ridgeTrackFl (fun a b => Spec.fl 53 (a + b)) (fun a b => Spec.fl 53 (a - b)) nF nT P (1 / 2 ^ 52) c fw bw) (nT - 1) ≤
        Spec.pathCost c P q (nT - 1) + K * nT

/-- Costs of the counterexample. -/
noncomputable def cexCost (f t : ℕ) : ℝ :=
  if t = 1 then (if f = 0 then 1 + 1 / 2 ^ 52 else if f = 2 then 30 else 0)
  else if t = 2 then (if f = 0 then 4 else if f = 1 then 20 else 0) else 0

/-- Penalties of the counterexample. -/
noncomputable def cexPen (k f g : ℕ) : ℝ := (2 ^ k : ℝ) * ((min f 2 : ℕ) - (min g 2 : ℕ)) ^ 2

theorem C187_refuted : ¬ C187_full := by
  rintro ⟨K, h⟩
  obtain ⟨k0, hk0⟩ := pow_unbounded_of_one_lt (3 * K + 2) (one_lt_two : (1 : ℝ) < 2)
  set k := k0 + 7 with hk
  have hp128 : (128 : ℝ) ≤ 2 ^ k := by
    rw [hk, pow_add]
    have : (1 : ℝ) ≤ 2 ^ k0 := one_le_pow₀ (by norm_num)
    norm_num; linarith
  have hpk : 3 * K + 2 < (2 : ℝ) ^ k := hk0.trans_le (pow_le_pow_right₀ (by norm_num) (by omega))
  set add : ℝ → ℝ → ℝ := fun a b => Spec.fl 53 (a + b) with hadd
  set sub : ℝ → ℝ → ℝ := fun a b => Spec.fl 53 (a - b) with hsub
  have hfw : ∀ t : ℕ, ((fun _ => List.range 3 : ℕ → List ℕ) t).Perm (List.range 3) := fun _ => List.Perm.refl _
  have hcfl : ∀ f t, 0 ≤ cexCost f t ∧ cexCost f t ≤ 36.05 ∧ Spec.fl 53 (cexCost f t) = cexCost f t := by
    intro f t
    have f0 : Spec.fl 53 0 = 0 := fl_exact 0 0 (by norm_num) (by norm_num)
    have f1 : Spec.fl 53 (1 + 1 / 2 ^ 52) = 1 + 1 / 2 ^ 52 := fl_exact (2 ^ 52 + 1) (-52) (by norm_num) (by norm_num)
    have f2 : Spec.fl 53 30 = 30 := fl_exact 30 0 (by norm_num) (by norm_num)
    have f3 : Spec.fl 53 4 = 4 := fl_exact 4 0 (by norm_num) (by norm_num)
    have f4 : Spec.fl 53 20 = 20 := fl_exact 20 0 (by norm_num) (by norm_num)
    unfold cexCost
    split_ifs
    · exact ⟨by positivity, by norm_num, f1⟩
    · exact ⟨by norm_num, by norm_num, f2⟩
    · exact ⟨by norm_num, by norm_num, f0⟩
    · exact ⟨by norm_num, by norm_num, f3⟩
    · exact ⟨by norm_num, by norm_num, f4⟩
    · exact ⟨by norm_num, by norm_num, f0⟩
    · exact ⟨by norm_num, by norm_num, f0⟩
  have hPfl : ∀ f g, Spec.fl 53 (cexPen k f g) = cexPen k f g := by
    intro f g
    have hm : ∀ a : ℕ, ((min a 2 : ℕ) : ℤ) = 0 ∨ ((min a 2 : ℕ) : ℤ) = 1 ∨ ((min a 2 : ℕ) : ℤ) = 2 := by intro a; omega
    refine fl_exact ((((min f 2 : ℕ) : ℤ) - ((min g 2 : ℕ) : ℤ)) ^ 2) k ?_ ?_
    · rcases hm f with h | h | h <;> rcases hm g with h' | h' | h' <;> rw [h, h'] <;> norm_num
    · unfold cexPen; push_cast; rw [zpow_natCast]; ring
  have h1 := h 3 3 (2 ^ k) (fun f => ((min f 2 : ℕ) : ℝ)) (cexPen k) cexCost (fun _ => List.range 3) (fun _ => List.range 3) (by norm_num) le_rfl (by positivity)
    (fun f g => ⟨rfl, hPfl f g⟩) hcfl hfw hfw (fun _ => 0) (fun _ _ => by norm_num)
  rw [show (3 : ℕ) - 1 = 2 by norm_num] at h1
  set r := ridgeTrackFl add sub 3 3 (cexPen k) (1 / 2 ^ 52) cexCost (fun _ => List.range 3) (fun _ => List.range 3) with hr
  obtain ⟨hlt, hlast, hst⟩ := flTrack_step (add := add) (sub := sub) (P := cexPen k) (c := cexCost) (1 / 2 ^ 52) (by norm_num : 0 < 3) (le_refl 3) (fun _ => List.range 3)
    (fun _ => List.range 3) hfw hfw
  rw [← hr] at hlt hlast hst
  set V := flBell add 3 (cexPen k) cexCost with hV
  -- values of the penalties
  have p00 : ∀ f, cexPen k f f = 0 := by intro f; simp [cexPen]
  have pnn : ∀ f g, 0 ≤ cexPen k f g := by intro f g; unfold cexPen; positivity
  have poff : ∀ f < 3, ∀ g < 3, f ≠ g → (2 : ℝ) ^ k ≤ cexPen k f g := by
    intro f hf g hg hfg
    unfold cexPen
    interval_cases f <;> interval_cases g <;> first | exact absurd rfl hfg | (norm_num) 
  have flnn : ∀ x : ℝ, 0 ≤ x → x / 2 ≤ Spec.fl 53 x := by
    intro x hx
    have := C161_ieee 53 (fun a _ => a) x 0
    simp only at this
    rw [abs_of_nonneg hx] at this
    have h2 := (abs_le.1 this).1
    have : 1 / 2 ^ 53 * x ≤ x / 2 := by nlinarith [show (1 : ℝ) / 2 ^ 53 ≤ 1 / 2 by norm_num]
    linarith
  -- the accumulated costs
  have hmin : ∀ t f, ∀ v, (∃ g < 3, add (V g t) (cexPen k f g) = v) → (∀ g < 3, v ≤ add (V g t) (cexPen k f g)) →
      V f (t + 1) = Spec.fl 53 (cexCost f (t + 1) + v) := by
    intro t f v ⟨g, hg, hgv⟩ hle
    obtain ⟨⟨g0, hg0, hge⟩, hle0⟩ := flMin_spec (by norm_num : 0 < 3) (fun g => add (V g t) (cexPen k f g))
    rw [hV, flBell, ← hV]
    show Spec.fl 53 _ = _
    congr 2
    apply le_antisymm
    · rw [← hgv]; exact hle0 g hg
    · rw [← hge]; exact hle g0 hg0
  have V0 : ∀ f, V f 0 = 0 := by intro f; simp [hV, flBell, cexCost]
  have V1 : ∀ f < 3, V f 1 = cexCost f 1 := by
    intro f hf
    rw [hmin 0 f 0 ⟨f, hf, ?_⟩ ?_, add_zero]
    · exact (hcfl f 1).2.2
    · simp only [hadd, V0, p00, add_zero]; exact fl_exact 0 0 (by norm_num) (by norm_num)
    · intro g hg
      simp only [hadd, V0, zero_add, hPfl]
      exact pnn f g
  have c01 : cexCost 0 1 = 1 + 1 / 2 ^ 52 := by simp [cexCost]
  have c11 : cexCost 1 1 = 0 := by simp [cexCost]
  have c21 : cexCost 2 1 = 30 := by simp [cexCost]
  have c02 : cexCost 0 2 = 4 := by simp [cexCost]
  have c12 : cexCost 1 2 = 20 := by simp [cexCost]
  have c22 : cexCost 2 2 = 0 := by simp [cexCost]
  have hdiag : ∀ f < 3, add (V f 1) (cexPen k f f) = cexCost f 1 := by
    intro f hf
    simp only [hadd, p00, add_zero, V1 f hf]
    exact (hcfl f 1).2.2
  have hoff : ∀ f < 3, ∀ g < 3, f ≠ g → 64 ≤ add (V g 1) (cexPen k f g) := by
    intro f hf g hg hfg
    have h1 := flnn (V g 1 + cexPen k f g) (by rw [V1 g hg]; linarith [(hcfl g 1).1, pnn f g])
    have h2 := poff f hf g hg hfg
    have h3 := (hcfl g 1).1
    rw [V1 g hg] at h1
    simp only [hadd, V1 g hg]
    linarith
  have V2 : ∀ f < 3, V f 2 = Spec.fl 53 (cexCost f 2 + cexCost f 1) := by
    intro f hf
    refine hmin 1 f _ ⟨f, hf, hdiag f hf⟩ fun g hg => ?_
    by_cases hfg : f = g
    · subst hfg; exact (hdiag f hf).ge
    · have := (hcfl f 1).2.1
      have := hoff f hf g hg hfg
      linarith
  have v02 : V 0 2 = 5 := by
    rw [V2 0 (by norm_num), c01, c02, show (4 + (1 + 1 / 2 ^ 52) : ℝ) = 5 + 1 / 2 ^ 52 by norm_num]; exact fl_five
  have v12 : V 1 2 = 20 := by
    rw [V2 1 (by norm_num), c11, c12]; exact (fl_exact 20 0 (by norm_num) (by norm_num)).trans (by norm_num)
  have v22 : V 2 2 = 30 := by
    rw [V2 2 (by norm_num), c21, c22]; exact (fl_exact 30 0 (by norm_num) (by norm_num)).trans (by norm_num)
  have r2 : r 2 = 0 := by
    have h3 := hlast 0 (by norm_num)
    have h4 := hlt 2 (by norm_num)
    rw [show (3 : ℕ) - 1 = 2 by norm_num, v02] at h3
    generalize r 2 = z at h3 h4
    interval_cases z
    · rfl
    · rw [v12] at h3; norm_num at h3
    · rw [v22] at h3; norm_num at h3
  have hval : sub (V 0 2) (cexCost 0 2) = 1 := by
    simp only [hsub, v02, c02]
    exact (fl_exact 1 0 (by norm_num) (by norm_num)).trans (by norm_num)
  have hmiss : ∀ f < 3, flMatch add sub (cexPen k) (1 / 2 ^ 52) cexCost V 0 1 f = false := by
    intro f hf
    simp only [flMatch, decide_eq_false_iff_not, not_lt, Nat.reduceAdd, hval]
    by_cases hf0 : f = 0
    · subst hf0
      rw [hdiag 0 hf, c01]
      simp only [hsub]
      rw [fl_exact (-1) (-52) (by norm_num) (by norm_num)]
      norm_num
    · have h5 := hoff 0 (by norm_num) f hf (Ne.symm hf0)
      set y := add (V f 1) (cexPen k 0 f)
      have := C161_ieee 53 (fun a _ => a) (1 - y) 0
      simp only at this
      rw [abs_of_neg (by linarith : 1 - y < 0)] at this
      have h6 := (abs_le.1 this).2
      have h7 : 1 / 2 ^ 53 * (-(1 - y)) ≤ (y - 1) / 2 := by nlinarith [show (1 : ℝ) / 2 ^ 53 ≤ 1 / 2 by norm_num]
      have h8 : Spec.fl 53 (1 - y) ≤ -31 := by linarith
      have h9 : (31 : ℝ) ≤ |sub 1 y| := by
        show 31 ≤ |Spec.fl 53 (1 - y)|
        rw [abs_of_neg (by linarith)]; linarith
      refine le_trans ?_ h9
      norm_num
  have r1 : r 1 = 1 := by
    have h4 := hlt 1 (by norm_num)
    rcases hst 1 (by norm_num) with h5 | ⟨-, h5⟩
    · rw [show 1 + 1 = 2 by norm_num, r2, hmiss _ h4] at h5
      simp at h5
    · have h6 := h5 1 (by norm_num)
      rw [V1 _ h4, V1 1 (by norm_num), c11] at h6
      generalize r 1 = z at h6 h4
      interval_cases z
      · rw [c01] at h6; norm_num at h6
      · rfl
      · rw [c21] at h6; norm_num at h6
  have hlow : (2 : ℝ) ^ k + 4 ≤ Spec.pathCost cexCost (cexPen k) r 2 := by
    unfold Spec.pathCost
    simp only [sum_range_succ, sum_range_zero, Nat.reduceAdd, r1, r2, c02, c11]
    have h5 := poff 0 (by norm_num) 1 (by norm_num) (by norm_num)
    have h6 := pnn 1 (r 0)
    have h7 := (hcfl (r 0) 0).1
    simp only [zero_add]
    linarith
  have hq : Spec.pathCost cexCost (cexPen k) (fun _ => 0) 2 ≤ 6 := by
    unfold Spec.pathCost
    simp only [sum_range_succ, sum_range_zero, p00, c01, c02]
    norm_num [cexCost]
  push_cast at h1
  linarith

end Ssq
