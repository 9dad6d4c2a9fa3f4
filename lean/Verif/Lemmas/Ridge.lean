import Verif.Spec.Ridge
import Mathlib.Tactic.Linarith
import Mathlib.Tactic.Ring
import Mathlib.Algebra.BigOperators.Group.Finset.Basic

/-!
# Lemmas about ridge tracking
-/
namespace Ssq
open Classical

/-! ### NaN-aware minima -/

theorem nfMin_some {n : ℕ} (hn : 0 < n) (g : ℕ → ℝ) :
    ∃ m, nfMin ((List.range n).map fun f : ℕ => some (g f)) = some m ∧ (∃ f < n, g f = m) ∧ ∀ f < n, m ≤ g f := by
  unfold nfMin
  rw [if_neg (by simp)]
  have e : (((List.range n).map fun f : ℕ => some (g f)).map fun x : NF => x.getD 0) = (List.range n).map g := by
    rw [List.map_map]; rfl
  rw [e]
  cases h : ((List.range n).map g).min? with
  | none => simp at h; omega
  | some m =>
    obtain ⟨h1, h2⟩ := List.min?_eq_some_iff.1 h
    refine ⟨m, rfl, ?_, fun f hf => h2 _ (List.mem_map.2 ⟨f, List.mem_range.2 hf, rfl⟩)⟩
    obtain ⟨f, hf, rfl⟩ := List.mem_map.1 h1
    exact ⟨f, List.mem_range.1 hf, rfl⟩

theorem nfMin_none {l : List NF} (h : none ∈ l) : nfMin l = none := by
  unfold nfMin; rw [if_pos h]

theorem nfArgmin_some {n : ℕ} (hn : 0 < n) (g : ℕ → ℝ) :
    nfArgmin ((List.range n).map fun f : ℕ => some (g f)) < n ∧
      ∀ f < n, g (nfArgmin ((List.range n).map fun f : ℕ => some (g f))) ≤ g f := by
  set l : List NF := (List.range n).map fun f : ℕ => some (g f) with hl
  have hnone : none ∉ l := by simp [hl]
  have hlen : l.length = n := by simp [hl]
  have hex : ∃ x ∈ l, decide (∀ y ∈ l, x.getD 0 ≤ y.getD 0) = true := by
    obtain ⟨m, -, ⟨f, hf, hfm⟩, hmin⟩ := nfMin_some hn g
    refine ⟨some (g f), by rw [hl]; exact List.mem_map.2 ⟨f, List.mem_range.2 hf, rfl⟩, ?_⟩
    simp only [decide_eq_true_eq]
    intro y hy
    rw [hl] at hy
    obtain ⟨k, hk, rfl⟩ := List.mem_map.1 hy
    simpa [hfm] using hmin k (List.mem_range.1 hk)
  unfold nfArgmin
  rw [if_neg hnone]
  have hlt : l.findIdx (fun x => decide (∀ y ∈ l, x.getD 0 ≤ y.getD 0)) < l.length := List.findIdx_lt_length.2 hex
  refine ⟨by rw [← hlen]; exact hlt, fun f hf => ?_⟩
  have h1 := List.findIdx_getElem (w := hlt)
  simp only [decide_eq_true_eq] at h1
  have h2 := h1 (some (g f)) (by rw [hl]; exact List.mem_map.2 ⟨f, List.mem_range.2 hf, rfl⟩)
  simp only [hl, List.getElem_map, List.getElem_range, Option.getD_some] at h2 ⊢
  exact h2

theorem nfArgmin_allNone {n : ℕ} (hn : 0 < n) (g : ℕ → NF) (hg : ∀ f < n, g f = none) :
    nfArgmin ((List.range n).map g) = 0 := by
  have h0 : none ∈ (List.range n).map g :=
    List.mem_map.2 ⟨0, List.mem_range.2 hn, hg 0 hn⟩
  unfold nfArgmin
  rw [if_pos h0, List.findIdx_eq (by simpa using hn)]
  simp [hg 0 hn]

/-! ### The forward pass -/

/-- The accumulated cost of each cell, by recursion over time. -/
noncomputable def bell (nF : ℕ) (P : ℕ → ℕ → ℝ) (e : RidgeMat) : ℕ → ℕ → NF
  | f, 0 => e f 0
  | f, t + 1 => nfAdd (e f (t + 1)) (nfMin ((List.range nF).map fun g : ℕ => nfAdd (bell nF P e g t) (some (P f g))))

theorem fwStep_fold (nF : ℕ) (P : ℕ → ℕ → ℝ) (t : ℕ) (l : List ℕ) (hl : l.Nodup) (pe : RidgeMat) (f t' : ℕ) :
    (l.foldl (ridgeFwStep nF P (t + 1)) pe) f t' =
      if f ∈ l ∧ t' = t + 1 then
        nfAdd (pe f (t + 1)) (nfMin ((List.range nF).map fun g : ℕ => nfAdd (pe g t) (some (P f g))))
      else pe f t' := by
  induction l generalizing pe with
  | nil => simp
  | cons a l ih =>
    obtain ⟨ha, hl⟩ := List.nodup_cons.1 hl
    rw [List.foldl_cons, ih hl]
    have hcol : ∀ g, ridgeFwStep nF P (t + 1) pe a g t = pe g t := by
      intro g; unfold ridgeFwStep; rw [if_neg (by omega)]
    simp only [hcol]
    by_cases ht : t' = t + 1
    · subst ht
      by_cases hfa : f = a
      · subst hfa
        simp only [ha, false_and, if_false, List.mem_cons, true_or, and_self, if_true]
        unfold ridgeFwStep
        simp
      · have : ridgeFwStep nF P (t + 1) pe a f (t + 1) = pe f (t + 1) := by
          unfold ridgeFwStep; rw [if_neg (by simp [hfa])]
        simp only [this, List.mem_cons, hfa, false_or, and_true]
    · have : ridgeFwStep nF P (t + 1) pe a f t' = pe f t' := by
        unfold ridgeFwStep; rw [if_neg (by simp [ht])]
      simp only [this, ht, and_false, if_false]

/-- The forward pass computes the accumulated costs, whatever the order of its parallel iterations. -/
theorem ridgeFw_eq (nF nT : ℕ) (P : ℕ → ℕ → ℝ) (sched : ℕ → List ℕ) (hs : ∀ t, (sched t).Perm (List.range nF))
    (e : RidgeMat) (f t : ℕ) (hf : f < nF) (ht : t < nT) :
    ridgeFw nF nT P sched e f t = bell nF P e f t := by
  have key : ∀ k, ∀ f < nF, ∀ t, ((List.range k).foldl (fun pe k => (sched (k + 1)).foldl (ridgeFwStep nF P (k + 1)) pe) e)
      f t = if t ≤ k then bell nF P e f t else e f t := by
    intro k
    induction k with
    | zero =>
      intro f hf t
      simp only [List.range_zero, List.foldl_nil, Nat.le_zero]
      split
      · next h => subst h; rfl
      · rfl
    | succ k ih =>
      intro f hf t
      rw [List.range_succ, List.foldl_append, List.foldl_cons, List.foldl_nil,
        fwStep_fold nF P k _ ((hs _).nodup_iff.2 List.nodup_range)]
      have hmem : f ∈ sched (k + 1) := (hs _).mem_iff.2 (List.mem_range.2 hf)
      by_cases htk : t = k + 1
      · subst htk
        rw [if_pos ⟨hmem, rfl⟩, if_pos le_rfl, ih f hf (k + 1), if_neg (by omega), bell]
        congr 2
        apply List.map_congr_left
        intro g hg
        rw [ih g (List.mem_range.1 hg) k, if_pos le_rfl]
      · rw [if_neg (by simp [htk]), ih f hf t]
        by_cases h : t ≤ k
        · rw [if_pos h, if_pos (by omega)]
        · rw [if_neg h, if_neg (by omega)]
  unfold ridgeFw
  rw [key (nT - 1) f hf t, if_pos (by omega)]

/-- The accumulated costs of a real cost matrix are real, and are the least costs of the paths. -/
theorem bell_real {nF : ℕ} (hn : 0 < nF) (P : ℕ → ℕ → ℝ) (e : RidgeMat) (c : ℕ → ℕ → ℝ) (T : ℕ)
    (he : ∀ f < nF, ∀ t ≤ T, e f t = some (c f t)) :
    ∃ V : ℕ → ℕ → ℝ, (∀ f < nF, ∀ t ≤ T, bell nF P e f t = some (V f t)) ∧
      (∀ f < nF, V f 0 = c f 0) ∧
      (∀ f < nF, ∀ t, t + 1 ≤ T → (∃ g < nF, V f (t + 1) = c f (t + 1) + (V g t + P f g)) ∧
        ∀ g < nF, V f (t + 1) ≤ c f (t + 1) + (V g t + P f g)) := by
  have hex : ∀ t ≤ T, ∀ f < nF, ∃ v, bell nF P e f t = some v := by
    intro t
    induction t with
    | zero => intro _ f hf; exact ⟨c f 0, by rw [bell, he f hf 0 (by omega)]⟩
    | succ t ih =>
      intro ht f hf
      choose! v hv using ih (by omega)
      have hcongr : ((List.range nF).map fun g : ℕ => nfAdd (bell nF P e g t) (some (P f g))) =
          (List.range nF).map fun g : ℕ => some (v g + P f g) := by
        apply List.map_congr_left
        intro g hg
        rw [hv g (List.mem_range.1 hg)]; rfl
      obtain ⟨m, hm, -⟩ := nfMin_some hn (fun g => v g + P f g)
      exact ⟨c f (t + 1) + m, by rw [bell, hcongr, hm, he f hf (t + 1) ht]; rfl⟩
  refine ⟨fun f t => (bell nF P e f t).getD 0, ?_, ?_, ?_⟩
  · intro f hf t ht
    obtain ⟨v, hv⟩ := hex t ht f hf
    simp [hv]
  · intro f hf
    simp [bell, he f hf 0 (by omega)]
  · intro f hf t ht
    choose! v hv using hex t (by omega)
    have hcongr : ((List.range nF).map fun g : ℕ => nfAdd (bell nF P e g t) (some (P f g))) =
        (List.range nF).map fun g : ℕ => some (v g + P f g) := by
      apply List.map_congr_left
      intro g hg
      rw [hv g (List.mem_range.1 hg)]; rfl
    obtain ⟨m, hm, ⟨g0, hg0, hgm⟩, hmin⟩ := nfMin_some hn (fun g => v g + P f g)
    have hV : (bell nF P e f (t + 1)).getD 0 = c f (t + 1) + m := by
      rw [bell, hcongr, hm, he f hf (t + 1) ht]; rfl
    refine ⟨⟨g0, hg0, ?_⟩, fun g hg => ?_⟩
    · simp only [hV, hv g0 hg0, Option.getD_some, ← hgm]
    · simp only [hV, hv g hg, Option.getD_some]
      have := hmin g hg
      linarith

theorem pathCost_succ (c P : ℕ → ℕ → ℝ) (q : ℕ → ℕ) (T : ℕ) :
    Spec.pathCost c P q (T + 1) = Spec.pathCost c P q T + (P (q (T + 1)) (q T) + c (q (T + 1)) (T + 1)) := by
  unfold Spec.pathCost
  rw [Finset.sum_range_succ (fun t => c (q t) t) (T + 1), Finset.sum_range_succ (fun t => P (q (t + 1)) (q t)) T]
  ring

theorem pathCost_zero (c P : ℕ → ℕ → ℝ) (q : ℕ → ℕ) : Spec.pathCost c P q 0 = c (q 0) 0 := by
  simp [Spec.pathCost]

/-- A cost-to-come satisfying the recursion is the least cost of the paths to each cell. -/
theorem bellman {nF : ℕ} {P c V : ℕ → ℕ → ℝ} {T : ℕ} (h0 : ∀ f < nF, V f 0 = c f 0)
    (hrec : ∀ f < nF, ∀ t, t + 1 ≤ T → (∃ g < nF, V f (t + 1) = c f (t + 1) + (V g t + P f g)) ∧
        ∀ g < nF, V f (t + 1) ≤ c f (t + 1) + (V g t + P f g)) :
    ∀ t ≤ T, ∀ f < nF, (∀ q, Spec.IsPath nF t q → q t = f → V f t ≤ Spec.pathCost c P q t) ∧
      ∃ q, Spec.IsPath nF t q ∧ q t = f ∧ Spec.pathCost c P q t = V f t := by
  intro t
  induction t with
  | zero =>
    intro _ f hf
    refine ⟨fun q hq hqf => ?_, fun _ => f, fun _ _ => hf, rfl, ?_⟩
    · rw [pathCost_zero, hqf, h0 f hf]
    · rw [pathCost_zero, h0 f hf]
  | succ t ih =>
    intro ht f hf
    obtain ⟨⟨g, hg, hge⟩, hle⟩ := hrec f hf t ht
    constructor
    · intro q hq hqf
      rw [pathCost_succ, hqf]
      have h1 := (ih (by omega) (q t) (hq t (by omega))).1 q (fun s hs => hq s (by omega)) rfl
      have h2 := hle (q t) (hq t (by omega))
      linarith
    · obtain ⟨q, hq, hqg, hqc⟩ := (ih (by omega) g hg).2
      refine ⟨fun s => if s ≤ t then q s else f, ?_, by simp, ?_⟩
      · intro s hs
        by_cases h : s ≤ t
        · simp only [if_pos h]; exact hq s h
        · simp only [if_neg h]; exact hf
      · rw [pathCost_succ]
        have : Spec.pathCost c P (fun s => if s ≤ t then q s else f) t = Spec.pathCost c P q t := by
          unfold Spec.pathCost
          congr 1
          · apply Finset.sum_congr rfl
            intro s hs
            have := Finset.mem_range.1 hs
            simp only [if_pos (show s ≤ t by omega)]
          · apply Finset.sum_congr rfl
            intro s hs
            have := Finset.mem_range.1 hs
            simp only [if_pos (show s ≤ t by omega), if_pos (show s + 1 ≤ t by omega)]
        rw [this, hqc, hge]
        simp only [le_refl, if_true, if_neg (show ¬ t + 1 ≤ t by omega), hqg]
        ring

/-! ### The backward pass -/

/-- The test of the backward pass. -/
noncomputable def ridgeMatch (P : ℕ → ℕ → ℝ) (eps : ℝ) (e pe : RidgeMat) (r1 t f : ℕ) : Bool :=
  nfClose eps (nfSub (pe r1 (t + 1)) (e r1 (t + 1))) (nfAdd (pe f t) (some (P r1 f)))

theorem bwTime_spec (P : ℕ → ℕ → ℝ) (eps : ℝ) (e pe : RidgeMat) (order : List ℕ) (t : ℕ) (r : ℕ → ℕ) :
    (∀ s ≠ t, ridgeBwTime P eps e pe order t r s = r s) ∧
      ridgeBwTime P eps e pe order t r t =
        ((order.filter fun f => ridgeMatch P eps e pe (r (t + 1)) t f).getLast?).getD (r t) := by
  unfold ridgeBwTime ridgeMatch
  generalize hv : nfSub (pe (r (t + 1)) (t + 1)) (e (r (t + 1)) (t + 1)) = val
  clear hv
  induction order generalizing r with
  | nil => simp
  | cons f l ih =>
    rw [List.foldl_cons]
    have hstep : ridgeBwStep P eps pe t val r f (t + 1) = r (t + 1) := by
      unfold ridgeBwStep; split
      · rw [Function.update_of_ne (by omega)]
      · rfl
    obtain ⟨i1, i2⟩ := ih (ridgeBwStep P eps pe t val r f)
    rw [hstep] at i2
    refine ⟨fun s hs => ?_, ?_⟩
    · rw [i1 s hs]
      unfold ridgeBwStep; split
      · rw [Function.update_of_ne hs]
      · rfl
    · rw [i2]
      by_cases hm : nfClose eps val (nfAdd (pe f t) (some (P (r (t + 1)) f))) = true
      · rw [List.filter_cons, if_pos hm, List.getLast?_cons, Option.getD_some]
        unfold ridgeBwStep
        rw [if_pos hm, Function.update_self]
      · rw [List.filter_cons, if_neg hm]
        unfold ridgeBwStep
        rw [if_neg hm]

/-- The backward pass: the last row is the initial one; every other row is the last match, in the order of the
iterations, against the row after it. -/
theorem ridgeBw_spec (nT : ℕ) (P : ℕ → ℕ → ℝ) (eps : ℝ) (e pe : RidgeMat) (sched : ℕ → List ℕ) (r0 : ℕ → ℕ) :
    (∀ t, nT ≤ t + 1 → ridgeBw nT P eps e pe sched r0 t = r0 t) ∧
    ∀ t, t + 1 < nT → ridgeBw nT P eps e pe sched r0 t =
      (((sched t).filter fun f => ridgeMatch P eps e pe (ridgeBw nT P eps e pe sched r0 (t + 1)) t f).getLast?).getD
        (r0 t) := by
  set B : ℕ → ℕ → ℕ := fun k =>
    (List.range k).foldl (fun r k => ridgeBwTime P eps e pe (sched (nT - 2 - k)) (nT - 2 - k) r) r0 with hB
  have hsucc : ∀ k, B (k + 1) = ridgeBwTime P eps e pe (sched (nT - 2 - k)) (nT - 2 - k) (B k) := by
    intro k
    simp only [hB, List.range_succ, List.foldl_append, List.foldl_cons, List.foldl_nil]
  have h0 : B 0 = r0 := rfl
  have hlow : ∀ k, k ≤ nT - 1 → ∀ t, (nT ≤ t + 1 ∨ t + k + 1 < nT) → B k t = r0 t := by
    intro k
    induction k with
    | zero => intro _ t _; rw [h0]
    | succ k ih =>
      intro hk t ht
      rw [hsucc, (bwTime_spec _ _ _ _ _ _ _).1 t (by omega), ih (by omega) t (by omega)]
  have hkeep : ∀ m k, k + m ≤ nT - 1 → ∀ t, nT ≤ t + k + 1 → B (k + m) t = B k t := by
    intro m
    induction m with
    | zero => intro k _ t _; rfl
    | succ m ih =>
      intro k hk t ht
      rw [show k + (m + 1) = (k + m) + 1 by omega, hsucc, (bwTime_spec _ _ _ _ _ _ _).1 t (by omega),
        ih k (by omega) t ht]
  have hfin : ridgeBw nT P eps e pe sched r0 = B (nT - 1) := rfl
  rw [hfin]
  refine ⟨fun t ht => hlow _ le_rfl t (Or.inl ht), fun t ht => ?_⟩
  have e1 : B (nT - 1) t = B (nT - 2 - t + 1) t := by
    have := hkeep (nT - 1 - (nT - 2 - t + 1)) (nT - 2 - t + 1) (by omega) t (by omega)
    rwa [show nT - 2 - t + 1 + (nT - 1 - (nT - 2 - t + 1)) = nT - 1 by omega] at this
  have e2 : B (nT - 1) (t + 1) = B (nT - 2 - t) (t + 1) := by
    have := hkeep (nT - 1 - (nT - 2 - t)) (nT - 2 - t) (by omega) (t + 1) (by omega)
    rwa [show nT - 2 - t + (nT - 1 - (nT - 2 - t)) = nT - 1 by omega] at this
  rw [e1, e2, hsucc, show nT - 2 - (nT - 2 - t) = t by omega, (bwTime_spec _ _ _ _ _ _ _).2,
    hlow (nT - 2 - t) (by omega) t (Or.inr (by omega))]

end Ssq
