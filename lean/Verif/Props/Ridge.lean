import Verif.Lemmas.RidgeTrack
import Mathlib.Analysis.SpecialFunctions.Log.Basic
import Mathlib.Tactic.NormNum
import Mathlib.Tactic.IntervalCases
import Mathlib.Tactic.FinCases

/-!
# Ridge extraction (C32–C35, C73–C75)
-/
namespace Ssq
open Classical

/-! ### Every index is a row -/

theorem nfArgmin_lt {n : ℕ} (hn : 0 < n) (g : ℕ → NF) : nfArgmin ((List.range n).map g) < n := by
  by_cases h : none ∈ (List.range n).map g
  · unfold nfArgmin
    rw [if_pos h]
    have : ((List.range n).map g).findIdx (fun x => x.isNone) < ((List.range n).map g).length :=
      List.findIdx_lt_length.2 ⟨none, h, rfl⟩
    simpa using this
  · have : (List.range n).map g = (List.range n).map fun f : ℕ => some ((g f).getD 0) := by
      apply List.map_congr_left
      intro f hf
      cases hg : g f with
      | none => exact absurd (List.mem_map.2 ⟨f, hf, hg⟩) h
      | some v => simp
    rw [this]
    exact (nfArgmin_some hn _).1

theorem track_lt (a : RidgeArgs) (s : RidgeSched) (i : ℕ) (E : ℕ → ℕ → ℝ) (hn : 0 < a.nF) (hs : Spec.ValidSched a s)
    (t : ℕ) : ridgeTrack a s i E t < a.nF := by
  have hinit : ∀ pe t, ridgeInit a.nF a.nT pe t < a.nF := fun pe t =>
    (Nat.mod_le _ _).trans_lt (nfArgmin_lt hn _)
  obtain ⟨h1, h2⟩ := ridgeBw_spec a.nT (ridgePenalty a) a.eps (ridgeCost a E)
    (ridgeFw a.nF a.nT (ridgePenalty a) (s.fw i) (ridgeCost a E)) (s.bw i)
    (ridgeInit a.nF a.nT (ridgeFw a.nF a.nT (ridgePenalty a) (s.fw i) (ridgeCost a E)))
  by_cases ht : a.nT ≤ t + 1
  · unfold ridgeTrack
    rw [h1 t ht]
    exact hinit _ _
  · have := h2 t (by omega)
    unfold ridgeTrack
    rw [this]
    generalize ridgeMatch (ridgePenalty a) a.eps (ridgeCost a E) _ _ t = p
    by_cases hex : ∃ x ∈ s.bw i t, p x = true
    · exact List.mem_range.1 ((hs i t).2.mem_iff.1 (getLast_filter hex).1)
    · have : (s.bw i t).filter (fun f => p f) = [] := by
        rw [List.filter_eq_nil_iff]
        intro x hx hp
        exact hex ⟨x, hx, hp⟩
      rw [this]
      exact hinit _ _

/-- **C32, validity.** Every returned index is a row, for every input and every order of the parallel iterations. -/
theorem C32_valid (a : RidgeArgs) (s : RidgeSched) (hs : Spec.ValidSched a s) (out : List Ridge)
    (h : extractRidges a s = .ok out) (k : ℕ) (hk : k < out.length) (t : ℕ) : (out[k]).idx t < a.nF := by
  obtain ⟨-, h2, h3⟩ := extract_spec h
  rw [(h3 k hk).1]
  exact track_lt a s k _ (by have := h2 (by omega); omega) hs t

/-! ### C32: minimum-penalty path -/

/-- The full statement of **C32**: each returned ridge has least cost among the row sequences with the same last row
(on inputs whose remaining energy vanishes in no column). -/
def C32_full : Prop := ∀ (a : RidgeArgs) (s : RidgeSched) (out : List Ridge), Spec.ValidSched a s → 0 < a.eps →
  0 < a.nT → extractRidges a s = .ok out → ∀ k, ∀ hk : k < out.length,
  (∀ t < a.nT, Spec.Alive a.nF (Spec.remaining a out k) t) →
  ∀ q, Spec.IsPath a.nF (a.nT - 1) q → q (a.nT - 1) = (out[k]).idx (a.nT - 1) →
    Spec.pathCost (Spec.cellCost a (Spec.remaining a out k)) (Spec.jump a) (out[k]).idx (a.nT - 1) ≤
      Spec.pathCost (Spec.cellCost a (Spec.remaining a out k)) (Spec.jump a) q (a.nT - 1)

/-- **C32 (partial).** For every input, number of ridges and order of the parallel iterations, each returned ridge costs
at most `(nT - 1)·eps` more than any row sequence with the same last row. Missing: the exact minimum, which the
tolerance of the backtracking misses. -/
theorem C32_optimal_partial (a : RidgeArgs) (s : RidgeSched) (out : List Ridge) (hs : Spec.ValidSched a s)
    (heps : 0 < a.eps) (hT : 0 < a.nT) (h : extractRidges a s = .ok out) (k : ℕ) (hk : k < out.length)
    (hal : ∀ t < a.nT, Spec.Alive a.nF (Spec.remaining a out k) t)
    (q : ℕ → ℕ) (hq : Spec.IsPath a.nF (a.nT - 1) q) (hqe : q (a.nT - 1) = (out[k]).idx (a.nT - 1)) :
    Spec.pathCost (Spec.cellCost a (Spec.remaining a out k)) (Spec.jump a) (out[k]).idx (a.nT - 1) ≤
      Spec.pathCost (Spec.cellCost a (Spec.remaining a out k)) (Spec.jump a) q (a.nT - 1) +
        (a.nT - 1 : ℕ) * a.eps := by
  obtain ⟨-, h2, h3⟩ := extract_spec h
  have hn : 0 < a.nF := by have := h2 (by omega); omega
  have hE := remaining_nonneg a out k
  rw [(h3 k hk).1] at hqe ⊢
  obtain ⟨V, h0, hrec, -, hv, hm⟩ := track_spec a s k _ hn hs hE heps (a.nT - 1) (by omega)
    (fun t ht => hal t (by omega)) (track_lt a s k _ hn hs _)
  have h4 := track_cost a _ V _ (a.nT - 1) hv h0 (fun t ht => (hm t ht).2) (a.nT - 1) le_rfl
  have h5 := (bellman h0 hrec (a.nT - 1) le_rfl _ (hv _ le_rfl)).1 q hq hqe
  linarith

/-! ### C33: the last row -/

/-- The full statement of **C33**: the last row of each ridge is the last row of a row sequence of least cost. -/
def C33_full : Prop := ∀ (a : RidgeArgs) (s : RidgeSched) (out : List Ridge), Spec.ValidSched a s → 0 < a.eps →
  0 < a.nT → extractRidges a s = .ok out → ∀ k, ∀ hk : k < out.length,
  (∀ t < a.nT, Spec.Alive a.nF (Spec.remaining a out k) t) →
  ∀ q, Spec.IsPath a.nF (a.nT - 1) q →
    ∃ p, Spec.IsPath a.nF (a.nT - 1) p ∧ p (a.nT - 1) = (out[k]).idx (a.nT - 1) ∧
      Spec.pathCost (Spec.cellCost a (Spec.remaining a out k)) (Spec.jump a) p (a.nT - 1) ≤
        Spec.pathCost (Spec.cellCost a (Spec.remaining a out k)) (Spec.jump a) q (a.nT - 1)

/-- **C33, exact form.** The last row is that of a row sequence of least cost, modulo the number of columns. -/
theorem C33_modulo (a : RidgeArgs) (s : RidgeSched) (out : List Ridge) (hs : Spec.ValidSched a s)
    (hT : 0 < a.nT) (h : extractRidges a s = .ok out) (k : ℕ) (hk : k < out.length)
    (hal : ∀ t < a.nT, Spec.Alive a.nF (Spec.remaining a out k) t) :
    ∃ m < a.nF, (out[k]).idx (a.nT - 1) = m % a.nT ∧
      ∀ q, Spec.IsPath a.nF (a.nT - 1) q → ∃ p, Spec.IsPath a.nF (a.nT - 1) p ∧ p (a.nT - 1) = m ∧
        Spec.pathCost (Spec.cellCost a (Spec.remaining a out k)) (Spec.jump a) p (a.nT - 1) ≤
          Spec.pathCost (Spec.cellCost a (Spec.remaining a out k)) (Spec.jump a) q (a.nT - 1) := by
  obtain ⟨-, h2, h3⟩ := extract_spec h
  rw [(h3 k hk).1]
  exact track_start a s k _ (by have := h2 (by omega); omega) hs (remaining_nonneg a out k) hT hal

/-- **C33 (partial).** The claim when there are at least as many columns as rows. Missing: more rows than columns,
where it is false. -/
theorem C33_last_partial (a : RidgeArgs) (s : RidgeSched) (out : List Ridge) (hs : Spec.ValidSched a s)
    (hT : 0 < a.nT) (hFT : a.nF ≤ a.nT) (h : extractRidges a s = .ok out) (k : ℕ) (hk : k < out.length)
    (hal : ∀ t < a.nT, Spec.Alive a.nF (Spec.remaining a out k) t) :
    ∀ q, Spec.IsPath a.nF (a.nT - 1) q →
      ∃ p, Spec.IsPath a.nF (a.nT - 1) p ∧ p (a.nT - 1) = (out[k]).idx (a.nT - 1) ∧
        Spec.pathCost (Spec.cellCost a (Spec.remaining a out k)) (Spec.jump a) p (a.nT - 1) ≤
          Spec.pathCost (Spec.cellCost a (Spec.remaining a out k)) (Spec.jump a) q (a.nT - 1) := by
  obtain ⟨m, hm, he, hp⟩ := C33_modulo a s out hs hT h k hk hal
  rw [he, Nat.mod_eq_of_lt (by omega)]
  exact hp

/-- **C32 and C33 together**: with at least as many columns as rows, each ridge costs at most `(nT - 1)·eps` more than
any row sequence whatsoever. -/
theorem C33_global_partial (a : RidgeArgs) (s : RidgeSched) (out : List Ridge) (hs : Spec.ValidSched a s)
    (heps : 0 < a.eps) (hT : 0 < a.nT) (hFT : a.nF ≤ a.nT) (h : extractRidges a s = .ok out) (k : ℕ)
    (hk : k < out.length) (hal : ∀ t < a.nT, Spec.Alive a.nF (Spec.remaining a out k) t)
    (q : ℕ → ℕ) (hq : Spec.IsPath a.nF (a.nT - 1) q) :
    Spec.pathCost (Spec.cellCost a (Spec.remaining a out k)) (Spec.jump a) (out[k]).idx (a.nT - 1) ≤
      Spec.pathCost (Spec.cellCost a (Spec.remaining a out k)) (Spec.jump a) q (a.nT - 1) +
        (a.nT - 1 : ℕ) * a.eps := by
  obtain ⟨p, hp, hpe, hpc⟩ := C33_last_partial a s out hs hT hFT h k hk hal q hq
  have := C32_optimal_partial a s out hs heps hT h k hk hal p hp hpe
  linarith

/-! ### C75: what is reported along a ridge -/

/-- **C75.** As many ridges as requested are returned; the scale reported at each time is that of the ridge's row, and the
energy is that of the transform there, or 0 where it was cleared around an earlier ridge. -/
theorem C75_reported (a : RidgeArgs) (s : RidgeSched) (out : List Ridge) (h : extractRidges a s = .ok out) :
    out.length = a.nRidges ∧ ∀ k, ∀ hk : k < out.length, ∀ t,
      (out[k]).f t = a.scales ((out[k]).idx t) ∧
      (out[k]).e t = if ∃ j, ∃ hj : j < k, Spec.Cleared a ((out[j]'(by omega)).idx t) ((out[k]).idx t) then 0
        else ‖a.Tf ((out[k]).idx t) t‖ ^ 2 := by
  obtain ⟨h1, -, h3⟩ := extract_spec h
  refine ⟨h1, fun k hk t => ⟨(h3 k hk).2.1 t, ?_⟩⟩
  rw [(h3 k hk).2.2 t]
  unfold Spec.remaining
  congr 1
  apply propext
  constructor
  · rintro ⟨j, hj, hjk, hc⟩; exact ⟨j, hjk, hc⟩
  · rintro ⟨j, hjk, hc⟩; exact ⟨j, by omega, hjk, hc⟩

/-! ### C34: later ridges take no energy near earlier ones -/

/-- The full statement of **C34**: wherever a later ridge has energy, it is at least `bw` rows away from every earlier
one. -/
def C34_full : Prop := ∀ (a : RidgeArgs) (s : RidgeSched) (out : List Ridge), Spec.ValidSched a s →
  extractRidges a s = .ok out → ∀ j k, ∀ hj : j < out.length, ∀ hk : k < out.length, j < k → ∀ t < a.nT,
  (out[k]).e t ≠ 0 → a.bw ≤ |(((out[k]).idx t : ℕ) : ℤ) - ((out[j]).idx t : ℕ)|

/-- **C34 (partial).** The claim where the earlier ridge is at row `bw` or above. Missing: rows below `bw`, where the
slice wraps around and it is false. -/
theorem C34_cleared_partial (a : RidgeArgs) (s : RidgeSched) (out : List Ridge) (hs : Spec.ValidSched a s)
    (h : extractRidges a s = .ok out) (j k : ℕ) (hj : j < out.length) (hk : k < out.length) (hjk : j < k) (t : ℕ)
    (hbw : a.bw ≤ ((out[j]).idx t : ℕ)) (he : (out[k]).e t ≠ 0) :
    a.bw ≤ |(((out[k]).idx t : ℕ) : ℤ) - ((out[j]).idx t : ℕ)| := by
  by_contra hnear
  apply he
  rw [((C75_reported a s out h).2 k hk t).2, if_pos]
  refine ⟨j, hjk, ?_⟩
  have hv := C32_valid a s hs out h k hk t
  obtain ⟨h1, h2⟩ := abs_lt.1 (not_le.1 hnear)
  unfold Spec.Cleared
  rw [if_neg (by omega), if_neg (by omega)]
  omega

/-- Tracking depends only on the energies inside the array. -/
theorem track_congr (a : RidgeArgs) (s : RidgeSched) (i : ℕ) (E E' : ℕ → ℕ → ℝ) (hs : Spec.ValidSched a s)
    (hn : 0 < a.nF) (hE : ∀ f, ∀ t < a.nT, E f t = E' f t) :
    ∀ t < a.nT, ridgeTrack a s i E t = ridgeTrack a s i E' t := by
  have hcost : ∀ f, ∀ t < a.nT, ridgeCost a E f t = ridgeCost a E' f t := by
    intro f t ht
    unfold ridgeCost colMax
    simp only [fun f => hE f t ht]
  have hbell : ∀ t, t < a.nT → ∀ f,
      bell a.nF (ridgePenalty a) (ridgeCost a E) f t = bell a.nF (ridgePenalty a) (ridgeCost a E') f t := by
    intro t
    induction t with
    | zero => intro ht f; rw [bell, bell]; exact hcost f 0 ht
    | succ t ih => intro ht f; rw [bell, bell, hcost f _ ht]; simp only [ih (by omega)]
  have hpe : ∀ f < a.nF, ∀ t < a.nT, ridgeFw a.nF a.nT (ridgePenalty a) (s.fw i) (ridgeCost a E) f t =
      ridgeFw a.nF a.nT (ridgePenalty a) (s.fw i) (ridgeCost a E') f t := by
    intro f hf t ht
    rw [ridgeFw_eq _ _ _ _ (fun t => (hs i t).1) _ _ _ hf ht, ridgeFw_eq _ _ _ _ (fun t => (hs i t).1) _ _ _ hf ht,
      hbell t ht]
  have hinit : ∀ t < a.nT, ridgeInit a.nF a.nT (ridgeFw a.nF a.nT (ridgePenalty a) (s.fw i) (ridgeCost a E)) t =
      ridgeInit a.nF a.nT (ridgeFw a.nF a.nT (ridgePenalty a) (s.fw i) (ridgeCost a E')) t := by
    intro t ht
    unfold ridgeInit
    congr 2
    exact List.map_congr_left fun f hf => hpe f (List.mem_range.1 hf) t ht
  obtain ⟨g1, g2⟩ := ridgeBw_spec a.nT (ridgePenalty a) a.eps (ridgeCost a E)
    (ridgeFw a.nF a.nT (ridgePenalty a) (s.fw i) (ridgeCost a E)) (s.bw i)
    (ridgeInit a.nF a.nT (ridgeFw a.nF a.nT (ridgePenalty a) (s.fw i) (ridgeCost a E)))
  obtain ⟨g1', g2'⟩ := ridgeBw_spec a.nT (ridgePenalty a) a.eps (ridgeCost a E')
    (ridgeFw a.nF a.nT (ridgePenalty a) (s.fw i) (ridgeCost a E')) (s.bw i)
    (ridgeInit a.nF a.nT (ridgeFw a.nF a.nT (ridgePenalty a) (s.fw i) (ridgeCost a E')))
  have hlt := track_lt a s i E hn hs
  have key : ∀ k, ∀ t, t + k + 1 = a.nT → ridgeTrack a s i E t = ridgeTrack a s i E' t := by
    intro k
    induction k with
    | zero =>
      intro t ht
      exact (g1 t (by omega)).trans ((hinit t (by omega)).trans (g1' t (by omega)).symm)
    | succ k ih =>
      intro t ht
      refine (g2 t (by omega)).trans (Eq.trans ?_ (g2' t (by omega)).symm)
      have h1 := ih (t + 1) (by omega)
      unfold ridgeTrack at h1 hlt
      rw [← h1, hinit t (by omega)]
      congr 2
      apply List.filter_congr
      intro f hf
      have hf' := List.mem_range.1 ((hs i t).2.mem_iff.1 hf)
      unfold ridgeMatch
      rw [hpe _ (hlt (t + 1)) (t + 1) (by omega), hpe f hf' t (by omega), hcost _ (t + 1) (by omega)]
  intro t ht
  exact key (a.nT - 1 - t) t (by omega)

/-- **C34, the failing case.** With at least `2·bw` rows, a ridge that stays in the first `bw` rows clears nothing: tracked
under the same order of iterations, the next ridge is the same ridge again, energies included. -/
theorem C34_repeated (a : RidgeArgs) (s : RidgeSched) (out : List Ridge) (hs : Spec.ValidSched a s)
    (h : extractRidges a s = .ok out) (k : ℕ) (hk : k + 1 < out.length)
    (hsame : s.fw (k + 1) = s.fw k ∧ s.bw (k + 1) = s.bw k)
    (hlow : ∀ t < a.nT, ((out[k]).idx t : ℤ) < a.bw) (hF : 2 * a.bw ≤ a.nF) (t : ℕ) (ht : t < a.nT) :
    (out[k + 1]).idx t = (out[k]).idx t ∧ (out[k + 1]).f t = (out[k]).f t ∧ (out[k + 1]).e t = (out[k]).e t := by
  obtain ⟨-, h2, h3⟩ := extract_spec h
  have hn : 0 < a.nF := by have := h2 (by omega); omega
  have hrem : ∀ f, ∀ t < a.nT, Spec.remaining a out (k + 1) f t = Spec.remaining a out k f t := by
    intro f t ht
    unfold Spec.remaining
    congr 1
    apply propext
    constructor
    · rintro ⟨j, hj, hjk, hc⟩
      by_cases he : j = k
      · subst he
        exfalso
        unfold Spec.Cleared at hc
        have := hlow t ht
        rw [if_pos (by omega), if_neg (by omega)] at hc
        omega
      · exact ⟨j, hj, by omega, hc⟩
    · rintro ⟨j, hj, hjk, hc⟩; exact ⟨j, hj, by omega, hc⟩
  have e1 : (out[k + 1]).idx t = (out[k]).idx t := by
    rw [(h3 (k + 1) hk).1, (h3 k (by omega)).1, track_congr a s (k + 1) _ _ hs hn hrem t ht]
    unfold ridgeTrack
    rw [hsame.1, hsame.2]
  refine ⟨e1, ?_, ?_⟩
  · rw [(h3 (k + 1) hk).2.1, (h3 k (by omega)).2.1, e1]
  · rw [(h3 (k + 1) hk).2.2, (h3 k (by omega)).2.2, e1, hrem _ t ht]

/-! ### C35: the order of the parallel iterations -/

/-- The full statement of **C35**: the parallel variant returns what the serial one does, for every order of its
iterations. -/
def C35_full : Prop := ∀ (a : RidgeArgs) (s : RidgeSched) (out out' : List Ridge), Spec.ValidSched a s → 0 < a.eps →
  extractRidges a s = .ok out → extractRidges a (serialSched a.nF) = .ok out' →
  ∀ k, ∀ hk : k < out.length, ∀ hk' : k < out'.length, ∀ t < a.nT, (out[k]).idx t = (out'[k]).idx t

/-- The forward pass does not depend on the order of the iterations. -/
theorem fw_order (nF nT : ℕ) (P : ℕ → ℕ → ℝ) (s s' : ℕ → List ℕ) (hs : ∀ t, (s t).Perm (List.range nF))
    (hs' : ∀ t, (s' t).Perm (List.range nF)) (e : RidgeMat) : ridgeFw nF nT P s e = ridgeFw nF nT P s' e := by
  have hfold : ∀ (t : ℕ) (pe : RidgeMat), (s (t + 1)).foldl (ridgeFwStep nF P (t + 1)) pe =
      (s' (t + 1)).foldl (ridgeFwStep nF P (t + 1)) pe := by
    intro t pe
    funext f t'
    rw [fwStep_fold nF P t _ ((hs _).nodup_iff.2 List.nodup_range),
      fwStep_fold nF P t _ ((hs' _).nodup_iff.2 List.nodup_range)]
    simp only [(hs (t + 1)).mem_iff, (hs' (t + 1)).mem_iff]
  unfold ridgeFw
  simp only [hfold]

theorem best_eq (a : RidgeArgs) (E V : ℕ → ℕ → ℝ) (T : ℕ)
    (h0 : ∀ f < a.nF, V f 0 = Spec.cellCost a E f 0)
    (hrec : ∀ f < a.nF, ∀ t, t + 1 ≤ T →
        (∃ g < a.nF, V f (t + 1) = Spec.cellCost a E f (t + 1) + (V g t + Spec.jump a f g)) ∧
        ∀ g < a.nF, V f (t + 1) ≤ Spec.cellCost a E f (t + 1) + (V g t + Spec.jump a f g))
    (t : ℕ) (ht : t ≤ T) (f : ℕ) (hf : f < a.nF) : Spec.best a E t f = V f t := by
  obtain ⟨h1, q, hq, hqf, hqc⟩ := bellman h0 hrec t ht f hf
  have hl : IsLeast {x | ∃ q, Spec.IsPath a.nF t q ∧ q t = f ∧
      x = Spec.pathCost (Spec.cellCost a E) (Spec.jump a) q t} (V f t) := by
    refine ⟨⟨q, hq, hqf, hqc.symm⟩, ?_⟩
    rintro x ⟨q, hq, hqf, rfl⟩
    exact h1 q hq hqf
  exact hl.csInf_eq

theorem filter_perm_unique {l l' : List ℕ} (h : l.Perm l') (p : ℕ → Bool) (d : ℕ)
    (hu : ∀ x ∈ l, ∀ y ∈ l, p x = true → p y = true → x = y) :
    ((l.filter p).getLast?).getD d = ((l'.filter p).getLast?).getD d := by
  have hp := h.filter p
  by_cases hne : l.filter p = []
  · rw [hne] at hp ⊢
    rw [hp.nil_eq]
  · have hne' : l'.filter p ≠ [] := fun e => by rw [e] at hp; exact hne hp.eq_nil
    rw [List.getLast?_eq_some_getLast hne, List.getLast?_eq_some_getLast hne']
    simp only [Option.getD_some]
    have h1 := List.mem_filter.1 (List.getLast_mem hne)
    have h2 := List.mem_filter.1 (hp.mem_iff.2 (List.getLast_mem hne'))
    exact hu _ h1.1 _ h2.1 h1.2 h2.2

/-- Without near ties, tracking does not depend on the order of the iterations. -/
theorem track_order (a : RidgeArgs) (s s' : RidgeSched) (i : ℕ) (E : ℕ → ℕ → ℝ) (hn : 0 < a.nF)
    (hs : Spec.ValidSched a s) (hs' : Spec.ValidSched a s') (hE : ∀ f t, 0 ≤ E f t) (heps : 0 < a.eps)
    (hal : ∀ t < a.nT, Spec.Alive a.nF E t) (hno : Spec.NoNearTies a E) :
    ridgeTrack a s i E = ridgeTrack a s' i E := by
  have hfw := fw_order a.nF a.nT (ridgePenalty a) (s.fw i) (s'.fw i) (fun t => (hs i t).1) (fun t => (hs' i t).1)
    (ridgeCost a E)
  have hlast : ∀ t, a.nT ≤ t + 1 → ridgeTrack a s i E t = ridgeTrack a s' i E t := by
    intro t ht
    rw [track_last _ _ _ _ _ ht, track_last _ _ _ _ _ ht, hfw]
  by_cases hT : a.nT ≤ 1
  · funext t; exact hlast t (by omega)
  obtain ⟨V, h0, hrec, hpe, hv, hm⟩ := track_spec a s i E hn hs hE heps (a.nT - 1) (by omega)
    (fun t ht => hal t (by omega)) (track_lt a s i _ hn hs _)
  obtain ⟨V', h0', hrec', hpe', hv', hm'⟩ := track_spec a s' i E hn hs' hE heps (a.nT - 1) (by omega)
    (fun t ht => hal t (by omega)) (track_lt a s' i _ hn hs' _)
  have hVV : ∀ f < a.nF, ∀ t ≤ a.nT - 1, V' f t = V f t := by
    intro f hf t ht
    rw [← best_eq a E V _ h0 hrec t ht f hf, ← best_eq a E V' _ h0' hrec' t ht f hf]
  have key : ∀ k ≤ a.nT - 1, ridgeTrack a s i E (a.nT - 1 - k) = ridgeTrack a s' i E (a.nT - 1 - k) := by
    intro k
    induction k with
    | zero => intro _; exact hlast _ (by omega)
    | succ k ih =>
      intro hk
      have ih := ih (by omega)
      rw [show a.nT - 1 - k = a.nT - 1 - (k + 1) + 1 by omega] at ih
      generalize hg : a.nT - 1 - (k + 1) = t at ih
      rw [(hm t (by omega)).1, (hm' t (by omega)).1, ← ih]
      have hr1 := hv (t + 1) (by omega)
      have hfil : ((s'.bw i t).filter fun f => decide (|V' (ridgeTrack a s i E (t + 1)) (t + 1) -
          Spec.cellCost a E (ridgeTrack a s i E (t + 1)) (t + 1) -
          (V' f t + Spec.jump a (ridgeTrack a s i E (t + 1)) f)| < a.eps)) =
          (s'.bw i t).filter fun f => decide (|V (ridgeTrack a s i E (t + 1)) (t + 1) -
          Spec.cellCost a E (ridgeTrack a s i E (t + 1)) (t + 1) -
          (V f t + Spec.jump a (ridgeTrack a s i E (t + 1)) f)| < a.eps) := by
        apply List.filter_congr
        intro f hf
        have hf' := List.mem_range.1 ((hs' i t).2.mem_iff.1 hf)
        rw [hVV _ hr1 _ (by omega), hVV f hf' t (by omega)]
      rw [hfil]
      apply filter_perm_unique ((hs i t).2.trans (hs' i t).2.symm)
      have hnear : ∀ x < a.nF, |V (ridgeTrack a s i E (t + 1)) (t + 1) -
          Spec.cellCost a E (ridgeTrack a s i E (t + 1)) (t + 1) -
          (V x t + Spec.jump a (ridgeTrack a s i E (t + 1)) x)| < a.eps →
          Spec.NearBest a E t (ridgeTrack a s i E (t + 1)) x := by
        intro x hx h
        unfold Spec.NearBest
        rw [best_eq a E V _ h0 hrec t (by omega) x hx, best_eq a E V _ h0 hrec (t + 1) (by omega) _ hr1]
        have := (abs_lt.1 h).1
        linarith
      intro x hx y hy hpx hpy
      have hx' := List.mem_range.1 ((hs i t).2.mem_iff.1 hx)
      have hy' := List.mem_range.1 ((hs i t).2.mem_iff.1 hy)
      exact hno t (by omega) _ hr1 x hx' y hy' (hnear x hx' (by simpa using hpx)) (hnear y hy' (by simpa using hpy))
  funext t
  by_cases ht : t ≤ a.nT - 1
  · have := key (a.nT - 1 - t) (by omega)
    rwa [show a.nT - 1 - (a.nT - 1 - t) = t by omega] at this
  · exact hlast t (by omega)

theorem serial_valid (a : RidgeArgs) : Spec.ValidSched a (serialSched a.nF) :=
  fun _ _ => ⟨List.Perm.refl _, List.Perm.refl _⟩

/-- **C35 (partial).** If no cell of the serial result's remaining energies has two near-best predecessors, the parallel
variant returns exactly the serial result, for every order of its iterations. Missing: near ties, where it is false
(but `C32_optimal_partial` still bounds the cost for every order). -/
theorem C35_order_partial (a : RidgeArgs) (s : RidgeSched) (out out' : List Ridge) (hs : Spec.ValidSched a s)
    (heps : 0 < a.eps) (h : extractRidges a s = .ok out) (h' : extractRidges a (serialSched a.nF) = .ok out')
    (hal : ∀ k < a.nRidges, ∀ t < a.nT, Spec.Alive a.nF (Spec.remaining a out' k) t)
    (hno : ∀ k < a.nRidges, Spec.NoNearTies a (Spec.remaining a out' k)) : out = out' := by
  obtain ⟨h1, h2, h3⟩ := extract_spec h
  obtain ⟨h1', h2', h3'⟩ := extract_spec h'
  apply List.ext_getElem (by omega)
  intro k
  induction k using Nat.strong_induction_on with
  | _ k ih =>
    intro hk hk'
    have hn : 0 < a.nF := by have := h2 (by omega); omega
    have hrem : Spec.remaining a out k = Spec.remaining a out' k := by
      funext f t
      unfold Spec.remaining
      congr 1
      apply propext
      constructor
      · rintro ⟨j, hj, hjk, hc⟩
        exact ⟨j, by omega, hjk, by rw [← ih j hjk hj (by omega)]; exact hc⟩
      · rintro ⟨j, hj, hjk, hc⟩
        exact ⟨j, by omega, hjk, by rw [ih j hjk (by omega) hj]; exact hc⟩
    have e1 : (out[k]).idx = (out'[k]).idx := by
      rw [(h3 k hk).1, (h3' k hk').1, hrem]
      exact track_order a s _ k _ hn hs (serial_valid a) (remaining_nonneg _ _ _) heps (hal k (by omega))
        (hno k (by omega))
    have e2 : (out[k]).f = (out'[k]).f := by
      funext t; rw [(h3 k hk).2.1, (h3' k hk').2.1, e1]
    have e3 : (out[k]).e = (out'[k]).e := by
      funext t; rw [(h3 k hk).2.2, (h3' k hk').2.2, e1, hrem]
    generalize out[k] = u at e1 e2 e3
    generalize out'[k] = v at e1 e2 e3
    cases u; cases v
    simp_all

/-! ### C74: rescaling the columns -/

/-- The energies of two transforms that differ by a positive factor per column give the same ridges. -/
theorem loop_rescale (a : RidgeArgs) (hn : 0 < a.nF) (s : RidgeSched) (T' : ℕ → ℕ → ℂ) (c : ℕ → ℝ) (hc : ∀ t, 0 < c t) (n : ℕ) :
    ∀ (i : ℕ) (E E' : ℕ → ℕ → ℝ), (∀ f t, E' f t = c t * E f t) →
      ((ridgeLoop { a with Tf := T' } s i n E').map fun r => (r.idx, r.f)) =
        (ridgeLoop a s i n E).map fun r => (r.idx, r.f) := by
  induction n with
  | zero => intro i E E' _; rfl
  | succ n ih =>
    intro i E E' hE
    have hcost : ridgeCost { a with Tf := T' } E' = ridgeCost a E := by
      funext f t
      unfold ridgeCost
      have hpk : colMax a.nF E' t = c t * colMax a.nF E t := by
        rw [colMax_eq_peak hn, colMax_eq_peak hn]
        obtain ⟨⟨f, hf, hfe⟩, hmax⟩ := peak_spec hn E t
        obtain ⟨⟨g, hg, hge⟩, hmax'⟩ := peak_spec hn E' t
        apply le_antisymm
        · rw [← hge, hE]
          exact mul_le_mul_of_nonneg_left (hmax g hg) (hc t).le
        · rw [← hfe, ← hE]
          exact hmax' f hf
      simp only [hpk]
      have hct := (hc t).ne'
      by_cases h0 : colMax a.nF E t = 0
      · simp [h0]
      · rw [if_neg (mul_ne_zero hct h0), if_neg h0, hE, mul_div_mul_left _ _ hct]
    have hpen : ridgePenalty { a with Tf := T' } = ridgePenalty a := rfl
    have htr : ridgeTrack { a with Tf := T' } s i E' = ridgeTrack a s i E := by
      unfold ridgeTrack
      rw [hcost, hpen]
    simp only [ridgeLoop, List.map_cons, htr]
    congr 1
    apply ih
    intro f t
    rw [ridgeZero_eq, ridgeZero_eq, hE]
    have : Spec.Cleared { a with Tf := T' } (ridgeTrack a s i E t) f ↔ Spec.Cleared a (ridgeTrack a s i E t) f := Iff.rfl
    simp only [this]
    split <;> simp

/-- **C74.** Multiplying every column of the transform by its own nonzero complex factor changes neither the rows nor the
scales returned, nor whether the call succeeds. -/
theorem C74_rescale (a : RidgeArgs) (s : RidgeSched) (z : ℕ → ℂ) (hz : ∀ t, z t ≠ 0) :
    (extractRidges { a with Tf := fun f t => z t * a.Tf f t } s).map (fun out => out.map fun r => (r.idx, r.f)) =
      (extractRidges a s).map fun out => out.map fun r => (r.idx, r.f) := by
  unfold extractRidges
  simp only
  split
  · rfl
  · split
    · rfl
    · split
      · rfl
      · simp only [Except.map]
        rw [loop_rescale a (by omega) s _ (fun t => ‖z t‖ ^ 2) (fun t => pow_pos (norm_pos_iff.2 (hz t)) 2)]
        intro f t
        rw [norm_mul, mul_pow]

/-! ### C73: columns without energy -/

theorem bell_none {nF : ℕ} (hn : 0 < nF) (P : ℕ → ℕ → ℝ) (e : RidgeMat) (t0 : ℕ) (he : ∀ f, e f t0 = none) :
    ∀ k f, bell nF P e f (t0 + k) = none := by
  intro k
  induction k with
  | zero =>
    intro f
    cases t0 with
    | zero => exact he f
    | succ t0 => rw [Nat.add_zero, bell, he]; rfl
  | succ k ih =>
    intro f
    rw [← Nat.add_assoc, bell, nfMin_none]
    · cases e f (t0 + k + 1) <;> rfl
    · refine List.mem_map.2 ⟨0, List.mem_range.2 hn, ?_⟩
      rw [ih]; rfl

/-- **C73, exact failure.** From the first column without energy on, the returned ridge is row 0. -/
theorem C73_silent (a : RidgeArgs) (s : RidgeSched) (out : List Ridge) (hs : Spec.ValidSched a s)
    (h : extractRidges a s = .ok out) (k : ℕ) (hk : k < out.length) (t0 t : ℕ)
    (hdead : ¬ Spec.Alive a.nF (Spec.remaining a out k) t0) (h0 : t0 ≤ t) (ht : t < a.nT) :
    (out[k]).idx t = 0 := by
  obtain ⟨-, h2, h3⟩ := extract_spec h
  have hn : 0 < a.nF := by have := h2 (by omega); omega
  rw [(h3 k hk).1]
  have hE := remaining_nonneg a out k
  generalize Spec.remaining a out k = E at hE hdead
  set e := ridgeCost a E with he
  set pe := ridgeFw a.nF a.nT (ridgePenalty a) (s.fw k) e with hpe
  have hpen : ∀ f < a.nF, ∀ t, t0 ≤ t → t < a.nT → pe f t = none := by
    intro f hf t h0 ht
    rw [hpe, ridgeFw_eq _ _ _ _ (fun t => (hs k t).1) _ _ _ hf ht]
    have := bell_none hn (ridgePenalty a) e t0 (fun f => ridgeCost_dead hn hE hdead f) (t - t0) f
    rwa [show t0 + (t - t0) = t by omega] at this
  have hinit : ∀ t, t0 ≤ t → t < a.nT → ridgeInit a.nF a.nT pe t = 0 := by
    intro t h0 ht
    unfold ridgeInit
    rw [nfArgmin_allNone hn _ (fun f hf => hpen f hf t h0 ht), Nat.zero_mod]
  obtain ⟨g1, g2⟩ := ridgeBw_spec a.nT (ridgePenalty a) a.eps e pe (s.bw k) (ridgeInit a.nF a.nT pe)
  have hr : ridgeTrack a s k E = ridgeBw a.nT (ridgePenalty a) a.eps e pe (s.bw k) (ridgeInit a.nF a.nT pe) := rfl
  by_cases hl : a.nT ≤ t + 1
  · rw [hr, g1 t hl, hinit t h0 ht]
  · rw [hr, g2 t (by omega), hinit t h0 ht]
    have hfil : ((s.bw k t).filter fun f => ridgeMatch (ridgePenalty a) a.eps e pe
        (ridgeBw a.nT (ridgePenalty a) a.eps e pe (s.bw k) (ridgeInit a.nF a.nT pe) (t + 1)) t f) = [] := by
      rw [List.filter_eq_nil_iff]
      intro f hf
      have hf' := List.mem_range.1 ((hs k t).2.mem_iff.1 hf)
      unfold ridgeMatch nfClose
      rw [hpen f hf' t h0 ht]
      have : ∀ x y : NF, nfSub x (nfAdd none y) = none := by
        intro x y; cases x <;> rfl
      rw [this]
      simp
    rw [hfil]
    rfl

/-- Row `f0` has at least twice the energy of every other row of column `t`. -/
def Spec.Dominant (nF : ℕ) (E : ℕ → ℕ → ℝ) (t f0 : ℕ) : Prop :=
  f0 < nF ∧ 0 < E f0 t ∧ ∀ f < nF, f ≠ f0 → 2 * E f t ≤ E f0 t

/-- The full statement of **C73**: with no jump penalty, each ridge is at the dominant row of the remaining energy
wherever there is one. -/
def C73_full : Prop := ∀ (a : RidgeArgs) (s : RidgeSched) (out : List Ridge), Spec.ValidSched a s → 0 < a.eps →
  a.eps < 1 / 4 → a.penalty = 0 → extractRidges a s = .ok out → ∀ k, ∀ hk : k < out.length, ∀ t < a.nT, ∀ f0,
  Spec.Dominant a.nF (Spec.remaining a out k) t f0 → (out[k]).idx t = f0

theorem remaining_zero (a : RidgeArgs) (out : List Ridge) : Spec.remaining a out 0 = fun f t => ‖a.Tf f t‖ ^ 2 := by
  funext f t
  unfold Spec.remaining
  rw [if_neg]
  rintro ⟨k, _, h, _⟩
  omega

/-- Cost of the other rows when one row dominates. -/
theorem dominant_cost (a : RidgeArgs) (E : ℕ → ℕ → ℝ) (hE : ∀ f t, 0 ≤ E f t) (t f0 : ℕ)
    (h : Spec.Dominant a.nF E t f0) (heps : 0 < a.eps) (he4 : a.eps < 1 / 4) (f : ℕ) (hf : f < a.nF) (hne : f ≠ f0) :
    Spec.cellCost a E f0 t + a.eps < Spec.cellCost a E f t := by
  obtain ⟨hf0, hpos, hz⟩ := h
  have hn : 0 < a.nF := by omega
  obtain ⟨⟨g, hg, hge⟩, hmax⟩ := peak_spec hn E t
  have hpk : Spec.peak a.nF E t = E f0 t := by
    by_cases hgf : g = f0
    · rw [← hge, hgf]
    · have h1 := hmax f0 hf0
      have h2 := hz g hg hgf
      have h3 := hE g t
      rw [← hge] at h1 ⊢
      linarith
  have hq : E f t / E f0 t ≤ 1 / 2 := by
    rw [div_le_iff₀ hpos]
    linarith [hz f hf hne]
  have hq0 : 0 ≤ E f t / E f0 t := div_nonneg (hE f t) hpos.le
  unfold Spec.cellCost
  rw [hpk, div_self hpos.ne']
  have h1 : Real.log (E f t / E f0 t + a.eps) ≤ Real.log (1 / 2 + a.eps) :=
    Real.log_le_log (by linarith) (by linarith)
  have h2 := Real.log_le_sub_one_of_pos (x := (1 / 2 + a.eps) / (1 + a.eps)) (by positivity)
  rw [Real.log_div (by positivity) (by positivity)] at h2
  have h3 : (1 / 2 + a.eps) / (1 + a.eps) ≤ 3 / 5 := by
    rw [div_le_iff₀ (by linarith)]
    linarith
  linarith

/-- **C73 (partial).** The claim when no column is without energy and there are at least as many columns as rows, for
every order of the parallel iterations. Missing: silent columns (see `C73_silent`) and short inputs, where it is
false. -/
theorem C73_dominant_partial (a : RidgeArgs) (s : RidgeSched) (out : List Ridge) (hs : Spec.ValidSched a s)
    (heps : 0 < a.eps) (he4 : a.eps < 1 / 4) (hp : a.penalty = 0) (h : extractRidges a s = .ok out)
    (k : ℕ) (hk : k < out.length) (hFT : a.nF ≤ a.nT)
    (hal : ∀ t < a.nT, Spec.Alive a.nF (Spec.remaining a out k) t) (t : ℕ) (ht : t < a.nT)
    (f0 : ℕ) (hdom : Spec.Dominant a.nF (Spec.remaining a out k) t f0) : (out[k]).idx t = f0 := by
  obtain ⟨-, h2, h3⟩ := extract_spec h
  have hn : 0 < a.nF := by have := h2 (by omega); omega
  have hE := remaining_nonneg a out k
  have hj : ∀ f g, Spec.jump a f g = 0 := by
    intro f g; unfold Spec.jump; rw [hp]; split <;> ring
  have hidx := (h3 k hk).1
  have hcost := dominant_cost a _ hE t f0 hdom heps he4
  have hsole := hdom.1
  generalize Spec.remaining a out k = E at hE hal hidx hcost
  have hlt := track_lt a s k E hn hs
  obtain ⟨V, h0, hrec, hpe, hv, hm⟩ := track_spec a s k E hn hs hE heps (a.nT - 1) (by omega)
    (fun t ht => hal t (by omega)) (hlt _)
  rw [hidx]
  -- the costs-to-come at time `t` differ as the costs do
  have hVt : ∃ K, ∀ f < a.nF, V f t = Spec.cellCost a E f t + K := by
    cases t with
    | zero => exact ⟨0, fun f hf => by rw [h0 f hf, add_zero]⟩
    | succ t =>
      obtain ⟨⟨g0, hg0, hge⟩, hle⟩ := hrec 0 hn t (by omega)
      refine ⟨V g0 t, fun f hf => ?_⟩
      obtain ⟨⟨g1, hg1, hge1⟩, hle1⟩ := hrec f hf t (by omega)
      have e1 := hle g1 hg1
      have e2 := hle1 g0 hg0
      simp only [hj, add_zero] at *
      linarith
  obtain ⟨K, hK⟩ := hVt
  by_contra hne
  have hlt' := hlt t
  have hc := hcost _ hlt' hne
  have hV1 := hK _ hlt'
  have hV0 := hK f0 hsole
  by_cases hlast : t = a.nT - 1
  · -- the last row is the first of least cost
    have hl := track_last a s k E t (by omega)
    have hcongr : ((List.range a.nF).map fun f : ℕ =>
        ridgeFw a.nF a.nT (ridgePenalty a) (s.fw k) (ridgeCost a E) f t) =
        (List.range a.nF).map fun f : ℕ => some (V f t) := by
      apply List.map_congr_left
      intro f hf
      exact hpe f (List.mem_range.1 hf) t (by omega)
    rw [hcongr] at hl
    obtain ⟨g1, g2⟩ := nfArgmin_some hn (fun f => V f t)
    rw [Nat.mod_eq_of_lt (by omega)] at hl
    have := g2 f0 hsole
    rw [← hl] at this
    linarith
  · have hmt := (hm t (by omega)).2
    obtain ⟨⟨g, hg, hge⟩, hle⟩ := hrec _ (hlt (t + 1)) t (by omega)
    have e1 := hle f0 hsole
    rw [abs_lt] at hmt
    simp only [hj, add_zero] at *
    linarith [hmt.1]

/-! ### Concrete inputs -/

/-- Two rows, any number of columns, scales 1 and 2, machine epsilon `2^-52`. -/
noncomputable def exRidge (nT : ℕ) (Tf : ℕ → ℕ → ℂ) : RidgeArgs where
  nF := 2
  nT := nT
  Tf := Tf
  scales f := f + 1
  penalty := 0
  bw := 1
  eps := 1 / 2 ^ 52

theorem exRidge_ok (nT : ℕ) (Tf : ℕ → ℕ → ℂ) (s : RidgeSched) :
    ∃ r, extractRidges (exRidge nT Tf) s = .ok [r] := by
  unfold extractRidges
  simp only [exRidge, one_ne_zero, if_false, OfNat.ofNat_ne_zero, OfNat.ofNat_ne_one, ridgeLoop]
  exact ⟨_, rfl⟩

theorem exRidge_eps (nT : ℕ) (Tf : ℕ → ℕ → ℂ) : 0 < (exRidge nT Tf).eps ∧ (exRidge nT Tf).eps < 1 / 4 := by
  simp only [exRidge]; norm_num

theorem exRidge_alive (nT : ℕ) (Tf : ℕ → ℕ → ℂ) (out : List Ridge) (t : ℕ) (h : Tf 0 t ≠ 0 ∨ Tf 1 t ≠ 0) :
    Spec.Alive (exRidge nT Tf).nF (Spec.remaining (exRidge nT Tf) out 0) t := by
  rw [remaining_zero]
  rcases h with h | h
  · exact ⟨0, by simp [exRidge], pow_pos (norm_pos_iff.2 h) 2⟩
  · exact ⟨1, by simp [exRidge], pow_pos (norm_pos_iff.2 h) 2⟩

/-- **C33 is false** with more rows than columns: of two rows in one column the weaker one is returned. -/
theorem C33_refuted : ¬ C33_full := by
  intro h
  set Tf : ℕ → ℕ → ℂ := fun f _ => if f = 0 then 0 else 1 with hTf
  obtain ⟨r, hr⟩ := exRidge_ok 1 Tf (serialSched 2)
  have hal : ∀ t < (exRidge 1 Tf).nT, Spec.Alive (exRidge 1 Tf).nF (Spec.remaining (exRidge 1 Tf) [r] 0) t :=
    fun t _ => exRidge_alive 1 Tf _ t (Or.inr (by simp [hTf]))
  obtain ⟨p, hp, hpe, hpc⟩ := h _ _ _ (serial_valid _) (exRidge_eps 1 Tf).1 (by simp [exRidge]) hr 0 (by simp) hal
    (fun _ => 1) (fun _ _ => by simp [exRidge])
  obtain ⟨m, hm, he, -⟩ := C33_modulo _ _ _ (serial_valid _) (by simp [exRidge]) hr 0 (by simp) hal
  have h0 : (exRidge 1 Tf).nT = 1 := rfl
  rw [h0] at hpc hpe he
  rw [he, Nat.mod_one] at hpe
  rw [show 1 - 1 = 0 from rfl, pathCost_zero, pathCost_zero, hpe, remaining_zero] at hpc
  have := dominant_cost (exRidge 1 Tf) (fun f t => ‖(exRidge 1 Tf).Tf f t‖ ^ 2) (fun _ _ => by positivity) 0 1
    ⟨by simp [exRidge], by simp [exRidge, hTf], fun f hf hne => by
    have : f = 0 := by simp only [exRidge] at hf; omega
    simp [exRidge, hTf, this]⟩ (exRidge_eps 1 Tf).1 (exRidge_eps 1 Tf).2 0 (by simp [exRidge]) (by simp)
  have := (exRidge_eps 1 Tf).1
  linarith

/-- **C73 is false** after a silent column: only row 1 has energy at time 1, and row 0 is returned. -/
theorem C73_refuted : ¬ C73_full := by
  intro h
  set Tf : ℕ → ℕ → ℂ := fun f t => if f = 1 ∧ t = 1 then 1 else 0 with hTf
  obtain ⟨r, hr⟩ := exRidge_ok 2 Tf (serialSched 2)
  have h1 := h _ _ _ (serial_valid (exRidge 2 Tf)) (exRidge_eps 2 Tf).1 (exRidge_eps 2 Tf).2 rfl hr 0 (by simp) 1
    (by simp [exRidge]) 1 (by
      rw [remaining_zero]
      exact ⟨by simp [exRidge], by simp [exRidge, hTf], fun f hf hne => by simp [exRidge, hTf, hne]⟩)
  have h2 := C73_silent (exRidge 2 Tf) _ _ (serial_valid (exRidge 2 Tf)) hr 0 (by simp) 0 1 (by
    rw [remaining_zero]
    rintro ⟨f, hf, hpos⟩
    simp [exRidge, hTf] at hpos) (by omega) (by simp [exRidge])
  rw [h1] at h2
  omega

/-- Rows visited by the two-row, two-column, no-penalty example: whatever row is last, the row before it is the last
one in the order of iterations among those whose cost is within `eps` of the least. -/
theorem exRidge_first (Tf : ℕ → ℕ → ℂ) (hnz : ∀ t < 2, Tf 0 t ≠ 0 ∨ Tf 1 t ≠ 0) (s : RidgeSched)
    (hs : Spec.ValidSched (exRidge 2 Tf) s) (r : Ridge) (hr : extractRidges (exRidge 2 Tf) s = .ok [r])
    (hclose : |Spec.cellCost (exRidge 2 Tf) (fun f t => ‖Tf f t‖ ^ 2) 0 0 -
      Spec.cellCost (exRidge 2 Tf) (fun f t => ‖Tf f t‖ ^ 2) 1 0| < (exRidge 2 Tf).eps) :
    r.idx 0 = ((s.bw 0 0).getLast?).getD 0 := by
  obtain ⟨-, -, h3⟩ := extract_spec hr
  have hidx := (h3 0 (by simp)).1
  rw [remaining_zero] at hidx
  simp only [List.getElem_cons_zero] at hidx
  have hE : ∀ f t, 0 ≤ (fun (f t : ℕ) => ‖Tf f t‖ ^ 2) f t := fun f t => by positivity
  have hn : 0 < (exRidge 2 Tf).nF := by simp [exRidge]
  obtain ⟨V, h0, hrec, -, hv, hm⟩ := track_spec (exRidge 2 Tf) s 0 (fun f t => ‖Tf f t‖ ^ 2) hn hs hE (exRidge_eps 2 Tf).1
    1 (by simp [exRidge]) (fun t ht => by
      have := exRidge_alive 2 Tf [] t (hnz t (by omega))
      rwa [remaining_zero] at this) (track_lt _ _ _ _ hn hs _)
  have hidx' : r.idx = ridgeTrack (exRidge 2 Tf) s 0 fun f t => ‖Tf f t‖ ^ 2 := hidx
  rw [← hidx'] at hm hv
  rw [(hm 0 (by omega)).1]
  congr 2
  rw [List.filter_eq_self]
  intro f hf
  have hf2 : f < 2 := List.mem_range.1 ((hs 0 0).2.mem_iff.1 hf)
  have hj : ∀ f g, Spec.jump (exRidge 2 Tf) f g = 0 := by
    intro f g; simp [Spec.jump, exRidge]
  obtain ⟨⟨g, hg, hge⟩, hle⟩ := hrec (r.idx 1) (hv 1 le_rfl) 0 (by omega)
  have hg2 : g < 2 := hg
  have e0 := hle 0 (by simp [exRidge])
  have e1 := hle 1 (by simp [exRidge])
  have v0 := h0 0 (by simp [exRidge])
  have v1 := h0 1 (by simp [exRidge])
  simp only [hj, add_zero, Nat.zero_add] at hge e0 e1 ⊢
  rw [decide_eq_true_eq, abs_lt]
  rw [abs_lt] at hclose
  have heps := (exRidge_eps 2 Tf).1
  interval_cases f <;> interval_cases g <;> constructor <;> linarith [hclose.1, hclose.2]

theorem exRidge_valid (nT : ℕ) (Tf : ℕ → ℕ → ℂ) : Spec.ValidSched (exRidge nT Tf) (serialSched 2) :=
  serial_valid (exRidge nT Tf)

/-- The reversed order of iterations. -/
def revSched : RidgeSched := ⟨fun _ _ => [1, 0], fun _ _ => [1, 0]⟩

theorem revSched_valid (nT : ℕ) (Tf : ℕ → ℕ → ℂ) : Spec.ValidSched (exRidge nT Tf) revSched := by
  intro i t
  have : ([1, 0] : List ℕ).Perm (List.range 2) := by decide
  exact ⟨this, this⟩

/-- **C35 is false**: with two equal rows the two orders of iterations return different rows. -/
theorem C35_refuted : ¬ C35_full := by
  intro h
  set Tf : ℕ → ℕ → ℂ := fun _ _ => 1 with hTf
  obtain ⟨r, hr⟩ := exRidge_ok 2 Tf revSched
  obtain ⟨r', hr'⟩ := exRidge_ok 2 Tf (serialSched 2)
  have he := h (exRidge 2 Tf) revSched _ _ (revSched_valid 2 Tf) (exRidge_eps 2 Tf).1 hr hr' 0 (by simp) (by simp) 0
    (by simp [exRidge])
  have hcl : |Spec.cellCost (exRidge 2 Tf) (fun f t => ‖Tf f t‖ ^ 2) 0 0 -
      Spec.cellCost (exRidge 2 Tf) (fun f t => ‖Tf f t‖ ^ 2) 1 0| < (exRidge 2 Tf).eps := by
    have : Spec.cellCost (exRidge 2 Tf) (fun f t => ‖Tf f t‖ ^ 2) 0 0 =
      Spec.cellCost (exRidge 2 Tf) (fun f t => ‖Tf f t‖ ^ 2) 1 0 := by simp [Spec.cellCost, hTf]
    rw [this, sub_self, abs_zero]
    exact (exRidge_eps 2 Tf).1
  have h1 := exRidge_first Tf (fun t _ => Or.inl (by simp [hTf])) revSched (revSched_valid 2 Tf) r hr hcl
  have h2 := exRidge_first Tf (fun t _ => Or.inl (by simp [hTf])) (serialSched 2) (exRidge_valid 2 Tf) r' hr' hcl
  simp only [List.getElem_cons_zero] at he
  rw [h1, h2] at he
  simp [revSched, serialSched, List.range_succ] at he

/-- **C32 is false** as an exact minimum: of two rows whose costs differ by less than the tolerance, the more costly one
is taken, being last. -/
theorem C32_refuted : ¬ C32_full := by
  intro h
  set Tf : ℕ → ℕ → ℂ := fun f t => if f = 1 ∧ t = 0 then ((Real.sqrt (1 - 1 / 2 ^ 53) : ℝ) : ℂ) else 1 with hTf
  have hT0 : ∀ t, Tf 0 t = 1 := fun t => by simp [hTf]
  obtain ⟨r, hr⟩ := exRidge_ok 2 Tf (serialSched 2)
  have hE0 : ‖Tf 0 0‖ ^ 2 = 1 := by simp [hTf]
  have hE1 : ‖Tf 1 0‖ ^ 2 = 1 - 1 / 2 ^ 53 := by
    simp only [hTf, and_self, if_true]
    rw [Complex.norm_real, Real.norm_eq_abs, sq_abs, Real.sq_sqrt (by norm_num)]
  have hn : 0 < (exRidge 2 Tf).nF := by simp [exRidge]
  have hpk : Spec.peak 2 (fun f t => ‖Tf f t‖ ^ 2) 0 = 1 := by
    obtain ⟨⟨f, hf, hfe⟩, hmax⟩ := peak_spec (nF := 2) (by norm_num) (fun f t => ‖Tf f t‖ ^ 2) 0
    have h0 := hmax 0 (by norm_num)
    rw [hE0] at h0
    interval_cases f
    · rw [← hfe, hE0]
    · rw [hE1] at hfe
      norm_num at hfe
      linarith
  have hc0 : Spec.cellCost (exRidge 2 Tf) (fun f t => ‖Tf f t‖ ^ 2) 0 0 = -Real.log (1 + 1 / 2 ^ 52) := by
    unfold Spec.cellCost
    rw [show (exRidge 2 Tf).nF = 2 from rfl, hpk]
    simp only [hE0, div_one, exRidge]
  have hc1 : Spec.cellCost (exRidge 2 Tf) (fun f t => ‖Tf f t‖ ^ 2) 1 0 = -Real.log (1 - 1 / 2 ^ 53 + 1 / 2 ^ 52) := by
    unfold Spec.cellCost
    rw [show (exRidge 2 Tf).nF = 2 from rfl, hpk]
    simp only [hE1, div_one, exRidge]
  have hlt : Real.log (1 - 1 / 2 ^ 53 + 1 / 2 ^ 52) < Real.log (1 + 1 / 2 ^ 52) :=
    Real.log_lt_log (by norm_num) (by norm_num)
  have hdiff : Real.log (1 + 1 / 2 ^ 52) - Real.log (1 - 1 / 2 ^ 53 + 1 / 2 ^ 52) < 1 / 2 ^ 52 := by
    rw [← Real.log_div (by norm_num) (by norm_num)]
    have := Real.log_le_sub_one_of_pos (x := (1 + 1 / 2 ^ 52) / (1 - 1 / 2 ^ 53 + 1 / 2 ^ 52)) (by norm_num)
    refine this.trans_lt ?_
    norm_num
  have hcl : |Spec.cellCost (exRidge 2 Tf) (fun f t => ‖Tf f t‖ ^ 2) 0 0 -
      Spec.cellCost (exRidge 2 Tf) (fun f t => ‖Tf f t‖ ^ 2) 1 0| < (exRidge 2 Tf).eps := by
    rw [hc0, hc1, abs_lt, show (exRidge 2 Tf).eps = 1 / 2 ^ 52 from rfl]
    constructor <;> linarith
  have h1 := exRidge_first Tf (fun t _ => Or.inl (by rw [hT0]; simp)) (serialSched 2) (exRidge_valid 2 Tf) r hr hcl
  have hr0 : r.idx 0 = 1 := by rw [h1]; simp [serialSched, List.range_succ]
  have hv := C32_valid _ _ (exRidge_valid 2 Tf) _ hr 0 (by simp) 1
  have hq := h _ _ _ (exRidge_valid 2 Tf) (exRidge_eps 2 Tf).1 (by simp [exRidge]) hr 0 (by simp)
    (fun t _ => exRidge_alive 2 Tf _ t (Or.inl (by rw [hT0]; simp)))
    (fun t => if t = 0 then 0 else r.idx t) (by
      intro t ht
      beta_reduce
      split
      · exact hn
      · exact C32_valid _ _ (exRidge_valid 2 Tf) _ hr 0 (by simp) t) (by simp [exRidge])
  rw [remaining_zero, show (exRidge 2 Tf).nT - 1 = 0 + 1 from rfl, pathCost_succ, pathCost_succ, pathCost_zero,
    pathCost_zero] at hq
  simp only [List.getElem_cons_zero, hr0, Nat.zero_add, one_ne_zero, if_false, if_true] at hq
  have hj : ∀ f g, Spec.jump (exRidge 2 Tf) f g = 0 := by
    intro f g; simp [Spec.jump, exRidge]
  rw [hj, hj] at hq
  have e0 : Spec.cellCost (exRidge 2 Tf) (fun f t => ‖(exRidge 2 Tf).Tf f t‖ ^ 2) =
    Spec.cellCost (exRidge 2 Tf) (fun f t => ‖Tf f t‖ ^ 2) := rfl
  rw [e0, hc0, hc1] at hq
  linarith

/-- Two ridges of the two-row example, `bw = 1`. -/
noncomputable def exRidge2 (nT : ℕ) (Tf : ℕ → ℕ → ℂ) : RidgeArgs := { exRidge nT Tf with nRidges := 2 }

theorem exRidge2_ok (nT : ℕ) (Tf : ℕ → ℕ → ℂ) (s : RidgeSched) :
    ∃ r r', extractRidges (exRidge2 nT Tf) s = .ok [r, r'] := by
  unfold extractRidges
  simp only [exRidge2, exRidge, if_false, OfNat.ofNat_ne_zero, OfNat.ofNat_ne_one, ridgeLoop]
  exact ⟨_, _, rfl⟩

/-- The first ridge of a transform with energy in row 0 only. -/
theorem exRidge2_row0 (r r' : Ridge)
    (hr : extractRidges (exRidge2 2 (fun f _ => if f = 0 then 1 else 0)) (serialSched 2) = .ok [r, r']) (t : ℕ)
    (ht : t < 2) : r.idx t = 0 :=
  C73_dominant_partial (exRidge2 2 (fun f _ => if f = 0 then 1 else 0)) _ _ (serial_valid _)
    (exRidge_eps 2 fun _ _ => 1).1 (exRidge_eps 2 fun _ _ => 1).2 rfl hr 0 (by simp) le_rfl
    (fun t ht => by
      rw [remaining_zero]
      exact ⟨0, by simp [exRidge2, exRidge], by simp [exRidge2, exRidge]⟩) t ht 0 (by
      rw [remaining_zero]
      exact ⟨by simp [exRidge2, exRidge], by simp [exRidge2, exRidge], fun f _ hne => by simp [exRidge2, exRidge, hne]⟩)

/-- **C34 is false**: a ridge along row 0 clears nothing with `bw = 1`, and is returned again with its energy. -/
theorem C34_refuted : ¬ C34_full := by
  intro h
  obtain ⟨r, r', hr⟩ := exRidge2_ok 2 (fun f _ => if f = 0 then 1 else 0) (serialSched 2)
  have h0 := exRidge2_row0 r r' hr
  obtain ⟨h1, -, h2⟩ := C34_repeated _ _ _ (serial_valid _) hr 0 (by simp) ⟨rfl, rfl⟩ (by
    intro t ht
    have := h0 t ht
    simp only [List.getElem_cons_zero, this, exRidge2, exRidge]
    norm_num) (by simp [exRidge2, exRidge]) 0 (by simp [exRidge2, exRidge])
  simp only [Nat.zero_add, List.getElem_cons_zero, List.getElem_cons_succ] at h1 h2
  have he' := ((C75_reported _ _ _ hr).2 0 (by simp) 0).2
  simp only [List.getElem_cons_zero, Nat.not_lt_zero, IsEmpty.exists_iff, exists_const, if_false] at he'
  have he := h _ _ _ (serial_valid _) hr 0 1 (by simp) (by simp) (by omega) 0 (by simp [exRidge2, exRidge]) (by
    simp only [List.getElem_cons_zero, List.getElem_cons_succ, h2, he', h0 0 (by omega), exRidge2, exRidge]
    norm_num)
  simp only [List.getElem_cons_zero, List.getElem_cons_succ, h1, sub_self, abs_zero, exRidge2, exRidge] at he
  norm_num at he

/-! ### The hypotheses are met -/

/-- Three rows with amplitudes 0, 1 and 1/2, three columns, two ridges, `bw = 1`. -/
noncomputable def exRidge3 : RidgeArgs where
  nF := 3
  nT := 3
  Tf f _ := if f = 0 then 0 else if f = 1 then 1 else 1 / 2
  scales f := f + 1
  penalty := 0
  nRidges := 2
  bw := 1
  eps := 1 / 2 ^ 52

theorem exRidge3_ok (s : RidgeSched) : ∃ r r', extractRidges exRidge3 s = .ok [r, r'] := by
  unfold extractRidges
  simp only [exRidge3, if_false, OfNat.ofNat_ne_zero, OfNat.ofNat_ne_one, ridgeLoop]
  exact ⟨_, _, rfl⟩

theorem exRidge3_eps : 0 < exRidge3.eps ∧ exRidge3.eps < 1 / 4 := by
  simp only [exRidge3]; norm_num

theorem exRidge3_alive (out : List Ridge) (t : ℕ) : Spec.Alive exRidge3.nF (Spec.remaining exRidge3 out 0) t := by
  rw [remaining_zero]
  exact ⟨1, by simp [exRidge3], by simp [exRidge3]⟩

/-- The first ridge is row 1 at all three times (C73), for every order of the iterations. -/
theorem exRidge3_first (s : RidgeSched) (hs : Spec.ValidSched exRidge3 s) (r r' : Ridge)
    (hr : extractRidges exRidge3 s = .ok [r, r']) (t : ℕ) (ht : t < 3) : r.idx t = 1 :=
  C73_dominant_partial exRidge3 s _ hs exRidge3_eps.1 exRidge3_eps.2 rfl hr 0 (by simp) le_rfl
    (fun t _ => exRidge3_alive _ t) t ht 1 (by
      rw [remaining_zero]
      refine ⟨by simp [exRidge3], by simp [exRidge3], fun f hf hne => ?_⟩
      have hf3 : f < 3 := hf
      interval_cases f
      · simp [exRidge3]
      · exact absurd rfl hne
      · simp [exRidge3]; norm_num)

theorem exRidge3_remaining (s : RidgeSched) (hs : Spec.ValidSched exRidge3 s) (r r' : Ridge)
    (hr : extractRidges exRidge3 s = .ok [r, r']) (t : ℕ) (ht : t < 3) (f : ℕ) (hf : f < 3) :
    Spec.remaining exRidge3 [r, r'] 1 f t = if f = 2 then 1 / 4 else 0 := by
  have h1 := exRidge3_first s hs r r' hr t ht
  unfold Spec.remaining
  by_cases hf2 : f = 2
  · rw [if_neg, if_pos hf2, hf2]
    · simp [exRidge3]; norm_num
    · rintro ⟨j, hj, hj1, hc⟩
      have : j = 0 := by omega
      subst this
      simp only [List.getElem_cons_zero, h1, Spec.Cleared, exRidge3] at hc
      norm_num at hc
      omega
  · rw [if_pos, if_neg hf2]
    refine ⟨0, by simp, by omega, ?_⟩
    simp only [List.getElem_cons_zero, h1, Spec.Cleared, exRidge3]
    norm_num
    omega

/-- The second ridge is row 2 with energy 1/4, away from the first. -/
theorem exRidge3_second (s : RidgeSched) (hs : Spec.ValidSched exRidge3 s) (r r' : Ridge)
    (hr : extractRidges exRidge3 s = .ok [r, r']) (t : ℕ) (ht : t < 3) : r'.idx t = 2 ∧ r'.e t ≠ 0 := by
  have hrem := exRidge3_remaining s hs r r' hr
  have hi : r'.idx t = 2 :=
    C73_dominant_partial exRidge3 s _ hs exRidge3_eps.1 exRidge3_eps.2 rfl hr 1 (by simp) le_rfl
      (fun t ht => ⟨2, by simp [exRidge3], by rw [hrem t ht 2 (by norm_num)]; norm_num⟩) t ht 2 (by
        refine ⟨by simp [exRidge3], by rw [hrem t ht 2 (by norm_num)]; norm_num, fun f hf hne => ?_⟩
        rw [hrem t ht f hf, hrem t ht 2 (by norm_num), if_neg hne]
        norm_num)
  refine ⟨hi, ?_⟩
  obtain ⟨-, -, h3⟩ := extract_spec hr
  have := (h3 1 (by simp)).2.2 t
  simp only [List.getElem_cons_succ, List.getElem_cons_zero] at this
  rw [this, hi, hrem t ht 2 (by norm_num)]
  norm_num

/-- `C34_cleared_partial` applies: the earlier ridge is at row `bw = 1`, the later one has energy. -/
example (s : RidgeSched) (hs : Spec.ValidSched exRidge3 s) : ∃ r r', extractRidges exRidge3 s = .ok [r, r'] ∧
    ∀ t < 3, exRidge3.bw ≤ (r.idx t : ℤ) ∧ r'.e t ≠ 0 ∧ exRidge3.bw ≤ |((r'.idx t : ℕ) : ℤ) - (r.idx t : ℕ)| := by
  obtain ⟨r, r', hr⟩ := exRidge3_ok s
  refine ⟨r, r', hr, fun t ht => ?_⟩
  have h1 := exRidge3_first s hs r r' hr t ht
  have h2 := (exRidge3_second s hs r r' hr t ht).2
  have h3 : exRidge3.bw ≤ (r.idx t : ℤ) := by rw [h1]; simp [exRidge3]
  exact ⟨h3, h2, C34_cleared_partial exRidge3 s _ hs hr 0 1 (by simp) (by simp) (by omega) t h3 h2⟩

/-- `C32_optimal_partial`, `C33_last_partial` and `C33_global_partial` apply to both ridges. -/
example (s : RidgeSched) (hs : Spec.ValidSched exRidge3 s) : ∃ r r', extractRidges exRidge3 s = .ok [r, r'] ∧
    0 < exRidge3.eps ∧ exRidge3.nF ≤ exRidge3.nT ∧ (∀ t < 3, Spec.Alive 3 (Spec.remaining exRidge3 [r, r'] 0) t) ∧
    ∀ t < 3, Spec.Alive 3 (Spec.remaining exRidge3 [r, r'] 1) t := by
  obtain ⟨r, r', hr⟩ := exRidge3_ok s
  refine ⟨r, r', hr, exRidge3_eps.1, le_rfl, fun t _ => exRidge3_alive _ t, fun t ht => ⟨2, by norm_num, ?_⟩⟩
  rw [exRidge3_remaining s hs r r' hr t ht 2 (by norm_num)]
  norm_num

/-- With no penalty and a dominant row in every column there are no near ties. -/
theorem dominant_noNearTies (a : RidgeArgs) (E : ℕ → ℕ → ℝ) (hE : ∀ f t, 0 ≤ E f t) (heps : 0 < a.eps)
    (he4 : a.eps < 1 / 4) (hp : a.penalty = 0) (hn : 0 < a.nF)
    (hd : ∀ t < a.nT, ∃ f0, Spec.Dominant a.nF E t f0) : Spec.NoNearTies a E := by
  intro t ht r hr f hf g hg h1 h2
  have hal : ∀ t < a.nT, Spec.Alive a.nF E t := fun t ht => by
    obtain ⟨f0, h⟩ := hd t ht
    exact ⟨f0, h.1, h.2.1⟩
  have hj : ∀ f g, Spec.jump a f g = 0 := by
    intro f g; unfold Spec.jump; rw [hp]; split <;> ring
  have hlt := track_lt a (serialSched a.nF) 0 E hn (serial_valid a)
  obtain ⟨V, h0, hrec, -, -, -⟩ := track_spec a (serialSched a.nF) 0 E hn (serial_valid a) hE heps (a.nT - 1) (by omega)
    (fun t ht => hal t (by omega)) (hlt _)
  have hVt : ∃ K, ∀ f < a.nF, V f t = Spec.cellCost a E f t + K := by
    cases t with
    | zero => exact ⟨0, fun f hf => by rw [h0 f hf, add_zero]⟩
    | succ t =>
      obtain ⟨⟨g0, hg0, hge⟩, hle⟩ := hrec 0 hn t (by omega)
      refine ⟨V g0 t, fun f hf => ?_⟩
      obtain ⟨⟨g1, hg1, hge1⟩, hle1⟩ := hrec f hf t (by omega)
      have e1 := hle g1 hg1
      have e2 := hle1 g0 hg0
      simp only [hj, add_zero] at *
      linarith
  obtain ⟨K, hK⟩ := hVt
  obtain ⟨f0, hd0⟩ := hd t (by omega)
  have key : ∀ f < a.nF, Spec.NearBest a E t r f → f = f0 := by
    intro f hf h
    by_contra hne
    have hc := dominant_cost a E hE t f0 hd0 heps he4 f hf hne
    unfold Spec.NearBest at h
    rw [best_eq a E V _ h0 hrec t (by omega) f hf, best_eq a E V _ h0 hrec (t + 1) (by omega) r hr, hj] at h
    have hb := (hrec r hr t (by omega)).2 f0 hd0.1
    rw [hj, hK f0 hd0.1] at hb
    rw [hK f hf] at h
    linarith
  rw [key f hf h1, key g hg h2]

/-- `C35_order_partial` applies to the three-row example: all orders of iterations return the same. -/
example (s : RidgeSched) (hs : Spec.ValidSched exRidge3 s) :
    extractRidges exRidge3 s = extractRidges exRidge3 (serialSched 3) := by
  obtain ⟨r, r', hr⟩ := exRidge3_ok s
  obtain ⟨u, u', hu⟩ := exRidge3_ok (serialSched 3)
  have hsv : Spec.ValidSched exRidge3 (serialSched 3) := serial_valid exRidge3
  have hrem := exRidge3_remaining _ hsv u u' hu
  rw [hr, hu, C35_order_partial exRidge3 s _ _ hs exRidge3_eps.1 hr hu]
  · intro k hk t ht
    have hk2 : k < 2 := hk
    interval_cases k
    · exact exRidge3_alive _ t
    · exact ⟨2, by simp [exRidge3], by rw [hrem t ht 2 (by norm_num)]; norm_num⟩
  · intro k hk
    have hk2 : k < 2 := hk
    apply dominant_noNearTies _ _ (remaining_nonneg _ _ _) exRidge3_eps.1 exRidge3_eps.2 rfl (by simp [exRidge3])
    intro t ht
    interval_cases k
    · refine ⟨1, ?_⟩
      rw [remaining_zero]
      refine ⟨by simp [exRidge3], by simp [exRidge3], fun f hf hne => ?_⟩
      have hf3 : f < 3 := hf
      interval_cases f
      · simp [exRidge3]
      · exact absurd rfl hne
      · simp [exRidge3]; norm_num
    · refine ⟨2, by simp [exRidge3], by rw [hrem t ht 2 (by norm_num)]; norm_num, fun f hf hne => ?_⟩
      rw [hrem t ht f hf, hrem t ht 2 (by norm_num), if_neg hne]
      norm_num

end Ssq
