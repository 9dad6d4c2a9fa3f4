import Verif.Props.RidgeFollow

/-!
# C203: ridges of a transform with its rows reordered or its time reversed (ssqueezepy/ridge_extraction.py:11-232)
-/
namespace Ssq
open Finset

namespace Spec

/-- The row sequence `p` costs less, by more than `eps` per column, than every other row sequence. -/
def Unrivalled (a : RidgeArgs) (E : ℕ → ℕ → ℝ) (p : ℕ → ℕ) : Prop :=
  IsPath a.nF (a.nT - 1) p ∧ ∀ q, IsPath a.nF (a.nT - 1) q → (∃ t < a.nT, q t ≠ p t) →
    pathCost (cellCost a E) (jump a) p (a.nT - 1) + a.nT * a.eps < pathCost (cellCost a E) (jump a) q (a.nT - 1)

end Spec

theorem unrivalled_idx (a : RidgeArgs) (s : RidgeSched) (out : List Ridge) (hs : Spec.ValidSched a s) (heps : 0 < a.eps) (hT : 0 < a.nT)
    (hFT : a.nF ≤ a.nT) (h : extractRidges a s = .ok out) (k : ℕ) (hk : k < out.length) (hal : ∀ t < a.nT, Spec.Alive a.nF (Spec.remaining a out k) t)
    (p : ℕ → ℕ) (hp : Spec.Unrivalled a (Spec.remaining a out k) p) : ∀ t < a.nT, (out[k]).idx t = p t := by
  intro t ht
  by_contra hne
  have e1 := C33_global_partial a s out hs heps hT hFT h k hk hal p hp.1
  have e2 := hp.2 (out[k]).idx (fun t _ => C32_valid a s hs out h k hk t) ⟨t, ht, hne⟩
  have e3 : ((a.nT - 1 : ℕ) : ℝ) * a.eps ≤ a.nT * a.eps := by
    refine mul_le_mul_of_nonneg_right ?_ heps.le
    exact_mod_cast Nat.sub_le _ _
  linarith

theorem unrivalled_congr {a : RidgeArgs} {E : ℕ → ℕ → ℝ} {p p' : ℕ → ℕ} (hp : Spec.Unrivalled a E p) (h : ∀ t < a.nT, p' t = p t) (hT : 0 < a.nT) :
    Spec.Unrivalled a E p' := by
  have hc : Spec.pathCost (Spec.cellCost a E) (Spec.jump a) p' (a.nT - 1) = Spec.pathCost (Spec.cellCost a E) (Spec.jump a) p (a.nT - 1) := by
    unfold Spec.pathCost
    congr 1
    · exact sum_congr rfl fun t ht => by rw [h t (by have := mem_range.1 ht; omega)]
    · exact sum_congr rfl fun t ht => by
        have := mem_range.1 ht
        rw [h t (by omega), h (t + 1) (by omega)]
  refine ⟨fun t ht => by rw [h t (by omega)]; exact hp.1 t ht, fun q hq ⟨t, ht, hne⟩ => ?_⟩
  rw [hc]
  exact hp.2 q hq ⟨t, ht, by rw [← h t ht]; exact hne⟩

/-- A row sequence that leads in every column by more than its jumps cost is unrivalled. -/
theorem leads_unrivalled (a : RidgeArgs) (E : ℕ → ℕ → ℝ) (hE : ∀ f t, 0 ≤ E f t) (heps : 0 < a.eps) (hpen : 0 ≤ a.penalty) (hT : 0 < a.nT) (p : ℕ → ℕ) {ρ J : ℝ}
    (hρ0 : 0 ≤ ρ) (hρ : ρ ≤ 1) (hlead : ∀ t < a.nT, Spec.Leads ρ a.nF E t (p t)) (hJ0 : 0 ≤ J) (hJ : ∀ t, t + 1 < a.nT → Spec.jump a (p (t + 1)) (p t) ≤ J)
    (hG : 2 * J + a.nT * a.eps < Real.log ((1 + a.eps) / (ρ + a.eps))) : Spec.Unrivalled a E p := by
  refine ⟨fun t ht => (hlead t (by omega)).1, fun q hq ⟨t, ht, hne⟩ => ?_⟩
  have hj : ∀ f g, 0 ≤ Spec.jump a f g := by
    intro f g; unfold Spec.jump; split <;> positivity
  have hnT : (0 : ℝ) ≤ a.nT * a.eps := by positivity
  have e2 := exchange_cost (nF := a.nF) (T := a.nT - 1) (c := Spec.cellCost a E) (P := Spec.jump a) (p := p) (q := q)
    (G := Real.log ((1 + a.eps) / (ρ + a.eps))) (J := J) hq
    (fun t ht f hf hne => leads_cost a _ hE t (p t) hρ0 hρ (hlead t (by omega)) heps f hf hne) hj
    (fun t ht => hJ t (by omega)) hJ0 (by linarith) t (by omega) hne
  linarith

/-! ### Rows in another order -/

namespace Spec
/-- `σ` puts the `n` rows in another order, and `τ` puts them back. -/
def Reorders (n : ℕ) (σ τ : ℕ → ℕ) : Prop :=
  (∀ f < n, σ f < n ∧ τ (σ f) = f) ∧ ∀ f < n, τ f < n ∧ σ (τ f) = f
end Spec

/-- The arguments with the rows of the transform and the scales in another order: `Tf[perm], scales[perm]` (arguments of ssqueezepy/ridge_extraction.py:11-13). -/
def reorderRows (a : RidgeArgs) (σ : ℕ → ℕ) : RidgeArgs :=
  { a with Tf := fun f t => a.Tf (σ f) t, scales := fun f => a.scales (σ f) }

theorem peak_reorder {n : ℕ} {σ τ : ℕ → ℕ} (h : Spec.Reorders n σ τ) (E : ℕ → ℕ → ℝ) (t : ℕ) :
    Spec.peak n (fun f t => E (σ f) t) t = Spec.peak n E t := by
  unfold Spec.peak
  congr 1
  ext x
  constructor
  · rintro ⟨f, hf, rfl⟩
    exact ⟨σ f, (h.1 f hf).1, rfl⟩
  · rintro ⟨f, hf, rfl⟩
    exact ⟨τ f, (h.2 f hf).1, by simp only []; rw [(h.2 f hf).2]⟩

theorem cost_reorder (a : RidgeArgs) {σ τ : ℕ → ℕ} (h : Spec.Reorders a.nF σ τ) (E : ℕ → ℕ → ℝ) (q : ℕ → ℕ) (T : ℕ) :
    Spec.pathCost (Spec.cellCost (reorderRows a σ) fun f t => E (σ f) t) (Spec.jump (reorderRows a σ)) q T =
      Spec.pathCost (Spec.cellCost a E) (Spec.jump a) (fun t => σ (q t)) T := by
  unfold Spec.pathCost
  congr 1
  refine sum_congr rfl fun t _ => ?_
  unfold Spec.cellCost
  rw [show (reorderRows a σ).nF = a.nF from rfl, peak_reorder h]
  rfl

theorem unrivalled_reorder (a : RidgeArgs) {σ τ : ℕ → ℕ} (h : Spec.Reorders a.nF σ τ) (E : ℕ → ℕ → ℝ) (p : ℕ → ℕ) (hT : 0 < a.nT) (hp : Spec.Unrivalled a E p) :
    Spec.Unrivalled (reorderRows a σ) (fun f t => E (σ f) t) fun t => τ (p t) := by
  refine ⟨fun t ht => (h.2 _ (hp.1 t ht)).1, fun q hq ⟨t, ht, hne⟩ => ?_⟩
  rw [cost_reorder a h, cost_reorder a h]
  have hT' : (reorderRows a σ).nT = a.nT := rfl
  rw [hT'] at ht hq ⊢
  have e := unrivalled_congr hp (p' := fun t => σ (τ (p t))) (fun t ht => (h.2 _ (hp.1 t (by omega))).2) hT
  exact e.2 _ (fun t ht => (h.1 _ (hq t ht)).1) ⟨t, ht, fun e' => hne (by
    have := congrArg τ e'
    rw [(h.1 _ (hq t (by omega))).2, (h.1 _ (h.2 _ (hp.1 t (by omega))).1).2] at this
    exact this)⟩

theorem remaining_first (a : RidgeArgs) (out : List Ridge) : Spec.remaining a out 0 = fun f t => ‖a.Tf f t‖ ^ 2 := by
  funext f t
  unfold Spec.remaining
  rw [if_neg]
  rintro ⟨j, hj, hj0, -⟩
  omega

/-- **C203, full statement:** turning the transform and the scales upside down turns every ridge upside down. -/
def C203_full : Prop :=
  ∀ (a : RidgeArgs) (s s' : RidgeSched) (out out' : List Ridge), Spec.ValidSched a s → Spec.ValidSched a s' → 0 < a.eps → a.eps ≤ 1 / 4 → 0 ≤ a.penalty → 0 < a.bw →
    a.nF ≤ a.nT → extractRidges a s = .ok out → extractRidges (reorderRows a fun f => a.nF - 1 - f) s' = .ok out' →
    (∀ k < a.nRidges, (∀ t < a.nT, Spec.Alive a.nF (Spec.remaining a out k) t) ∧ ∃ p, Spec.Unrivalled a (Spec.remaining a out k) p) →
    ∀ k, ∀ hk : k < out.length, ∀ hk' : k < out'.length, ∀ t < a.nT, (out'[k]).idx t = a.nF - 1 - (out[k]).idx t

/-- **C203, rows in another order (partial).** For every transform with at least as many columns as rows, penalty, bandwidth, number of ridges, orders of the parallel iterations
and every reordering of the rows of the transform together with the scales: if the first ridge is unrivalled, the first ridge of the reordered arguments is the same ridge,
with its row numbers translated and the same scales and energies. Missing: later ridges, for which it is false (`C203_refuted`). -/
theorem C203_rows_partial (a : RidgeArgs) (s s' : RidgeSched) (out out' : List Ridge) (hs : Spec.ValidSched a s) (hs' : Spec.ValidSched a s') (heps : 0 < a.eps)
    (hFT : a.nF ≤ a.nT) (h : extractRidges a s = .ok out) (σ τ : ℕ → ℕ) (hσ : Spec.Reorders a.nF σ τ) (h' : extractRidges (reorderRows a σ) s' = .ok out')
    (hal : ∀ t < a.nT, Spec.Alive a.nF (fun f t => ‖a.Tf f t‖ ^ 2) t) (hp : ∃ p, Spec.Unrivalled a (fun f t => ‖a.Tf f t‖ ^ 2) p)
    (hk : 0 < out.length) (hk' : 0 < out'.length) : ∀ t < a.nT,
      (out'[0]).idx t = τ ((out[0]).idx t) ∧ (out'[0]).f t = (out[0]).f t ∧ (out'[0]).e t = (out[0]).e t := by
  obtain ⟨p, hp⟩ := hp
  obtain ⟨-, h2, h3⟩ := extract_spec h
  obtain ⟨-, -, h3'⟩ := extract_spec h'
  have hT : 0 < a.nT := by have := h2 hk; omega
  have e1 := unrivalled_idx a s out hs heps hT hFT h 0 hk (by rw [remaining_first]; exact hal) p (by rw [remaining_first]; exact hp)
  have e2 := unrivalled_idx (reorderRows a σ) s' out' hs' heps hT hFT h' 0 hk' (by
      rw [remaining_first]
      intro t ht
      obtain ⟨f, hf, hpos⟩ := hal t ht
      refine ⟨τ f, (hσ.2 f hf).1, ?_⟩
      show 0 < ‖a.Tf (σ (τ f)) t‖ ^ 2
      rw [(hσ.2 f hf).2]
      exact hpos) (fun t => τ (p t)) (by
      rw [remaining_first]
      exact unrivalled_reorder a hσ (fun f t => ‖a.Tf f t‖ ^ 2) p hT hp)
  intro t ht
  have e3 := e2 t ht
  have hpt := hp.1 t (by omega)
  refine ⟨by rw [e3, e1 t ht], ?_, ?_⟩
  · rw [(h3 0 hk).2.1, (h3' 0 hk').2.1, e3, e1 t ht]
    show a.scales (σ (τ (p t))) = _
    rw [(hσ.2 _ hpt).2]
  · rw [(h3 0 hk).2.2, (h3' 0 hk').2.2, e3, e1 t ht, remaining_first, remaining_first]
    show ‖a.Tf (σ (τ (p t))) t‖ ^ 2 = _
    rw [(hσ.2 _ hpt).2]

theorem flip_reorders (n : ℕ) : Spec.Reorders n (fun f => n - 1 - f) fun f => n - 1 - f :=
  ⟨fun f hf => ⟨by simp only []; omega, by simp only []; omega⟩, fun f hf => ⟨by simp only []; omega, by simp only []; omega⟩⟩

/-- Three rows of constant strengths 1/4, 1 and 1/2, from the top. (ssqueezepy/ridge_extraction.py:11-232.) -/
noncomputable def exFlip (n : ℕ) : RidgeArgs where
  nF := 3
  nT := 3
  Tf f _ := if f = 0 then 1 / 4 else if f = 1 then 1 else 1 / 2
  scales f := f + 1
  penalty := 0
  nRidges := n
  bw := 1
  eps := 1 / 2 ^ 52

theorem exFlip_log : 2 * (0 : ℝ) + (3 : ℕ) * (1 / 2 ^ 52) < Real.log ((1 + 1 / 2 ^ 52) / (1 / 4 + 1 / 2 ^ 52)) := by
  have : Real.log 2 ≤ Real.log ((1 + 1 / 2 ^ 52) / (1 / 4 + 1 / 2 ^ 52)) := Real.log_le_log (by norm_num) (by norm_num)
  have l2 := Real.log_two_gt_d9
  norm_num at *
  linarith

theorem exFlip_jump (n f g : ℕ) : Spec.jump (exFlip n) f g = 0 := by
  unfold Spec.jump
  simp [exFlip]

theorem exFlip_first (n : ℕ) : Spec.Unrivalled (exFlip n) (fun f t => ‖(exFlip n).Tf f t‖ ^ 2) fun _ => 1 := by
  refine leads_unrivalled (exFlip n) _ (fun f t => by positivity) (by norm_num [exFlip]) (by simp [exFlip]) (by simp [exFlip]) _ (ρ := 1 / 4) (J := 0) (by norm_num)
    (by norm_num) (fun t _ => ⟨by simp [exFlip], by simp [exFlip], fun f hf hne => ?_⟩) le_rfl (fun t _ => (exFlip_jump n _ _).le) exFlip_log
  have hf3 : f < 3 := hf
  interval_cases f
  · norm_num [exFlip]
  · exact absurd rfl hne
  · norm_num [exFlip]

theorem exFlip_ok (n : ℕ) (hn : 0 < n) (s : RidgeSched) : (∃ out, extractRidges (exFlip n) s = .ok out) ∧
    ∃ out, extractRidges (reorderRows (exFlip n) fun f => 2 - f) s = .ok out := by
  constructor
  all_goals
    unfold extractRidges
    rw [if_neg (by simp [exFlip, reorderRows]; omega), if_neg (by simp [exFlip, reorderRows]), if_neg (by simp [exFlip, reorderRows])]
    exact ⟨_, rfl⟩

/-- **C203 is false** for later ridges: the rows cleared around a ridge are one more above it than below it, so of two components beside the strongest the one below is
left, which way up the transform may be. -/
theorem C203_refuted : ¬ C203_full := by
  intro H
  obtain ⟨⟨out, h⟩, out', h'⟩ := exFlip_ok 2 (by norm_num) (serialSched 3)
  have hv : Spec.ValidSched (exFlip 2) (serialSched 3) := serial_valid (exFlip 2)
  have heps : (0 : ℝ) < (exFlip 2).eps := by norm_num [exFlip]
  have he1 : (exFlip 2).eps ≤ 1 := by norm_num [exFlip]
  have r1 := C165_ridges (exFlip 2) _ out hv heps he1 (by simp [exFlip]) (by simp [exFlip]) (by simp [exFlip]) h (fun k => k + 1) (by
    intro k hk
    have hk' : k < 2 := hk
    interval_cases k
    · refine ⟨by simp [exFlip], fun _ => by simp [exFlip], fun j hj => by omega, fun t _ => ⟨by simp [exFlip], fun f hf hne _ => ?_⟩⟩
      have hf3 : f < 3 := hf
      interval_cases f
      · norm_num [exFlip]
      · exact absurd rfl hne
      · norm_num [exFlip]
    · refine ⟨by simp [exFlip], fun hc => absurd hc (by simp [exFlip]), fun j hj => ?_, fun t _ => ⟨by simp [exFlip], fun f hf hne ho => ?_⟩⟩
      · have : j = 0 := by omega
        subst this
        unfold Spec.Outside
        simp [exFlip]
      · have hf3 : f < 3 := hf
        have hne2 : f ≠ 2 := hne
        have := ho 0 (by norm_num)
        unfold Spec.Outside at this
        simp only [exFlip] at this
        omega)
  have r2 := C165_ridges (reorderRows (exFlip 2) fun f => 2 - f) _ out' hv heps he1 (by simp [exFlip, reorderRows]) (by simp [exFlip, reorderRows]) (by simp [exFlip, reorderRows]) h'
    (fun k => k + 1) (by
    intro k hk
    have hk' : k < 2 := hk
    interval_cases k
    · refine ⟨by simp [exFlip, reorderRows], fun _ => by simp [exFlip, reorderRows], fun j hj => by omega, fun t _ => ⟨by simp [exFlip, reorderRows], fun f hf hne _ => ?_⟩⟩
      have hf3 : f < 3 := hf
      interval_cases f
      · norm_num [exFlip, reorderRows]
      · exact absurd rfl hne
      · norm_num [exFlip, reorderRows]
    · refine ⟨by simp [exFlip, reorderRows], fun hc => absurd hc (by simp [exFlip, reorderRows]), fun j hj => ?_, fun t _ => ⟨by simp [exFlip, reorderRows], fun f hf hne ho => ?_⟩⟩
      · have : j = 0 := by omega
        subst this
        unfold Spec.Outside
        simp [exFlip, reorderRows]
      · have hf3 : f < 3 := hf
        have hne2 : f ≠ 2 := hne
        have := ho 0 (by norm_num)
        unfold Spec.Outside at this
        simp only [exFlip, reorderRows] at this
        omega)
  have l1 : out.length = 2 := r1.1
  have l2 : out'.length = 2 := r2.1
  have hrem : ∀ f < 3, ∀ t < 3, Spec.remaining (exFlip 2) out 1 f t = if f = 2 then 1 / 4 else 0 := by
    intro f hf t ht
    have e := (r1.2 0 (by omega) t ht).1
    unfold Spec.remaining
    by_cases hf2 : f = 2
    · rw [if_neg, if_pos hf2, hf2]
      · norm_num [exFlip]
      · rintro ⟨j, hj, hj1, hc⟩
        have : j = 0 := by omega
        subst this
        rw [e] at hc
        unfold Spec.Cleared at hc
        simp only [exFlip] at hc
        norm_num at hc
        omega
    · rw [if_pos, if_neg hf2]
      refine ⟨0, by omega, by norm_num, ?_⟩
      rw [e]
      unfold Spec.Cleared
      simp only [exFlip]
      norm_num
      omega
  have hh := H (exFlip 2) (serialSched 3) (serialSched 3) out out' hv hv heps (by norm_num [exFlip]) (by simp [exFlip]) (by simp [exFlip]) (by simp [exFlip]) h h' (by
    intro k hk
    have hk' : k < 2 := hk
    interval_cases k
    · rw [remaining_first]
      exact ⟨fun t _ => ⟨1, by simp [exFlip], by simp [exFlip]⟩, _, exFlip_first 2⟩
    · refine ⟨fun t ht => ⟨2, by simp [exFlip], by rw [hrem 2 (by norm_num) t ht]; norm_num⟩, fun _ => 2, ?_⟩
      refine leads_unrivalled (exFlip 2) _ (remaining_nonneg _ _ _) heps (by simp [exFlip]) (by simp [exFlip]) _ (ρ := 1 / 4) (J := 0) (by norm_num)
        (by norm_num) (fun t ht => ⟨by simp [exFlip], by rw [hrem 2 (by norm_num) t ht]; norm_num, fun f hf hne => ?_⟩) le_rfl (fun t _ => (exFlip_jump 2 _ _).le) exFlip_log
      rw [hrem 2 (by norm_num) t ht, hrem f hf t ht, if_neg hne]
      norm_num) 1 (by omega) (by omega) 0 (by simp [exFlip])
  rw [(r1.2 1 (by omega) 0 (by simp [exFlip])).1, (r2.2 1 (by omega) 0 (by simp [exFlip, reorderRows])).1] at hh
  simp [exFlip] at hh

/-- The strongest row of `exFlip` upside down. -/
example : ∃ out out', extractRidges (exFlip 2) (serialSched 3) = .ok out ∧ extractRidges (reorderRows (exFlip 2) fun f => 2 - f) (serialSched 3) = .ok out' ∧
    ∃ (h : 0 < out.length) (h' : 0 < out'.length), ∀ t < 3, (out'[0]).idx t = 2 - (out[0]).idx t ∧ (out'[0]).e t = (out[0]).e t := by
  obtain ⟨⟨out, h⟩, out', h'⟩ := exFlip_ok 2 (by norm_num) (serialSched 3)
  have l1 : out.length = 2 := (extract_spec h).1
  have l2 : out'.length = 2 := (extract_spec h').1
  refine ⟨out, out', h, h', by omega, by omega, fun t ht => ?_⟩
  have := C203_rows_partial (exFlip 2) _ _ out out' (serial_valid (exFlip 2)) (serial_valid (exFlip 2)) (by norm_num [exFlip]) (by simp [exFlip]) h _ _ (flip_reorders 3) h'
    (fun t _ => ⟨1, by simp [exFlip], by simp [exFlip]⟩) ⟨_, exFlip_first 2⟩ (by omega) (by omega) t ht
  exact ⟨this.1, this.2.2⟩

/-! ### Time reversed -/

/-- The arguments with the columns of the transform in reverse: `Tf[:, ::-1]` (arguments of ssqueezepy/ridge_extraction.py:11-13). -/
def reverseTime (a : RidgeArgs) : RidgeArgs := { a with Tf := fun f t => a.Tf f (a.nT - 1 - t) }

theorem jump_comm (a : RidgeArgs) (f g : ℕ) : Spec.jump a f g = Spec.jump a g f := by
  unfold Spec.jump
  split <;> ring

theorem pathCost_reverse (c P : ℕ → ℕ → ℝ) (hP : ∀ f g, P f g = P g f) (q : ℕ → ℕ) (T : ℕ) :
    Spec.pathCost (fun f t => c f (T - t)) P q T = Spec.pathCost c P (fun t => q (T - t)) T := by
  unfold Spec.pathCost
  congr 1
  · rw [← sum_range_reflect]
    refine sum_congr rfl fun t ht => ?_
    have := mem_range.1 ht
    simp only []
    rw [show T + 1 - 1 - t = T - t by omega, show T - (T - t) = t by omega]
  · rw [← sum_range_reflect]
    refine sum_congr rfl fun t ht => ?_
    have := mem_range.1 ht
    simp only []
    rw [hP, show T - 1 - t + 1 = T - t by omega, show T - 1 - t = T - (t + 1) by omega]

theorem cost_reverse (a : RidgeArgs) (E E' : ℕ → ℕ → ℝ) (q : ℕ → ℕ) (hT : 0 < a.nT) (hE : ∀ f, ∀ t < a.nT, E' f t = E f (a.nT - 1 - t)) :
    Spec.pathCost (Spec.cellCost (reverseTime a) E') (Spec.jump (reverseTime a)) q (a.nT - 1) =
      Spec.pathCost (Spec.cellCost a E) (Spec.jump a) (fun t => q (a.nT - 1 - t)) (a.nT - 1) := by
  rw [← pathCost_reverse _ _ (jump_comm a)]
  unfold Spec.pathCost
  congr 1
  refine sum_congr rfl fun t ht => ?_
  have ht' : t < a.nT := by have := mem_range.1 ht; omega
  unfold Spec.cellCost Spec.peak
  simp only [hE _ t ht']
  rfl

theorem unrivalled_reverse (a : RidgeArgs) (E E' : ℕ → ℕ → ℝ) (p : ℕ → ℕ) (hT : 0 < a.nT) (hE : ∀ f, ∀ t < a.nT, E' f t = E f (a.nT - 1 - t)) (hp : Spec.Unrivalled a E p) :
    Spec.Unrivalled (reverseTime a) E' fun t => p (a.nT - 1 - t) := by
  refine ⟨fun t ht => hp.1 _ (by omega), fun q hq ⟨t, ht, hne⟩ => ?_⟩
  have hT' : (reverseTime a).nT = a.nT := rfl
  rw [hT'] at ht hq ⊢
  rw [cost_reverse a E E' _ hT hE, cost_reverse a E E' _ hT hE]
  have e := unrivalled_congr hp (p' := fun t => p (a.nT - 1 - (a.nT - 1 - t))) (fun t ht => by
    rw [show a.nT - 1 - (a.nT - 1 - t) = t by omega]) hT
  exact e.2 _ (fun t ht => hq _ (by omega)) ⟨a.nT - 1 - t, by omega, by
    simp only []
    rw [show a.nT - 1 - (a.nT - 1 - t) = t by omega]
    exact hne⟩

/-- **C204, time reversed.** For every transform with at least as many columns as rows, penalty, bandwidth, number of ridges and orders of the parallel iterations: if every ridge
is unrivalled, the ridges of the transform played backwards are the ridges played backwards, with their scales and energies. -/
theorem C204_reverse (a : RidgeArgs) (s s' : RidgeSched) (out out' : List Ridge) (hs : Spec.ValidSched a s) (hs' : Spec.ValidSched a s') (heps : 0 < a.eps)
    (hFT : a.nF ≤ a.nT) (h : extractRidges a s = .ok out) (h' : extractRidges (reverseTime a) s' = .ok out')
    (hun : ∀ k < a.nRidges, (∀ t < a.nT, Spec.Alive a.nF (Spec.remaining a out k) t) ∧ ∃ p, Spec.Unrivalled a (Spec.remaining a out k) p) :
    out'.length = out.length ∧ ∀ k, ∀ hk : k < out.length, ∀ hk' : k < out'.length, ∀ t < a.nT,
      (out'[k]).idx t = (out[k]).idx (a.nT - 1 - t) ∧ (out'[k]).f t = (out[k]).f (a.nT - 1 - t) ∧ (out'[k]).e t = (out[k]).e (a.nT - 1 - t) := by
  obtain ⟨h1, h2, h3⟩ := extract_spec h
  obtain ⟨h1', -, h3'⟩ := extract_spec h'
  have hl : out'.length = out.length := by rw [h1, h1']; rfl
  have key : ∀ k, ∀ hk : k < out.length, ∀ hk' : k < out'.length, (∀ f, ∀ t < a.nT, Spec.remaining (reverseTime a) out' k f t = Spec.remaining a out k f (a.nT - 1 - t)) ∧
      ∀ t < a.nT, (out'[k]).idx t = (out[k]).idx (a.nT - 1 - t) := by
    intro k
    induction k using Nat.strong_induction_on with
    | _ k ih =>
      intro hk hk'
      have hT : 0 < a.nT := by have := h2 (by omega); omega
      have hrem : ∀ f, ∀ t < a.nT, Spec.remaining (reverseTime a) out' k f t = Spec.remaining a out k f (a.nT - 1 - t) := by
        intro f t ht
        unfold Spec.remaining
        congr 1
        apply propext
        constructor
        · rintro ⟨j, hj, hjk, hc⟩
          refine ⟨j, by omega, hjk, ?_⟩
          rw [(ih j hjk (by omega) hj).2 t ht] at hc
          exact hc
        · rintro ⟨j, hj, hjk, hc⟩
          refine ⟨j, by omega, hjk, ?_⟩
          rw [(ih j hjk hj (by omega)).2 t ht]
          exact hc
      refine ⟨hrem, ?_⟩
      obtain ⟨hal, p, hp⟩ := hun k (by omega)
      have e1 := unrivalled_idx a s out hs heps hT hFT h k hk hal p hp
      have e2 := unrivalled_idx (reverseTime a) s' out' hs' heps hT hFT h' k hk' (by
        intro t ht
        obtain ⟨f, hf, hpos⟩ := hal (a.nT - 1 - t) (by omega)
        exact ⟨f, hf, by rw [hrem f t ht]; exact hpos⟩) _ (unrivalled_reverse a _ _ p hT hrem hp)
      intro t ht
      rw [e2 t ht, e1 _ (by omega)]
  refine ⟨hl, fun k hk hk' t ht => ?_⟩
  obtain ⟨k1, k2⟩ := key k hk hk'
  refine ⟨k2 t ht, ?_, ?_⟩
  · rw [(h3 k hk).2.1, (h3' k hk').2.1, k2 t ht]
    rfl
  · rw [(h3 k hk).2.2, (h3' k hk').2.2, k2 t ht, k1 _ t ht]

/-- A component that moves from row 0 to row 1 is followed the other way when played backwards. -/
example : ∃ r r', extractRidges (exRidge 2 fun f t => if f = t then 1 else 0) (serialSched 2) = .ok [r] ∧
    extractRidges (reverseTime (exRidge 2 fun f t => if f = t then 1 else 0)) (serialSched 2) = .ok [r'] ∧ ∀ t < 2, r'.idx t = r.idx (1 - t) ∧ r'.e t = r.e (1 - t) := by
  obtain ⟨r, hr⟩ := exRidge_ok 2 (fun f t => if f = t then 1 else 0) (serialSched 2)
  obtain ⟨r', hr'⟩ := exRidge_ok 2 (fun f t => if f = 2 - 1 - t then 1 else 0) (serialSched 2)
  refine ⟨r, r', hr, hr', fun t ht => ?_⟩
  have := (C204_reverse (exRidge 2 fun f t => if f = t then 1 else 0) _ _ [r] [r'] (serial_valid (exRidge 2 _)) (serial_valid (exRidge 2 _)) (exRidge_eps 2 _).1 le_rfl hr hr' (by
    intro k hk
    have hk0 : k = 0 := by simpa [exRidge] using hk
    subst hk0
    rw [remaining_first]
    refine ⟨fun t ht => ⟨t, ht, by simp [exRidge]⟩, fun t => t, ?_⟩
    refine leads_unrivalled _ _ (fun f t => by positivity) (exRidge_eps 2 _).1 (by simp [exRidge]) (by simp [exRidge]) _ (ρ := 0) (J := 0) le_rfl zero_le_one
      (fun t ht => ⟨ht, by simp [exRidge], fun f hf hne => by simp [exRidge, hne]⟩) le_rfl (fun t _ => by unfold Spec.jump; simp [exRidge]) ?_
    have : Real.log 2 ≤ Real.log ((1 + 1 / 2 ^ 52) / (0 + 1 / 2 ^ 52)) := Real.log_le_log (by norm_num) (by norm_num)
    have l2 := Real.log_two_gt_d9
    simp only [exRidge]
    norm_num at *
    linarith)).2 0 (by simp) (by simp) t ht
  exact ⟨this.1, this.2.2⟩

end Ssq
