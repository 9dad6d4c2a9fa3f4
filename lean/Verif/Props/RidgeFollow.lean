import Verif.Props.RidgeTones
import Mathlib.Analysis.Complex.ExponentialBounds

/-!
# C201: ridges that move (ssqueezepy/ridge_extraction.py:11-232)

A component whose row changes with time is followed if in every column it stands out from the other rows by more than
its jumps cost.
-/
namespace Ssq
open Finset

namespace Spec

/-- Row `f0` has energy in column `t`, and every other row has at most `ρ` times as much. -/
def Leads (ρ : ℝ) (nF : ℕ) (E : ℕ → ℕ → ℝ) (t f0 : ℕ) : Prop :=
  f0 < nF ∧ 0 < E f0 t ∧ ∀ f < nF, f ≠ f0 → E f t ≤ ρ * E f0 t

/-- The row sequences `ps 0, …, ps (n-1)` in descending order of strength: in every column, `ps k` leads the rows more than `bw` away from `ps 0, …, ps (k-1)` by `ρ`, and
it is one of these rows; all but the last stay at row `bw` or above. -/
def RankedPaths (ρ : ℝ) (bw : ℤ) (nF nT n : ℕ) (E : ℕ → ℕ → ℝ) (ps : ℕ → ℕ → ℕ) : Prop :=
  ∀ k < n, ∀ t < nT, ps k t < nF ∧ (k + 1 < n → bw ≤ ps k t) ∧ (∀ j < k, Outside bw (ps j t) (ps k t)) ∧
    0 < E (ps k t) t ∧ ∀ f < nF, f ≠ ps k t → (∀ j < k, Outside bw (ps j t) f) → E f t ≤ ρ * E (ps k t) t

end Spec

theorem leads_cost (a : RidgeArgs) (E : ℕ → ℕ → ℝ) (hE : ∀ f t, 0 ≤ E f t) (t f0 : ℕ) {ρ : ℝ} (hρ0 : 0 ≤ ρ) (hρ : ρ ≤ 1)
    (h : Spec.Leads ρ a.nF E t f0) (heps : 0 < a.eps) (f : ℕ) (hf : f < a.nF) (hne : f ≠ f0) :
    Spec.cellCost a E f0 t + Real.log ((1 + a.eps) / (ρ + a.eps)) ≤ Spec.cellCost a E f t := by
  obtain ⟨hf0, hpos, hz⟩ := h
  have hn : 0 < a.nF := by omega
  obtain ⟨⟨g, hg, hge⟩, hmax⟩ := peak_spec hn E t
  have hpk : Spec.peak a.nF E t = E f0 t := by
    by_cases hgf : g = f0
    · rw [← hge, hgf]
    · have h1 := hmax f0 hf0
      have h2 := hz g hg hgf
      rw [← hge] at h1 ⊢
      nlinarith
  have hq : E f t / E f0 t ≤ ρ := by
    rw [div_le_iff₀ hpos]
    exact hz f hf hne
  have hq0 : 0 ≤ E f t / E f0 t := div_nonneg (hE f t) hpos.le
  unfold Spec.cellCost
  rw [hpk, div_self hpos.ne', Real.log_div (by positivity) (by positivity)]
  have := Real.log_le_log (by positivity : 0 < E f t / E f0 t + a.eps) (by linarith : E f t / E f0 t + a.eps ≤ ρ + a.eps)
  linarith

/-- Leaving a row sequence `p` costs, per column left, the margin less two jumps. -/
theorem exchange_cost {nF T : ℕ} {c P : ℕ → ℕ → ℝ} {p q : ℕ → ℕ} {G J : ℝ} (hq : ∀ t ≤ T, q t < nF)
    (hc : ∀ t ≤ T, ∀ f < nF, f ≠ p t → c (p t) t + G ≤ c f t) (hP : ∀ f g, 0 ≤ P f g)
    (hJ : ∀ t < T, P (p (t + 1)) (p t) ≤ J) (hJ0 : 0 ≤ J) (hGJ : 2 * J ≤ G) (t0 : ℕ) (ht0 : t0 ≤ T) (hne : q t0 ≠ p t0) :
    Spec.pathCost c P p T + (G - 2 * J) ≤ Spec.pathCost c P q T := by
  set ind : ℕ → ℝ := fun t => if q t ≠ p t then 1 else 0 with hind
  have hi0 : ∀ t, 0 ≤ ind t := fun t => by simp only [hind]; split_ifs <;> norm_num
  have hS : 1 ≤ ∑ t ∈ range (T + 1), ind t := by
    have : ind t0 = 1 := by simp only [hind]; rw [if_pos hne]
    rw [← this]
    exact single_le_sum (fun t _ => hi0 t) (mem_range.2 (by omega))
  have h1 : ∑ t ∈ range (T + 1), (c (p t) t + G * ind t) ≤ ∑ t ∈ range (T + 1), c (q t) t := by
    refine sum_le_sum fun t ht => ?_
    have ht' : t ≤ T := by have := mem_range.1 ht; omega
    simp only [hind]
    split_ifs with h
    · have := hc t ht' (q t) (hq t ht') h
      linarith
    · rw [not_not.1 h]; simp
  have h2 : ∑ t ∈ range T, P (p (t + 1)) (p t) ≤ ∑ t ∈ range T, (P (q (t + 1)) (q t) + J * (ind t + ind (t + 1))) := by
    refine sum_le_sum fun t ht => ?_
    have j := hJ t (mem_range.1 ht)
    by_cases e1 : q t = p t
    · by_cases e2 : q (t + 1) = p (t + 1)
      · rw [e1, e2]
        have := mul_nonneg hJ0 (add_nonneg (hi0 t) (hi0 (t + 1)))
        linarith
      · have : ind (t + 1) = 1 := by simp only [hind]; rw [if_pos e2]
        rw [this]
        have := mul_nonneg hJ0 (hi0 t)
        linarith [hP (q (t + 1)) (q t)]
    · have : ind t = 1 := by simp only [hind]; rw [if_pos e1]
      rw [this]
      have := mul_nonneg hJ0 (hi0 (t + 1))
      linarith [hP (q (t + 1)) (q t)]
  have h3 : ∑ t ∈ range T, ind t ≤ ∑ t ∈ range (T + 1), ind t := by
    rw [sum_range_succ]; linarith [hi0 T]
  have h4 : ∑ t ∈ range T, ind (t + 1) ≤ ∑ t ∈ range (T + 1), ind t := by
    rw [sum_range_succ']; linarith [hi0 0]
  unfold Spec.pathCost
  rw [sum_add_distrib, ← mul_sum] at h1
  rw [sum_add_distrib, ← mul_sum, sum_add_distrib] at h2
  set S := ∑ t ∈ range (T + 1), ind t
  have h5 : J * (∑ t ∈ range T, ind t + ∑ t ∈ range T, ind (t + 1)) ≤ J * (S + S) :=
    mul_le_mul_of_nonneg_left (by linarith) hJ0
  nlinarith

/-- **C201, one ridge.** For every transform with at least as many columns as rows, penalty that is not negative, bandwidth, number of ridges and order of the parallel
iterations: if in every column the energy left for a ridge is led by row `p t` by a factor `ρ`, and twice the penalty of the largest jump of `p` is below the log of that factor
(with `eps` added to both energies, and less `eps` per column), the ridge is `p`. -/
theorem C201_follows (a : RidgeArgs) (s : RidgeSched) (out : List Ridge) (hs : Spec.ValidSched a s) (heps : 0 < a.eps) (hp : 0 ≤ a.penalty)
    (hFT : a.nF ≤ a.nT) (h : extractRidges a s = .ok out) (k : ℕ) (hk : k < out.length) (p : ℕ → ℕ) {ρ J : ℝ} (hρ0 : 0 ≤ ρ) (hρ : ρ ≤ 1)
    (hlead : ∀ t < a.nT, Spec.Leads ρ a.nF (Spec.remaining a out k) t (p t)) (hJ0 : 0 ≤ J)
    (hJ : ∀ t, t + 1 < a.nT → Spec.jump a (p (t + 1)) (p t) ≤ J)
    (hG : 2 * J + a.nT * a.eps < Real.log ((1 + a.eps) / (ρ + a.eps))) : ∀ t < a.nT, (out[k]).idx t = p t := by
  obtain ⟨-, h2, h3⟩ := extract_spec h
  have hn : 0 < a.nF := by have := h2 (by omega); omega
  have hT : 0 < a.nT := by omega
  intro t ht
  by_contra hne
  have hj : ∀ f g, 0 ≤ Spec.jump a f g := by
    intro f g; unfold Spec.jump; split <;> positivity
  have e1 := C33_global_partial a s out hs heps hT hFT h k hk (fun t ht => ⟨p t, (hlead t ht).1, (hlead t ht).2.1⟩) p
    (fun t ht => (hlead t (by omega)).1)
  have hnT : (0 : ℝ) ≤ a.nT * a.eps := by positivity
  have e2 := exchange_cost (nF := a.nF) (T := a.nT - 1) (c := Spec.cellCost a (Spec.remaining a out k)) (P := Spec.jump a) (p := p) (q := (out[k]).idx)
    (G := Real.log ((1 + a.eps) / (ρ + a.eps))) (J := J) (fun t _ => C32_valid a s hs out h k hk t)
    (fun t ht f hf hne => leads_cost a _ (remaining_nonneg a out k) t (p t) hρ0 hρ (hlead t (by omega)) heps f hf hne) hj
    (fun t ht => hJ t (by omega)) hJ0 (by linarith) t (by omega) hne
  have e3 : ((a.nT - 1 : ℕ) : ℝ) * a.eps ≤ a.nT * a.eps := by
    refine mul_le_mul_of_nonneg_right ?_ heps.le
    exact_mod_cast Nat.sub_le _ _
  linarith

/-- **C201, all ridges.** If row sequences `ps 0, ps 1, …` are ranked and jump little, ridge `k` is `ps k`, with the scale of its row and the energy of the transform. -/
theorem C201_ranked (a : RidgeArgs) (s : RidgeSched) (out : List Ridge) (hs : Spec.ValidSched a s) (heps : 0 < a.eps) (hp : 0 ≤ a.penalty)
    (hFT : a.nF ≤ a.nT) (h : extractRidges a s = .ok out) (hbw : 0 ≤ a.bw) (ps : ℕ → ℕ → ℕ) {ρ J : ℝ} (hρ0 : 0 ≤ ρ) (hρ : ρ ≤ 1)
    (hr : Spec.RankedPaths ρ a.bw a.nF a.nT a.nRidges (fun f t => ‖a.Tf f t‖ ^ 2) ps) (hJ0 : 0 ≤ J)
    (hJ : ∀ k < a.nRidges, ∀ t, t + 1 < a.nT → Spec.jump a (ps k (t + 1)) (ps k t) ≤ J)
    (hG : 2 * J + a.nT * a.eps < Real.log ((1 + a.eps) / (ρ + a.eps))) :
    out.length = a.nRidges ∧ ∀ k, ∀ hk : k < out.length, ∀ t < a.nT,
      (out[k]).idx t = ps k t ∧ (out[k]).f t = a.scales (ps k t) ∧ (out[k]).e t = ‖a.Tf (ps k t) t‖ ^ 2 := by
  obtain ⟨h1, h2, h3⟩ := extract_spec h
  have key : ∀ k, ∀ hk : k < out.length, ∀ t < a.nT, (out[k]).idx t = ps k t ∧
      Spec.remaining a out k (ps k t) t = ‖a.Tf (ps k t) t‖ ^ 2 := by
    intro k
    induction k using Nat.strong_induction_on with
    | _ k ih =>
      intro hk
      have hcl : ∀ j < k, ∀ t < a.nT, ∀ f < a.nF, Spec.Cleared a (ps j t) f ↔ ¬ Spec.Outside a.bw (ps j t) f := by
        intro j hj t ht f hf
        obtain ⟨b1, b2, -⟩ := hr j (by omega) t ht
        have b2 := b2 (by omega)
        obtain ⟨c1, -, c3, -⟩ := hr k (by omega) t ht
        have c3 := c3 j hj
        unfold Spec.Cleared Spec.Outside
        rw [if_neg (by omega), if_neg (by omega)]
        omega
      have hrem : ∀ t < a.nT, ∀ f < a.nF, ((∀ j < k, Spec.Outside a.bw (ps j t) f) ∧ Spec.remaining a out k f t = ‖a.Tf f t‖ ^ 2) ∨
          ((∃ j < k, ¬ Spec.Outside a.bw (ps j t) f) ∧ Spec.remaining a out k f t = 0) := by
        intro t ht f hf
        by_cases ho : ∀ j < k, Spec.Outside a.bw (ps j t) f
        · refine Or.inl ⟨ho, ?_⟩
          unfold Spec.remaining
          rw [if_neg]
          rintro ⟨j, hj, hjk, hc⟩
          rw [(ih j hjk hj t ht).1] at hc
          exact (hcl j hjk t ht f hf).1 hc (ho j hjk)
        · push Not at ho
          refine Or.inr ⟨ho, ?_⟩
          obtain ⟨j, hjk, hno⟩ := ho
          unfold Spec.remaining
          rw [if_pos]
          refine ⟨j, by omega, hjk, ?_⟩
          rw [(ih j hjk (by omega) t ht).1]
          exact (hcl j hjk t ht f hf).2 hno
      have hown : ∀ t < a.nT, Spec.remaining a out k (ps k t) t = ‖a.Tf (ps k t) t‖ ^ 2 := by
        intro t ht
        obtain ⟨r1, -, r3, -⟩ := hr k (by omega) t ht
        rcases hrem t ht (ps k t) r1 with h' | ⟨⟨j, hj, hno⟩, -⟩
        · exact h'.2
        · exact absurd (r3 j hj) hno
      have hidx := C201_follows a s out hs heps hp hFT h k hk (ps k) hρ0 hρ (fun t ht => by
        obtain ⟨r1, -, r3, p1, p2⟩ := hr k (by omega) t ht
        refine ⟨r1, by rw [hown t ht]; exact p1, fun f hf hne => ?_⟩
        rw [hown t ht]
        rcases hrem t ht f hf with ⟨ho, e⟩ | ⟨⟨j, hj, hno⟩, e⟩
        · rw [e]
          exact p2 f hf hne ho
        · rw [e]
          exact mul_nonneg hρ0 p1.le) hJ0 (hJ k (by omega)) hG
      exact fun t ht => ⟨hidx t ht, hown t ht⟩
  refine ⟨h1, fun k hk t ht => ⟨(key k hk t ht).1, ?_, ?_⟩⟩
  · rw [(h3 k hk).2.1, (key k hk t ht).1]
  · rw [(h3 k hk).2.2, (key k hk t ht).1, (key k hk t ht).2]

/-- One component that is on row 0 at even and on row 1 at odd times is followed at penalty 1/10. -/
example (nT : ℕ) (h2 : 2 ≤ nT) (h3 : nT ≤ 2 ^ 40) (s : RidgeSched) (hs : ∀ i t, (s.fw i t).Perm (List.range 2) ∧ (s.bw i t).Perm (List.range 2)) :
    ∃ r, extractRidges { exRidge nT fun f t => if f = t % 2 then 1 else 0 with penalty := 1 / 10 } s = .ok [r] ∧ ∀ t < nT, r.idx t = t % 2 := by
  set a : RidgeArgs := { exRidge nT fun f t => if f = t % 2 then 1 else 0 with penalty := 1 / 10 } with ha
  have hex : ∃ r, extractRidges a s = .ok [r] := by
    unfold extractRidges
    rw [if_neg (by simp [ha, exRidge]), if_neg (by simp [ha, exRidge]), if_neg (by simp [ha, exRidge])]
    exact ⟨_, rfl⟩
  obtain ⟨r, hr⟩ := hex
  refine ⟨r, hr, ?_⟩
  have heps : a.eps = 1 / 2 ^ 52 := rfl
  have hlog : Real.log 2 ≤ 1 := by linarith [Real.log_two_lt_d9]
  have hlog0 : 0 ≤ Real.log 2 := Real.log_nonneg (by norm_num)
  have hsc : ∀ f < 2, |Real.log (a.scales f)| ≤ 1 ∧ 0 ≤ Real.log (a.scales f) ∧ 0 ≤ a.scales f ∧ a.scales f ≤ 2 := by
    intro f hf
    have : a.scales f = f + 1 := rfl
    rw [this]
    interval_cases f
    · simp
    · norm_num [abs_of_nonneg hlog0]; exact ⟨hlog, hlog0⟩
  have := C201_ranked a s [r] hs (by rw [heps]; norm_num) (by norm_num [ha]) h2 hr (by simp [ha, exRidge]) (fun _ t => t % 2) (ρ := 0) (J := 1 / 10) le_rfl zero_le_one
    (by
      intro k hk t ht
      have hk0 : k = 0 := by simpa [ha, exRidge] using hk
      subst hk0
      refine ⟨Nat.mod_lt _ (by norm_num), fun h => by simp [ha, exRidge] at h, fun j hj => by omega, by simp [ha, exRidge], ?_⟩
      intro f hf hne _
      simp [ha, exRidge, hne]) (by norm_num)
    (by
      intro k hk t ht
      unfold Spec.jump
      have hp : a.penalty = 1 / 10 := rfl
      obtain ⟨u1, u2, u3, u4⟩ := hsc ((t + 1) % 2) (Nat.mod_lt _ (by norm_num))
      obtain ⟨v1, v2, v3, v4⟩ := hsc (t % 2) (Nat.mod_lt _ (by norm_num))
      rw [abs_le] at u1 v1
      rw [hp, if_pos (by rfl)]
      nlinarith) (by
      have hT : a.nT = nT := rfl
      rw [heps, hT]
      have h3' : (nT : ℝ) ≤ 2 ^ 40 := by exact_mod_cast h3
      have : Real.log 2 ≤ Real.log ((1 + 1 / 2 ^ 52) / (0 + 1 / 2 ^ 52)) := Real.log_le_log (by norm_num) (by norm_num)
      have l2 := Real.log_two_gt_d9
      have : (nT : ℝ) * (1 / 2 ^ 52) ≤ 1 / 10 := by
        have : (nT : ℝ) * (1 / 2 ^ 52) ≤ 2 ^ 40 * (1 / 2 ^ 52) := mul_le_mul_of_nonneg_right h3' (by norm_num)
        refine this.trans (by norm_num)
      norm_num at *
      linarith)
  exact fun t ht => (this.2 0 (by simp) t ht).1

end Ssq
