import Verif.Lemmas.Ridge
import Verif.Lemmas.PyM
import Mathlib.Data.Set.Finite.Lattice
import Mathlib.Order.ConditionallyCompleteLattice.Finset
import Mathlib.Data.Real.Archimedean
import Mathlib.Algebra.Order.Floor.Ring

/-!
# One ridge, and the loop over ridges
-/
namespace Ssq
open Classical

theorem colMax_eq_peak {nF : ℕ} (hn : 0 < nF) (E : ℕ → ℕ → ℝ) (t : ℕ) : colMax nF E t = Spec.peak nF E t := by
  unfold colMax Spec.peak
  cases h : ((List.range nF).map fun f : ℕ => E f t).max? with
  | none => simp at h; omega
  | some m =>
    obtain ⟨h1, h2⟩ := List.max?_eq_some_iff.1 h
    obtain ⟨f, hf, hfm⟩ := List.mem_map.1 h1
    rw [Option.getD_some]
    have hg : IsGreatest {x | ∃ f < nF, x = E f t} m := by
      refine ⟨⟨f, List.mem_range.1 hf, hfm.symm⟩, ?_⟩
      rintro x ⟨g, hg, rfl⟩
      exact h2 _ (List.mem_map.2 ⟨g, List.mem_range.2 hg, rfl⟩)
    exact hg.csSup_eq.symm

/-- The strongest row. -/
theorem peak_spec {nF : ℕ} (hn : 0 < nF) (E : ℕ → ℕ → ℝ) (t : ℕ) :
    (∃ f < nF, E f t = Spec.peak nF E t) ∧ ∀ f < nF, E f t ≤ Spec.peak nF E t := by
  rw [← colMax_eq_peak hn]
  unfold colMax
  cases h : ((List.range nF).map fun f : ℕ => E f t).max? with
  | none => simp at h; omega
  | some m =>
    obtain ⟨h1, h2⟩ := List.max?_eq_some_iff.1 h
    obtain ⟨f, hf, hfm⟩ := List.mem_map.1 h1
    rw [Option.getD_some]
    exact ⟨⟨f, List.mem_range.1 hf, hfm⟩, fun g hg => h2 _ (List.mem_map.2 ⟨g, List.mem_range.2 hg, rfl⟩)⟩

theorem alive_iff {nF : ℕ} (hn : 0 < nF) {E : ℕ → ℕ → ℝ} (hE : ∀ f t, 0 ≤ E f t) (t : ℕ) :
    Spec.Alive nF E t ↔ Spec.peak nF E t ≠ 0 := by
  obtain ⟨⟨f, hf, hfe⟩, hmax⟩ := peak_spec hn E t
  constructor
  · rintro ⟨g, hg, hpos⟩
    exact (hpos.trans_le (hmax g hg)).ne'
  · intro h
    exact ⟨f, hf, lt_of_le_of_ne (hE f t) (by rw [hfe]; exact h.symm)⟩

theorem ridgePenalty_eq (a : RidgeArgs) : ridgePenalty a = Spec.jump a := by
  funext f g
  unfold ridgePenalty Spec.jump
  cases a.isCwt <;> simp

theorem ridgeCost_alive {a : RidgeArgs} (hn : 0 < a.nF) {E : ℕ → ℕ → ℝ} (hE : ∀ f t, 0 ≤ E f t) {t : ℕ}
    (h : Spec.Alive a.nF E t) (f : ℕ) : ridgeCost a E f t = some (Spec.cellCost a E f t) := by
  unfold ridgeCost Spec.cellCost
  rw [colMax_eq_peak hn, if_neg ((alive_iff hn hE t).1 h)]

theorem ridgeCost_dead {a : RidgeArgs} (hn : 0 < a.nF) {E : ℕ → ℕ → ℝ} (hE : ∀ f t, 0 ≤ E f t) {t : ℕ}
    (h : ¬ Spec.Alive a.nF E t) (f : ℕ) : ridgeCost a E f t = none := by
  unfold ridgeCost
  rw [colMax_eq_peak hn, if_pos (by by_contra h'; exact h ((alive_iff hn hE t).2 h'))]

theorem sliceBound_cleared (a : RidgeArgs) (r f : ℕ) :
    (sliceBound a.nF ((r : ℤ) - a.bw) ≤ f ∧ f < sliceBound a.nF ((r : ℤ) + a.bw)) ↔ Spec.Cleared a r f := by
  unfold sliceBound Spec.Cleared
  split <;> split <;> omega

theorem ridgeZero_eq (a : RidgeArgs) (r : ℕ → ℕ) (E : ℕ → ℕ → ℝ) (f t : ℕ) :
    ridgeZero a r E f t = if Spec.Cleared a (r t) f then 0 else E f t := by
  unfold ridgeZero
  simp only [sliceBound_cleared]

theorem getLast_filter {l : List ℕ} {p : ℕ → Bool} {d : ℕ} (h : ∃ x ∈ l, p x = true) :
    ((l.filter p).getLast?).getD d ∈ l ∧ p (((l.filter p).getLast?).getD d) = true := by
  obtain ⟨x, hx, hp⟩ := h
  have hne : l.filter p ≠ [] := List.ne_nil_of_mem (List.mem_filter.2 ⟨hx, hp⟩)
  rw [List.getLast?_eq_some_getLast hne, Option.getD_some]
  exact List.mem_filter.1 (List.getLast_mem hne)

/-- What one tracking pass does on columns that all have energy up to time `T` of the `nT` columns, started from
row `r (T)`: here `T` is any time such that the row at `T` is a valid row. -/
theorem track_spec (a : RidgeArgs) (s : RidgeSched) (i : ℕ) (E : ℕ → ℕ → ℝ) (hn : 0 < a.nF) (hs : Spec.ValidSched a s)
    (hE : ∀ f t, 0 ≤ E f t) (heps : 0 < a.eps) (T : ℕ) (hT : T < a.nT) (hal : ∀ t ≤ T, Spec.Alive a.nF E t)
    (hrT : ridgeTrack a s i E T < a.nF) :
    ∃ V : ℕ → ℕ → ℝ, (∀ f < a.nF, V f 0 = Spec.cellCost a E f 0) ∧
      (∀ f < a.nF, ∀ t, t + 1 ≤ T →
        (∃ g < a.nF, V f (t + 1) = Spec.cellCost a E f (t + 1) + (V g t + Spec.jump a f g)) ∧
        ∀ g < a.nF, V f (t + 1) ≤ Spec.cellCost a E f (t + 1) + (V g t + Spec.jump a f g)) ∧
      (∀ f < a.nF, ∀ t ≤ T, ridgeFw a.nF a.nT (ridgePenalty a) (s.fw i) (ridgeCost a E) f t = some (V f t)) ∧
      (∀ t ≤ T, ridgeTrack a s i E t < a.nF) ∧
      (∀ t, t + 1 ≤ T → ridgeTrack a s i E t =
        (((s.bw i t).filter fun f => decide (|V (ridgeTrack a s i E (t + 1)) (t + 1) -
          Spec.cellCost a E (ridgeTrack a s i E (t + 1)) (t + 1) -
          (V f t + Spec.jump a (ridgeTrack a s i E (t + 1)) f)| < a.eps)).getLast?).getD 0 ∧
        |V (ridgeTrack a s i E (t + 1)) (t + 1) - Spec.cellCost a E (ridgeTrack a s i E (t + 1)) (t + 1) -
          (V (ridgeTrack a s i E t) t + Spec.jump a (ridgeTrack a s i E (t + 1)) (ridgeTrack a s i E t))| < a.eps) := by
  set e := ridgeCost a E with he
  set pe := ridgeFw a.nF a.nT (ridgePenalty a) (s.fw i) e with hpe
  set r := ridgeTrack a s i E with hr
  obtain ⟨V, hV, h0, hrec⟩ := bell_real hn (Spec.jump a) e (Spec.cellCost a E) T
    (fun f _ t ht => ridgeCost_alive hn hE (hal t ht) f)
  have hpeV : ∀ f < a.nF, ∀ t ≤ T, pe f t = some (V f t) := by
    intro f hf t ht
    rw [hpe, ridgeFw_eq _ _ _ _ (fun t => (hs i t).1) _ _ _ hf (by omega), ridgePenalty_eq, hV f hf t ht]
  obtain ⟨-, hbw⟩ := ridgeBw_spec a.nT (ridgePenalty a) a.eps e pe (s.bw i) (ridgeInit a.nF a.nT pe)
  have hrdef : r = ridgeBw a.nT (ridgePenalty a) a.eps e pe (s.bw i) (ridgeInit a.nF a.nT pe) := rfl
  rw [← hrdef] at hbw
  have hmatch : ∀ t, t + 1 ≤ T → r (t + 1) < a.nF → ∀ f < a.nF,
      ridgeMatch (ridgePenalty a) a.eps e pe (r (t + 1)) t f =
        decide (|V (r (t + 1)) (t + 1) - Spec.cellCost a E (r (t + 1)) (t + 1) -
          (V f t + Spec.jump a (r (t + 1)) f)| < a.eps) := by
    intro t ht hr1 f hf
    unfold ridgeMatch
    rw [hpeV _ hr1 _ ht, hpeV f hf t (by omega), he, ridgeCost_alive hn hE (hal (t + 1) ht), ridgePenalty_eq]
    rfl
  have hstep : ∀ t, t + 1 ≤ T → r (t + 1) < a.nF → r t < a.nF ∧ (r t =
        (((s.bw i t).filter fun f => decide (|V (r (t + 1)) (t + 1) -
          Spec.cellCost a E (r (t + 1)) (t + 1) -
          (V f t + Spec.jump a (r (t + 1)) f)| < a.eps)).getLast?).getD 0 ∧
        |V (r (t + 1)) (t + 1) - Spec.cellCost a E (r (t + 1)) (t + 1) -
          (V (r t) t + Spec.jump a (r (t + 1)) (r t))| < a.eps) := by
    intro t ht hr1
    have hfil : ((s.bw i t).filter fun f => ridgeMatch (ridgePenalty a) a.eps e pe (r (t + 1)) t f) =
        (s.bw i t).filter fun f => decide (|V (r (t + 1)) (t + 1) - Spec.cellCost a E (r (t + 1)) (t + 1) -
          (V f t + Spec.jump a (r (t + 1)) f)| < a.eps) := by
      apply List.filter_congr
      intro f hf
      exact hmatch t ht hr1 f (List.mem_range.1 ((hs i t).2.mem_iff.1 hf))
    obtain ⟨g, hg, hge⟩ := (hrec (r (t + 1)) hr1 t ht).1
    have hex : ∃ x ∈ s.bw i t, decide (|V (r (t + 1)) (t + 1) - Spec.cellCost a E (r (t + 1)) (t + 1) -
          (V x t + Spec.jump a (r (t + 1)) x)| < a.eps) = true := by
      refine ⟨g, (hs i t).2.mem_iff.2 (List.mem_range.2 hg), ?_⟩
      rw [decide_eq_true_eq, hge]
      ring_nf
      simpa using heps
    have hrt := hbw t (by omega)
    rw [hfil] at hrt
    have hgl : ∀ d, ((((s.bw i t).filter fun f => decide (|V (r (t + 1)) (t + 1) -
          Spec.cellCost a E (r (t + 1)) (t + 1) - (V f t + Spec.jump a (r (t + 1)) f)| < a.eps)).getLast?).getD d) =
          (((s.bw i t).filter fun f => decide (|V (r (t + 1)) (t + 1) -
          Spec.cellCost a E (r (t + 1)) (t + 1) - (V f t + Spec.jump a (r (t + 1)) f)| < a.eps)).getLast?).getD 0 := by
      intro d
      obtain ⟨x, hx, hp⟩ := hex
      have hne : ((s.bw i t).filter fun f => decide (|V (r (t + 1)) (t + 1) -
          Spec.cellCost a E (r (t + 1)) (t + 1) - (V f t + Spec.jump a (r (t + 1)) f)| < a.eps)) ≠ [] :=
        List.ne_nil_of_mem (List.mem_filter.2 ⟨hx, hp⟩)
      rw [List.getLast?_eq_some_getLast hne]
      rfl
    rw [hgl] at hrt
    have h1 := getLast_filter (d := 0) hex
    rw [← hrt] at h1
    exact ⟨List.mem_range.1 ((hs i t).2.mem_iff.1 h1.1), hrt, by simpa using h1.2⟩
  have hvalid : ∀ k ≤ T, r (T - k) < a.nF := by
    intro k
    induction k with
    | zero => intro _; exact hrT
    | succ k ih =>
      intro hk
      have := ih (by omega)
      rw [show T - k = T - (k + 1) + 1 by omega] at this
      exact (hstep (T - (k + 1)) (by omega) this).1
  have hvalid' : ∀ t ≤ T, r t < a.nF := by
    intro t ht
    have := hvalid (T - t) (by omega)
    rwa [show T - (T - t) = t by omega] at this
  refine ⟨V, h0, hrec, hpeV, hvalid', fun t ht => (hstep t ht (hvalid' (t + 1) ht)).2⟩

/-- The cost of the tracked ridge exceeds the cost-to-come by at most `eps` per step. -/
theorem track_cost (a : RidgeArgs) (c V : ℕ → ℕ → ℝ) (r : ℕ → ℕ) (T : ℕ) (hv : ∀ t ≤ T, r t < a.nF)
    (h0 : ∀ f < a.nF, V f 0 = c f 0)
    (hm : ∀ t, t + 1 ≤ T → |V (r (t + 1)) (t + 1) - c (r (t + 1)) (t + 1) -
          (V (r t) t + Spec.jump a (r (t + 1)) (r t))| < a.eps) :
    ∀ t ≤ T, Spec.pathCost c (Spec.jump a) r t ≤ V (r t) t + t * a.eps := by
  intro t
  induction t with
  | zero => intro _; rw [pathCost_zero, h0 _ (hv 0 (by omega))]; simp
  | succ t ih =>
    intro ht
    have h1 := ih (by omega)
    have h2 := (abs_lt.1 (hm t ht)).1
    rw [pathCost_succ]
    push_cast
    linarith

/-- The row the pass starts from. -/
theorem track_last (a : RidgeArgs) (s : RidgeSched) (i : ℕ) (E : ℕ → ℕ → ℝ) (t : ℕ) (ht : a.nT ≤ t + 1) :
    ridgeTrack a s i E t =
      nfArgmin ((List.range a.nF).map fun f : ℕ =>
        ridgeFw a.nF a.nT (ridgePenalty a) (s.fw i) (ridgeCost a E) f t) % a.nT := by
  exact (ridgeBw_spec a.nT (ridgePenalty a) a.eps _ _ (s.bw i) _).1 t ht

/-- On columns with energy the pass starts from the row of least cost-to-come, modulo the number of columns. -/
theorem track_start (a : RidgeArgs) (s : RidgeSched) (i : ℕ) (E : ℕ → ℕ → ℝ) (hn : 0 < a.nF) (hs : Spec.ValidSched a s)
    (hE : ∀ f t, 0 ≤ E f t) (hT : 0 < a.nT) (hal : ∀ t < a.nT, Spec.Alive a.nF E t) :
    ∃ m < a.nF, ridgeTrack a s i E (a.nT - 1) = m % a.nT ∧
      ∀ q, Spec.IsPath a.nF (a.nT - 1) q → ∃ p, Spec.IsPath a.nF (a.nT - 1) p ∧ p (a.nT - 1) = m ∧
        Spec.pathCost (Spec.cellCost a E) (Spec.jump a) p (a.nT - 1) ≤
          Spec.pathCost (Spec.cellCost a E) (Spec.jump a) q (a.nT - 1) := by
  obtain ⟨V, hV, h0, hrec⟩ := bell_real hn (Spec.jump a) (ridgeCost a E) (Spec.cellCost a E) (a.nT - 1)
    (fun f _ t ht => ridgeCost_alive hn hE (hal t (by omega)) f)
  have hcongr : ((List.range a.nF).map fun f : ℕ =>
      ridgeFw a.nF a.nT (ridgePenalty a) (s.fw i) (ridgeCost a E) f (a.nT - 1)) =
      (List.range a.nF).map fun f : ℕ => some (V f (a.nT - 1)) := by
    apply List.map_congr_left
    intro f hf
    have hf' := List.mem_range.1 hf
    rw [ridgeFw_eq _ _ _ _ (fun t => (hs i t).1) _ _ _ hf' (by omega), ridgePenalty_eq, hV f hf' _ le_rfl]
  have hl := track_last a s i E (a.nT - 1) (by omega)
  rw [hcongr] at hl
  obtain ⟨h1, h2⟩ := nfArgmin_some hn (fun f => V f (a.nT - 1))
  refine ⟨_, h1, hl, fun q hq => ?_⟩
  obtain ⟨p, hp, hpe, hpc⟩ := (bellman h0 hrec (a.nT - 1) le_rfl _ h1).2
  refine ⟨p, hp, hpe, ?_⟩
  have h3 := (bellman h0 hrec (a.nT - 1) le_rfl (q (a.nT - 1)) (hq _ le_rfl)).1 q hq rfl
  have h4 := h2 (q (a.nT - 1)) (hq _ le_rfl)
  rw [hpc]
  linarith

/-! ### The loop over ridges -/

theorem ridgeLoop_spec (a : RidgeArgs) (s : RidgeSched) (n : ℕ) : ∀ (i0 : ℕ) (E : ℕ → ℕ → ℝ) (out : List Ridge),
    ridgeLoop a s i0 n E = out → out.length = n ∧ ∀ k, ∀ h : k < out.length,
      let Ek : ℕ → ℕ → ℝ := fun f t =>
        if ∃ j, ∃ h : j < out.length, j < k ∧ Spec.Cleared a ((out[j]).idx t) f then 0 else E f t
      (out[k]).idx = ridgeTrack a s (i0 + k) Ek ∧ (∀ t, (out[k]).f t = a.scales ((out[k]).idx t)) ∧
        ∀ t, (out[k]).e t = Ek ((out[k]).idx t) t := by
  induction n with
  | zero =>
    intro i0 E out h
    simp only [ridgeLoop] at h
    subst h
    simp
  | succ n ih =>
    intro i0 E out h
    simp only [ridgeLoop] at h
    obtain ⟨h1, h2⟩ := ih (i0 + 1) (ridgeZero a (ridgeTrack a s i0 E) E) _ rfl
    subst h
    refine ⟨by simp [h1], fun k hk => ?_⟩
    cases k with
    | zero =>
      simp
    | succ k =>
      have hk' : k < (ridgeLoop a s (i0 + 1) n (ridgeZero a (ridgeTrack a s i0 E) E)).length := by
        simpa using hk
      have := h2 k hk'
      simp only [List.getElem_cons_succ, show i0 + (k + 1) = i0 + 1 + k by omega] at this ⊢
      have hfun : (fun (f t : ℕ) => if ∃ j, ∃ h : j < (ridgeLoop a s (i0 + 1) n
            (ridgeZero a (ridgeTrack a s i0 E) E)).length, j < k ∧
            Spec.Cleared a (((ridgeLoop a s (i0 + 1) n (ridgeZero a (ridgeTrack a s i0 E) E))[j]).idx t) f then 0
          else ridgeZero a (ridgeTrack a s i0 E) E f t) =
          fun f t => if ∃ j, ∃ h : j < (⟨ridgeTrack a s i0 E, fun t => a.scales (ridgeTrack a s i0 E t),
            fun t => E (ridgeTrack a s i0 E t) t⟩ ::
            ridgeLoop a s (i0 + 1) n (ridgeZero a (ridgeTrack a s i0 E) E) : List Ridge).length, j < k + 1 ∧
            Spec.Cleared a (((⟨ridgeTrack a s i0 E, fun t => a.scales (ridgeTrack a s i0 E t),
            fun t => E (ridgeTrack a s i0 E t) t⟩ ::
            ridgeLoop a s (i0 + 1) n (ridgeZero a (ridgeTrack a s i0 E) E) : List Ridge)[j]).idx t) f then 0
          else E f t := by
        funext f t
        rw [ridgeZero_eq]
        by_cases hc : Spec.Cleared a (ridgeTrack a s i0 E t) f
        · rw [if_pos hc]
          rw [if_pos (⟨0, by simp, by omega, by simpa using hc⟩ : ∃ j, ∃ h : j < (_ :: _ : List Ridge).length, _ ∧ _)]
          split <;> rfl
        · rw [if_neg hc]
          congr 1
          apply propext
          constructor
          · rintro ⟨j, hj, hjk, hcl⟩
            exact ⟨j + 1, by simpa using hj, by omega, by simpa using hcl⟩
          · rintro ⟨j, hj, hjk, hcl⟩
            cases j with
            | zero => exact absurd (by simpa using hcl) hc
            | succ j => exact ⟨j, by simpa using hj, by omega, by simpa using hcl⟩
      have h3 := this.2.2
      rw [hfun] at this
      exact ⟨this.1, this.2.1, fun t => (h3 t).trans (congrFun (congrFun hfun _) t)⟩

/-- Everything `extract_ridges` returns, in terms of the remaining energy. -/
theorem extract_spec {a : RidgeArgs} {s : RidgeSched} {out : List Ridge} (h : extractRidges a s = .ok out) :
    out.length = a.nRidges ∧ (0 < out.length → 2 ≤ a.nF) ∧ ∀ k, ∀ h : k < out.length,
      (out[k]).idx = ridgeTrack a s k (Spec.remaining a out k) ∧ (∀ t, (out[k]).f t = a.scales ((out[k]).idx t)) ∧
        ∀ t, (out[k]).e t = Spec.remaining a out k ((out[k]).idx t) t := by
  unfold extractRidges at h
  split at h
  · next h0 =>
    simp only [Except.ok.injEq] at h
    subst h
    simp [h0]
  · split at h
    · simp at h
    · split at h
      · simp at h
      · next h1 h2 h3 =>
        simp only [Except.ok.injEq] at h
        obtain ⟨g1, g2⟩ := ridgeLoop_spec a s _ _ _ _ h
        refine ⟨g1, fun _ => by omega, fun k hk => ?_⟩
        have := g2 k hk
        rw [Nat.zero_add] at this
        exact this

theorem remaining_nonneg (a : RidgeArgs) (out : List Ridge) (i f t : ℕ) : 0 ≤ Spec.remaining a out i f t := by
  unfold Spec.remaining
  split
  · exact le_rfl
  · positivity

end Ssq
