import Verif.Props.Ridge

/-!
# C196: ridges are peeled off one by one (ssqueezepy/ridge_extraction.py:113-146)
-/
namespace Ssq

namespace Spec
open Classical

/-- The transform with the cells around a ridge set to zero. -/
noncomputable def peeled (a : RidgeArgs) (r : ℕ → ℕ) (f t : ℕ) : ℂ := if Cleared a (r t) f then 0 else a.Tf f t

/-- The orders of the parallel iterations from the second ridge on. -/
def laterSched (s : RidgeSched) : RidgeSched := ⟨fun i => s.fw (i + 1), fun i => s.bw (i + 1)⟩

end Spec

theorem ridgeLoop_take (a : RidgeArgs) (p : ℕ) (s : RidgeSched) (n m i : ℕ) (h : n ≤ m) (E : ℕ → ℕ → ℝ) :
    (ridgeLoop { a with nRidges := p } s i m E).take n = ridgeLoop a s i n E := by
  induction n generalizing m i E with
  | zero => simp [ridgeLoop]
  | succ n ih =>
    obtain ⟨m, rfl⟩ : ∃ k, m = k + 1 := ⟨m - 1, by omega⟩
    simp only [ridgeLoop, List.take_succ_cons]
    rw [ih m (i + 1) (by omega)]
    rfl

/-- **C196.** With the same order of the parallel iterations, the first `n` of `m` ridges are the `n` ridges found when only
`n` are asked for: their rows, scales and energies. -/
theorem C196_prefix (a : RidgeArgs) (s : RidgeSched) (n m : ℕ) (h0 : 0 < n) (h : n ≤ m) :
    extractRidges { a with nRidges := n } s = (extractRidges { a with nRidges := m } s).map (List.take n) := by
  unfold extractRidges
  simp only
  rw [if_neg (by omega : ¬ n = 0), if_neg (by omega : ¬ m = 0)]
  split
  · rfl
  · split
    · rfl
    · simp only [Except.map]
      rw [ridgeLoop_take { a with nRidges := n } m s n m 0 h]

theorem ridgeLoop_count (a : RidgeArgs) (p : ℕ) (s : RidgeSched) (n i : ℕ) (E : ℕ → ℕ → ℝ) :
    ridgeLoop { a with nRidges := p } s i n E = ridgeLoop a s i n E := by
  induction n generalizing i E with
  | zero => simp [ridgeLoop]
  | succ n ih =>
    simp only [ridgeLoop]
    rw [ih]
    rfl

theorem ridgeLoop_later (a : RidgeArgs) (T : ℕ → ℕ → ℂ) (p : ℕ) (s : RidgeSched) (n i : ℕ) (E : ℕ → ℕ → ℝ) :
    ridgeLoop { a with Tf := T, nRidges := p } (Spec.laterSched s) i n E = ridgeLoop a s (i + 1) n E := by
  induction n generalizing i E with
  | zero => simp [ridgeLoop]
  | succ n ih =>
    simp only [ridgeLoop]
    rw [ih]
    rfl

/-- **C196.** The ridges after the first are the ridges of the transform whose cells around the first ridge are set to zero. -/
theorem C196_peel (a : RidgeArgs) (s : RidgeSched) (n : ℕ) (out : List Ridge)
    (h : extractRidges { a with nRidges := n + 1 } s = .ok out) :
    ∃ r rest, out = r :: rest ∧ extractRidges { a with nRidges := 1 } s = .ok [r] ∧
      extractRidges { a with Tf := Spec.peeled a r.idx, nRidges := n } (Spec.laterSched s) = .ok rest := by
  unfold extractRidges at h ⊢
  simp only [Nat.succ_ne_zero, if_false] at h
  split at h
  · cases h
  · next hF =>
    split at h
    · cases h
    · next hF1 =>
      simp only [Except.ok.injEq, ridgeLoop] at h
      refine ⟨_, _, h.symm, ?_, ?_⟩
      · simp only [one_ne_zero, if_false, ridgeLoop]
        rw [if_neg hF, if_neg hF1]
        rfl
      · simp only
        rw [if_neg hF, if_neg hF1]
        split
        · next h0 => subst h0; simp [ridgeLoop]
        · rw [ridgeLoop_later a, ridgeLoop_count a (n + 1)]
          congr 2
          funext f t
          rw [ridgeZero_eq]
          unfold Spec.peeled
          by_cases hc : Spec.Cleared a (ridgeTrack { a with nRidges := n + 1 } s 0 (fun f t => ‖a.Tf f t‖ ^ 2) t) f
          · rw [if_pos hc, if_pos (show Spec.Cleared { a with nRidges := n + 1 } _ _ from hc)]
            simp
          · rw [if_neg hc, if_neg (show ¬ Spec.Cleared { a with nRidges := n + 1 } _ _ from hc)]

/-- Two ridges of the three-row example. -/
example (s : RidgeSched) : ∃ r r', extractRidges exRidge3 s = .ok [r, r'] ∧
    extractRidges { exRidge3 with nRidges := 1 } s = .ok [r] ∧
    extractRidges { exRidge3 with Tf := Spec.peeled exRidge3 r.idx, nRidges := 1 } (Spec.laterSched s) = .ok [r'] := by
  obtain ⟨r, r', hr⟩ := exRidge3_ok s
  obtain ⟨u, rest, h1, h2, h3⟩ := C196_peel exRidge3 s 1 [r, r'] hr
  simp only [List.cons.injEq] at h1
  obtain ⟨rfl, rfl⟩ := h1
  exact ⟨r, r', hr, h2, h3⟩

end Ssq
