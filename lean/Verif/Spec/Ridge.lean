import Verif.Model.Ridge

/-!
# Specification of ridges

What a ridge is supposed to be, in terms of the arguments and of what `extract_ridges` returns.
-/
namespace Ssq.Spec
open Classical

/-- A row sequence over the times `0 … T`: every entry is a valid row. -/
def IsPath (nF T : ℕ) (q : ℕ → ℕ) : Prop := ∀ t ≤ T, q t < nF

/-- Cost of a row sequence over the times `0 … T`: the cost of every visited cell plus the penalty of every jump. -/
noncomputable def pathCost (c : ℕ → ℕ → ℝ) (P : ℕ → ℕ → ℝ) (q : ℕ → ℕ) (T : ℕ) : ℝ :=
  ∑ t ∈ Finset.range (T + 1), c (q t) t + ∑ t ∈ Finset.range T, P (q (t + 1)) (q t)

/-- Penalty of a jump between two rows: `penalty` times the squared difference of the (log, for 'cwt') scales. -/
noncomputable def jump (a : RidgeArgs) (f g : ℕ) : ℝ :=
  if a.isCwt then a.penalty * (Real.log (a.scales f) - Real.log (a.scales g)) ^ 2
  else a.penalty * (a.scales f - a.scales g) ^ 2

/-- Energy of the strongest row of a column. -/
noncomputable def peak (nF : ℕ) (E : ℕ → ℕ → ℝ) (t : ℕ) : ℝ := sSup {x | ∃ f < nF, x = E f t}

/-- Cost of a cell: minus the log of its energy relative to the strongest of its column. -/
noncomputable def cellCost (a : RidgeArgs) (E : ℕ → ℕ → ℝ) (f t : ℕ) : ℝ :=
  -Real.log (E f t / peak a.nF E t + a.eps)

/-- The rows the code clears around row `r`: a Python slice from `r - bw` to `r + bw`. -/
def Cleared (a : RidgeArgs) (r f : ℕ) : Prop :=
  (if (r : ℤ) - a.bw < 0 then (r : ℤ) - a.bw + a.nF else (r : ℤ) - a.bw) ≤ f ∧
    (f : ℤ) < (if (r : ℤ) + a.bw < 0 then (r : ℤ) + a.bw + a.nF else (r : ℤ) + a.bw) ∧ f < a.nF

/-- The energy left when ridge number `i` is tracked: cleared around every ridge returned before it. -/
noncomputable def remaining (a : RidgeArgs) (out : List Ridge) (i f t : ℕ) : ℝ :=
  if ∃ k, ∃ h : k < out.length, k < i ∧ Cleared a ((out[k]).idx t) f then 0 else ‖a.Tf f t‖ ^ 2

/-- Some row of the column has energy. -/
def Alive (nF : ℕ) (E : ℕ → ℕ → ℝ) (t : ℕ) : Prop := ∃ f < nF, 0 < E f t

/-- Every parallel loop runs each of its iterations once, in some order. -/
def ValidSched (a : RidgeArgs) (s : RidgeSched) : Prop :=
  ∀ i t, (s.fw i t).Perm (List.range a.nF) ∧ (s.bw i t).Perm (List.range a.nF)

end Ssq.Spec

namespace Ssq.Spec

/-- Least cost of the row sequences that are at row `f` at time `t`. -/
noncomputable def best (a : RidgeArgs) (E : ℕ → ℕ → ℝ) (t f : ℕ) : ℝ :=
  sInf {x | ∃ q, IsPath a.nF t q ∧ q t = f ∧ x = pathCost (cellCost a E) (jump a) q t}

/-- Going through row `f` at time `t` on the way to row `r` at time `t + 1` costs less than `eps` more than the best
way to get there. -/
def NearBest (a : RidgeArgs) (E : ℕ → ℕ → ℝ) (t r f : ℕ) : Prop :=
  best a E t f + jump a r f + cellCost a E r (t + 1) < best a E (t + 1) r + a.eps

/-- No two different rows are near-best ways to the same cell. -/
def NoNearTies (a : RidgeArgs) (E : ℕ → ℕ → ℝ) : Prop :=
  ∀ t, t + 1 < a.nT → ∀ r < a.nF, ∀ f < a.nF, ∀ g < a.nF, NearBest a E t r f → NearBest a E t r g → f = g

end Ssq.Spec
