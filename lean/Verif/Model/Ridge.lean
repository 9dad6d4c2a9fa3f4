import Verif.Model.Squeeze

/-!
# Ridge extraction — ssqueezepy/ridge_extraction.py

Exact reals, plus one extra value for NaN, which the code produces from columns without energy. Matrices are functions
of row and column with explicit sizes. The `prange` loops are given by a schedule: the order in which the iterations
of each parallel loop take effect. The serial variant is the schedule in ascending order.
-/
namespace Ssq

/-- A float that may be NaN (`none`). (ssqueezepy/ridge_extraction.py:149-228.) -/
abbrev NF := Option ℝ

/-- Sum of floats: NaN if either is. (ssqueezepy/ridge_extraction.py:170-184.) -/
noncomputable def nfAdd : NF → NF → NF
  | some a, some b => some (a + b)
  | _, _ => none

/-- Difference of floats. (ssqueezepy/ridge_extraction.py:207-228.) -/
noncomputable def nfSub : NF → NF → NF
  | some a, some b => some (a - b)
  | _, _ => none

open Classical in
/-- `np.amin` of a non-empty row: NaN if any element is. (ssqueezepy/ridge_extraction.py:174, 182.) -/
noncomputable def nfMin (l : List NF) : NF :=
  if none ∈ l then none else (l.map fun x => x.getD 0).min?

open Classical in
/-- `np.argmin` of a non-empty row: the first NaN if any, otherwise the first minimum. (ssqueezepy/ridge_extraction.py:164.) -/
noncomputable def nfArgmin (l : List NF) : ℕ :=
  if none ∈ l then l.findIdx fun x => x.isNone
  else l.findIdx fun x => decide (∀ y ∈ l, x.getD 0 ≤ y.getD 0)

open Classical in
/-- `abs(a - b) < eps`: false if either is NaN. (ssqueezepy/ridge_extraction.py:207-228.) -/
noncomputable def nfClose (eps : ℝ) (a b : NF) : Bool :=
  match nfSub a b with
  | some d => decide (|d| < eps)
  | none => false

/-- A penalised-energy matrix. (ssqueezepy/ridge_extraction.py:149-228.) -/
abbrev RidgeMat := ℕ → ℕ → NF

/-- One iteration of the loop over `idx_freq` — ssqueezepy/ridge_extraction.py:173-176 and 181-184 (the body is the same
in the serial and in the parallel variant). -/
noncomputable def ridgeFwStep (nF : ℕ) (P : ℕ → ℕ → ℝ) (t : ℕ) (pe : RidgeMat) (f : ℕ) : RidgeMat :=
  fun f' t' =>
    if f' = f ∧ t' = t then
      nfAdd (pe f t) (nfMin ((List.range nF).map fun g : ℕ => nfAdd (pe g (t - 1)) (some (P f g))))
    else pe f' t'

/-- `__accumulated_penalty_energy_fw` / `_fwp` — ssqueezepy/ridge_extraction.py:170-184. `sched t` is the order of the
iterations at time `t`. -/
noncomputable def ridgeFw (nF nT : ℕ) (P : ℕ → ℕ → ℝ) (sched : ℕ → List ℕ) (pe : RidgeMat) : RidgeMat :=
  (List.range (nT - 1)).foldl (fun pe k => (sched (k + 1)).foldl (ridgeFwStep nF P (k + 1)) pe) pe

/-- The initial ridge: `np.unravel_index(np.argmin(penalized_energy, axis=0), penalized_energy.shape)[1]` —
ssqueezepy/ridge_extraction.py:164-165. The row of the minimum is read as a flat index into an array of `nT` columns,
and its column is kept: the remainder modulo `nT`. -/
noncomputable def ridgeInit (nF nT : ℕ) (pe : RidgeMat) : ℕ → ℕ :=
  fun t => nfArgmin ((List.range nF).map fun f : ℕ => pe f t) % nT

/-- One iteration of the loop over `idx_freq` — ssqueezepy/ridge_extraction.py:213-217 and 228-232. -/
noncomputable def ridgeBwStep (P : ℕ → ℕ → ℝ) (eps : ℝ) (pe : RidgeMat) (t : ℕ) (val : NF) (r : ℕ → ℕ) (f : ℕ) :
    ℕ → ℕ :=
  if nfClose eps val (nfAdd (pe f t) (some (P (r (t + 1)) f))) then Function.update r t f else r

/-- One time step of the backward pass. (ssqueezepy/ridge_extraction.py:207-228.) -/
noncomputable def ridgeBwTime (P : ℕ → ℕ → ℝ) (eps : ℝ) (e pe : RidgeMat) (order : List ℕ) (t : ℕ) (r : ℕ → ℕ) :
    ℕ → ℕ :=
  order.foldl (ridgeBwStep P eps pe t (nfSub (pe (r (t + 1)) (t + 1)) (e (r (t + 1)) (t + 1)))) r

/-- `__accumulated_penalty_energy_bw` / `_bwp` — ssqueezepy/ridge_extraction.py:207-232: times `nT - 2, …, 0`. -/
noncomputable def ridgeBw (nT : ℕ) (P : ℕ → ℕ → ℝ) (eps : ℝ) (e pe : RidgeMat) (sched : ℕ → List ℕ) (r : ℕ → ℕ) :
    ℕ → ℕ :=
  (List.range (nT - 1)).foldl (fun r k => ridgeBwTime P eps e pe (sched (nT - 2 - k)) (nT - 2 - k) r) r

/-- Arguments of `extract_ridges`. `eps` is the machine epsilon of `Tf`'s dtype. `bw` is an integer. One positive
scale per row is assumed. (ssqueezepy/ridge_extraction.py:11-13.) -/
structure RidgeArgs where
  nF : ℕ
  nT : ℕ
  Tf : ℕ → ℕ → ℂ
  scales : ℕ → ℝ
  penalty : ℝ := 2
  nRidges : ℕ := 1
  bw : ℤ := 15
  isCwt : Bool := true
  eps : ℝ

/-- `generate_penalty_matrix` on the log scales for 'cwt', on the scales otherwise —
ssqueezepy/ridge_extraction.py:78-90, 117-119, 127. -/
noncomputable def ridgePenalty (a : RidgeArgs) (f g : ℕ) : ℝ :=
  let s : ℕ → ℝ := fun i => if a.isCwt then Real.log (a.scales i) else a.scales i
  a.penalty * (s f - s g) ^ 2

/-- `energy.max(axis=0)` — ssqueezepy/ridge_extraction.py:130. -/
noncomputable def colMax (nF : ℕ) (E : ℕ → ℕ → ℝ) (t : ℕ) : ℝ :=
  (((List.range nF).map fun f : ℕ => E f t).max?).getD 0

/-- `-np.log(energy / energy_max + eps)` — ssqueezepy/ridge_extraction.py:131. `0 / 0` is NaN; energies are never
negative, so a zero maximum makes the whole column NaN. -/
noncomputable def ridgeCost (a : RidgeArgs) (E : ℕ → ℕ → ℝ) : RidgeMat :=
  fun f t => if colMax a.nF E t = 0 then none else some (-Real.log (E f t / colMax a.nF E t + a.eps))

/-- `energy[int(ridx - bw):int(ridx + bw), time_idx] = 0` — ssqueezepy/ridge_extraction.py:141-143: the rows of a Python
slice, whose negative bounds count from the end. -/
noncomputable def ridgeZero (a : RidgeArgs) (r : ℕ → ℕ) (E : ℕ → ℕ → ℝ) : ℕ → ℕ → ℝ :=
  fun f t => if sliceBound a.nF ((r t : ℤ) - a.bw) ≤ f ∧ f < sliceBound a.nF ((r t : ℤ) + a.bw) then 0 else E f t

/-- Orders of the parallel iterations: for each ridge and time, in the forward and in the backward pass. (ssqueezepy/ridge_extraction.py:178-184, 218-228.) -/
structure RidgeSched where
  fw : ℕ → ℕ → List ℕ
  bw : ℕ → ℕ → List ℕ

/-- The serial variant. (ssqueezepy/ridge_extraction.py:170-176, 207-216.) -/
def serialSched (nF : ℕ) : RidgeSched := ⟨fun _ _ => List.range nF, fun _ _ => List.range nF⟩

/-- `fw_bw_ridge_tracking` — ssqueezepy/ridge_extraction.py:92-111, for ridge number `i`. -/
noncomputable def ridgeTrack (a : RidgeArgs) (s : RidgeSched) (i : ℕ) (E : ℕ → ℕ → ℝ) : ℕ → ℕ :=
  let e := ridgeCost a E
  let pe := ridgeFw a.nF a.nT (ridgePenalty a) (s.fw i) e
  ridgeBw a.nT (ridgePenalty a) a.eps e pe (s.bw i) (ridgeInit a.nF a.nT pe)

/-- One extracted ridge: rows, scales (or frequencies), energies, by time. (ssqueezepy/ridge_extraction.py:122-146.) -/
structure Ridge where
  idx : ℕ → ℕ
  f : ℕ → ℝ
  e : ℕ → ℝ

/-- The loop over ridges — ssqueezepy/ridge_extraction.py:129-143, from ridge `i`, `n` more ridges. -/
noncomputable def ridgeLoop (a : RidgeArgs) (s : RidgeSched) : ℕ → ℕ → (ℕ → ℕ → ℝ) → List Ridge
  | _, 0, _ => []
  | i, n + 1, E =>
    let r := ridgeTrack a s i E
    ⟨r, fun t => a.scales (r t), fun t => E (r t) t⟩ :: ridgeLoop a s (i + 1) n (ridgeZero a r E)

/-- `extract_ridges(..., get_params=True)` — ssqueezepy/ridge_extraction.py:11-146. No rows: the maximum of an empty axis
is a `ValueError`. One row: the penalty matrix is squeezed to a scalar, and numba rejects indexing it (its typing error
is modelled as `TypeError`). -/
noncomputable def extractRidges (a : RidgeArgs) (s : RidgeSched) : Py (List Ridge) :=
  if a.nRidges = 0 then .ok []
  else if a.nF = 0 then .error .valueError
  else if a.nF = 1 then .error .typeError
  else .ok (ridgeLoop a s 0 a.nRidges fun f t => ‖a.Tf f t‖ ^ 2)

end Ssq
