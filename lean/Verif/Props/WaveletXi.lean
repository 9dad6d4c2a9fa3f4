import Verif.Model.WaveletXi
import Verif.Lemmas.Xifn
import Verif.Lemmas.PyM
import Mathlib.Tactic.FieldSimp
import Mathlib.Tactic.Linarith

/-!
# C143, C144: the frequencies of a `Wavelet`
-/
namespace Ssq

namespace Spec

/-- `xi` is the frequency axis of `n` samples: `0, 1, …, n/2, …, -1` in units of `2π/n`. -/
def AxisOf (xi : List ℝ) (n : ℤ) : Prop :=
  1 ≤ n ∧ (xi.length : ℤ) = n ∧ ∀ k : ℕ, (k : ℤ) < n →
    xi.getD k 0 = 2 * Real.pi / n * (if 2 * (k : ℤ) ≤ n then (k : ℝ) else (k : ℝ) - n)

end Spec
open Spec

theorem xifn_axis (n : ℤ) (hn : 1 ≤ n) : AxisOf (xifn 1 n.toNat) n := by
  refine ⟨hn, by rw [xifn_length]; omega, fun k hk => ?_⟩
  rw [xifn_getD _ _ _ (by omega)]
  have h1 : ((n.toNat : ℕ) : ℝ) = n := by
    have : ((n.toNat : ℕ) : ℤ) = n := by omega
    exact_mod_cast congrArg (Int.cast : ℤ → ℝ) this
  rw [h1]
  by_cases h : 2 * (k : ℤ) ≤ n
  · rw [if_pos h, if_pos (by omega)]
    push_cast; ring
  · rw [if_neg h, if_neg (by omega)]
    push_cast; rw [h1]; ring

/-- C143 in full: whatever was assigned to `wavelet.N`, `wavelet.xi` is the frequency axis of `wavelet.N` samples. -/
def C143_full : Prop := ∀ (N : ℤ) (s : XiSt), initN N = .ok s → ∀ h : List ℤ, AxisOf (setNs s h).xi (setNs s h).N

theorem initN_ok {N : ℤ} {s : XiSt} : initN N = .ok s ↔ 1 ≤ N ∧ s = ⟨N, xifn 1 N.toNat⟩ := by
  unfold initN setN xifnInt
  by_cases h1 : N < 0
  · simp [h1]; omega
  · by_cases h2 : N = 0
    · simp [h2]
    · simp only [if_neg h1, if_neg h2, Except.ok.injEq]
      exact ⟨fun h => ⟨by omega, h.symm⟩, fun h => h.2.symm⟩

/-- **C143**, which lengths are refused, and how. -/
theorem C143_refused (s : XiSt) (v : ℤ) (e : PyErr) :
    (setN s v).2 = .error e ↔ v < 0 ∧ e = .valueError ∨ v = 0 ∧ e = .zeroDivisionError := by
  unfold setN xifnInt
  by_cases h1 : v < 0
  · simp only [if_pos h1, Except.error.injEq]
    constructor
    · rintro rfl; exact .inl ⟨h1, rfl⟩
    · rintro (⟨-, rfl⟩ | ⟨h, -⟩)
      · rfl
      · omega
  · by_cases h2 : v = 0
    · simp only [if_neg h1, if_pos h2, Except.error.injEq]
      constructor
      · rintro rfl; exact .inr ⟨h2, rfl⟩
      · rintro (⟨h, -⟩ | ⟨-, rfl⟩)
        · omega
        · rfl
    · simp only [if_neg h1, if_neg h2]
      constructor
      · intro h; exact nomatch h
      · rintro (⟨h, -⟩ | ⟨h, -⟩) <;> omega

theorem setNs_state (s : XiSt) (h : List ℤ) :
    (setNs s h).N = h.getLast?.getD s.N ∧ (setNs s h).xi = ((h.filter fun v => decide (1 ≤ v)).getLast?.map fun v => xifn 1 v.toNat).getD s.xi := by
  induction h using List.reverseRecOn with
  | nil => simp [setNs]
  | append_singleton h v ih =>
    have e : setNs s (h ++ [v]) = (setN (setNs s h) v).1 := by simp [setNs]
    rw [e, List.getLast?_append, List.filter_append]
    unfold setN xifnInt
    by_cases h1 : v < 0
    · simp [h1, ih.2, show ¬ 1 ≤ v by omega]
    · by_cases h2 : v = 0
      · simp [h2, ih.2]
      · simp [h1, h2, show 1 ≤ v by omega]

/-- **C143**, the whole truth: after any history of assignments, refused ones included, `wavelet.N` is what was assigned last, and `wavelet.xi` is the frequency axis
of the last length that was not refused. -/
theorem C143_history (N : ℤ) (s : XiSt) (hs : initN N = .ok s) (h : List ℤ) :
    (setNs s h).N = (N :: h).getLast (by simp) ∧
      ∃ n ∈ N :: h, AxisOf (setNs s h).xi n ∧ ((N :: h).filter fun v => decide (1 ≤ v)).getLast? = some n := by
  obtain ⟨hN, rfl⟩ := initN_ok.1 hs
  obtain ⟨a, b⟩ := setNs_state ⟨N, xifn 1 N.toNat⟩ h
  constructor
  · rw [a]
    cases h using List.reverseRecOn with
    | nil => rfl
    | append_singleton h v => simp [List.getLast_cons]
  · rw [b]
    have hf : (N :: h).filter (fun v => decide (1 ≤ v)) = N :: h.filter fun v => decide (1 ≤ v) := by
      rw [List.filter_cons_of_pos (by simpa using hN)]
    rw [hf]
    cases hl : (h.filter fun v => decide (1 ≤ v)).getLast? with
    | none =>
      rw [List.getLast?_eq_none_iff] at hl
      exact ⟨N, by simp, xifn_axis N hN, by rw [hl]; rfl⟩
    | some v =>
      have hmem := List.mem_of_getLast? hl
      rw [List.mem_filter] at hmem
      refine ⟨v, List.mem_cons_of_mem _ hmem.1, xifn_axis v (by simpa using hmem.2), ?_⟩
      rw [List.getLast?_cons, hl]; rfl

/-- **C143** where it holds: the last assignment was not refused. -/
theorem C143_partial (N : ℤ) (s : XiSt) (hs : initN N = .ok s) (h : List ℤ) (hl : 1 ≤ (N :: h).getLast (by simp)) :
    AxisOf (setNs s h).xi (setNs s h).N := by
  obtain ⟨a, n, -, c, d⟩ := C143_history N s hs h
  rw [a]
  have : ((N :: h).filter fun v => decide (1 ≤ v)).getLast? = some ((N :: h).getLast (by simp)) := by
    have e : N :: h = (N :: h).dropLast ++ [(N :: h).getLast (by simp)] := (List.dropLast_append_getLast (by simp)).symm
    generalize (N :: h).getLast (by simp) = v at *
    rw [e, List.filter_append]
    simp [hl]
  rw [this] at d
  rw [Option.some.inj d]; exact c

theorem C143_refuted : ¬ C143_full := fun h => by
  have := (h 4 _ (initN_ok.2 ⟨by norm_num, rfl⟩) [0]).1
  simp [setNs, setN, xifnInt] at this

/-- The hypotheses of `C143_partial` hold with a refused assignment in between. -/
example : ∃ s, initN 4 = .ok s ∧ (setN s 0).2 = .error .zeroDivisionError ∧ AxisOf (setNs s [0, -3, 8]).xi 8 := by
  refine ⟨_, initN_ok.2 ⟨by norm_num, rfl⟩, (C143_refused _ 0 _).2 (.inr ⟨rfl, rfl⟩), ?_⟩
  exact C143_partial 4 _ (initN_ok.2 ⟨by norm_num, rfl⟩) [0, -3, 8] (by norm_num)

/-! ## C144 -/

namespace Spec

/-- The scales in an argument, and the dimensions it has. -/
def scalesOf : XScale → List ℝ
  | .none => [1]
  | .num s => [s]
  | .arr0 s => [s]
  | .arr1 l => l
  | .arr2 _ rows => rows.flatten

/-- A two-dimensional argument has rows of the length it says. -/
def WellFormed : XScale → Prop
  | .arr2 m rows => ∀ row ∈ rows, row.length = m
  | _ => True

/-- The frequencies of the axis times each scale, one row per scale. -/
noncomputable def scaledRows (scales xi : List ℝ) : List (List ℝ) := scales.map fun s => xi.map fun x => s * x

/-- The rows of a result: a one-dimensional result is one row. -/
def rowsOf : XiOut → List (List ℝ)
  | .d1 l => [l]
  | .d2 rows => rows

end Spec

/-- C144 in full: whenever frequencies are returned there is one row for each scale, and it is the axis times that scale. -/
def C144_full : Prop := ∀ (scale : XScale) (xi : List ℝ) (out : XiOut), WellFormed scale → xi ≠ [] → waveletXifn scale xi = .ok out →
  rowsOf out = scaledRows (scalesOf scale) xi

theorem bcast_one (s : ℝ) (xi : List ℝ) : bcast [s] xi = .ok (xi.map fun x => s * x) := by
  unfold bcast
  split
  · rename_i h
    cases xi with
    | nil => simp at h
    | cons x t =>
      cases t with
      | nil => simp
      | cons y t => simp at h
  · rfl

/-- **C144** for `None`, numbers and arrays of one dimension with two or more entries. -/
theorem C144_partial (xi : List ℝ) :
    waveletXifn .none xi = .ok (.d1 xi) ∧
    (∀ s, waveletXifn (.num s) xi = .ok (.d1 (xi.map fun x => s * x))) ∧
    (∀ s, waveletXifn (.arr1 [s]) xi = .ok (.d1 (xi.map fun x => s * x))) ∧
    (∀ l : List ℝ, 2 ≤ l.length → waveletXifn (.arr1 l) xi = .ok (.d2 (scaledRows l xi))) ∧
    (∀ l : List ℝ, l ≠ [] → waveletXifn (.arr2 1 (l.map fun s => [s])) xi = .ok (.d2 (scaledRows l xi))) := by
  refine ⟨by simp [waveletXifn], fun s => rfl, fun s => ?_, fun l hl => ?_, fun l hl => ?_⟩
  · simp [waveletXifn, bcast_one, Except.map]
  · simp [waveletXifn, scaledRows, show 1 < l.length by omega]
  · unfold waveletXifn
    simp only [ne_eq, not_true, and_false, if_false, List.map_eq_nil_iff, hl]
    have : ∀ l : List ℝ, (l.map fun s => [s]).mapM (fun row => bcast row xi) = .ok (scaledRows l xi) := by
      intro l
      induction l with
      | nil => rfl
      | cons s t ih =>
        rw [List.map_cons, List.mapM_cons, bcast_one, ok_bind, ih, ok_bind]
        rfl
    rw [this]; rfl

/-- **C144**, several rows and several columns are refused. -/
theorem C144_refuses (m : ℕ) (rows : List (List ℝ)) (xi : List ℝ) (hr : 2 ≤ rows.length) (hm : m ≠ 1) :
    waveletXifn (.arr2 m rows) xi = .error .valueError := by
  simp [waveletXifn, show 1 < rows.length by omega, hm]

/-- **C144**, a single row of scales is not refused if it is as long as the axis: every frequency is multiplied by another scale. -/
theorem C144_row (row xi : List ℝ) (h : row.length = xi.length) :
    waveletXifn (.arr2 row.length [row]) xi = .ok (.d2 [List.zipWith (fun s x => s * x) row xi]) := by
  simp [waveletXifn, bcast, h, Except.map, List.mapM_cons, List.mapM_nil, bind, Except.bind, pure, Except.pure]

/-- **C144**, a single row of scales of any other length, two or more, is refused unless there is one frequency. -/
theorem C144_row_refused (row xi : List ℝ) (h : row.length ≠ xi.length) (h2 : 2 ≤ row.length) (h1 : xi.length ≠ 1) :
    waveletXifn (.arr2 row.length [row]) xi = .error .valueError := by
  have : bcast row xi = .error .valueError := by
    unfold bcast
    rw [if_neg h]
    split
    · rename_i s; simp at h2
    · rename_i x _ _; simp at h1
    · rfl
  simp [waveletXifn, Except.map, List.mapM_cons, this, bind, Except.bind]

theorem C144_refuted : ¬ C144_full := fun h => by
  have := h (.arr2 2 [[1, 2]]) [0, 1] _ (by simp [WellFormed]) (by simp) (C144_row [1, 2] [0, 1] rfl)
  simp [rowsOf, scaledRows, scalesOf] at this

/-- An array without dimensions, as `np.asarray` makes of a number, is a TypeError. -/
theorem C144_zero_dim (s : ℝ) (xi : List ℝ) : waveletXifn (.arr0 s) xi = .error .typeError := rfl

/-- `C144_row` and `C144_row_refused` apply. -/
example : ([1, 2] : List ℝ).length = ([0, 1] : List ℝ).length ∧ ([1, 2] : List ℝ).length ≠ ([0, 1, 2] : List ℝ).length := by simp

end Ssq
