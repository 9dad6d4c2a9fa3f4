import Verif.Model.Scales
import Verif.Lemmas.Squeeze
import Verif.Lemmas.Grid
import Verif.Lemmas.PyM
import Mathlib.Data.List.GetD

/-! Helper lemmas about scales. -/
namespace Ssq

theorem logScales_length (nv : ℕ) (na p : ℤ) : (logScales nv na p).length = na.toNat := by
  simp [logScales]

theorem logScales_getElem {nv : ℕ} {na p : ℤ} {i : ℕ} (h : i < (logScales nv na p).length) :
    (logScales nv na p)[i] = (2 : ℝ) ^ (((p + (i : ℤ) : ℤ) : ℝ) / nv) := by
  simp [logScales]

theorem logScales_logb {nv : ℕ} {na p : ℤ} {i : ℕ} (h : i < (logScales nv na p).length) :
    Real.logb 2 (logScales nv na p)[i] = ((p + (i : ℤ) : ℤ) : ℝ) / nv := by
  rw [logScales_getElem, Real.logb_rpow (by norm_num) (by norm_num)]

theorem logScales_pos {nv : ℕ} {na p : ℤ} {i : ℕ} (h : i < (logScales nv na p).length) :
    0 < (logScales nv na p)[i] := by
  rw [logScales_getElem]; positivity

theorem logScales_geometric (nv : ℕ) (na p : ℤ) :
    Spec.Geometric (logScales nv na p) ((p : ℝ) / nv) (1 / nv) := by
  intro i h
  refine ⟨logScales_pos h, ?_⟩
  rw [logScales_logb h]; push_cast; ring

theorem logScales_lt {nv : ℕ} (hnv : 1 ≤ nv) {na p : ℤ} :
    (logScales nv na p).Pairwise (· < ·) := by
  rw [List.pairwise_iff_getElem]
  intro i j hi hj hij
  rw [logScales_getElem, logScales_getElem]
  apply Real.rpow_lt_rpow_of_exponent_lt (by norm_num)
  have : (0 : ℝ) < nv := by exact_mod_cast hnv
  apply div_lt_div_of_pos_right _ this
  exact_mod_cast (by omega)

theorem everyNth_eq (l : List ℝ) (s d : ℕ) (hd : 1 ≤ d) :
    everyNth l s d = (List.range ((l.length - s + d - 1) / d)).map fun i : ℕ => l.getD (s + i * d) 0 := by
  unfold everyNth
  rw [← List.filterMap_eq_map]
  apply List.filterMap_congr
  intro i hi
  have hlt : s + i * d < l.length := by
    have h1 := List.mem_range.mp hi
    have h2 := (Nat.le_div_iff_mul_le hd).mp (Nat.succ_le_of_lt h1)
    rw [Nat.succ_mul] at h2
    omega
  simp [List.getD, List.getElem?_eq_getElem hlt]

theorem everyNth_lt (l : List ℝ) (s d : ℕ) (hd : 1 ≤ d) {i : ℕ}
    (hi : i < (everyNth l s d).length) : s + i * d < l.length := by
  rw [everyNth_eq l s d hd, List.length_map, List.length_range] at hi
  have h2 := (Nat.le_div_iff_mul_le hd).mp (Nat.succ_le_of_lt hi)
  rw [Nat.succ_mul] at h2
  omega

theorem everyNth_getElem (l : List ℝ) (s d : ℕ) (hd : 1 ≤ d) {i : ℕ}
    (hi : i < (everyNth l s d).length) :
    (everyNth l s d)[i] = l[s + i * d]'(everyNth_lt l s d hd hi) := by
  have := everyNth_lt l s d hd hi
  simp only [everyNth_eq l s d hd, List.getElem_map, List.getElem_range]
  rw [List.getD_eq_getElem _ _ this]

theorem everyNth_length (l : List ℝ) (s d : ℕ) (hd : 1 ≤ d) :
    (everyNth l s d).length = (l.length - s + d - 1) / d := by
  rw [everyNth_eq l s d hd]; simp

/-- the next sample of the strided slice would be past the end -/
theorem everyNth_last (l : List ℝ) (s d : ℕ) (hd : 1 ≤ d) :
    l.length ≤ s + (everyNth l s d).length * d := by
  rw [everyNth_length l s d hd]
  have h := Nat.lt_div_mul_add (a := l.length - s + d - 1) (b := d) hd
  omega

theorem meanAbsDiff2_zero {l : List ℝ} {a d : ℝ} (h : ∀ i, ∀ hi : i < l.length, l[i] = a + i * d) :
    meanAbsDiff2 l = 0 := by
  unfold meanAbsDiff2
  rw [div_eq_zero_iff]; left
  apply list_sum_zero
  intro y hy
  rw [List.mem_map] at hy
  obtain ⟨i, hi, rfl⟩ := hy
  have hi' := List.mem_range.mp hi
  rw [List.getD_eq_getElem _ _ (by omega : i + 2 < l.length),
    List.getD_eq_getElem _ _ (by omega : i + 1 < l.length),
    List.getD_eq_getElem _ _ (by omega : i < l.length), h, h, h]
  push_cast
  rw [abs_eq_zero]; ring

theorem thLog_pos (dt : FDtype) : 0 < thLog dt := by
  rcases dt <;> simp only [thLog] <;> norm_num

theorem thTr_pos (dt : FDtype) : 0 < thTr dt := by
  rcases dt <;> simp only [thTr] <;> norm_num

theorem infer_geometric {dt : FDtype} (hdt : dt ≠ .other) {v : List ℝ} {a d : ℝ}
    (h : Spec.Geometric v a d) (h3 : 3 ≤ v.length) (hd : d ≠ 0) :
    inferScaletype dt v = .ok (.log, .int (roundHalfEven (1 / d))) := by
  unfold inferScaletype
  rw [if_neg hdt, if_neg (by omega), if_pos]
  · rw [List.getD_eq_getElem _ _ (by omega : 1 < v.length),
      List.getD_eq_getElem _ _ (by omega : 0 < v.length), (h 0 (by omega)).2, (h 1 (by omega)).2]
    have e : a + ((1 : ℕ) : ℝ) * d - (a + ((0 : ℕ) : ℝ) * d) = d := by push_cast; ring
    simp only [e, if_neg hd]
  · refine ⟨fun x hx => ?_, ?_⟩
    · obtain ⟨i, hi, rfl⟩ := List.getElem_of_mem hx
      exact (h i hi).1
    · rw [meanAbsDiff2_zero (a := a * Real.log 2) (d := d * Real.log 2)]
      · exact thLog_pos dt
      · intro i hi
        have hi' : i < v.length := by simpa using hi
        have := (h i hi').2
        rw [Real.logb, div_eq_iff (Real.log_pos (by norm_num)).ne'] at this
        simp only [List.getElem_map, this]; ring

theorem findDownsampling_lt {wv : ScaleWavelet} {s : List ℝ} {idx : ℕ}
    (h : findDownsampling wv s = .ok (some idx)) : idx + 7 < s.length := by
  unfold findDownsampling at h
  simp only at h
  split at h
  · simp at h
  · next hl =>
    unfold findDownsamplingScale at h
    simp only at h
    split at h
    · simp at h
    · simp only [Except.ok.injEq] at h
      split at h
      · next hi =>
        simp only [Option.some.injEq] at h
        simp only [List.length_map] at hi
        push Not at hl
        omega
      · simp at h

end Ssq
