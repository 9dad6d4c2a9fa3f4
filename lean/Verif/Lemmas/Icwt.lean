import Verif.Model.Cwt
import Verif.Lemmas.PyM
import Verif.Lemmas.Scales
import Verif.Lemmas.Grid
import Verif.Lemmas.Dft
import Verif.Spec.Squeeze
import Mathlib.Tactic.Linarith

/-!
# Lemmas on scale recognition and `icwt`
-/
namespace Ssq
open Finset

theorem processScales_arr_eq {sh : List ℕ} {d : FDtype} {v : List ℝ} (N N' : ℕ)
    (wv wv' : Option ScaleWavelet) (up up' : Bool) (ds ds' : ℕ) :
    processScales (.arr sh d v) N wv none up ds = processScales (.arr sh d v) N' wv' none up' ds' := by
  unfold processScales
  rfl

theorem positiveInteger_nat {n : ℕ} (hn : 1 ≤ n) : positiveInteger (((n : ℤ)) : ℚ) = .ok n := by
  unfold positiveInteger
  rw [if_pos ⟨by exact_mod_cast hn, by simp⟩]; simp

/-- A geometric grid with `n` voices per octave is recognised. -/
theorem process_geometric {dt : FDtype} (hdt : dt ≠ .other) {v : List ℝ} {a : ℝ} {n : ℕ} (hn : 1 ≤ n)
    (h : Spec.Geometric v a (1 / (n : ℝ))) (h3 : 3 ≤ v.length) {sh : List ℕ}
    (hsh : (sh.filter (· ≠ 1)).length = 1) (N : ℕ) (wv : Option ScaleWavelet) (up : Bool) (ds : ℕ) :
    processScales (.arr sh dt v) N wv none up ds = .ok (v, .log, v.length, .int n) := by
  have hn' : (0 : ℝ) < n := by exact_mod_cast hn
  have hi := infer_geometric hdt h h3 (one_div_ne_zero hn'.ne')
  rw [one_div_one_div] at hi
  have : roundHalfEven ((n : ℕ) : ℝ) = (n : ℤ) := by exact_mod_cast rhe_intCast (K := ℝ) (n : ℤ)
  rw [this] at hi
  unfold processScales
  simp only [hsh, ne_eq, not_true_eq_false, if_false, hi, ok_bind, false_and, positiveInteger_nat hn,
    pure_eq_ok]

/-- The per-scale number of voices of a two-segment grid. -/
noncomputable def nvTwo (len p : ℕ) (d0 d1 : ℝ) : List ℝ :=
  (List.range len).map fun i : ℕ => if i ≤ p then 1 / d0 else 1 / d1

theorem nvFromScales_two {th : ℝ} (hth : 0 < th) {v : List ℝ} {p : ℕ} {a d0 d1 : ℝ}
    (h : Spec.TwoSegment v p a d0 d1) (hne : d0 ≠ d1) :
    nvFromScales th v = .ok (nvTwo v.length p d0 d1) := by
  have hp1 := h.1
  have hp2 := h.2.1
  have hld : (List.range (v.length - 1)).map (fun i : ℕ =>
      1 / (Real.logb 2 (v.getD (i + 1) 1) - Real.logb 2 (v.getD i 1))) =
      (List.range (v.length - 1)).map fun i : ℕ => if i + 1 ≤ p then 1 / d0 else 1 / d1 := by
    apply List.map_congr_left
    intro i hi
    rw [List.mem_range] at hi
    rw [List.getD_eq_getElem _ _ (by omega : i + 1 < v.length), List.getD_eq_getElem _ _ (by omega : i < v.length),
      (h.2.2 (i + 1) (by omega)).2, (h.2.2 i (by omega)).2]
    by_cases h1 : i + 1 ≤ p
    · rw [if_pos h1, if_pos (by omega), if_pos h1]
      congr 1; push_cast; ring
    · rw [if_neg h1, if_neg h1]
      by_cases h2 : i ≤ p
      · rw [if_pos h2]
        have : i = p := by omega
        subst this
        congr 1; push_cast; ring
      · rw [if_neg h2]
        congr 1; push_cast; ring
  have hnv : ((List.range (v.length - 1)).map fun i : ℕ => if i + 1 ≤ p then 1 / d0 else 1 / d1).take 1 ++
      ((List.range (v.length - 1)).map fun i : ℕ => if i + 1 ≤ p then 1 / d0 else 1 / d1) =
      nvTwo v.length p d0 d1 := by
    unfold nvTwo
    apply List.ext_getElem
    · simp; omega
    · intro i h1 h2
      rcases i with _ | i
      · simp only [List.getElem_map, List.getElem_range]
        rw [List.getElem_append_left (by simp; omega)]
        simp only [List.getElem_take, List.getElem_map, List.getElem_range]
        rw [if_pos (by omega), if_pos (by omega)]
      · rw [List.getElem_append_right (by simp)]
        have : i + 1 - (List.take 1 ((List.range (v.length - 1)).map
            fun i : ℕ => if i + 1 ≤ p then 1 / d0 else 1 / d1)).length = i := by
          simp; omega
        simp only [this, List.getElem_map, List.getElem_range]
  unfold nvFromScales
  simp only [hld, hnv, transition_two hth h hne, ok_bind]
  have hlen : (nvTwo v.length p d0 d1).length = v.length := by simp [nvTwo]
  have hget : ∀ i < v.length, (nvTwo v.length p d0 d1).getD i 0 = if i ≤ p then 1 / d0 else 1 / d1 := by
    intro i hi
    unfold nvTwo
    rw [getD_map_range _ _ hi]
  have harg : argmaxL ((List.range ((nvTwo v.length p d0 d1).length - 1)).map fun i : ℕ =>
      |(nvTwo v.length p d0 d1).getD (i + 1) 0 - (nvTwo v.length p d0 d1).getD i 0|) = p := by
    have hval : ∀ i, ∀ hi : i < ((List.range ((nvTwo v.length p d0 d1).length - 1)).map fun i : ℕ =>
        |(nvTwo v.length p d0 d1).getD (i + 1) 0 - (nvTwo v.length p d0 d1).getD i 0|).length,
        ((List.range ((nvTwo v.length p d0 d1).length - 1)).map fun i : ℕ =>
        |(nvTwo v.length p d0 d1).getD (i + 1) 0 - (nvTwo v.length p d0 d1).getD i 0|)[i] =
        if i = p then |1 / d1 - 1 / d0| else 0 := by
      intro i hi
      simp only [List.length_map, List.length_range, hlen] at hi
      rw [List.getElem_map, List.getElem_range, hget _ (by omega), hget _ (by omega)]
      by_cases e : i = p
      · subst e
        rw [if_neg (by omega), if_pos le_rfl, if_pos rfl]
      · rw [if_neg e]
        by_cases h1 : i ≤ p
        · rw [if_pos (by omega), if_pos h1]; simp
        · rw [if_neg (by omega), if_neg h1]; simp
    have hpl : p < ((List.range ((nvTwo v.length p d0 d1).length - 1)).map fun i : ℕ =>
        |(nvTwo v.length p d0 d1).getD (i + 1) 0 - (nvTwo v.length p d0 d1).getD i 0|).length := by
      simp [hlen]; omega
    have hpos : 0 < |1 / d1 - 1 / d0| := by
      rw [abs_pos, sub_ne_zero]
      intro e
      rw [one_div, one_div, inv_inj] at e
      exact hne e.symm
    apply argmaxL_eq _ _ hpl
    · intro y hy
      obtain ⟨i, hi, rfl⟩ := List.getElem_of_mem hy
      rw [hval i hi, hval p hpl, if_pos rfl]
      split
      · exact le_rfl
      · exact hpos.le
    · intro i hi
      rw [hval i (by omega), hval p hpl, if_pos rfl, if_neg (by omega)]
      exact hpos
  rw [harg, if_pos rfl]
  rfl

/-- A two-segment grid is recognised, if its kink is above the tolerances. -/
theorem infer_two {dt : FDtype} (hdt : dt ≠ .other) {v : List ℝ} {p : ℕ} {a d0 d1 : ℝ}
    (h : Spec.TwoSegment v p a d0 d1) (hne : d0 ≠ d1)
    (hlog : ¬ meanAbsDiff2 (v.map Real.log) < thLog dt)
    (hlin : ¬ meanAbsDiff2 v < thLog dt * 1000) :
    inferScaletype dt v = .ok (.logPiecewise, .arr (nvTwo v.length p d0 d1)) := by
  have hth : 0 < thTr dt := by cases dt <;> norm_num [thTr]
  have hp1 := h.1
  have hp2 := h.2.1
  have hpos : ∀ x ∈ v, 0 < x := by
    intro x hx
    obtain ⟨i, hi, rfl⟩ := List.getElem_of_mem hx
    exact (h.2.2 i hi).1
  unfold inferScaletype
  rw [if_neg hdt, if_neg (by omega), if_neg (fun hc => hlog hc.2), if_neg hlin, if_neg (not_not.2 hpos),
    transition_two hth h hne]
  simp only [ok_bind, nvFromScales_two hth h hne, pure_eq_ok]

/-- The first segment of a two-segment grid. -/
theorem two_take {v : List ℝ} {p : ℕ} {a d0 d1 : ℝ} (h : Spec.TwoSegment v p a d0 d1) :
    Spec.Geometric (v.take (p + 1)) a d0 := by
  intro i hi
  have hi' : i < p + 1 ∧ i < v.length := by simpa using hi
  rw [List.getElem_take]
  have := h.2.2 i hi'.2
  rw [if_pos (by omega)] at this
  exact this

/-- The second segment of a two-segment grid. -/
theorem two_drop {v : List ℝ} {p : ℕ} {a d0 d1 : ℝ} (h : Spec.TwoSegment v p a d0 d1) :
    Spec.Geometric (v.drop (p + 1)) (a + p * d0 + d1) d1 := by
  intro i hi
  have hi' : i < v.length - (p + 1) := by simpa using hi
  rw [List.getElem_drop]
  have := h.2.2 (p + 1 + i) (by omega)
  rw [if_neg (by omega)] at this
  refine ⟨this.1, this.2.trans ?_⟩
  push_cast; ring

end Ssq
