import Verif.Model.Search
import Verif.Lemmas.Grid
import Verif.Props.FindClosest
import Mathlib.Tactic.FieldSimp
import Mathlib.Tactic.Ring
import Mathlib.Data.List.GetD

/-!
# C64: search helpers
-/
namespace Ssq

/-! ### `_min_neglect_idx` -/

theorem minNeglectLoop_spec (th : ℝ) : ∀ (arr : List ℝ) (i : ℕ) (last : Option ℕ), arr ≠ [] →
    ∃ k, minNeglectLoop th arr i last = .ok (i + k) ∧ ∃ h : k < arr.length,
      (∀ j, ∀ h : j < k, th ≤ arr[j]) ∧ (arr[k] < th ∨ (k + 1 = arr.length ∧ th ≤ arr[k])) := by
  intro arr
  induction arr with
  | nil => intro i last h; exact absurd rfl h
  | cons x xs ih =>
    intro i last _
    unfold minNeglectLoop
    by_cases hx : x < th
    · exact ⟨0, by simp [hx], by simp, by simp, by simp [hx]⟩
    · rw [if_neg hx]
      by_cases hxs : xs = []
      · subst hxs
        exact ⟨0, by simp [minNeglectLoop], by simp, by simp, by simp [not_lt.1 hx]⟩
      · obtain ⟨k, h1, h2, h3, h4⟩ := ih (i + 1) (some i) hxs
        refine ⟨k + 1, by rw [h1]; congr 1; omega, by simp [h2], ?_, ?_⟩
        · intro j hj
          rcases j with _ | j
          · simpa using not_lt.1 hx
          · simpa using h3 j (by omega)
        · rcases h4 with h4 | ⟨h4, h5⟩
          · exact .inl (by simpa using h4)
          · exact .inr ⟨by simp [h4], by simpa using h5⟩

/-- **C64** for `_min_neglect_idx` on a non-empty array: the first index below the threshold, else the last index. -/
theorem C64_min_neglect (arr : List ℝ) (th : ℝ) (h : arr ≠ []) :
    ∃ k, minNeglectIdx arr th = .ok k ∧ ∃ hk : k < arr.length,
      (∀ j, ∀ h : j < k, th ≤ arr[j]) ∧ (arr[k] < th ∨ (k + 1 = arr.length ∧ th ≤ arr[k])) := by
  obtain ⟨k, h1, h2⟩ := minNeglectLoop_spec th arr 0 none h
  exact ⟨k, by simpa [minNeglectIdx] using h1, h2⟩

/-- On an empty array it fails. -/
theorem C64_min_neglect_empty (th : ℝ) : minNeglectIdx [] th = .error .unboundLocalError := rfl

example : minNeglectIdx [3, 1, 0] 2 = .ok 1 := by
  norm_num [minNeglectIdx, minNeglectLoop]

/-! ### The search grid -/

namespace Spec

/-- The points searched: `step_start`, then one every `increment / steps_per_search`. -/
noncomputable def gridPt (stepStart stepSize : ℝ) (n : ℕ) (t : ℕ) : ℝ :=
  stepStart + t * ((searchIncrement n stepSize : ℝ) / n)

end Spec
open Spec

theorem searchInputs_length (a : ℝ) (inc : ℤ) (n idx : ℕ) : (searchInputs a inc n idx).length = n := by simp [searchInputs]

theorem searchInputs_get (a : ℝ) (inc : ℤ) (n idx k : ℕ) (hk : k < n) :
    (searchInputs a inc n idx)[k]'(by simp [searchInputs_length, hk]) = a + ((idx * n + k : ℕ) : ℝ) * ((inc : ℝ) / n) := by
  have hn : (n : ℝ) ≠ 0 := by
    have : 0 < n := by omega
    positivity
  simp only [searchInputs, List.getElem_map, List.getElem_range]
  push_cast
  field_simp
  ring

theorem argmaxL_first (l : List ℝ) (h : l ≠ []) (i : ℕ) (hi : i < argmaxL l) :
    l[i]'(lt_trans hi (argmaxL_lt l h)) < l[argmaxL l]'(argmaxL_lt l h) := by
  have hs := argmaxL_spec l h
  by_contra hn
  have := List.not_of_lt_findIdx (p := fun x => decide (∀ y ∈ l, y ≤ x)) (xs := l) hi
  exact of_decide_eq_false this fun y hy => le_trans (hs y hy) (not_lt.1 hn)

theorem argminL_first (l : List ℝ) (h : l ≠ []) (i : ℕ) (hi : i < argminL l) :
    l[argminL l]'(argminL_lt l h) < l[i]'(lt_trans hi (argminL_lt l h)) := by
  have hs := argminL_spec l h
  by_contra hn
  have := List.not_of_lt_findIdx (p := fun x => decide (∀ y ∈ l, x ≤ y)) (xs := l) hi
  exact of_decide_eq_false this fun y hy => le_trans (not_lt.1 hn) (hs y hy)

theorem rowMax_getElem (l : List ℝ) (h : l ≠ []) : rowMax l = l[argmaxL l]'(argmaxL_lt l h) := by
  unfold rowMax
  rw [List.getD_eq_getElem _ _ (argmaxL_lt l h)]

theorem le_rowMax (l : List ℝ) (y : ℝ) (hy : y ∈ l) : y ≤ rowMax l := by
  have h : l ≠ [] := List.ne_nil_of_mem hy
  rw [rowMax_getElem l h]
  exact argmaxL_spec l h y hy

theorem rowMax_mem (l : List ℝ) (h : l ≠ []) : rowMax l ∈ l := by
  rw [rowMax_getElem l h]; exact List.getElem_mem _

/-- The state of `find_maximum` after any number of passes. -/
theorem findMaxLoop_spec (g : ℕ → ℝ) (fn : ℝ → ℝ) (a : ℝ) (inc : ℤ) (n : ℕ) (hn : 0 < n) (lim minV : ℝ)
    (hg : ∀ t, g t = |fn (a + (t : ℝ) * ((inc : ℝ) / n))|) :
    ∀ (fuel B : ℕ) (L : ℝ) (ov : Option ℝ) (v mx : ℝ), (∀ t < B * n, g t ≤ L) →
      (∀ u, ov = some u → ∃ t0 < B * n, u = a + (t0 : ℝ) * ((inc : ℝ) / n) ∧ L = g t0 ∧ minV < L ∧ ∀ t < t0, g t < L) →
      (ov = none → L = minV) →
      findMaxLoop fn a inc n lim fuel (B, L, ov) = some (.ok (v, mx)) →
      ∃ C t0, t0 < C * n ∧ v = a + (t0 : ℝ) * ((inc : ℝ) / n) ∧ mx = g t0 ∧ minV < mx ∧ (∀ t < t0, g t < mx) ∧
        (∀ t < C * n, g t ≤ mx) ∧ ∀ t, C * n ≤ t → t < (C + 1) * n → g t < mx := by
  intro fuel
  induction fuel with
  | zero => intro B L ov v mx _ _ _ h; simp [findMaxLoop] at h
  | succ fuel ih =>
    intro B L ov v mx hL hov hnone h
    set xs := searchInputs a inc n B with hxs
    set out := xs.map (fun x => |fn x|) with hout
    have hlen : out.length = n := by simp [hout, hxs, searchInputs_length]
    have hne : out ≠ [] := by intro e; rw [e] at hlen; simp at hlen; omega
    have hget : ∀ k, ∀ hk : k < n, out[k]'(by omega) = g (B * n + k) := by
      intro k hk
      simp only [hout, List.getElem_map, hxs, searchInputs_get a inc n B k hk, hg]
    have hblk : ∀ t, B * n ≤ t → t < (B + 1) * n → g t ≤ rowMax out := by
      intro t h1 h2
      have hk : t - B * n < n := by rw [add_mul] at h2; omega
      have := le_rowMax out _ (List.getElem_mem (by omega : t - B * n < out.length))
      rw [hget _ hk] at this
      rwa [Nat.add_sub_cancel' h1] at this
    unfold findMaxLoop findMaxStep at h
    simp only [← hxs, ← hout] at h
    by_cases hlt : rowMax out < L
    · rw [if_pos hlt] at h
      cases ov with
      | none => simp at h
      | some u =>
        simp only [Option.some.injEq, Except.ok.injEq, Prod.mk.injEq] at h
        obtain ⟨rfl, rfl⟩ := h
        obtain ⟨t0, h1, h2, h3, h4, h5⟩ := hov u rfl
        exact ⟨B, t0, h1, h2, h3, h4, h5, hL, fun t h6 h7 => lt_of_le_of_lt (hblk t h6 h7) hlt⟩
    · rw [if_neg hlt] at h
      by_cases hlim : lim < rowMax xs
      · simp [hlim] at h
      · rw [if_neg hlim] at h
        simp only at h
        have hcov : ∀ t < (B + 1) * n, g t ≤ rowMax out ∨ t < B * n := by
          intro t ht
          by_cases h1 : B * n ≤ t
          · exact .inl (hblk t h1 ht)
          · exact .inr (by omega)
        by_cases hgt : L < rowMax out
        · rw [if_pos hgt] at h
          have ha := argmaxL_lt out hne
          have ha' : argmaxL out < n := by omega
          refine ih (B + 1) (rowMax out) _ v mx ?_ ?_ (by simp) h
          · intro t ht
            rcases hcov t ht with h1 | h1
            · exact h1
            · exact le_trans (hL t h1) hgt.le
          · intro u hu
            simp only [Option.some.injEq] at hu
            have e1 : rowMax out = g (B * n + argmaxL out) := by rw [rowMax_getElem out hne, hget _ ha']
            refine ⟨B * n + argmaxL out, by rw [add_mul]; omega, ?_, e1, ?_, ?_⟩
            · rw [← hu, List.getD_eq_getElem _ _ (by rw [hxs, searchInputs_length]; exact ha')]
              simp only [hxs]
              rw [searchInputs_get a inc n B _ ha']
            · rcases ov with _ | u'
              · rw [← hnone rfl]; exact hgt
              · obtain ⟨t0, _, _, _, h4, _⟩ := hov u' rfl
                linarith
            · intro t ht
              by_cases h1 : B * n ≤ t
              · have hk : t - B * n < argmaxL out := by omega
                have := argmaxL_first out hne _ hk
                rw [hget _ (by omega), hget _ ha', ← e1, Nat.add_sub_cancel' h1] at this
                exact this
              · exact lt_of_le_of_lt (hL t (by omega)) hgt
        · rw [if_neg hgt] at h
          refine ih (B + 1) L ov v mx ?_ ?_ hnone h
          · intro t ht
            rcases hcov t ht with h1 | h1
            · linarith
            · exact hL t h1
          · intro u hu
            obtain ⟨t0, h1, h2⟩ := hov u hu
            exact ⟨t0, by rw [add_mul]; omega, h2⟩

/-- What `find_maximum` returns: the first grid point, among all blocks before the one it stopped at, with the largest `|fn|`; it exceeds
`min_value` and every value in the block it stopped at. -/
theorem C64_max_result (fn : ℝ → ℝ) (stepSize : ℝ) (n : ℕ) (stepStart stepLimit minValue : ℝ) (fuel : ℕ) (v mx : ℝ)
    (h : findMaximum fn stepSize n stepStart stepLimit minValue fuel = some (.ok (v, mx))) :
    ∃ C t0, t0 < C * n ∧ v = gridPt stepStart stepSize n t0 ∧ mx = |fn v| ∧ minValue < mx ∧
      (∀ t < t0, |fn (gridPt stepStart stepSize n t)| < mx) ∧
      (∀ t < C * n, |fn (gridPt stepStart stepSize n t)| ≤ mx) ∧
      (∀ t, C * n ≤ t → t < (C + 1) * n → |fn (gridPt stepStart stepSize n t)| < mx) := by
  by_cases hn : n = 0
  · simp [findMaximum, hn] at h
  rw [findMaximum, if_neg hn] at h
  obtain ⟨C, t0, h1, h2, h3, h4, h5, h6, h7⟩ := findMaxLoop_spec (fun t => |fn (gridPt stepStart stepSize n t)|) fn stepStart
    (searchIncrement n stepSize) n (Nat.pos_of_ne_zero hn) stepLimit minValue (fun t => rfl) fuel 0 minValue none v mx
    (by simp) (by simp) (by simp) h
  exact ⟨C, t0, h1, h2, by rw [h3, h2]; rfl, h4, h5, h6, h7⟩

/-- For a function that rises and then falls along the grid, it is the largest value on the whole grid. -/
theorem C64_max_global (fn : ℝ → ℝ) (stepSize : ℝ) (n : ℕ) (stepStart stepLimit minValue : ℝ) (fuel : ℕ) (v mx : ℝ)
    (h : findMaximum fn stepSize n stepStart stepLimit minValue fuel = some (.ok (v, mx))) (T : ℕ)
    (hup : ∀ s t, s ≤ t → t ≤ T → |fn (gridPt stepStart stepSize n s)| ≤ |fn (gridPt stepStart stepSize n t)|)
    (hdn : ∀ s t, T ≤ s → s ≤ t → |fn (gridPt stepStart stepSize n t)| ≤ |fn (gridPt stepStart stepSize n s)|) :
    ∀ t, |fn (gridPt stepStart stepSize n t)| ≤ mx := by
  have hn : 0 < n := by
    rcases Nat.eq_zero_or_pos n with e | e
    · simp [findMaximum, e] at h
    · exact e
  obtain ⟨C, t0, h1, h2, h3, h4, h5, h6, h7⟩ := C64_max_result fn stepSize n stepStart stepLimit minValue fuel v mx h
  intro t
  have hlast : C * n + n - 1 < (C + 1) * n := by rw [add_mul]; omega
  have hb := h7 (C * n + n - 1) (by omega) hlast
  have hT : T ≤ C * n + n - 1 := by
    by_contra hc
    have := hup t0 (C * n + n - 1) (by omega) (by omega)
    rw [← h2, ← h3] at this
    linarith
  by_cases ht : t < C * n
  · exact h6 t ht
  · by_cases ht2 : t < (C + 1) * n
    · exact (h7 t (by omega) ht2).le
    · have := hdn (C * n + n - 1) t hT (by rw [add_mul] at ht2; omega)
      linarith

/-- C64's termination claim in full: some number of passes suffices, whatever the arguments. -/
def C64_full : Prop := ∀ (fn : ℝ → ℝ) (value stepSize : ℝ) (n : ℕ) (stepStart stepLimit minValue : ℝ),
  (∃ fuel r, findMaximum fn stepSize n stepStart stepLimit minValue fuel = some r) ∧
  (∃ fuel r, findFirstOccurrence fn value stepSize n stepStart stepLimit fuel = some r)

theorem searchIncrement_small : searchIncrement 10000 (1 / 100000) = 0 := by
  unfold searchIncrement pyInt
  norm_num

theorem findMax_stuck (N : ℕ) (hN : 0 < N) (fuel : ℕ) :
    findMaxLoop (fun _ => 1) 0 0 N 1000 fuel (0, -1, none) = none := by
  have hx : ∀ B, searchInputs 0 0 N B = List.replicate N 0 := by
    intro B
    unfold searchInputs
    rw [List.eq_replicate_iff]
    constructor
    · simp
    · intro b hb
      obtain ⟨k, _, hk⟩ := List.mem_map.1 hb
      rw [← hk]; simp
  have rm : ∀ c : ℝ, rowMax (List.replicate N c) = c := by
    intro c
    exact List.eq_of_mem_replicate (rowMax_mem _ (by rw [ne_eq, List.replicate_eq_nil_iff]; omega))
  have loop : ∀ fuel B ov, findMaxLoop (fun _ => 1) 0 0 N 1000 fuel (B, 1, ov) = none := by
    intro fuel
    induction fuel with
    | zero => intro B ov; rfl
    | succ fuel ih =>
      intro B ov
      unfold findMaxLoop findMaxStep
      simp only [hx, List.map_replicate, rm, abs_one, lt_irrefl, if_false]
      rw [if_neg (by norm_num)]
      exact ih _ _
  rcases fuel with _ | fuel
  · rfl
  · unfold findMaxLoop findMaxStep
    simp only [hx, List.map_replicate, rm, abs_one]
    rw [if_neg (by norm_num), if_neg (by norm_num), if_pos (by norm_num)]
    exact loop _ _ _

/-- With `step_size=1e-5` (and the default `steps_per_search=1e4`) each block has length `int(0.1) = 0`: `find_maximum` never returns. -/
theorem C64_refuted : ¬ C64_full := fun h => by
  obtain ⟨⟨fuel, r, hr⟩, -⟩ := h (fun _ => 1) 0 (1 / 100000) 10000 0 1000 (-1)
  unfold findMaximum at hr
  rw [if_neg (by norm_num), searchIncrement_small] at hr
  exact absurd hr (by rw [findMax_stuck 10000 (by norm_num)]; simp)

theorem rowMax_inputs (a : ℝ) (inc : ℤ) (n B : ℕ) (hn : 0 < n) : a + inc * B ≤ rowMax (searchInputs a inc n B) := by
  apply le_rowMax
  unfold searchInputs
  exact List.mem_map.2 ⟨0, by simpa using hn, by simp⟩

theorem findMaxLoop_terminates (fn : ℝ → ℝ) (a : ℝ) (inc : ℤ) (hinc : 1 ≤ inc) (n : ℕ) (hn : 0 < n) (lim : ℝ) :
    ∀ (d B : ℕ) (L : ℝ) (ov : Option ℝ), lim < a + (B + d : ℕ) → ∃ r, findMaxLoop fn a inc n lim (d + 1) (B, L, ov) = some r := by
  intro d
  have hi : (1 : ℝ) ≤ inc := by exact_mod_cast hinc
  induction d with
  | zero =>
    intro B L ov h
    have h1 := rowMax_inputs a inc n B hn
    have hB : (0 : ℝ) ≤ B := Nat.cast_nonneg B
    have : lim < rowMax (searchInputs a inc n B) := by
      push_cast at h
      nlinarith
    unfold findMaxLoop findMaxStep
    by_cases hlt : rowMax ((searchInputs a inc n B).map fun x => |fn x|) < L
    · simp only [hlt, if_true]; exact ⟨_, rfl⟩
    · simp only [hlt, this, if_true, if_false]; exact ⟨_, rfl⟩
  | succ d ih =>
    intro B L ov h
    unfold findMaxLoop
    rcases hst : findMaxStep fn a inc n lim (B, L, ov) with st | r
    · have hB : st.1 = B + 1 := by
        unfold findMaxStep at hst
        simp only at hst
        split_ifs at hst <;> simp at hst <;> rw [← hst]
      obtain ⟨s1, s2, s3⟩ := st
      simp only at hB ⊢
      subst hB
      exact ih _ _ _ (by convert h using 3; ring)
    · exact ⟨r, rfl⟩

theorem findOccLoop_terminates (fn : ℝ → ℝ) (value a : ℝ) (inc : ℤ) (hinc : 1 ≤ inc) (n : ℕ) (hn : 0 < n) (lim : ℝ) :
    ∀ (d B : ℕ), lim < a + (B + d : ℕ) → ∃ r, findOccLoop fn value a inc n lim (d + 1) B = some r := by
  intro d
  have hi : (1 : ℝ) ≤ inc := by exact_mod_cast hinc
  induction d with
  | zero =>
    intro B h
    have h1 := rowMax_inputs a inc n B hn
    have hB : (0 : ℝ) ≤ B := Nat.cast_nonneg B
    have : lim < rowMax (searchInputs a inc n B) := by
      push_cast at h
      nlinarith
    unfold findOccLoop findOccStep
    simp only [this, decide_true, if_true]
    split_ifs <;> exact ⟨_, rfl⟩
  | succ d ih =>
    intro B h
    unfold findOccLoop
    rcases hst : findOccStep fn value a inc n lim B with st | r
    · have hB : st = B + 1 := by
        unfold findOccStep at hst
        simp only at hst
        split_ifs at hst
        simp at hst
        rw [← hst]
      subst hB
      exact ih _ (by convert h using 3; ring)
    · exact ⟨r, rfl⟩

/-- **C64**, termination when `int(steps_per_search * step_size)` is positive. -/
theorem C64_terminates_partial (fn : ℝ → ℝ) (value stepSize : ℝ) (n : ℕ) (stepStart stepLimit minValue : ℝ)
    (hinc : 1 ≤ searchIncrement n stepSize) :
    (∃ fuel r, findMaximum fn stepSize n stepStart stepLimit minValue fuel = some r) ∧
    (∃ fuel r, findFirstOccurrence fn value stepSize n stepStart stepLimit fuel = some r) := by
  obtain ⟨d, hd⟩ := exists_nat_gt (stepLimit - stepStart)
  have hd' : stepLimit < stepStart + ((0 + d : ℕ) : ℝ) := by rw [Nat.zero_add]; linarith
  constructor
  · by_cases hn : n = 0
    · exact ⟨0, _, by rw [findMaximum, if_pos hn]⟩
    · obtain ⟨r, hr⟩ := findMaxLoop_terminates fn stepStart _ hinc n (Nat.pos_of_ne_zero hn) stepLimit d 0 minValue none hd'
      exact ⟨d + 1, r, by rw [findMaximum, if_neg hn, hr]⟩
  · by_cases hn : n ≤ 1
    · exact ⟨0, _, by rw [findFirstOccurrence, if_pos hn]⟩
    · obtain ⟨r, hr⟩ := findOccLoop_terminates fn value stepStart _ hinc n (by omega) stepLimit d 0 hd'
      exact ⟨d + 1, r, by rw [findFirstOccurrence, if_neg hn, hr]⟩

/-- The defaults: `int(1e4 * 1e-3) = 10`. -/
example : searchIncrement 10000 (1 / 1000) = 10 := by
  unfold searchIncrement pyInt
  norm_num

/-- A decreasing function: the maximum is found at the start. -/
example : findMaximum (fun x => 1 / (1 + x)) 1 1 0 1000 (-1) 2 = some (.ok (0, 1)) := by
  have hi : searchIncrement 1 1 = 1 := by unfold searchIncrement pyInt; norm_num
  have s0 : searchInputs 0 1 1 0 = [0] := by simp [searchInputs]
  have s1 : searchInputs 0 1 1 1 = [1] := by simp [searchInputs]
  have r : ∀ c : ℝ, rowMax [c] = c := fun c => by simpa using rowMax_mem [c] (by simp)
  have am : ∀ c : ℝ, argmaxL [c] = 0 := fun c => by simpa using argmaxL_lt [c] (by simp)
  unfold findMaximum
  rw [if_neg (by norm_num), hi]
  unfold findMaxLoop findMaxStep
  simp only [s0, List.map_cons, List.map_nil, r, am]
  norm_num
  unfold findMaxLoop findMaxStep
  simp only [s1, List.map_cons, List.map_nil, r]
  norm_num

/-! ### `find_first_occurrence` -/

/-- The state of `find_first_occurrence` after any number of passes. -/
theorem findOccLoop_spec (X : ℕ → ℝ) (fn : ℝ → ℝ) (value a : ℝ) (inc : ℤ) (n : ℕ) (hn : 1 < n) (lim : ℝ)
    (hX : ∀ t, X t = min (a + (t : ℝ) * ((inc : ℝ) / n)) lim) :
    ∀ (fuel B : ℕ) (v o : ℝ), (∀ t < B * n, |fn (X t)| ≠ value) →
      findOccLoop fn value a inc n lim fuel B = some (.ok (v, o)) →
      ∃ C k, k < n ∧ v = X (C * n + k) ∧ o = |fn v| ∧ (∀ t < C * n, |fn (X t)| ≠ value) ∧
        (∀ i < n, |o - value| ≤ abs (|fn (X (C * n + i))| - value)) ∧
        (∀ i < k, |o - value| < abs (|fn (X (C * n + i))| - value)) ∧
        ∃ i, i + 1 < n ∧ |o - value| ≤ abs (|fn (X (C * n + i + 1))| - |fn (X (C * n + i))|)  := by
  intro fuel
  induction fuel with
  | zero => intro B v o _ h; simp [findOccLoop] at h
  | succ fuel ih =>
    intro B v o hB h
    set xs0 := searchInputs a inc n B with hxs0
    set xs := (if decide (lim < rowMax xs0) = true then xs0.map (fun x => min x lim) else xs0) with hxs
    have hlen0 : xs0.length = n := searchInputs_length a inc n B
    have hlen : xs.length = n := by
      rw [hxs]; split_ifs <;> simp [hlen0]
    have hxg : ∀ k, ∀ hk : k < n, xs[k]'(by omega) = X (B * n + k) := by
      intro k hk
      have e0 : xs0[k]'(by omega) = a + ((B * n + k : ℕ) : ℝ) * ((inc : ℝ) / n) := searchInputs_get a inc n B k hk
      by_cases hex : lim < rowMax xs0
      · have : xs = xs0.map (fun x => min x lim) := by rw [hxs, if_pos (by simpa using hex)]
        simp only [this, List.getElem_map, e0, hX]
      · have : xs = xs0 := by rw [hxs, if_neg (by simpa using hex)]
        have hle := le_rowMax xs0 _ (List.getElem_mem (by omega : k < xs0.length))
        simp only [this, hX]
        rw [e0] at hle ⊢
        rw [min_eq_left (le_trans hle (not_lt.1 hex))]
    set out := xs.map (fun x => |fn x|) with hout
    have holen : out.length = n := by simp [hout, hlen]
    have hog : ∀ k, ∀ hk : k < n, out[k]'(by omega) = |fn (X (B * n + k))| := by
      intro k hk
      simp only [hout, List.getElem_map, hxg k hk]
    set dist := out.map (fun o => |o - value|) with hdist
    have hdlen : dist.length = n := by simp [hdist, holen]
    have hdg : ∀ k, ∀ hk : k < n, dist[k]'(by omega) = abs (|fn (X (B * n + k))| - value) := by
      intro k hk
      simp only [hdist, List.getElem_map, hog k hk]
    have hdne : dist ≠ [] := by intro e; rw [e] at hdlen; simp at hdlen; omega
    set zs := out.zipWith (fun a b => |b - a|) out.tail with hzs
    have hzlen : zs.length = n - 1 := by simp [hzs, holen]
    have hzne : zs ≠ [] := by intro e; rw [e] at hzlen; simp at hzlen; omega
    unfold findOccLoop findOccStep at h
    simp only [← hxs0, ← hxs, ← hout, ← hdist] at h
    by_cases hstop : ∃ d ∈ dist, d ≤ maxStepDiff out
    · rw [if_pos hstop] at h
      simp only [Option.some.injEq, Except.ok.injEq, Prod.mk.injEq] at h
      obtain ⟨h1, h2⟩ := h
      have hk := argminL_lt dist hdne
      have hk' : argminL dist < n := by omega
      rw [List.getD_eq_getElem _ _ (by omega), hxg _ hk'] at h1
      rw [List.getD_eq_getElem _ _ (by omega), hog _ hk'] at h2
      have hmin : abs (o - value) = dist[argminL dist] := by rw [hdg _ hk', h2]
      refine ⟨B, argminL dist, hk', h1.symm, by rw [← h2, h1], hB, ?_, ?_, ?_⟩
      · intro i hi
        rw [hmin, ← hdg i hi]
        exact argminL_spec dist hdne _ (List.getElem_mem _)
      · intro i hi
        rw [hmin, ← hdg i (by omega)]
        exact argminL_first dist hdne i hi
      · obtain ⟨d, hd, hle⟩ := hstop
        have hz := argmaxL_lt zs hzne
        refine ⟨argmaxL zs, by omega, ?_⟩
        rw [hmin]
        refine le_trans (argminL_spec dist hdne d hd) (le_trans hle (le_of_eq ?_))
        change rowMax zs = _
        have zg : ∀ i, ∀ hi : i < zs.length, zs[i] = abs (|fn (X (B * n + i + 1))| - |fn (X (B * n + i))|) := by
          intro i hi
          simp only [hzs, List.getElem_zipWith, List.getElem_tail]
          rw [hog _ (by omega), hog _ (by omega), add_assoc]
        rw [rowMax_getElem zs hzne, zg]
    · rw [if_neg hstop] at h
      by_cases hex : decide (lim < rowMax xs0) = true
      · simp [hex] at h
      · rw [if_neg hex] at h
        simp only at h
        refine ih (B + 1) v o ?_ h
        intro t ht
        by_cases htB : t < B * n
        · exact hB t htB
        · intro e
          rw [add_mul] at ht
          have hk : t - B * n < n := by omega
          apply hstop
          refine ⟨dist[t - B * n]'(by omega), List.getElem_mem _, ?_⟩
          rw [hdg _ hk, Nat.add_sub_cancel' (by omega : B * n ≤ t), e, sub_self, abs_zero]
          change 0 ≤ rowMax zs
          have hz := rowMax_mem zs hzne
          obtain ⟨i, hi, hzi⟩ := List.mem_iff_getElem.1 hz
          rw [← hzi]
          simp only [hzs, List.getElem_zipWith]
          exact abs_nonneg _

/-- What `find_first_occurrence` returns: the grid point (clipped to `step_limit`) whose `|fn|` is closest to the value within its block
(the first such one), at a distance no larger than some step of `|fn|` in that block; no grid point in an earlier block attains the
value. -/
theorem C64_occ_result (fn : ℝ → ℝ) (value stepSize : ℝ) (n : ℕ) (stepStart lim : ℝ) (fuel : ℕ) (v o : ℝ)
    (h : findFirstOccurrence fn value stepSize n stepStart lim fuel = some (.ok (v, o))) :
    ∃ C k, k < n ∧ v = min (gridPt stepStart stepSize n (C * n + k)) lim ∧ o = |fn v| ∧
      (∀ t < C * n, |fn (min (gridPt stepStart stepSize n t) lim)| ≠ value) ∧
      (∀ i < n, |o - value| ≤ abs (|fn (min (gridPt stepStart stepSize n (C * n + i)) lim)| - value)) ∧
      (∀ i < k, |o - value| < abs (|fn (min (gridPt stepStart stepSize n (C * n + i)) lim)| - value)) ∧
      ∃ i, i + 1 < n ∧ |o - value| ≤ abs (|fn (min (gridPt stepStart stepSize n (C * n + i + 1)) lim)| -
        |fn (min (gridPt stepStart stepSize n (C * n + i)) lim)|) := by
  by_cases hn : n ≤ 1
  · simp [findFirstOccurrence, hn] at h
  rw [findFirstOccurrence, if_neg hn] at h
  exact findOccLoop_spec (fun t => min (gridPt stepStart stepSize n t) lim) fn value stepStart _ n (by omega) lim (fun t => rfl)
    fuel 0 v o (by simp) h

/-- If the value is met exactly, it is at the earliest grid point where that happens. -/
theorem C64_occ_exact (fn : ℝ → ℝ) (value stepSize : ℝ) (n : ℕ) (stepStart lim : ℝ) (fuel : ℕ) (v : ℝ)
    (h : findFirstOccurrence fn value stepSize n stepStart lim fuel = some (.ok (v, value))) :
    ∃ t, v = min (gridPt stepStart stepSize n t) lim ∧ |fn v| = value ∧
      ∀ s < t, |fn (min (gridPt stepStart stepSize n s) lim)| ≠ value := by
  obtain ⟨C, k, hk, h1, h2, h3, _, h5, _⟩ := C64_occ_result fn value stepSize n stepStart lim fuel v value h
  refine ⟨C * n + k, h1, h2.symm, ?_⟩
  intro s hs e
  by_cases hsC : s < C * n
  · exact h3 s hsC e
  · have := h5 (s - C * n) (by omega)
    rw [Nat.add_sub_cancel' (by omega : C * n ≤ s), e] at this
    exact lt_irrefl _ this

/-- The documented claim: the earliest input with `|fn| = value`. -/
def C64_occ_full : Prop := ∀ (fn : ℝ → ℝ) (value stepSize : ℝ) (n : ℕ) (stepStart lim : ℝ) (fuel : ℕ) (v o : ℝ),
  findFirstOccurrence fn value stepSize n stepStart lim fuel = some (.ok (v, o)) →
  (∃ t, gridPt stepStart stepSize n t ≤ lim ∧ |fn (gridPt stepStart stepSize n t)| = value) → o = value

/-- `|fn|` = 0, 10 in the first block and 5 at the start of the second: asked for 5, the search stops in the first block and returns 0,
since 10 is within a step of 5. -/
theorem C64_occ_refuted : ¬ C64_occ_full := fun h => by
  let fn : ℝ → ℝ := fun x => if x = 0 then 0 else if x = 1 then 5 else 10
  have hi : searchIncrement 2 (1 / 2) = 1 := by unfold searchIncrement pyInt; norm_num
  have hs : searchInputs 0 1 2 0 = [0, 1 / 2] := by simp [searchInputs, List.range, List.range.loop]
  have hr : findFirstOccurrence fn 5 (1 / 2) 2 0 1000 1 = some (.ok (0, 0)) := by
    have rm : rowMax [(0 : ℝ), 1 / 2] ≤ 1000 := by
      have := rowMax_mem [(0 : ℝ), 1 / 2] (by simp)
      simp only [List.mem_cons, List.not_mem_nil, or_false] at this
      rcases this with h | h <;> rw [h] <;> norm_num
    have am : argminL [(5 : ℝ), 5] = 0 := by
      by_contra hne
      have := argminL_first [(5 : ℝ), 5] (by simp) 0 (Nat.pos_of_ne_zero hne)
      have h2 := argminL_lt [(5 : ℝ), 5] (by simp)
      have h3 := List.getElem_mem h2
      simp only [List.mem_cons, List.not_mem_nil, or_false, or_self] at h3
      rw [h3] at this
      norm_num at this
    have ms : maxStepDiff [(0 : ℝ), 10] = 10 := by
      have := rowMax_mem ([(0 : ℝ), 10].zipWith (fun a b => |b - a|) [(0 : ℝ), 10].tail) (by simp)
      simp only [List.tail_cons, List.zipWith_cons_cons, List.zipWith_nil_right, List.mem_cons, List.not_mem_nil, or_false] at this
      unfold maxStepDiff
      simp only [List.tail_cons, List.zipWith_cons_cons, List.zipWith_nil_right]
      rw [this]; norm_num
    have f0 : |fn 0| = 0 := by simp [fn]
    have f1 : |fn (1 / 2)| = 10 := by norm_num [fn]
    unfold findFirstOccurrence
    rw [if_neg (by norm_num), hi]
    unfold findOccLoop findOccStep
    have hd : decide ((1000 : ℝ) < rowMax [(0 : ℝ), 1 / 2]) = false := by simpa using rm
    simp only [hs, hd, Bool.false_eq_true, if_false, List.map_cons, List.map_nil, f0, f1, ms]
    have d0 : |(0 : ℝ) - 5| = 5 := by norm_num
    have d1 : |(10 : ℝ) - 5| = 5 := by norm_num
    rw [d0, d1, am, if_pos ⟨5, by simp, by norm_num⟩]
    simp
  have := h fn 5 (1 / 2) 2 0 1000 1 0 0 hr ⟨2, by unfold gridPt; rw [hi]; norm_num, by
    have : gridPt 0 (1 / 2) 2 2 = 1 := by unfold gridPt; rw [hi]; norm_num
    rw [this]; norm_num [fn]⟩
  norm_num at this

end Ssq
