import Verif.Props.ScaleBounds
import Mathlib.Topology.Algebra.Order.Field
import Mathlib.Topology.Order.Lattice
import Mathlib.Topology.Instances.Real.Lemmas

/-!
# C236: a value that is passed is found
-/
namespace Ssq
open Spec

/-- C236 in full: if a continuous `|fn|` passes a value between `step_start` and `step_limit`, then the search finds it. -/
def C236_full : Prop := ∀ (fn : ℝ → ℝ) (value a lim u v : ℝ), Continuous fn → a ≤ u → u ≤ lim → a ≤ v → v ≤ lim → |fn u| ≤ value → value ≤ |fn v| →
  ∃ fuel w o, findValue fn value a lim fuel = some (.ok (w, o))

/-- The values of `|fn|` that one pass looks at. -/
theorem occStep_eq (fn : ℝ → ℝ) (value a : ℝ) (inc : ℤ) (n : ℕ) (lim : ℝ) (idx : ℕ) :
    ∃ r, findOccStep fn value a inc n lim idx =
      let out := (List.range n).map fun k : ℕ => |fn (min (a + ((idx * n + k : ℕ) : ℝ) * ((inc : ℝ) / n)) lim)|
      if ∃ o ∈ out, |o - value| ≤ maxStepDiff out then .inr (.ok r) else if lim < rowMax (searchInputs a inc n idx) then .inr (.error .valueError) else .inl (idx + 1) := by
  have hx : (if decide (lim < rowMax (searchInputs a inc n idx)) = true then (searchInputs a inc n idx).map (fun x => min x lim) else searchInputs a inc n idx) =
      (searchInputs a inc n idx).map (fun x => min x lim) := by
    split_ifs with h
    · rfl
    · rw [decide_eq_true_eq, not_lt] at h
      conv_lhs => rw [← List.map_id (searchInputs a inc n idx)]
      refine List.map_congr_left fun x hx => ?_
      rw [id_eq, min_eq_left ((le_rowMax _ _ hx).trans h)]
  have ho : ((searchInputs a inc n idx).map (fun x => min x lim)).map (fun x => |fn x|) =
      (List.range n).map fun k : ℕ => |fn (min (a + ((idx * n + k : ℕ) : ℝ) * ((inc : ℝ) / n)) lim)| := by
    unfold searchInputs
    rw [List.map_map, List.map_map]
    refine List.map_congr_left fun k hk => ?_
    have hn : (n : ℝ) ≠ 0 := by
      have := List.mem_range.1 hk
      exact_mod_cast (by omega : n ≠ 0)
    simp only [Function.comp]
    congr 3
    push_cast
    field_simp
    ring
  unfold findOccStep
  dsimp only
  rw [hx, ho]
  simp only [List.mem_map, exists_exists_and_eq_and, decide_eq_true_eq]
  exact ⟨_, rfl⟩

/-- A sequence that is below a value at one index and above it at another passes it in one step in between. -/
theorem passes (g : ℕ → ℝ) (value : ℝ) (n i j : ℕ) (hi : i < n) (hj : j < n) (h1 : g i ≤ value) (h2 : value ≤ g j) (hn : 1 < n) :
    ∃ k, k + 1 < n ∧ |g k - value| ≤ |g (k + 1) - g k| ∨ g i = value ∨ g j = value := by
  by_contra hc
  push Not at hc
  have key : ∀ k, k + 1 < n → (g k < value ↔ g (k + 1) < value) ∧ g k ≠ value ∨ g k = value ∨ g (k + 1) = value := by
    intro k hk
    have := (hc k).1 hk
    by_cases e0 : g k = value
    · exact .inr (.inl e0)
    by_cases e1 : g (k + 1) = value
    · exact .inr (.inr e1)
    refine .inl ⟨⟨fun h => ?_, fun h => ?_⟩, e0⟩
    · by_contra hn
      rw [abs_of_neg (by linarith : g k - value < 0), abs_of_nonneg (by linarith : 0 ≤ g (k + 1) - g k)] at this
      linarith
    · by_contra hn
      rw [abs_of_nonneg (by linarith : 0 ≤ g k - value), abs_of_neg (by linarith : g (k + 1) - g k < 0)] at this
      linarith
  have ne : ∀ k, k < n → g k ≠ value := by
    intro k hk e
    rcases Nat.lt_or_ge (k + 1) n with h | h
    · have := (hc k).1 h
      rw [e, sub_self, abs_zero] at this
      exact absurd this (not_lt.2 (abs_nonneg _))
    · have := (hc (k - 1)).1 (by omega)
      rw [show k - 1 + 1 = k by omega, e, abs_sub_comm] at this
      exact lt_irrefl _ this
  have all : ∀ k, k < n → (g k < value ↔ g 0 < value) := by
    intro k
    induction k with
    | zero => intro _; exact Iff.rfl
    | succ k ih =>
      intro hk
      rcases key k hk with h | h | h
      · rw [← h.1]; exact ih (by omega)
      · exact absurd h (ne k (by omega))
      · exact absurd h (ne (k + 1) hk)
  have a1 := (all i hi).1 (lt_of_le_of_ne h1 (ne i hi))
  have a2 := (all j hj).2 a1
  linarith

theorem maxStepDiff_ge (g : ℕ → ℝ) (n k : ℕ) (hk : k + 1 < n) : |g (k + 1) - g k| ≤ maxStepDiff ((List.range n).map g) := by
  unfold maxStepDiff
  apply le_rowMax
  refine List.mem_iff_getElem.2 ⟨k, by simp; omega, ?_⟩
  simp

/-- One pass finds a value that is passed within its block. -/
theorem occStep_found (fn : ℝ → ℝ) (value a : ℝ) (inc : ℤ) (n : ℕ) (hn : 1 < n) (lim : ℝ) (idx i j : ℕ) (hi : i < n) (hj : j < n)
    (h1 : |fn (min (a + ((idx * n + i : ℕ) : ℝ) * ((inc : ℝ) / n)) lim)| ≤ value) (h2 : value ≤ |fn (min (a + ((idx * n + j : ℕ) : ℝ) * ((inc : ℝ) / n)) lim)|) :
    ∃ r, findOccStep fn value a inc n lim idx = .inr (.ok r) := by
  obtain ⟨r, e⟩ := occStep_eq fn value a inc n lim idx
  refine ⟨r, ?_⟩
  rw [e]
  set g : ℕ → ℝ := fun k => |fn (min (a + ((idx * n + k : ℕ) : ℝ) * ((inc : ℝ) / n)) lim)| with hg
  have hex : ∃ o ∈ (List.range n).map g, |o - value| ≤ maxStepDiff ((List.range n).map g) := by
    obtain ⟨k, h⟩ := passes g value n i j hi hj h1 h2 hn
    rcases h with ⟨hk, h⟩ | h | h
    · exact ⟨g k, List.mem_map_of_mem (List.mem_range.2 (by omega)), h.trans (maxStepDiff_ge g n k hk)⟩
    · exact ⟨g i, List.mem_map_of_mem (List.mem_range.2 hi), by rw [h, sub_self, abs_zero]; exact maxStepDiff_nonneg _⟩
    · exact ⟨g j, List.mem_map_of_mem (List.mem_range.2 hj), by rw [h, sub_self, abs_zero]; exact maxStepDiff_nonneg _⟩
  exact if_pos hex

/-- **C236** as far as it holds: a value passed between two points of the same block (the blocks have 10000 points, `10 b`, `10 b + 0.001`, …, `10 b + 9.999`
above `step_start`) is found, if the blocks before do not reach beyond `step_limit`, in at most `b + 1` passes. -/
theorem C236_block_partial (fn : ℝ → ℝ) (value a lim : ℝ) (b i j : ℕ) (hi : i < 10000) (hj : j < 10000) (hb : b = 0 ∨ a + 10 * b ≤ lim)
    (h1 : |fn (min (a + 10 * b + i / 1000) lim)| ≤ value) (h2 : value ≤ |fn (min (a + 10 * b + j / 1000) lim)|) (k : ℕ) :
    ∃ w o, findValue fn value a lim (k + (b + 1)) = some (.ok (w, o)) := by
  have ex : ∀ t : ℕ, a + ((b * 10000 + t : ℕ) : ℝ) * (((10 : ℤ) : ℝ) / (10000 : ℕ)) = a + 10 * b + t / 1000 := by
    intro t; push_cast; ring
  have key : ∀ d c, c + d = b → ∃ r, findOccLoop fn value a 10 10000 lim (k + (d + 1)) c = some (.ok r) := by
    intro d
    induction d with
    | zero =>
      intro c hc
      obtain rfl : c = b := by omega
      obtain ⟨r, e⟩ := occStep_found fn value a 10 10000 (by norm_num) lim c i j hi hj (by rw [ex]; exact h1) (by rw [ex]; exact h2)
      refine ⟨r, ?_⟩
      rw [show k + (0 + 1) = k + 1 by omega]
      unfold findOccLoop
      rw [e]
    | succ d ih =>
      intro c hc
      obtain ⟨r, e⟩ := occStep_eq fn value a 10 10000 lim c
      rw [show k + (d + 1 + 1) = (k + (d + 1)) + 1 by omega]
      unfold findOccLoop
      rw [e]
      dsimp only
      split_ifs with h3 h4
      · exact ⟨r, rfl⟩
      · exfalso
        have hne : searchInputs a 10 10000 c ≠ [] := List.ne_nil_of_mem (mem_searchInputs a c 0 (by norm_num))
        obtain ⟨t, -, ht, et⟩ := searchInputs_mem a c _ (rowMax_mem _ hne)
        rw [et] at h4
        have : (t : ℝ) ≤ b * 10000 := by
          have h5 : (c + 1) * 10000 ≤ b * 10000 := Nat.mul_le_mul_right _ (by omega)
          exact_mod_cast (by omega : t ≤ b * 10000)
        rcases hb with hb | hb
        · omega
        · linarith
      · exact ih (c + 1) (by omega)
  obtain ⟨⟨w, o⟩, e⟩ := key b 0 (by omega)
  refine ⟨w, o, ?_⟩
  unfold findValue findFirstOccurrence
  rw [if_neg (by norm_num), inc_default]
  exact e

/-- A ramp from 1 at 9.999 down to 0 at 10. -/
noncomputable def rampDown (w : ℝ) : ℝ := max 0 (min 1 (1000 * (10 - w)))

theorem rampDown_one (w : ℝ) (h : w ≤ 9.999) : rampDown w = 1 := by
  unfold rampDown
  rw [min_eq_left (by norm_num at h; linarith), max_eq_right zero_le_one]

theorem rampDown_zero (w : ℝ) (h : 10 ≤ w) : rampDown w = 0 := by
  unfold rampDown
  exact max_eq_left ((min_le_right _ _).trans (by linarith))

theorem maxStepDiff_const (g : ℕ → ℝ) (n : ℕ) (c : ℝ) (h : ∀ k < n, g k = c) : maxStepDiff ((List.range n).map g) = 0 := by
  unfold maxStepDiff
  by_cases hne : ((List.range n).map g).zipWith (fun a b => |b - a|) ((List.range n).map g).tail = []
  · rw [hne]; simp [rowMax]
  · obtain ⟨i, hi, e⟩ := List.mem_iff_getElem.1 (rowMax_mem _ hne)
    rw [← e]
    simp only [List.length_zipWith, List.length_map, List.length_range, List.length_tail] at hi
    simp only [List.getElem_zipWith, List.getElem_map, List.getElem_range, List.getElem_tail]
    rw [h _ (by omega), h _ (by omega), sub_self, abs_zero]

/-- The value 1/2 of the ramp, between two blocks, is not found: the search ends in `ValueError`. -/
theorem rampDown_missed (fuel : ℕ) : findValue rampDown (1 / 2) 0 15 (2 + fuel) = some (.error .valueError) := by
  apply findValue_mono
  unfold findValue findFirstOccurrence
  rw [if_neg (by norm_num), inc_default]
  obtain ⟨r0, e0⟩ := occStep_eq rampDown (1 / 2) 0 10 10000 15 0
  obtain ⟨r1, e1⟩ := occStep_eq rampDown (1 / 2) 0 10 10000 15 1
  have g0 : ∀ k < 10000, |rampDown (min (0 + ((0 * 10000 + k : ℕ) : ℝ) * (((10 : ℤ) : ℝ) / (10000 : ℕ))) 15)| = 1 := by
    intro k hk
    have : (k : ℝ) ≤ 9999 := by exact_mod_cast (by omega : k ≤ 9999)
    rw [rampDown_one, abs_one]
    refine (min_le_left _ _).trans ?_
    push_cast
    norm_num
    linarith
  have g1 : ∀ k < 10000, |rampDown (min (0 + ((1 * 10000 + k : ℕ) : ℝ) * (((10 : ℤ) : ℝ) / (10000 : ℕ))) 15)| = 0 := by
    intro k hk
    rw [rampDown_zero, abs_zero]
    refine le_min ?_ (by norm_num)
    have : (0 : ℝ) ≤ k := Nat.cast_nonneg k
    push_cast
    norm_num
    linarith
  have n0 : ¬ 15 < rowMax (searchInputs 0 10 10000 0) := by
    have hne : searchInputs 0 10 10000 0 ≠ [] := List.ne_nil_of_mem (mem_searchInputs 0 0 0 (by norm_num))
    obtain ⟨t, -, ht, et⟩ := searchInputs_mem 0 0 _ (rowMax_mem _ hne)
    rw [et]
    have : (t : ℝ) ≤ 10000 := by exact_mod_cast (by omega : t ≤ 10000)
    linarith
  have n1 : 15 < rowMax (searchInputs 0 10 10000 1) := by
    have := le_rowMax _ _ (mem_searchInputs 0 1 9999 (by norm_num))
    refine lt_of_lt_of_le ?_ this
    norm_num
  unfold findOccLoop
  rw [e0]
  dsimp only
  rw [maxStepDiff_const _ _ 1 g0, if_neg, if_neg n0]
  · dsimp only
    unfold findOccLoop
    rw [e1]
    dsimp only
    rw [maxStepDiff_const _ _ 0 g1, if_neg, if_pos n1]
    rintro ⟨o, ho, h⟩
    obtain ⟨k, hk, rfl⟩ := List.mem_map.1 ho
    rw [g1 k (List.mem_range.1 hk)] at h
    norm_num at h
  · rintro ⟨o, ho, h⟩
    obtain ⟨k, hk, rfl⟩ := List.mem_map.1 ho
    rw [g0 k (List.mem_range.1 hk)] at h
    norm_num at h

/-- **C236 is false** of the code. -/
theorem C236_refuted : ¬ C236_full := fun h => by
  obtain ⟨fuel, w, o, e⟩ := h rampDown (1 / 2) 0 15 15 0 (by unfold rampDown; fun_prop) (by norm_num) le_rfl le_rfl (by norm_num)
    (by rw [rampDown_zero _ (by norm_num)]; norm_num) (by rw [rampDown_one _ (by norm_num)]; norm_num)
  have h1 := findValue_mono _ _ _ _ 2 _ _ e
  have h2 := rampDown_missed fuel
  rw [Nat.add_comm] at h1
  rw [h1] at h2
  exact absurd h2 (by simp)

/-- **C236 for `find_min_scale`.** For a positive cutoff up to one: it succeeds if `|fn|` is under the cutoff at some point of the first block after the peak
and no more than ten times the peak. -/
theorem C236_min_scale (fn : ℝ → ℝ) (cutoff : ℝ) (h0 : 0 < cutoff) (h1 : cutoff ≤ 1) (fuel : ℕ) (wp pk : ℝ) (hp : findPeak fn (fuel + 1) = some (.ok (wp, pk)))
    (i : ℕ) (hi : i < 10000) (hw : wp + i / 1000 ≤ 10 * wp) (hf : |fn (wp + i / 1000)| ≤ cutoff * pk) : ∃ s, findMinScale fn cutoff (fuel + 1) = some (.ok s) := by
  obtain ⟨hwp, hpk⟩ := peak_nonneg _ _ _ _ hp
  have hpk0 : 0 ≤ pk := by rw [hpk]; exact abs_nonneg _
  obtain ⟨w, o, e⟩ := C236_block_partial fn (cutoff * pk) wp (10 * wp) 0 i 0 hi (by norm_num) (.inl rfl)
    (by push_cast; rw [mul_zero, add_zero, min_eq_left hw]; exact hf)
    (by push_cast; rw [mul_zero, add_zero, zero_div, add_zero, min_eq_left (by linarith), ← hpk]; nlinarith) fuel
  refine ⟨w / Real.pi, ?_⟩
  unfold findMinScale
  rw [hp, andThen_some]
  simp only [if_pos h0, abs_of_pos h0]
  rw [zero_add] at e
  rw [e, andThen_some]

/-- With the default cutoff of 1, `find_min_scale` succeeds whenever the peak is found. -/
theorem C236_default (fn : ℝ → ℝ) (fuel : ℕ) (wp pk : ℝ) (hp : findPeak fn (fuel + 1) = some (.ok (wp, pk))) : ∃ s, findMinScale fn 1 (fuel + 1) = some (.ok s) := by
  obtain ⟨hwp, hpk⟩ := peak_nonneg _ _ _ _ hp
  refine C236_min_scale fn 1 one_pos le_rfl fuel wp pk hp 0 (by norm_num) (by push_cast; rw [zero_div, add_zero]; linarith) ?_
  push_cast
  rw [zero_div, add_zero, one_mul, hpk]

/-- `fn w = w` passes 1/2 in the first block and 15 in the second. -/
example : (∃ w o, findValue (fun w => w) (1 / 2) 0 1000 1 = some (.ok (w, o))) ∧ ∃ w o, findValue (fun w => w) 15 0 1000 2 = some (.ok (w, o)) :=
  ⟨C236_block_partial _ _ _ _ 0 0 1000 (by norm_num) (by norm_num) (.inl rfl) (by norm_num) (by norm_num) 0,
    C236_block_partial _ _ _ _ 1 0 6000 (by norm_num) (by norm_num) (.inr (by norm_num)) (by norm_num [abs_of_pos]) (by norm_num [abs_of_pos]) 0⟩

/-- A triangle from 0 at 0 to 1 at 1 and 0 at 2, with cutoff 0.4. -/
example : ∃ s, findMinScale tri 0.4 2 = some (.ok s) :=
  C236_min_scale tri 0.4 (by norm_num) (by norm_num) 1 1 1 (tri_peak 0) 1000 (by norm_num) (by norm_num) (by norm_num [tri])

end Ssq
