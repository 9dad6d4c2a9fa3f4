import Verif.Props.MaxScale

/-!
# C113: `find_max_scale_alt`
-/
namespace Ssq
open Spec

theorem arangeStep_getD (a b step : ℝ) (k : ℕ) (h : k < (arangeStep a b step).dropLast.length) :
    (arangeStep a b step).dropLast.getD k 0 = a + k * step := by
  rw [List.length_dropLast] at h
  rw [List.getD_eq_getElem?_getD, List.getElem?_dropLast]
  have h' : k < ⌈(b - a) / step⌉₊ := by simp [arangeStep] at h; omega
  rw [if_pos (by omega)]
  simp [arangeStep, h']

theorem arangeStep_lt (a b step : ℝ) (hs : 0 < step) (k : ℕ) (h : k < (arangeStep a b step).dropLast.length) :
    a + k * step + step < b := by
  rw [List.length_dropLast] at h
  have h' : k + 1 < ⌈(b - a) / step⌉₊ := by simp [arangeStep] at h; omega
  have := Nat.lt_ceil.1 h'
  rw [lt_div_iff₀ hs] at this
  push_cast at this
  linarith

theorem diffMod1_getD (l : List ℝ) (i : ℕ) (h : i < (diffMod1 l).length) :
    (diffMod1 l).getD i 0 = Int.fract (l.getD (i + 1) 0) - Int.fract (l.getD i 0) := by
  simp [diffMod1] at h
  simp [diffMod1, h]

/-- The candidate `w` at which `find_max_scale_alt` stops: number `i + 1` of the points `w_cutoff + k/N`. -/
theorem maxAlt_ok {fn : ℝ → ℝ} {N : ℕ} {minC maxC : ℝ} {fuel : ℕ} {wp pk s : ℝ} (hp : findPeak fn fuel = some (.ok (wp, pk)))
    (h : findMaxScaleAlt fn N minC maxC fuel = some (.ok s)) :
    0 < minC ∧ minC < maxC ∧ 0 < N ∧ ∃ wcut o, findValue fn (minC * pk) 0 wp fuel = some (.ok (wcut, o)) ∧
      ∃ i : ℕ, (wcut + ((i + 1 : ℕ) : ℝ) * (1 / N)) + 1 / N < wp ∧
        (let q : ℕ → ℝ := fun k => Int.fract ((wcut + (k : ℝ) * (1 / N)) / ((wp - (wcut + (k : ℝ) * (1 / N))) * 2))
         q (i + 1) - q i < -(4 / 5) ∧ ∀ j < i, -(4 / 5) ≤ q (j + 1) - q j) ∧
        s = (wp - (wcut + ((i + 1 : ℕ) : ℝ) * (1 / N))) * 2 / (Real.pi / ((N : ℝ) / 2)) := by
  unfold findMaxScaleAlt at h
  by_cases h1 : maxC ≤ 0 ∨ minC ≤ 0
  · rw [if_pos h1] at h; simp at h
  rw [if_neg h1] at h
  by_cases h2 : maxC ≤ minC
  · rw [if_pos h2] at h; simp at h
  rw [if_neg h2, hp, andThen_some] at h
  push Not at h1 h2
  obtain ⟨⟨wcut, o⟩, hv, h⟩ := andThen_ok h
  simp only at h
  by_cases hN : N = 0
  · rw [if_pos hN] at h; simp at h
  rw [if_neg hN] at h
  have hN' : 0 < N := Nat.pos_of_ne_zero hN
  have hNr : (0 : ℝ) < 1 / N := by positivity
  refine ⟨h1.2, h2, hN', wcut, o, hv, ?_⟩
  set l := (arangeStep wcut wp (1 / N)).dropLast with hl
  split at h
  · simp at h
  · rename_i i hi
    obtain ⟨a1, a2, a3⟩ := whereIdx_head _ _ _ hi
    simp only [Option.some.injEq, Except.ok.injEq] at h
    have hlen : i + 1 < l.length := by simp [diffMod1] at a1; omega
    have hq : ∀ k, k < l.length → (l.map fun w => w / ((wp - w) * 2)).getD k 0 =
        (wcut + (k : ℝ) * (1 / N)) / ((wp - (wcut + (k : ℝ) * (1 / N))) * 2) := by
      intro k hk
      rw [List.getD_eq_getElem _ _ (by simpa using hk), List.getElem_map, ← List.getD_eq_getElem _ 0 hk, arangeStep_getD _ _ _ k hk]
    have hd : ∀ k, k + 1 < l.length → (diffMod1 (l.map fun w => w / ((wp - w) * 2))).getD k 0 =
        Int.fract ((wcut + ((k + 1 : ℕ) : ℝ) * (1 / N)) / ((wp - (wcut + ((k + 1 : ℕ) : ℝ) * (1 / N))) * 2)) -
        Int.fract ((wcut + (k : ℝ) * (1 / N)) / ((wp - (wcut + (k : ℝ) * (1 / N))) * 2)) := by
      intro k hk
      rw [diffMod1_getD _ _ (by simp [diffMod1]; omega), hq _ hk, hq _ (by omega)]
    refine ⟨i, arangeStep_lt _ _ _ hNr _ hlen, ⟨?_, ?_⟩, ?_⟩
    · rw [hd i hlen] at a2; exact a2
    · intro j hj
      have := a3 j hj
      rw [hd j (by omega)] at this
      exact not_lt.1 this
    · rw [← h, List.getD_eq_getElem _ _ (by simpa using hlen), List.getElem_map, ← List.getD_eq_getElem _ 0 hlen, arangeStep_getD _ _ _ _ hlen]

/-- **C113**: `find_max_scale_alt` returns a positive scale. Let `d` be the spacing of the frequencies of the wavelet at that scale. Two
consecutive multiples `m·d`, `(m+1)·d` of it enclose the peak and are symmetric about it up to less than `d/5`: their midpoint lies
in `(w_peak - d/5, w_peak]`. The point `w` it is derived from lies beyond the `min_cutoff` point and left of the peak, half a spacing away
from it. -/
theorem C113_symmetric (fn : ℝ → ℝ) (N : ℕ) (minC maxC : ℝ) (fuel : ℕ) (wp pk s : ℝ) (hp : findPeak fn fuel = some (.ok (wp, pk)))
    (h : findMaxScaleAlt fn N minC maxC fuel = some (.ok s)) :
    0 < s ∧ ∃ wcut o, findValue fn (minC * pk) 0 wp fuel = some (.ok (wcut, o)) ∧
    ∃ (w d : ℝ) (m : ℕ), d = s * (2 * Real.pi / N) ∧ 0 < d ∧ wcut < w ∧ w + 1 / N < wp ∧ w = wp - d / 2 ∧
      (m : ℝ) * d ≤ w ∧ w < (m : ℝ) * d + d / 5 ∧
      (m : ℝ) * d < wp ∧ wp < ((m + 1 : ℕ) : ℝ) * d ∧
      wp - d / 5 < ((m : ℝ) * d + ((m + 1 : ℕ) : ℝ) * d) / 2 ∧ ((m : ℝ) * d + ((m + 1 : ℕ) : ℝ) * d) / 2 ≤ wp ∧
      (m + 1 ≤ N / 2 → (xifn s N).getD m 0 = m * d ∧ (xifn s N).getD (m + 1) 0 = ((m + 1 : ℕ) : ℝ) * d) := by
  obtain ⟨-, -, hN, wcut, o, hv, i, h1, ⟨h2, -⟩, h4⟩ := maxAlt_ok hp h
  have hpi := Real.pi_pos
  have hNr : (0 : ℝ) < N := by exact_mod_cast hN
  have hN1 : (0 : ℝ) < 1 / N := by positivity
  obtain ⟨C, k, -, hw1, -⟩ := C64_occ_result _ _ _ _ _ _ _ _ _ hv
  rw [gridPt_default] at hw1
  have hcut : 0 ≤ wcut := by
    rw [hw1]
    exact le_min (by positivity) (peak_nonneg _ _ _ _ hp).1
  set w := wcut + ((i + 1 : ℕ) : ℝ) * (1 / N) with hw
  have hwcut : wcut < w := by
    have : (0 : ℝ) < ((i + 1 : ℕ) : ℝ) * (1 / N) := by positivity
    linarith
  have hwp : w < wp := by linarith
  set d := (wp - w) * 2 with hd
  have hd0 : 0 < d := by rw [hd]; linarith
  have hs : d = s * (2 * Real.pi / N) := by
    rw [h4]
    field_simp
  have hspos : 0 < s := by
    rw [h4]; positivity
  have hw0 : 0 ≤ w := by linarith
  have hq0 : 0 ≤ w / d := by positivity
  have hfl : 0 ≤ ⌊w / d⌋ := Int.floor_nonneg.2 hq0
  obtain ⟨m, hm⟩ := Int.eq_ofNat_of_zero_le hfl
  have hfr : Int.fract (w / d) < 1 / 5 := by
    simp only at h2
    have := Int.fract_lt_one ((wcut + (i : ℝ) * (1 / N)) / ((wp - (wcut + (i : ℝ) * (1 / N))) * 2))
    linarith
  have hfr0 := Int.fract_nonneg (w / d)
  have hsum := Int.floor_add_fract (w / d)
  rw [hm] at hsum
  push_cast at hsum
  have e1 : (m : ℝ) * d ≤ w := by
    rw [← le_div_iff₀ hd0]; linarith
  have e2 : w < (m : ℝ) * d + d / 5 := by
    have : w / d < m + 1 / 5 := by linarith
    rw [div_lt_iff₀ hd0] at this
    linarith
  refine ⟨hspos, wcut, o, hv, w, d, m, hs, hd0, hwcut, h1, by rw [hd]; ring, e1, e2, by linarith, ?_, ?_, ?_, ?_⟩
  · push_cast
    have : wp = w + d / 2 := by rw [hd]; ring
    linarith
  · push_cast
    have : wp = w + d / 2 := by rw [hd]; ring
    linarith
  · push_cast
    have : wp = w + d / 2 := by rw [hd]; ring
    linarith
  · intro hmN
    rw [xifn_pos_getD _ _ _ (by omega) (by omega), xifn_pos_getD _ _ _ (by omega) (by omega), hs]
    unfold sampleFreq
    constructor
    · ring
    · push_cast; ring

/-- The cutoffs are validated. -/
theorem C113_cutoffs_partial (fn : ℝ → ℝ) (N : ℕ) (minC maxC : ℝ) (fuel : ℕ) :
    (maxC ≤ 0 ∨ minC ≤ 0 ∨ maxC ≤ minC → findMaxScaleAlt fn N minC maxC fuel = some (.error .valueError)) ∧
    (∀ s, findMaxScaleAlt fn N minC maxC fuel = some (.ok s) → 0 < minC ∧ minC < maxC) := by
  constructor
  · rintro (h | h | h)
    · unfold findMaxScaleAlt; rw [if_pos (.inl h)]
    · unfold findMaxScaleAlt; rw [if_pos (.inr h)]
    · unfold findMaxScaleAlt
      rw [if_pos h]
      split_ifs <;> rfl
  · intro s h
    by_contra hn
    have hc : maxC ≤ 0 ∨ minC ≤ 0 ∨ maxC ≤ minC := by
      by_contra hc
      push Not at hc
      exact hn ⟨hc.2.1, hc.2.2⟩
    unfold findMaxScaleAlt at h
    by_cases h1 : maxC ≤ 0 ∨ minC ≤ 0
    · rw [if_pos h1] at h; simp at h
    · rw [if_neg h1, if_pos (by tauto)] at h; simp at h

/-- The search always ends. -/
theorem C113_terminates (fn : ℝ → ℝ) (N : ℕ) (minC maxC : ℝ) : ∃ fuel r, findMaxScaleAlt fn N minC maxC fuel = some r := by
  obtain ⟨f1, r1, h1⟩ := findPeak_ends fn
  have e0 : ∀ (wp : ℝ) (x : ℝ × ℝ), ∃ r, (if N = 0 then some (.error .zeroDivisionError : Py ℝ) else
      let wLtp := (arangeStep x.1 wp (1 / N)).dropLast
      let divSize := wLtp.map fun w => (wp - w) * 2
      let nDivs := wLtp.map fun w => w / ((wp - w) * 2)
      match (whereIdx (diffMod1 nDivs) fun d => d < -(4 / 5)).head? with
      | none => some (.error .exception)
      | some idx => some (.ok (divSize.getD (idx + 1) 0 / (Real.pi / ((N : ℝ) / 2))))) = some r := by
    intro wp x
    split_ifs
    · exact ⟨_, rfl⟩
    · simp only
      split <;> exact ⟨_, rfl⟩
  rcases r1 with e | ⟨wp, pk⟩
  · refine ⟨f1, ?_⟩
    unfold findMaxScaleAlt
    rw [h1]
    split_ifs <;> exact ⟨_, rfl⟩
  · obtain ⟨f2, r2, h2⟩ := findValue_ends fn (minC * pk) 0 wp
    refine ⟨f1 + f2, ?_⟩
    have h1' := findPeak_mono fn f2 f1 _ h1
    have h2' := findValue_mono fn _ _ _ f1 f2 _ h2
    rw [Nat.add_comm f2 f1] at h2'
    unfold findMaxScaleAlt
    rw [h1', andThen_some]
    by_cases hc1 : maxC ≤ 0 ∨ minC ≤ 0
    · rw [if_pos hc1]; exact ⟨_, rfl⟩
    · rw [if_neg hc1]
      by_cases hc2 : maxC ≤ minC
      · rw [if_pos hc2]; exact ⟨_, rfl⟩
      · rw [if_neg hc2]
        simp only
        rw [h2']
        rcases r2 with e | x
        · exact ⟨_, rfl⟩
        · exact e0 wp x

/-- "… while still yielding `wavelet(w)` to fall between `min_cutoff`* and `max_cutoff`* `max(psih)`": the upper bound, for the left
one of the two points of symmetry (half a spacing below the peak). -/
def C113_full : Prop := ∀ (fn : ℝ → ℝ) (N : ℕ) (minC maxC : ℝ) (fuel : ℕ) (wp pk s : ℝ),
  findPeak fn fuel = some (.ok (wp, pk)) → findMaxScaleAlt fn N minC maxC fuel = some (.ok s) →
  |fn (wp - s * (2 * Real.pi / N) / 2)| ≤ maxC * pk

/-- `max_cutoff` is only validated: any two valid values give the same result. -/
theorem C113_max_ignored (fn : ℝ → ℝ) (N : ℕ) (minC maxC maxC' : ℝ) (fuel : ℕ) (h0 : 0 < minC) (h : minC < maxC) (h' : minC < maxC') :
    findMaxScaleAlt fn N minC maxC fuel = findMaxScaleAlt fn N minC maxC' fuel := by
  unfold findMaxScaleAlt
  rw [if_neg (by push Not; constructor <;> linarith), if_neg (by linarith), if_neg (by push Not; constructor <;> linarith), if_neg (by linarith)]

/-- The triangle with `N = 100` and `min_cutoff = 0.6`: a scale is found. -/
theorem tri_alt (maxC : ℝ) (h : 3 / 5 < maxC) (k : ℕ) : ∃ s, findMaxScaleAlt tri 100 (3 / 5) maxC (k + 2) = some (.ok s) := by
  have hv : |tri (min (0 + (600 : ℕ) / 1000) 1)| = 3 / 5 * 1 := by
    rw [zero_add, min_eq_left (by norm_num), abs_of_nonneg (tri_nonneg _), tri_left _ (by norm_num) (by norm_num)]; norm_num
  obtain ⟨v, hf⟩ := findValue_ok tri _ 0 1 600 (by norm_num) hv (k + 1)
  obtain ⟨s, h1, h2, -⟩ := C64_occ_exact _ _ _ _ _ _ _ _ hf
  rw [gridPt_default] at h1
  have hv0 : 0 ≤ v := by rw [h1]; exact le_min (by positivity) (by norm_num)
  have hv1 : v ≤ 1 := by rw [h1]; exact min_le_right _ _
  rw [abs_of_nonneg (tri_nonneg _), tri_left _ hv0 hv1, mul_one] at h2
  subst h2
  unfold findMaxScaleAlt
  rw [if_neg (by push Not; constructor <;> linarith), if_neg (by linarith), tri_peak, andThen_some]
  simp only
  rw [hf, andThen_some]
  simp only
  rw [if_neg (by norm_num)]
  have hlen : (arangeStep (3 / 5) 1 (1 / ((100 : ℕ) : ℝ))).dropLast.length = 39 := by
    rw [List.length_dropLast]
    simp only [arangeStep, List.length_map, List.length_range]
    have : ((1 : ℝ) - 3 / 5) / (1 / ((100 : ℕ) : ℝ)) = (40 : ℕ) := by norm_num
    rw [this, Nat.ceil_natCast]
  set l := (arangeStep (3 / 5) 1 (1 / ((100 : ℕ) : ℝ))).dropLast with hl
  have hmem : 6 ∈ whereIdx (diffMod1 (l.map fun w => w / ((1 - w) * 2))) fun d => d < -(4 / 5) := by
    rw [whereIdx_mem]
    have hL : 6 < (diffMod1 (l.map fun w => w / ((1 - w) * 2))).length := by simp [diffMod1, hlen]
    refine ⟨hL, ?_⟩
    rw [diffMod1_getD _ _ hL]
    have hq : ∀ j, j < 39 → (l.map fun w => w / ((1 - w) * 2)).getD j 0 =
        (3 / 5 + (j : ℝ) * (1 / ((100 : ℕ) : ℝ))) / ((1 - (3 / 5 + (j : ℝ) * (1 / ((100 : ℕ) : ℝ)))) * 2) := by
      intro j hj
      rw [List.getD_eq_getElem _ _ (by simp; omega), List.getElem_map, ← List.getD_eq_getElem _ 0 (by omega),
        arangeStep_getD _ _ _ j (by rw [← hl]; omega)]
    rw [hq 7 (by norm_num), hq 6 (by norm_num)]
    have f1 : Int.fract ((3 / 5 + ((7 : ℕ) : ℝ) * (1 / ((100 : ℕ) : ℝ))) / ((1 - (3 / 5 + ((7 : ℕ) : ℝ) * (1 / ((100 : ℕ) : ℝ)))) * 2)) = 1 / 66 := by
      rw [Int.fract_eq_iff]
      refine ⟨by norm_num, by norm_num, 1, by norm_num⟩
    have f2 : Int.fract ((3 / 5 + ((6 : ℕ) : ℝ) * (1 / ((100 : ℕ) : ℝ))) / ((1 - (3 / 5 + ((6 : ℕ) : ℝ) * (1 / ((100 : ℕ) : ℝ)))) * 2)) = 33 / 34 := by
      rw [Int.fract_eq_iff]
      refine ⟨by norm_num, by norm_num, 0, by norm_num⟩
    rw [f1, f2]
    norm_num
  rcases hw : (whereIdx (diffMod1 (l.map fun w => w / ((1 - w) * 2))) fun d => d < -(4 / 5)).head? with _ | i
  · rw [List.head?_eq_none_iff.1 hw] at hmem
    simp at hmem
  · exact ⟨_, rfl⟩

/-- The hypotheses of `C113_symmetric` and `C113_max_ignored` are met. -/
example : findPeak tri 2 = some (.ok (1, 1)) ∧ ∃ s, findMaxScaleAlt tri 100 (3 / 5) (4 / 5) 2 = some (.ok s) :=
  ⟨tri_peak 0, tri_alt _ (by norm_num) 0⟩

/-- With `min_cutoff = 0.6` and `max_cutoff = 0.6001` the left point still lies beyond `max_cutoff`: it is at least `0.61`, since the
candidates are `0.01` apart. -/
theorem C113_refuted : ¬ C113_full := fun h => by
  obtain ⟨s, hs⟩ := tri_alt (6001 / 10000) (by norm_num) 0
  have := h tri 100 (3 / 5) (6001 / 10000) 2 1 1 s (tri_peak 0) hs
  obtain ⟨-, -, hN, wcut, o, hv, i, h1, -, h4⟩ := maxAlt_ok (tri_peak 0) hs
  obtain ⟨v, hf⟩ := findValue_ok tri (3 / 5 * 1) 0 1 600 (by norm_num) (by
    rw [zero_add, min_eq_left (by norm_num), abs_of_nonneg (tri_nonneg _), tri_left _ (by norm_num) (by norm_num)]; norm_num) 1
  rw [hf] at hv
  simp only [Option.some.injEq, Except.ok.injEq, Prod.mk.injEq] at hv
  obtain ⟨rfl, rfl⟩ := hv
  obtain ⟨t, g1, g2, -⟩ := C64_occ_exact _ _ _ _ _ _ _ _ hf
  rw [gridPt_default] at g1
  have hv0 : 0 ≤ v := by rw [g1]; exact le_min (by positivity) (by norm_num)
  have hv1 : v ≤ 1 := by rw [g1]; exact min_le_right _ _
  rw [abs_of_nonneg (tri_nonneg _), tri_left _ hv0 hv1, mul_one] at g2
  have hpi := Real.pi_pos
  have e : 1 - s * (2 * Real.pi / ((100 : ℕ) : ℝ)) / 2 = v + ((i + 1 : ℕ) : ℝ) * (1 / ((100 : ℕ) : ℝ)) := by
    rw [h4]
    push_cast
    field_simp
    ring
  rw [e] at this
  have hi : (0 : ℝ) ≤ i := Nat.cast_nonneg i
  rw [g2] at this h1
  push_cast at this h1
  rw [abs_of_nonneg (tri_nonneg _), tri_left _ (by positivity) (by linarith)] at this
  linarith

end Ssq
