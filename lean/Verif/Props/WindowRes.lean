import Verif.Lemmas.WindowRes
import Mathlib.Tactic.NormNum

/-!
# C115: `window_area` and `window_resolution`

The specification: the energy `Σ w²` and the power spectrum `|ŵ(k)|²` of the window.
-/
namespace Ssq
open Finset

namespace Spec

/-- Energy of a window. -/
noncomputable def winEnergy (w : List ℝ) : ℝ := ∑ j ∈ range w.length, w.getD j 0 ^ 2

/-- `|ŵ(k)|²` with `ŵ(k) = Σ w(j) exp(-2πi jk/N)`. -/
noncomputable def power (w : List ℝ) (k : ℕ) : ℝ :=
  ‖∑ j ∈ range w.length, ((w.getD j 0 : ℝ) : ℂ) * Complex.exp (-(2 * Real.pi * (j * k : ℕ) / w.length : ℝ) * Complex.I)‖ ^ 2

end Spec

theorem specPow_eq (w : List ℝ) (k : ℕ) : specPow w k = Spec.power w k := by
  unfold specPow Spec.power dft
  congr 2
  refine sum_congr rfl fun j _ => ?_
  congr 1
  unfold tw
  congr 1
  push_cast
  ring

theorem windowPow_sum (w : List ℝ) : (windowPow w).sum = Spec.winEnergy w := by
  unfold Spec.winEnergy
  rw [getD_sum]
  unfold windowPow
  rw [List.length_map]
  refine sum_congr rfl fun j hj => ?_
  rw [mem_range] at hj
  rw [List.getD_eq_getElem _ _ (by simpa using hj), List.getElem_map, sq_abs, List.getD_eq_getElem _ _ hj]

theorem windowPow_getD (w : List ℝ) (i : ℕ) (hi : i < w.length) : (windowPow w).getD i 0 = w.getD i 0 ^ 2 := by
  unfold windowPow
  rw [List.getD_eq_getElem _ _ (by simpa using hi), List.getElem_map, sq_abs, List.getD_eq_getElem _ _ hi]

/-- **C115**, time: the energy minus half of the end samples. -/
theorem C115_time (w : List ℝ) (h : 2 ≤ w.length) :
    windowArea w true false = .ok [Spec.winEnergy w - (w.getD 0 0 ^ 2 + w.getD (w.length - 1) 0 ^ 2) / 2] := by
  have e : areaT w = Spec.winEnergy w - (w.getD 0 0 ^ 2 + w.getD (w.length - 1) 0 ^ 2) / 2 := by
    obtain ⟨m, hm⟩ : ∃ m, w.length = m + 2 := ⟨w.length - 2, by omega⟩
    unfold areaT
    rw [trapzX_grid _ _ (-((m + 2 : ℕ) : ℝ) / 2) 1 m (by simp [windowPow, hm]) (fun i hi => by rw [hm]; exact windowT_getD _ _ hi), one_mul,
      windowPow_sum, windowPow_getD _ _ (by omega), windowPow_getD _ _ (by omega), hm, show m + 2 - 1 = m + 1 from rfl]
  simp [windowArea, e]

/-- C115: asked for both areas, `window_area` returns the time area first and the frequency area second, each the value it returns when asked for it alone. -/
theorem C115_both (w : List ℝ) : ∃ a b : ℝ, windowArea w true false = .ok [a] ∧ windowArea w false true = .ok [b] ∧ windowArea w true true = .ok [a, b] :=
  ⟨areaT w, areaW w, by simp [windowArea], by simp [windowArea], by simp [windowArea]⟩

/-- C115: asked for neither, it fails; otherwise it returns as many values as it was asked for. -/
theorem C115_neither (w : List ℝ) (time frequency : Bool) :
    windowArea w time frequency = .error .valueError ↔ time = false ∧ frequency = false := by
  cases time <;> cases frequency <;> simp [windowArea]

theorem windowArea_freq (w : List ℝ) : windowArea w false true = .ok [areaW w] := by simp [windowArea]

/-- **C115**, frequency, odd length `N = 2m+1`: by Parseval's identity `2π` times the energy, minus the end samples of the spectrum. -/
theorem C115_odd (w : List ℝ) (m : ℕ) (hm : 1 ≤ m) (h : w.length = 2 * m + 1) :
    windowArea w false true = .ok [2 * Real.pi * Spec.winEnergy w - 2 * Real.pi / (2 * m + 1 : ℕ) * Spec.power w m] := by
  rw [windowArea_freq]
  congr 2
  have hw : w ≠ [] := by rintro rfl; simp at h
  obtain ⟨q, hq⟩ : ∃ q, 2 * m + 1 = q + 2 := ⟨2 * m - 1, by omega⟩
  unfold areaW
  rw [trapzX_grid _ _ (-(m : ℝ) * (2 * Real.pi / (2 * m + 1 : ℕ))) (2 * Real.pi / (2 * m + 1 : ℕ)) q (by rw [windowPowW_length]; omega)
    (fun i hi => by rw [h]; exact windowWs_odd m i (by omega)), windowPowW_sum, windowPow_sum, windowPowW_getD _ _ (by omega),
    windowPowW_getD _ _ (by omega), h]
  have e1 : (0 + (2 * m + 1 - (2 * m + 1) / 2)) % (2 * m + 1) = w.length - m := by
    rw [show 0 + (2 * m + 1 - (2 * m + 1) / 2) = m + 1 by omega, Nat.mod_eq_of_lt (by omega)]; omega
  have e2 : (q + 1 + (2 * m + 1 - (2 * m + 1) / 2)) % (2 * m + 1) = m := by
    rw [show q + 1 + (2 * m + 1 - (2 * m + 1) / 2) = m + (2 * m + 1) by omega, Nat.add_mod_right, Nat.mod_eq_of_lt (by omega)]
  rw [e1, e2, specPow_symm w m (by omega) hw, specPow_eq]
  have : ((2 * m + 1 : ℕ) : ℝ) ≠ 0 := by positivity
  field_simp
  ring

/-- **C115**, frequency, even length `N = 2m`: the first frequency is `π` instead of `-π`, and the area falls short by a term that does not vanish with
growing `N`. -/
theorem C115_even (w : List ℝ) (m : ℕ) (hm : 1 ≤ m) (h : w.length = 2 * m) :
    windowArea w false true =
      .ok [2 * Real.pi * Spec.winEnergy w - (Real.pi + Real.pi / (2 * m : ℕ)) * (Spec.power w m + Spec.power w (m - 1))] := by
  rw [windowArea_freq]
  congr 2
  have hw : w ≠ [] := by rintro rfl; simp at h; omega
  obtain ⟨q, hq⟩ : ∃ q, 2 * m = q + 2 := ⟨2 * m - 2, by omega⟩
  unfold areaW
  rw [trapzX_shifted _ _ (-(m : ℝ) * (2 * Real.pi / (2 * m : ℕ))) (2 * Real.pi / (2 * m : ℕ)) q (by rw [windowPowW_length]; omega)
    (fun i h1 hi => by rw [h]; exact windowWs_even m i h1 (by omega)), windowPowW_sum, windowPow_sum, windowPowW_getD _ _ (by omega),
    windowPowW_getD _ _ (by omega), windowPowW_getD _ _ (by omega), h, windowWs_even_zero m hm]
  have e1 : (0 + (2 * m - 2 * m / 2)) % (2 * m) = m := by
    rw [show 0 + (2 * m - 2 * m / 2) = m by omega, Nat.mod_eq_of_lt (by omega)]
  have e2 : (q + 1 + (2 * m - 2 * m / 2)) % (2 * m) = m - 1 := by
    rw [show q + 1 + (2 * m - 2 * m / 2) = m - 1 + (2 * m) by omega, Nat.add_mod_right, Nat.mod_eq_of_lt (by omega)]
  have e3 : specPow w ((1 + (2 * m - 2 * m / 2)) % (2 * m)) = specPow w (m - 1) := by
    rcases Nat.lt_or_ge 1 m with h1 | h1
    · rw [show 1 + (2 * m - 2 * m / 2) = w.length - (m - 1) by omega, Nat.mod_eq_of_lt (by omega), specPow_symm w (m - 1) (by omega) hw]
    · obtain rfl : m = 1 := by omega
      rfl
  rw [e1, e2, e3, specPow_eq, specPow_eq]
  have : ((2 * m : ℕ) : ℝ) ≠ 0 := by
    have : 2 * m ≠ 0 := by omega
    exact_mod_cast this
  have hmr : (m : ℝ) ≠ 0 := by
    have : m ≠ 0 := by omega
    exact_mod_cast this
  push_cast
  field_simp
  ring

/-! ### A negative area -/

/-- The property: areas are not negative. -/
def C115_area_full : Prop := ∀ (w : List ℝ) (a : ℝ), 2 ≤ w.length → windowArea w false true = .ok [a] → 0 ≤ a

/-- The window `1, 0, …, 0`. -/
def unitWindow (N : ℕ) : List ℝ := 1 :: List.replicate (N - 1) 0

theorem unitWindow_getD (N j : ℕ) : (unitWindow N).getD j 0 = if j = 0 then 1 else 0 := by
  unfold unitWindow
  rcases j with _ | j
  · simp
  · rw [List.getD_cons_succ, if_neg (by omega)]
    rcases Nat.lt_or_ge j (N - 1) with h | h
    · rw [List.getD_eq_getElem _ _ (by simpa using h)]; simp
    · rw [List.getD_eq_default _ _ (by simpa using h)]

theorem unitWindow_length (N : ℕ) (h : 0 < N) : (unitWindow N).length = N := by simp [unitWindow]; omega

theorem unitWindow_power (N : ℕ) (h : 0 < N) (k : ℕ) : Spec.power (unitWindow N) k = 1 := by
  unfold Spec.power
  rw [unitWindow_length N h, sum_eq_single 0]
  · rw [unitWindow_getD, if_pos rfl]; simp
  · intro j _ hj
    rw [unitWindow_getD, if_neg hj]; simp
  · intro h0; exact absurd (mem_range.2 h) h0

theorem unitWindow_energy (N : ℕ) (h : 0 < N) : Spec.winEnergy (unitWindow N) = 1 := by
  unfold Spec.winEnergy
  rw [unitWindow_length N h, sum_eq_single 0]
  · rw [unitWindow_getD, if_pos rfl]; simp
  · intro j _ hj
    rw [unitWindow_getD, if_neg hj]; simp
  · intro h0; exact absurd (mem_range.2 h) h0

/-- For every even length there is a window of negative frequency area: `1, 0, …, 0` has area `-2π/N` (it should be `2π - 2π/N`). -/
theorem C115_negative (m : ℕ) (hm : 1 ≤ m) : windowArea (unitWindow (2 * m)) false true = .ok [-(2 * Real.pi / (2 * m : ℕ))] := by
  rw [C115_even _ m hm (unitWindow_length _ (by omega)), unitWindow_energy _ (by omega), unitWindow_power _ (by omega), unitWindow_power _ (by omega)]
  congr 2
  ring

theorem C115_area_refuted : ¬ C115_area_full := by
  intro h
  have := h _ _ (by rw [unitWindow_length _ (by norm_num)]) (C115_negative 1 le_rfl)
  have hp := Real.pi_pos
  norm_num at this
  linarith

/-- For odd lengths it holds. -/
theorem C115_area_partial (w : List ℝ) (a : ℝ) (m : ℕ) (hm : 1 ≤ m) (hl : w.length = 2 * m + 1) (h : windowArea w false true = .ok [a]) : 0 ≤ a := by
  rw [windowArea_freq] at h
  injection h with h
  injection h with h
  rw [← h]
  unfold areaW
  apply trapzX_nonneg
  · intro i hi
    rw [windowPowW_length] at hi
    rw [hl, windowWs_odd m i (by omega), windowWs_odd m (i + 1) (by omega)]
    have : 0 ≤ 2 * Real.pi / (2 * m + 1 : ℕ) := by have := Real.pi_pos; positivity
    push_cast at this ⊢
    linarith
  · intro i hi
    rw [windowPowW_length] at hi
    rw [windowPowW_getD _ _ hi]
    exact specPow_nonneg _ _

/-! ### Widths -/

theorem mesh_sq_le (c x p : ℝ) (hx : |x| ≤ c) (hp : 0 ≤ p) : x ^ 2 * p ≤ c ^ 2 * p := by
  apply mul_le_mul_of_nonneg_right _ hp
  rw [← sq_abs]
  exact pow_le_pow_left₀ (abs_nonneg _) hx 2

theorem zipW_getD (f : ℝ → ℝ → ℝ) (a b : List ℝ) (i : ℕ) (h1 : i < a.length) (h2 : i < b.length) :
    (List.zipWith f a b).getD i 0 = f (a.getD i 0) (b.getD i 0) := by
  rw [List.getD_eq_getElem _ _ (by simp; omega), List.getElem_zipWith, List.getD_eq_getElem _ _ h1, List.getD_eq_getElem _ _ h2]

/-- The quotient of two rules on an increasing mesh inside `[-c, c]` is at most `c²`. -/
theorem var_le (x p : List ℝ) (c : ℝ) (hl : x.length = p.length) (hx : ∀ i, i + 1 < p.length → x.getD i 0 ≤ x.getD (i + 1) 0)
    (hc : ∀ i, i < p.length → |x.getD i 0| ≤ c) (hp : ∀ i, i < p.length → 0 ≤ p.getD i 0) :
    0 ≤ trapzX (List.zipWith (fun w p => w ^ 2 * p) x p) x / trapzX p x ∧
      trapzX (List.zipWith (fun w p => w ^ 2 * p) x p) x / trapzX p x ≤ c ^ 2 := by
  have hz : (List.zipWith (fun w p => w ^ 2 * p) x p).length = p.length := by simp [hl]
  have h0 := trapzX_nonneg p x hx hp
  have h1 : 0 ≤ trapzX (List.zipWith (fun w p => w ^ 2 * p) x p) x := by
    apply trapzX_nonneg
    · rw [hz]; exact hx
    · intro i hi
      rw [hz] at hi
      rw [zipW_getD _ _ _ _ (by omega) hi]
      exact mul_nonneg (sq_nonneg _) (hp i hi)
  have h2 : trapzX (List.zipWith (fun w p => w ^ 2 * p) x p) x ≤ c ^ 2 * trapzX p x := by
    apply trapzX_mono _ _ _ _ hz
    · rw [hz]; exact hx
    · intro i hi
      rw [hz] at hi
      rw [zipW_getD _ _ _ _ (by omega) hi]
      exact mesh_sq_le _ _ _ (hc i hi) (hp i hi)
  refine ⟨div_nonneg h1 h0, ?_⟩
  rcases h0.eq_or_lt with h | h
  · rw [← h, div_zero]; positivity
  · rw [div_le_iff₀ h]; exact h2

/-- `window_resolution` on an admissible window, and `harea` is the product of the widths. -/
theorem C115_resolution (w : List ℝ) (h0 : w ≠ []) (hw : ∀ x ∈ w, 0 ≤ x) :
    windowResolution w = .ok (Real.sqrt (varW w), Real.sqrt (varT w), Real.sqrt (varW w) * Real.sqrt (varT w)) := by
  unfold windowResolution
  rw [if_neg h0, if_neg]
  rintro ⟨x, hx, hx0⟩
  linarith [hw x hx]

/-- It fails exactly for the empty window and for windows with a negative sample. -/
theorem C115_fails (w : List ℝ) : (∃ e, windowResolution w = .error e) ↔ w = [] ∨ ∃ x ∈ w, x < 0 := by
  constructor
  · rintro ⟨e, h⟩
    by_contra hn
    push Not at hn
    rw [C115_resolution w hn.1 hn.2] at h
    exact nomatch h
  · rintro (h | h)
    · exact ⟨.valueError, by simp [windowResolution, h]⟩
    · by_cases h0 : w = []
      · exact ⟨.valueError, by simp [windowResolution, h0]⟩
      · exact ⟨.assertionError, by unfold windowResolution; rw [if_neg h0, if_pos h]⟩

/-- The time width is at most `N/2`. -/
theorem C115_std_t (w : List ℝ) (sw st ha : ℝ) (h : windowResolution w = .ok (sw, st, ha)) : 0 ≤ st ∧ st ≤ w.length / 2 := by
  have hn : ¬ ∃ e, windowResolution w = .error e := by rintro ⟨e, he⟩; rw [h] at he; exact nomatch he
  rw [C115_fails] at hn
  push Not at hn
  rw [C115_resolution w hn.1 hn.2] at h
  injection h with h
  simp only [Prod.mk.injEq] at h
  obtain ⟨-, rfl, -⟩ := h
  refine ⟨Real.sqrt_nonneg _, ?_⟩
  rw [Real.sqrt_le_left (by positivity)]
  have hl : (windowPow w).length = w.length := by simp [windowPow]
  refine (var_le (windowT w.length) (windowPow w) (w.length / 2) (by simp [windowT, windowPow]) ?_ ?_ ?_).2
  · intro i hi
    rw [hl] at hi
    rw [windowT_getD _ _ (by omega), windowT_getD _ _ (by omega)]
    push_cast; linarith
  · intro i hi
    rw [hl] at hi
    rw [windowT_getD _ _ hi, abs_le]
    have : (i : ℝ) ≤ w.length := by exact_mod_cast hi.le
    have : (0 : ℝ) ≤ i := by positivity
    constructor <;> linarith
  · intro i hi
    rw [hl] at hi
    rw [windowPow_getD _ _ hi]
    positivity

/-- The property: all frequencies are between `-π` and `π`, so the frequency width is at most `π`. -/
def C115_width_full : Prop := ∀ (w : List ℝ) (sw st ha : ℝ), 2 ≤ w.length → windowResolution w = .ok (sw, st, ha) → sw ≤ Real.pi

/-- For odd lengths it holds. -/
theorem C115_width_partial (w : List ℝ) (sw st ha : ℝ) (m : ℕ) (hl : w.length = 2 * m + 1) (h : windowResolution w = .ok (sw, st, ha)) :
    0 ≤ sw ∧ sw ≤ Real.pi := by
  have hn : ¬ ∃ e, windowResolution w = .error e := by rintro ⟨e, he⟩; rw [h] at he; exact nomatch he
  rw [C115_fails] at hn
  push Not at hn
  rw [C115_resolution w hn.1 hn.2] at h
  injection h with h
  simp only [Prod.mk.injEq] at h
  obtain ⟨rfl, -, -⟩ := h
  refine ⟨Real.sqrt_nonneg _, ?_⟩
  have hp := Real.pi_pos
  rw [Real.sqrt_le_left hp.le]
  have hd : 0 ≤ 2 * Real.pi / (2 * m + 1 : ℕ) := by positivity
  have hd' : ((2 * m + 1 : ℕ) : ℝ) * (2 * Real.pi / (2 * m + 1 : ℕ)) = 2 * Real.pi := by field_simp
  refine (var_le (windowWs w.length) (windowPowW w) Real.pi (by rw [windowWs_length, windowPowW_length]) ?_ ?_ ?_).2
  · intro i hi
    rw [windowPowW_length] at hi
    rw [hl, windowWs_odd m i (by omega), windowWs_odd m (i + 1) (by omega)]
    push_cast at hd ⊢
    linarith
  · intro i hi
    rw [windowPowW_length] at hi
    rw [hl, windowWs_odd m i (by omega), abs_le]
    generalize 2 * Real.pi / (2 * m + 1 : ℕ) = δ at *
    have h1 : (i : ℝ) ≤ 2 * m := by
      have : i ≤ 2 * m := by omega
      exact_mod_cast this
    have h2 : (0 : ℝ) ≤ i := by positivity
    push_cast at hd'
    constructor <;> nlinarith
  · intro i hi
    rw [windowPowW_length] at hi
    rw [windowPowW_getD _ _ hi]
    exact specPow_nonneg _ _

/-- For the window `1, 0, 0, 0` the frequency width is above `π`. -/
theorem C115_width_refuted : ¬ C115_width_full := by
  intro h
  have hl := unitWindow_length 4 (by norm_num)
  have := h (unitWindow 4) _ _ _ (by rw [hl]; norm_num) (C115_resolution _ (by simp [unitWindow]) (by simp [unitWindow]))
  have hp := Real.pi_pos
  rw [Real.sqrt_le_left hp.le] at this
  have hpw : ∀ i < 4, (windowPowW (unitWindow 4)).getD i 0 = 1 := by
    intro i hi
    rw [windowPowW_getD _ _ (by omega), specPow_eq, unitWindow_power 4 (by norm_num)]
  have w0 : (windowWs 4).getD 0 0 = Real.pi := by
    refine (windowWs_even_zero 2 (by norm_num)).trans ?_
    push_cast; ring
  have w1 : (windowWs 4).getD 1 0 = -Real.pi / 2 := by
    refine (windowWs_even 2 1 (by norm_num) (by norm_num)).trans ?_
    push_cast; ring
  have w2 : (windowWs 4).getD 2 0 = 0 := by
    refine (windowWs_even 2 2 (by norm_num) (by norm_num)).trans ?_
    push_cast; ring
  have w3 : (windowWs 4).getD 3 0 = Real.pi / 2 := by
    refine (windowWs_even 2 3 (by norm_num) (by norm_num)).trans ?_
    push_cast; ring
  have hzl : (List.zipWith (fun w p => w ^ 2 * p) (windowWs 4) (windowPowW (unitWindow 4))).length = 2 + 2 := by
    simp [windowWs_length, windowPowW_length, hl]
  have hz : ∀ i, i < 4 → (List.zipWith (fun w p => w ^ 2 * p) (windowWs 4) (windowPowW (unitWindow 4))).getD i 0 = (windowWs 4).getD i 0 ^ 2 := by
    intro i hi
    rw [zipW_getD _ _ _ _ (by rw [windowWs_length]; exact hi) (by rw [windowPowW_length, hl]; exact hi), hpw i hi, mul_one]
  unfold varW areaW at this
  rw [hl] at this
  unfold trapzX at this
  rw [hzl, windowPowW_length, hl] at this
  simp only [show 2 + 2 - 1 = 3 from rfl, show 4 - 1 = 3 from rfl, sum_map_range, sum_range_succ, sum_range_zero, zero_add, Nat.reduceAdd] at this
  rw [hz 0 (by norm_num), hz 1 (by norm_num), hz 2 (by norm_num), hz 3 (by norm_num), hpw 0 (by norm_num), hpw 1 (by norm_num), hpw 2 (by norm_num),
    hpw 3 (by norm_num), w0, w1, w2, w3] at this
  have e : ∀ a b c : ℝ, a = 13 / 8 * Real.pi ^ 2 * b → b ≠ 0 → a / b ≤ c → 13 / 8 * Real.pi ^ 2 ≤ c := by
    intro a b c hab hb hc
    rwa [hab, mul_div_cancel_right₀ _ hb] at hc
  have := e _ _ _ (by ring) (by ring_nf; intro h0; linarith) this
  nlinarith [mul_pos hp hp]

/-- Widths do not depend on the scaling of the window. -/
theorem C115_scale (w : List ℝ) (c : ℝ) (hc : 0 < c) : windowResolution (w.map fun x => c * x) = windowResolution w := by
  have hv : ∀ i, (w.map fun x => c * x).getD i 0 = c * w.getD i 0 := by
    intro i
    rcases Nat.lt_or_ge i w.length with h | h
    · rw [List.getD_eq_getElem _ _ (by simpa using h), List.getElem_map, List.getD_eq_getElem _ _ h]
    · rw [List.getD_eq_default _ _ (by simpa using h), List.getD_eq_default _ _ h, mul_zero]
  have hlen : (w.map fun x => c * x).length = w.length := by simp
  have hpl : ∀ v : List ℝ, (windowPow v).length = v.length := by simp [windowPow]
  have hT : ∀ i, i < w.length → (windowPow (w.map fun x => c * x)).getD i 0 = c ^ 2 * (windowPow w).getD i 0 := by
    intro i hi
    rw [windowPow_getD _ _ (by rw [hlen]; exact hi), windowPow_getD _ _ hi, hv]; ring
  have hW : ∀ i, i < w.length → (windowPowW (w.map fun x => c * x)).getD i 0 = c ^ 2 * (windowPowW w).getD i 0 := by
    intro i hi
    rw [windowPowW_getD _ _ (by rw [hlen]; exact hi), windowPowW_getD _ _ hi, hlen]
    unfold specPow
    rw [hlen]
    simp only [hv]
    have : (fun j : ℕ => (((c * w.getD j 0 : ℝ)) : ℂ)) = fun j : ℕ => (c : ℂ) * ((w.getD j 0 : ℝ) : ℂ) := by funext j; push_cast; ring
    rw [this, dft_smul, norm_mul, mul_pow]
    congr 2
    rw [Complex.norm_real, Real.norm_eq_abs, abs_of_pos hc]
  have hc2 : c ^ 2 ≠ 0 := by positivity
  have e1 : varW (w.map fun x => c * x) = varW w := by
    unfold varW areaW
    rw [hlen, trapzX_smul (windowPowW (w.map fun x => c * x)) (windowPowW w) _ (c ^ 2) (by simp [windowPowW_length]) (by
      rw [windowPowW_length, hlen]; exact hW),
      trapzX_smul _ (List.zipWith (fun w p => w ^ 2 * p) (windowWs w.length) (windowPowW w)) _ (c ^ 2) (by simp [windowPowW_length]) (by
        intro i hi
        simp [windowPowW_length, windowWs_length] at hi
        rw [zipW_getD _ _ _ _ (by rw [windowWs_length]; exact hi) (by rw [windowPowW_length, hlen]; exact hi),
          zipW_getD _ _ _ _ (by rw [windowWs_length]; exact hi) (by rw [windowPowW_length]; exact hi), hW i hi]
        ring), mul_div_mul_left _ _ hc2]
  have e2 : varT (w.map fun x => c * x) = varT w := by
    unfold varT areaT
    rw [hlen, trapzX_smul (windowPow (w.map fun x => c * x)) (windowPow w) _ (c ^ 2) (by simp [hpl]) (by
      rw [hpl, hlen]; exact hT),
      trapzX_smul _ (List.zipWith (fun w p => w ^ 2 * p) (windowT w.length) (windowPow w)) _ (c ^ 2) (by simp [hpl]) (by
        intro i hi
        simp [hpl, windowT] at hi
        rw [zipW_getD _ _ _ _ (by simpa [windowT] using hi) (by rw [hpl, hlen]; exact hi),
          zipW_getD _ _ _ _ (by simpa [windowT] using hi) (by rw [hpl]; exact hi), hT i hi]
        ring), mul_div_mul_left _ _ hc2]
  by_cases h0 : w = []
  · subst h0; rfl
  · unfold windowResolution
    rw [e1, e2, if_neg h0, if_neg (by simpa using h0)]
    congr 1
    simp only [List.mem_map, eq_iff_iff]
    constructor
    · rintro ⟨x, ⟨y, hy, rfl⟩, hx⟩
      exact ⟨y, hy, by by_contra hn; have := mul_nonneg hc.le (not_lt.1 hn); linarith⟩
    · rintro ⟨y, hy, hy0⟩
      exact ⟨_, ⟨y, hy, rfl⟩, mul_neg_of_pos_of_neg hc hy0⟩

example : windowArea [1, 2, 1] true false = .ok [5] := by
  rw [C115_time _ (by norm_num)]
  norm_num [Spec.winEnergy, sum_range_succ]

example : ∃ a, windowArea [1, 2, 1] false true = .ok [a] ∧ 0 ≤ a :=
  ⟨_, C115_odd [1, 2, 1] 1 le_rfl rfl, C115_area_partial [1, 2, 1] _ 1 le_rfl rfl (C115_odd [1, 2, 1] 1 le_rfl rfl)⟩

example : ∃ r, windowResolution [1, 2, 1] = .ok r :=
  ⟨_, C115_resolution _ (by simp) (by intro x hx; fin_cases hx <;> norm_num)⟩

end Ssq
