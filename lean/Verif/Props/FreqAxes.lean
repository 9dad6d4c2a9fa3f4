import Verif.Model.Plots
import Verif.Lemmas.Xifn
import Verif.Props.SsqFreqs
import Mathlib.Tactic.Linarith
import Mathlib.Tactic.FieldSimp
import Mathlib.Tactic.Ring
import Mathlib.Tactic.Positivity
import Mathlib.Data.List.GetD
import Mathlib.Analysis.Real.Pi.Bounds

/-!
# C138: frequency axes of the wavelet plots; C139: `lin_band`
-/
namespace Ssq

/-! ## C138 -/

/-- Every point is at the frequency at which the wavelet was sampled. -/
def Spec.TrueAxis (pts : List (ℝ × ℝ)) : Prop := ∀ p ∈ pts, p.1 = p.2

/-- The claim, for all four plots. -/
def C138_full : Prop :=
  ∀ N : ℕ, 4 ≤ N → Spec.TrueAxis (filterbankAxis N) ∧ Spec.TrueAxis (tfAxis N) ∧ (∀ scale : ℝ, 0 < scale → Spec.TrueAxis (waveformsAxis N scale)) ∧
    ∃ pts, gmwOrdersAxis N = .ok pts ∧ Spec.TrueAxis pts

theorem mem_zip_getD (a b : List ℝ) (p : ℝ × ℝ) (h : p ∈ a.zip b) : ∃ i, i < a.length ∧ i < b.length ∧ p = (a.getD i 0, b.getD i 0) := by
  obtain ⟨i, hi, rfl⟩ := List.getElem_of_mem h
  rw [List.length_zip] at hi
  refine ⟨i, by omega, by omega, ?_⟩
  rw [List.getElem_zip, List.getD_eq_getElem _ _ (by omega), List.getD_eq_getElem _ _ (by omega)]

theorem zip_getD_mem (a b : List ℝ) (i : ℕ) (h1 : i < a.length) (h2 : i < b.length) : (a.getD i 0, b.getD i 0) ∈ a.zip b := by
  have : i < (a.zip b).length := by rw [List.length_zip]; omega
  have h := List.getElem_mem this
  rwa [List.getElem_zip, ← List.getD_eq_getElem _ 0 h1, ← List.getD_eq_getElem _ 0 h2] at h

theorem xifn_low (N i : ℕ) (hi : i ≤ N / 2) (hN : i < N) : (xifn 1 N).getD i 0 = 2 * Real.pi * i / N := by
  rw [xifn_getD _ _ _ hN, if_pos hi]
  push_cast
  ring

theorem linspace_getD_lt (a b : ℝ) (n i : ℕ) (h : i < n) : (linspace a b n).getD i 0 = a + i * ((b - a) / (n - 1 : ℕ)) := by
  rw [List.getD_eq_getElem _ _ (by rw [linspace_length]; exact h), linspace_getElem]

theorem take_getD_lt (l : List ℝ) (n i : ℕ) (h : i < n) : (l.take n).getD i 0 = l.getD i 0 := by
  rw [List.getD_eq_getElem?_getD, List.getElem?_take_of_lt h, ← List.getD_eq_getElem?_getD]

/-- C138, filter bank: point `k` is drawn at `k*pi/(N//2 - 1)`, and belongs to `2*pi*k/N`. -/
theorem C138_filterbank (N : ℕ) (hN : 4 ≤ N) (p : ℝ × ℝ) :
    p ∈ filterbankAxis N ↔ ∃ k < N / 2, p = ((k : ℝ) * Real.pi / (N / 2 - 1 : ℕ), 2 * Real.pi * k / N) := by
  have hl : ((xifn 1 N).take (N / 2)).length = N / 2 := by rw [List.length_take, xifn_length]; omega
  have hv : ∀ k < N / 2, ((linspace 0 Real.pi (N / 2)).getD k 0, ((xifn 1 N).take (N / 2)).getD k 0) =
      ((k : ℝ) * Real.pi / (N / 2 - 1 : ℕ), 2 * Real.pi * k / N) := by
    intro k hk
    rw [linspace_getD_lt _ _ _ _ hk, take_getD_lt _ _ _ hk, xifn_low _ _ (by omega) (by omega)]
    congr 1
    ring
  constructor
  · intro h
    obtain ⟨i, hi, -, rfl⟩ := mem_zip_getD _ _ _ h
    rw [linspace_length] at hi
    exact ⟨i, hi, hv i hi⟩
  · rintro ⟨k, hk, rfl⟩
    rw [← hv k hk]
    exact zip_getD_mem _ _ k (by rw [linspace_length]; exact hk) (by rw [hl]; exact hk)

/-- C138, filter bank: so only the point at zero is at its place. -/
theorem C138_filterbank_off (N : ℕ) (hN : 4 ≤ N) (p : ℝ × ℝ) (h : p ∈ filterbankAxis N) : p.1 = p.2 ↔ p.2 = 0 := by
  obtain ⟨k, hk, rfl⟩ := (C138_filterbank N hN p).1 h
  have hpi := Real.pi_pos
  have hN' : (0 : ℝ) < N := by exact_mod_cast (by omega : 0 < N)
  have hM' : (0 : ℝ) < (N / 2 - 1 : ℕ) := by exact_mod_cast (by omega : 0 < N / 2 - 1)
  have hlt : 2 * ((N / 2 - 1 : ℕ) : ℝ) < N := by exact_mod_cast (by omega : 2 * (N / 2 - 1) < N)
  simp only
  constructor
  · intro e
    rw [div_eq_div_iff hM'.ne' hN'.ne'] at e
    have : (k : ℝ) * Real.pi * (N - 2 * ((N / 2 - 1 : ℕ) : ℝ)) = 0 := by linarith
    have hk0 : (k : ℝ) * Real.pi = 0 := by
      rcases mul_eq_zero.1 this with h | h
      · exact h
      · linarith
    rw [show 2 * Real.pi * (k : ℝ) = 2 * (k * Real.pi) by ring, hk0]
    simp
  · intro e
    have : (k : ℝ) = 0 := by
      rw [div_eq_zero_iff] at e
      rcases e with e | e
      · have : (2 * Real.pi) ≠ 0 := by positivity
        rcases mul_eq_zero.1 e with h | h
        · exact absurd h this
        · exact h
      · exact absurd e hN'.ne'
    rw [this]
    simp

/-- C138, `wavelet_tf`: the axis is true for even `N`; for odd `N` every point is `pi/N` off. -/
theorem C138_tf (N : ℕ) (hN : 1 ≤ N) (p : ℝ × ℝ) (h : p ∈ tfAxis N) : p.1 = p.2 + (if N % 2 = 0 then 0 else Real.pi / N) := by
  obtain ⟨i, hi, -, rfl⟩ := mem_zip_getD _ _ _ h
  have hl : ((xifn 1 N).take (N / 2 + 1)).length = min (N / 2 + 1) N := by rw [List.length_take, xifn_length]
  have hN' : (N : ℝ) ≠ 0 := by positivity
  rw [List.length_map, hl] at hi
  have e1 : (((xifn 1 N).take (N / 2 + 1)).map fun w => Real.pi - w).getD i 0 = Real.pi - 2 * Real.pi * i / N := by
    rw [List.getD_eq_getElem _ _ (by rw [List.length_map, hl]; exact hi), List.getElem_map, ← List.getD_eq_getElem _ 0,
      take_getD_lt _ _ _ (by omega), xifn_low _ _ (by omega) (by omega)]
  have e2 : ((xifn 1 N).take (N / 2 + 1)).reverse.getD i 0 = 2 * Real.pi * ((min (N / 2 + 1) N - 1 - i : ℕ) : ℝ) / N := by
    rw [List.getD_eq_getElem _ _ (by rw [List.length_reverse, hl]; exact hi), List.getElem_reverse, ← List.getD_eq_getElem _ 0,
      take_getD_lt _ _ _ (by omega), xifn_low _ _ (by omega) (by omega), hl]
  rw [e1, e2]
  rcases Nat.even_or_odd' N with ⟨m, rfl | rfl⟩
  · rw [if_pos (by omega)]
    have hm : min (2 * m / 2 + 1) (2 * m) - 1 - i = m - i := by omega
    rw [hm, Nat.cast_sub (by omega)]
    have hm0 : (m : ℝ) ≠ 0 := by
      intro e
      exact hN' (by push_cast; rw [e]; ring)
    push_cast
    field_simp
    ring
  · rw [if_neg (by omega)]
    have hm : min ((2 * m + 1) / 2 + 1) (2 * m + 1) - 1 - i = m - i := by omega
    rw [hm, Nat.cast_sub (by omega)]
    push_cast at hN' ⊢
    field_simp
    ring

/-- C138, `wavelet_waveforms`: the axis is true for every length from 4 and every positive scale. -/
theorem C138_waveforms_partial (N : ℕ) (hN : 4 ≤ N) (scale : ℝ) (hs : 0 < scale) : Spec.TrueAxis (waveformsAxis N scale) := by
  intro p hp
  obtain ⟨i, hi, -, rfl⟩ := mem_zip_getD _ _ _ hp
  simp only [List.length_map, linspace_length] at hi
  have hpi := Real.pi_pos
  have hM' : (0 : ℝ) < (N / 2 - 1 : ℕ) := by exact_mod_cast (by omega : 0 < N / 2 - 1)
  have ew : ∀ k < N / 2, ((linspace 0 Real.pi (N / 2)).map fun w => w * scale).getD k 0 = k * Real.pi / (N / 2 - 1 : ℕ) * scale := by
    intro k hk
    rw [List.getD_eq_getElem _ _ (by simpa [linspace_length] using hk), List.getElem_map, ← List.getD_eq_getElem _ 0, linspace_getD_lt _ _ _ _ hk]
    ring
  have elast := ew (N / 2 - 1) (by omega)
  simp only [elast]
  rw [List.getD_eq_getElem _ _ (by simpa [linspace_length] using hi), List.getElem_map, ← List.getD_eq_getElem _ 0, ew i hi,
    List.getD_eq_getElem _ _ (by simpa [linspace_length] using hi), List.getElem_map, ← List.getD_eq_getElem _ 0, ew i hi]
  field_simp

/-- C138, `viz_gmw_orders`: it draws `N//2 + 1` points over 0 to pi, for every `N` up to 2047, and fails beyond. -/
theorem C138_orders_drawn (N : ℕ) : ((∃ pts, gmwOrdersAxis N = .ok pts) ↔ N ≤ 2047) ∧
    ∀ pts, gmwOrdersAxis N = .ok pts → pts.length = N / 2 + 1 ∧ (2 ≤ N → (pts.map Prod.fst).getLast? = some Real.pi) := by
  unfold gmwOrdersAxis
  refine ⟨by split <;> simp <;> omega, fun pts h => ?_⟩
  split at h
  · rename_i hle
    rw [Except.ok.injEq] at h
    subst h
    refine ⟨by rw [List.length_zip, linspace_length, List.length_take, xifn_length]; omega, fun hN => ?_⟩
    rw [List.map_fst_zip (by rw [linspace_length, List.length_take, xifn_length]; omega), List.getLast?_eq_getElem?, linspace_length]
    rw [List.getElem?_eq_getElem (by rw [linspace_length]; omega), linspace_getElem]
    have : ((N / 2 : ℕ) : ℝ) ≠ 0 := by exact_mod_cast (by omega : N / 2 ≠ 0)
    simp
    field_simp
  · cases h

/-- C138, `viz_gmw_orders`: the axis is true for `N` 1024 and 1025. -/
theorem C138_orders (N : ℕ) (hN : 2 ≤ N) : (∃ pts, gmwOrdersAxis N = .ok pts ∧ Spec.TrueAxis pts) ↔ N / 2 = 512 := by
  have hpi := Real.pi_pos
  have key : ∀ i, i ≤ N / 2 → i ≤ 512 → ((linspace 0 Real.pi (N / 2 + 1)).getD i 0, ((xifn 1 1024).take (N / 2 + 1)).getD i 0) =
      (i * Real.pi / (N / 2 : ℕ), 2 * Real.pi * i / 1024) := by
    intro i hi hi2
    rw [linspace_getD_lt _ _ _ _ (by omega), take_getD_lt _ _ _ (by omega), xifn_low _ _ (by omega) (by omega)]
    congr 1
    rw [Nat.add_sub_cancel]
    ring
  constructor
  · rintro ⟨pts, h, ht⟩
    unfold gmwOrdersAxis at h
    split at h
    · rename_i hle
      rw [Except.ok.injEq] at h
      subst h
      have h1 := key 1 (by omega) (by omega)
      have hm := zip_getD_mem (linspace 0 Real.pi (N / 2 + 1)) ((xifn 1 1024).take (N / 2 + 1)) 1 (by rw [linspace_length]; omega)
        (by rw [List.length_take, xifn_length]; omega)
      rw [h1] at hm
      have e := ht _ hm
      simp only at e
      have hM' : (0 : ℝ) < (N / 2 : ℕ) := by exact_mod_cast (by omega : 0 < N / 2)
      rw [div_eq_div_iff hM'.ne' (by norm_num)] at e
      have : Real.pi * (1024 - 2 * ((N / 2 : ℕ) : ℝ)) = 0 := by push_cast at e ⊢; linarith
      have h2 : 1024 - 2 * ((N / 2 : ℕ) : ℝ) = 0 := by
        rcases mul_eq_zero.1 this with h | h
        · linarith
        · exact h
      have h3 : ((N / 2 : ℕ) : ℝ) = (512 : ℕ) := by push_cast at h2 ⊢; linarith
      exact_mod_cast h3
    · simp at h
  · intro h
    refine ⟨_, by rw [gmwOrdersAxis, if_pos (by omega)], ?_⟩
    intro p hp
    obtain ⟨i, hi, -, rfl⟩ := mem_zip_getD _ _ _ hp
    rw [linspace_length] at hi
    have hk := key i (by omega) (by omega)
    rw [Prod.mk.injEq] at hk
    rw [hk.1, hk.2, h]
    push_cast
    ring

/-- C138 is false of the code: of the filter bank for every length, of `wavelet_tf` for odd ones, of `viz_gmw_orders` for all but the wavelet's default. -/
theorem C138_refuted : ¬ C138_full := by
  intro h
  have h1 := (h 4 (by norm_num)).1
  have hm : ((1 : ℕ) : ℝ) * Real.pi / (4 / 2 - 1 : ℕ) = 2 * Real.pi * (1 : ℕ) / (4 : ℕ) :=
    h1 _ ((C138_filterbank 4 (by norm_num) _).2 ⟨1, by norm_num, rfl⟩)
  have hpi := Real.pi_pos
  push_cast at hm
  norm_num at hm
  linarith

/-- `wavelet_tf` with three samples: a point of its axis, `pi/3` off. -/
example : ∃ p ∈ tfAxis 3, p.1 = p.2 + Real.pi / 3 := by
  have hx : (xifn 1 3).length = 3 := xifn_length _ _
  have hm := zip_getD_mem (((xifn 1 3).take 2).map fun w => Real.pi - w) ((xifn 1 3).take 2).reverse 0 (by simp [hx]) (by simp [hx])
  exact ⟨_, hm, by have := C138_tf 3 (by norm_num) _ hm; push_cast at this; simpa using this⟩

/-! ## C139 -/

theorem toInt_near (x : ℝ) : |(toInt x : ℝ) - x| < 1 ∧ |(toInt x : ℝ)| ≤ |x| := by
  unfold toInt
  split
  · rename_i h
    have h1 := Int.ceil_lt_add_one x
    have h2 := Int.le_ceil x
    have h3 : (⌈x⌉ : ℝ) ≤ 0 := by exact_mod_cast Int.ceil_le.2 (by simpa using h.le)
    refine ⟨by rw [abs_lt]; constructor <;> linarith, ?_⟩
    rw [abs_of_nonpos h3, abs_of_neg h]
    linarith
  · rename_i h
    have h := not_lt.1 h
    have h1 := Int.floor_le x
    have h2 := Int.lt_floor_add_one x
    have h3 : (0 : ℝ) ≤ (⌊x⌋ : ℝ) := by exact_mod_cast Int.floor_nonneg.2 h
    refine ⟨by rw [abs_lt]; constructor <;> linarith, ?_⟩
    rw [abs_of_nonneg h3, abs_of_nonneg h]
    exact h1

/-- The claim: the band that `lin_band` returns has its centre inside the transform. -/
def C139_full : Prop :=
  ∀ (na N : ℕ) (slope offset bw : ℝ), 1 ≤ na → 2 ≤ N → 0 ≤ slope → 0 ≤ offset → ∀ c ∈ (linBand na N slope offset bw).1, 0 ≤ c ∧ c < na

/-- C139: one centre and one half-width per sample; the centre of sample `j` is the line, rounded towards zero, and the half-width is `bw*na` rounded towards zero. -/
theorem C139_line (na N : ℕ) (slope offset bw : ℝ) :
    (linBand na N slope offset bw).1.length = N ∧ (linBand na N slope offset bw).2.length = N ∧
    (∀ j < N, |((linBand na N slope offset bw).1.getD j 0 : ℝ) - slope * (j / (N - 1 : ℕ) + offset) * na| < 1) ∧
    (∀ j < N, |((linBand na N slope offset bw).2.getD j 0 : ℝ) - bw * na| < 1) ∧
    (∀ j < N, (linBand na N slope offset bw).2.getD j 0 = (linBand na N slope offset bw).2.getD 0 0) := by
  have hl : (linBand na N slope offset bw).1.length = N := by simp [linBand, linspace_length]
  have hl2 : (linBand na N slope offset bw).2.length = N := by simp [linBand]
  refine ⟨hl, hl2, ?_, ?_, ?_⟩
  · intro j hj
    have e : (linBand na N slope offset bw).1.getD j 0 = toInt (slope * (j / (N - 1 : ℕ) + offset) * na) := by
      rw [List.getD_eq_getElem _ _ (by rw [hl]; exact hj)]
      simp only [linBand, List.getElem_map]
      congr 3
      rw [linspace_getElem]
      ring
    rw [e]
    exact (toInt_near _).1
  · intro j hj
    have e : (linBand na N slope offset bw).2.getD j 0 = toInt (bw * na) := by
      rw [List.getD_eq_getElem _ _ (by rw [hl2]; exact hj)]
      simp [linBand]
    rw [e]
    exact (toInt_near _).1
  · intro j hj
    rw [List.getD_eq_getElem _ _ (by rw [hl2]; exact hj), List.getD_eq_getElem _ _ (by rw [hl2]; omega)]
    simp [linBand]

/-- C139: the part that holds. For a rising line that begins at or above row zero, the centres are inside exactly if the line ends below the last row's edge. -/
theorem C139_partial (na N : ℕ) (slope offset bw : ℝ) (hna : 1 ≤ na) (hN : 2 ≤ N) (hs : 0 ≤ slope) (ho : 0 ≤ offset) :
    (∀ c ∈ (linBand na N slope offset bw).1, 0 ≤ c ∧ c < na) ↔ slope * (1 + offset) < 1 := by
  have hna' : (0 : ℝ) < na := by exact_mod_cast hna
  have hN1 : (0 : ℝ) < (N - 1 : ℕ) := by exact_mod_cast (by omega : 0 < N - 1)
  have hto : ∀ x : ℝ, 0 ≤ x → toInt x = ⌊x⌋ := fun x hx => by rw [toInt, if_neg (not_lt.2 hx)]
  constructor
  · intro h
    have hm : toInt (slope * (1 + offset) * na) ∈ (linBand na N slope offset bw).1 := by
      simp only [linBand, List.mem_map]
      refine ⟨slope * (1 + offset) * na, ⟨1, ?_, rfl⟩, rfl⟩
      rw [linspace, List.mem_map]
      refine ⟨N - 1, by rw [List.mem_range]; omega, ?_⟩
      field_simp
      ring
    have := (h _ hm).2
    rw [hto _ (by positivity), Int.floor_lt] at this
    push_cast at this
    nlinarith
  · intro h c hc
    simp only [linBand, List.mem_map, linspace, List.mem_range] at hc
    obtain ⟨x, ⟨t, ⟨i, hi, rfl⟩, rfl⟩, rfl⟩ := hc
    have hi' : (i : ℝ) ≤ (N - 1 : ℕ) := by exact_mod_cast (by omega : i ≤ N - 1)
    have ht0 : (0 : ℝ) ≤ 0 + i * ((1 - 0) / (N - 1 : ℕ)) := by positivity
    have ht1 : (0 : ℝ) + i * ((1 - 0) / (N - 1 : ℕ)) ≤ 1 := by
      rw [zero_add, sub_zero, mul_one_div, div_le_one hN1]
      exact hi'
    generalize (0 : ℝ) + i * ((1 - 0) / (N - 1 : ℕ)) = t at ht0 ht1
    have hx : 0 ≤ slope * (t + offset) * na := by positivity
    rw [hto _ hx]
    refine ⟨Int.floor_nonneg.2 hx, ?_⟩
    rw [Int.floor_lt]
    push_cast
    have : slope * (t + offset) ≤ slope * (1 + offset) := mul_le_mul_of_nonneg_left (by linarith) hs
    nlinarith

/-- C139 is false of the code: the centres are not kept inside. -/
theorem C139_refuted : ¬ C139_full := fun h =>
  absurd ((C139_partial 10 2 1 0 0 (by norm_num) (by norm_num) (by norm_num) (by norm_num)).1
    (h 10 2 1 0 0 (by norm_num) (by norm_num) (by norm_num) (by norm_num))) (by norm_num)

/-- A band that is inside. -/
example : ∀ c ∈ (linBand 100 50 0.5 0.25 0.025).1, 0 ≤ c ∧ c < (100 : ℕ) :=
  (C139_partial 100 50 0.5 0.25 0.025 (by norm_num) (by norm_num) (by norm_num) (by norm_num)).2 (by norm_num)

end Ssq
