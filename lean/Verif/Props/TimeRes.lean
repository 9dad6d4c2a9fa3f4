import Verif.Model.TimeRes
import Verif.Props.WindowRes
import Verif.Props.Resolution
import Verif.Props.Psifn
import Verif.Lemmas.Grid
import Verif.Props.Toolkit3

/-!
# C122, C123: `time_resolution` and the discrete peak of `center_frequency`
-/
namespace Ssq
open Spec Finset

namespace Spec

/-- The second moment about 0 of the weights `a` on `N` points one apart, from `-N/2` on, over their sum; the two end points count half. -/
noncomputable def timeVar (a : List ℝ) : ℝ :=
  let N := a.length
  let c : ℕ → ℝ := fun k => if k = 0 ∨ k = N - 1 then 1 / 2 else 1
  (∑ k ∈ range N, c k * ((k : ℝ) - N / 2) ^ 2 * a.getD k 0) / ∑ k ∈ range N, c k * a.getD k 0

/-- The samples have decayed: their greatest value exceeds `d` times the mean of the first `max(10, N//100)`. -/
def DecayedBy (d : ℝ) (a : List ℝ) : Prop :=
  ∃ k < a.length, (∀ j < a.length, a.getD j 0 ≤ a.getD k 0) ∧ 0 < a.getD k 0 ∧
    let n := min (max 10 (a.length / 100)) a.length
    d * ((∑ j ∈ range n, a.getD j 0) / n) < a.getD k 0

/-- `|psi|²`, `psi` the time-domain wavelet of `Nt` samples at `scale`. -/
noncomputable def power2 (f : WFn) (scale : ℝ) (Nt : ℕ) (k : ℕ) : ℝ := ‖((psifn f Nt [scale]).getD 0 []).getD k 0‖ ^ 2

end Spec

theorem psi2_length (f : WFn) (scale : ℝ) (Nt : ℕ) : (psi2 f scale Nt).length = Nt := by
  unfold psi2
  rw [psifn_row _ _ _ _ (by simp)]
  simp

theorem weights_sum (y : List ℝ) (m : ℕ) (hl : y.length = m + 2) :
    y.sum - (y.getD 0 0 + y.getD (m + 1) 0) / 2 = ∑ k ∈ range y.length, (if k = 0 ∨ k = y.length - 1 then 1 / 2 else 1) * y.getD k 0 := by
  rw [getD_sum, hl, sum_range_succ, sum_range_succ', sum_range_succ, sum_range_succ' (fun k => (if k = 0 ∨ k = m + 2 - 1 then (1 : ℝ) / 2 else 1) * y.getD k 0)]
  rw [if_pos (by simp), if_pos (by simp)]
  have : ∀ k ∈ range m, (if k + 1 = 0 ∨ k + 1 = m + 2 - 1 then (1 : ℝ) / 2 else 1) * y.getD (k + 1) 0 = y.getD (k + 1) 0 := by
    intro k hk
    rw [mem_range] at hk
    rw [if_neg (by omega), one_mul]
  rw [sum_congr rfl this]
  ring

theorem varTime_eq (f : WFn) (scale : ℝ) (Nt : ℕ) (h : 2 ≤ Nt) : varTime f scale Nt = timeVar (psi2 f scale Nt) := by
  obtain ⟨m, rfl⟩ : ∃ m, Nt = m + 2 := ⟨Nt - 2, by omega⟩
  have hl := psi2_length f scale (m + 2)
  have hz : (List.zipWith (fun t p => t ^ 2 * p) (windowT (m + 2)) (psi2 f scale (m + 2))).length = m + 2 := by simp [windowT, hl]
  unfold varTime timeVar
  rw [trapzX_grid _ _ _ 1 m hz (fun i hi => windowT_getD _ _ hi), trapzX_grid _ _ _ 1 m hl (fun i hi => windowT_getD _ _ hi), one_mul, one_mul,
    weights_sum _ m hz, weights_sum _ m hl, hz, hl]
  congr 1
  refine sum_congr rfl fun k hk => ?_
  rw [mem_range] at hk
  rw [zipWith_getD_lt (by simpa [windowT] using hk) (by omega), windowT_getD _ _ hk]
  push_cast
  ring

theorem psi2_getD (f : WFn) (scale : ℝ) (Nt k : ℕ) : (psi2 f scale Nt).getD k 0 = power2 f scale Nt k := by
  unfold psi2 power2
  rw [← Complex.normSq_eq_norm_sq]
  rcases Nat.lt_or_ge k ((psifn f Nt [scale]).getD 0 []).length with h | h
  · exact map_getD_lt h
  · rw [List.getD_eq_default _ _ (by simpa using h), List.getD_eq_default _ _ h]; simp

theorem psi2_nonneg (f : WFn) (scale : ℝ) (Nt : ℕ) : ∀ x ∈ psi2 f scale Nt, 0 ≤ x := by
  intro x hx
  obtain ⟨z, -, rfl⟩ := List.mem_map.1 hx
  exact Complex.normSq_nonneg z

theorem take_sum (a : List ℝ) (n : ℕ) : (a.take n).sum = ∑ j ∈ range (min n a.length), a.getD j 0 := by
  rw [getD_sum, List.length_take]
  refine sum_congr rfl fun j hj => ?_
  rw [mem_range] at hj
  rw [List.getD_eq_getElem?_getD, List.getD_eq_getElem?_getD, List.getElem?_take, if_pos (by omega)]

/-- The test of the code is the specification. -/
theorem decayed_iff (a : List ℝ) (ha : ∀ x ∈ a, 0 ≤ x) (d : ℝ) : Decayed a d ↔ DecayedBy d a := by
  unfold Decayed DecayedBy
  set n := max 10 (a.length / 100) with hn
  have hm : meanL (a.take n) = (∑ j ∈ range (min n a.length), a.getD j 0) / (min n a.length : ℕ) := by
    unfold meanL; rw [take_sum, List.length_take]
  have hg : ∀ j, 0 ≤ a.getD j 0 := by
    intro j
    rcases Nat.lt_or_ge j a.length with h | h
    · rw [List.getD_eq_getElem _ _ h]; exact ha _ (List.getElem_mem h)
    · rw [List.getD_eq_default _ _ h]
  have hm0 : 0 ≤ meanL (a.take n) := by rw [hm]; exact div_nonneg (sum_nonneg fun j _ => hg j) (by positivity)
  simp only []
  rw [← hm]
  constructor
  · rintro ⟨mx, h1, h2⟩
    obtain ⟨hmem, hle⟩ := maxL_some h1
    obtain ⟨k, hk, rfl⟩ := List.getElem_of_mem hmem
    have hle' : ∀ j < a.length, a.getD j 0 ≤ a.getD k 0 := by
      intro j hj
      rw [List.getD_eq_getElem _ _ hj, List.getD_eq_getElem _ _ hk]; exact hle _ (List.getElem_mem hj)
    refine ⟨k, hk, hle', ?_⟩
    rw [List.getD_eq_getElem _ _ hk] at hle' ⊢
    split at h2
    · rename_i h0
      rw [h0, mul_zero]; exact ⟨h2, h2⟩
    · rename_i h0
      have hpos : 0 < meanL (a.take n) := lt_of_le_of_ne hm0 (Ne.symm h0)
      refine ⟨?_, by rwa [lt_div_iff₀ hpos] at h2⟩
      by_contra hc
      apply h0
      rw [hm, sum_eq_zero, zero_div]
      intro j hj
      rw [mem_range] at hj
      exact le_antisymm ((hle' j (by omega)).trans (not_lt.1 hc)) (hg j)
  · rintro ⟨k, hk, h1, h2, h3⟩
    obtain ⟨mx, hmx⟩ : ∃ mx, maxL a = some mx := by
      cases a with
      | nil => simp at hk
      | cons x l => exact ⟨_, rfl⟩
    obtain ⟨hmem, hle⟩ := maxL_some hmx
    have he : mx = a.getD k 0 := by
      apply le_antisymm
      · obtain ⟨j, hj, rfl⟩ := List.getElem_of_mem hmem
        rw [← List.getD_eq_getElem _ 0 hj]; exact h1 j hj
      · rw [List.getD_eq_getElem _ _ hk]; exact hle _ (List.getElem_mem hk)
    refine ⟨mx, hmx, ?_⟩
    rw [he]
    split
    · exact h2
    · rename_i h0
      rw [lt_div_iff₀ (lt_of_le_of_ne hm0 (Ne.symm h0))]; exact h3

theorem find_range_none (p : ℕ → Bool) (m n : ℕ) :
    ((List.range n).map fun i => m + i).find? p = none ↔ ∀ k, m ≤ k → k < m + n → p k = false := by
  rw [List.find?_eq_none]
  simp only [List.mem_map, List.mem_range, forall_exists_index, and_imp, Bool.not_eq_true]
  constructor
  · intro h k h1 h2; exact h k (k - m) (by omega) (by omega)
  · rintro h k i hi rfl; exact h _ (by omega) (by omega)

theorem find_range_some (p : ℕ → Bool) (m n v : ℕ) :
    ((List.range n).map fun i => m + i).find? p = some v ↔ m ≤ v ∧ v < m + n ∧ p v = true ∧ ∀ k, m ≤ k → k < v → p k = false := by
  induction n with
  | zero => simp; omega
  | succ n ih =>
    rw [List.range_succ, List.map_append, List.find?_append]
    cases hf : ((List.range n).map fun i => m + i).find? p with
    | some w =>
      rw [Option.some_or, ← hf, ih]
      constructor
      · rintro ⟨h1, h2, h3⟩; exact ⟨h1, by omega, h3⟩
      · rintro ⟨h1, h2, h3, h4⟩
        refine ⟨h1, ?_, h3, h4⟩
        rcases Nat.lt_or_ge v (m + n) with h | h
        · exact h
        · have hv : v = m + n := by omega
          subst hv
          have := (find_range_none p m n).2 h4
          rw [this] at hf; exact nomatch hf
    | none =>
      have hno := (find_range_none p m n).1 hf
      rw [Option.none_or]
      simp only [List.map_cons, List.map_nil, List.find?_cons, List.find?_nil]
      constructor
      · intro h
        cases hp : p (m + n) with
        | false => rw [hp] at h; exact nomatch h
        | true =>
          rw [hp] at h
          have hv : m + n = v := by simpa using h
          subst hv
          exact ⟨by omega, by omega, hp, hno⟩
      · rintro ⟨h1, h2, h3, h4⟩
        have hv : v = m + n := by
          by_contra hc
          rw [hno v h1 (by omega)] at h3; exact nomatch h3
        subst hv
        rw [h3]

theorem mult_ok {f : WFn} {scale : ℝ} {N : ℕ} {d : ℝ} {M m : ℕ} (hN : 1 ≤ N) (hm : 1 ≤ m) {v : ℕ} :
    integrationMult f scale N d M m = .ok v ↔
      m ≤ v ∧ v ≤ M ∧ DecayedBy d (psi2 f scale (v * N)) ∧ ∀ k, m ≤ k → k < v → ¬ DecayedBy d (psi2 f scale (k * N)) := by
  have hne : m * N ≠ 0 := by positivity
  have hd : ∀ k, Decayed (psi2 f scale (k * N)) d ↔ DecayedBy d (psi2 f scale (k * N)) := fun k => decayed_iff _ (psi2_nonneg _ _ _) d
  unfold integrationMult
  simp only []
  rw [if_neg (by simp [hne])]
  have key := find_range_some (fun mult => @decide (Decayed (psi2 f scale (mult * N)) d) (Classical.propDecidable _)) m (M + 1 - m) v
  simp only [decide_eq_true_eq, decide_eq_false_iff_not, hd] at key
  have e : (m ≤ v ∧ v ≤ M ∧ DecayedBy d (psi2 f scale (v * N)) ∧ ∀ k, m ≤ k → k < v → ¬ DecayedBy d (psi2 f scale (k * N))) ↔
      (m ≤ v ∧ v < m + (M + 1 - m) ∧ DecayedBy d (psi2 f scale (v * N)) ∧ ∀ k, m ≤ k → k < v → ¬ DecayedBy d (psi2 f scale (k * N))) := by
    constructor
    · rintro ⟨h1, h2, h3⟩; exact ⟨h1, by omega, h3⟩
    · rintro ⟨h1, h2, h3⟩; exact ⟨h1, by omega, h3⟩
  rw [e, ← key]
  generalize List.find? (fun mult => @decide (Decayed (psi2 f scale (mult * N)) d) (Classical.propDecidable _))
    ((List.range (M + 1 - m)).map fun i => m + i) = o
  cases o <;> simp

theorem mult_error {f : WFn} {scale : ℝ} {N : ℕ} {d : ℝ} {M m : ℕ} (hN : 1 ≤ N) (hm : 1 ≤ m) {e : PyErr} :
    integrationMult f scale N d M m = .error e ↔
      e = .exception ∧ ∀ k, m ≤ k → k ≤ M → ¬ DecayedBy d (psi2 f scale (k * N)) := by
  have hne : m * N ≠ 0 := by positivity
  have hd : ∀ k, Decayed (psi2 f scale (k * N)) d ↔ DecayedBy d (psi2 f scale (k * N)) := fun k => decayed_iff _ (psi2_nonneg _ _ _) d
  unfold integrationMult
  simp only []
  rw [if_neg (by simp [hne])]
  have key := find_range_none (fun mult => @decide (Decayed (psi2 f scale (mult * N)) d) (Classical.propDecidable _)) m (M + 1 - m)
  simp only [decide_eq_false_iff_not, hd] at key
  have e' : (∀ k, m ≤ k → k ≤ M → ¬ DecayedBy d (psi2 f scale (k * N))) ↔ ∀ k, m ≤ k → k < m + (M + 1 - m) → ¬ DecayedBy d (psi2 f scale (k * N)) := by
    constructor
    · intro h k h1 h2; exact h k h1 (by omega)
    · intro h k h1 h2; exact h k h1 (by omega)
  rw [e', ← key]
  generalize List.find? (fun mult => @decide (Decayed (psi2 f scale (mult * N)) d) (Classical.propDecidable _))
    ((List.range (M + 1 - m)).map fun i => m + i) = o
  cases o <;> simp [eq_comm]

/-- **C122**, the time span: the least multiple of `N` between `min_mult` and `max_mult` over which the wavelet has decayed. The result is the square root of the
second moment of `|psi|²` about the middle of that span. -/
theorem C122_value (f : WFn) (peakCt scale : ℝ) (N : ℕ) (hN : 1 ≤ N) (d : ℝ) (M m : ℕ) (hm : 1 ≤ m) (h2 : 2 ≤ m * N) (v : ℝ) :
    timeResolution f peakCt scale N d M m true false = .ok v ↔
      ∃ mult, m ≤ mult ∧ mult ≤ M ∧ DecayedBy d (psi2 f scale (mult * N)) ∧
        (∀ k, m ≤ k → k < mult → ¬ DecayedBy d (psi2 f scale (k * N))) ∧ v = Real.sqrt (timeVar (psi2 f scale (mult * N))) := by
  unfold timeResolution
  simp only [Bool.true_eq_false, and_false, if_false]
  constructor
  · intro h
    cases hi : integrationMult f scale N d M m with
    | error e => rw [hi] at h; exact nomatch h
    | ok mult =>
      rw [hi] at h
      simp only [Except.bind, Except.ok.injEq] at h
      obtain ⟨a, b, c, e⟩ := (mult_ok hN hm).1 hi
      refine ⟨mult, a, b, c, e, ?_⟩
      rw [← varTime_eq _ _ _ (h2.trans (Nat.mul_le_mul_right N a))]
      simpa using h.symm
  · rintro ⟨mult, a, b, c, e, rfl⟩
    rw [(mult_ok hN hm).2 ⟨a, b, c, e⟩, ← varTime_eq _ _ _ (h2.trans (Nat.mul_le_mul_right N a))]
    simp [Except.bind]

/-- **C122**, it fails just when the wavelet decays over none of the spans, whatever the other options. -/
theorem C122_fails (f : WFn) (peakCt scale : ℝ) (N : ℕ) (hN : 1 ≤ N) (d : ℝ) (M m : ℕ) (hm : 1 ≤ m) (nondim : Bool) (e : PyErr) :
    timeResolution f peakCt scale N d M m true nondim = .error e ↔
      e = .exception ∧ ∀ k, m ≤ k → k ≤ M → ¬ DecayedBy d (psi2 f scale (k * N)) := by
  unfold timeResolution
  simp only [Bool.true_eq_false, and_false, if_false]
  rw [← mult_error hN hm]
  cases integrationMult f scale N d M m <;> simp [Except.bind]

theorem timeVar_bounds (a : List ℝ) (ha : ∀ x ∈ a, 0 ≤ x) : 0 ≤ timeVar a ∧ timeVar a ≤ (a.length / 2 : ℝ) ^ 2 := by
  have hg : ∀ j, 0 ≤ a.getD j 0 := by
    intro j
    rcases Nat.lt_or_ge j a.length with h | h
    · rw [List.getD_eq_getElem _ _ h]; exact ha _ (List.getElem_mem h)
    · rw [List.getD_eq_default _ _ h]
  unfold timeVar
  simp only []
  have hc : ∀ k : ℕ, (0 : ℝ) ≤ if k = 0 ∨ k = a.length - 1 then 1 / 2 else 1 := by intro k; split <;> norm_num
  have hden : 0 ≤ ∑ k ∈ range a.length, (if k = 0 ∨ k = a.length - 1 then (1 : ℝ) / 2 else 1) * a.getD k 0 :=
    sum_nonneg fun k _ => mul_nonneg (hc k) (hg k)
  constructor
  · exact div_nonneg (sum_nonneg fun k _ => mul_nonneg (mul_nonneg (hc k) (sq_nonneg _)) (hg k)) hden
  · apply div_le_of_le_mul₀ hden (by positivity)
    rw [mul_sum]
    refine sum_le_sum fun k hk => ?_
    rw [mem_range] at hk
    have h1 : ((k : ℝ) - a.length / 2) ^ 2 ≤ (a.length / 2) ^ 2 := by
      have : (k : ℝ) ≤ a.length := by exact_mod_cast hk.le
      have : (0 : ℝ) ≤ k := by positivity
      nlinarith
    have := mul_le_mul_of_nonneg_right h1 (mul_nonneg (hc k) (hg k))
    linarith

/-- **C122**, bounds: the resolution is between 0 and half of the greatest span. -/
theorem C122_bounds (f : WFn) (peakCt scale : ℝ) (N : ℕ) (hN : 1 ≤ N) (d : ℝ) (M m : ℕ) (hm : 1 ≤ m) (h2 : 2 ≤ m * N) (v : ℝ)
    (h : timeResolution f peakCt scale N d M m true false = .ok v) : 0 ≤ v ∧ v ≤ (M : ℝ) * N / 2 := by
  obtain ⟨mult, a, b, c, e, rfl⟩ := (C122_value f peakCt scale N hN d M m hm h2 v).1 h
  refine ⟨Real.sqrt_nonneg _, ?_⟩
  rw [Real.sqrt_le_left (by positivity)]
  refine (timeVar_bounds _ (psi2_nonneg _ _ _)).2.trans ?_
  rw [psi2_length]
  have : ((mult * N : ℕ) : ℝ) ≤ (M : ℝ) * N := by exact_mod_cast Nat.mul_le_mul_right N b
  gcongr

/-- **C122**, `nondim`: the same, times the peak frequency at that scale. -/
theorem C122_nondim (f : WFn) (peakCt scale : ℝ) (N : ℕ) (d : ℝ) (M m : ℕ) (forceInt : Bool) :
    timeResolution f peakCt scale N d M m forceInt true =
      (timeResolution f peakCt scale N d M m forceInt false).map fun v => v * peakWc f scale N := by
  unfold timeResolution
  simp only []
  cases integrationMult f _ N d M m <;> simp [Except.bind, Except.map]

/-- **C122**, `force_int=False`: between 4 and `N/5` no change; outside, the value at the centring scale `4/π` times the peak, in proportion to the scale. -/
theorem C122_formula (f : WFn) (peakCt scale : ℝ) (N : ℕ) (d : ℝ) (M m : ℕ) :
    timeResolution f peakCt scale N d M m false false =
      if 4 ≤ scale ∧ scale ≤ (N : ℝ) / 5 then timeResolution f peakCt scale N d M m true false
      else (timeResolution f peakCt (4 / Real.pi * peakCt) N d M m true false).map fun v => v * (scale / (4 / Real.pi * peakCt)) := by
  unfold timeResolution
  simp only [and_true, Bool.true_eq_false, and_false, if_false]
  by_cases h : 4 ≤ scale ∧ scale ≤ (N : ℝ) / 5
  · have h' : ¬ (scale < 4 ∨ scale > (N : ℝ) / 5) := by
      rintro (h1 | h1)
      · linarith [h.1]
      · linarith [h.2]
    rw [if_neg h', if_pos h]
    simp only [h', if_false]
  · have h' : scale < 4 ∨ scale > (N : ℝ) / 5 := by
      by_contra hc
      push Not at hc
      exact h hc
    rw [if_pos h', if_neg h]
    simp only [h', if_true]
    cases integrationMult f (4 / Real.pi * peakCt) N d M m <;> simp [Except.bind, Except.map]

/-! ### The wavelet times a constant -/

theorem psih_real_getD (f : ℝ → ℝ) (N : ℕ) (s : ℝ) (k : ℕ) (hk : k < N) :
    ((psihCall (.real f) N [s]).getD 0 []).getD k 0 =
      ((f (s * (xifn 1 N).getD k 0) * (if N % 2 = 0 ∧ k = N / 2 then 1 / 2 else 1) : ℝ) : ℂ) := by
  have e : (psihCall (.real f) N [s]).getD 0 [] = halveNyquist (sampleRow (.real f) N s) := by
    simp [psihCall, dropImag]
  have hx : (xifn 1 N).length = N := xifn_length _ _
  have hs : (sampleRow (.real f) N s).length = N := sampleRow_length _ _ _
  have hg : ∀ k < N, (sampleRow (.real f) N s).getD k 0 = ((f (s * (xifn 1 N).getD k 0) : ℝ) : ℂ) := by
    intro k hk
    unfold sampleRow
    rw [map_getD_lt (d := 0) (by omega)]
    rfl
  rw [e]
  unfold halveNyquist
  rw [hs]
  by_cases h : N % 2 = 0
  · rw [if_pos h]
    by_cases hk2 : k = N / 2
    · rw [if_pos ⟨h, hk2⟩, ← hk2, List.getD_eq_getElem _ _ (by simp; omega), List.getElem_set_self, hg k hk]
      push_cast; ring
    · rw [if_neg (by tauto), List.getD_eq_getElem _ _ (by simp; omega), List.getElem_set_ne (by omega), ← List.getD_eq_getElem _ 0, hg k hk, mul_one]
  · rw [if_neg h, if_neg (by tauto), hg k hk, mul_one]

theorem psi2_smul (f : ℝ → ℝ) (c s : ℝ) (Nt : ℕ) : psi2 (.real fun w => c * f w) s Nt = (psi2 (.real f) s Nt).map fun x => c ^ 2 * x := by
  unfold psi2
  rw [psifn_row _ _ _ _ (by simp), psifn_row _ _ _ _ (by simp), List.map_map, List.map_map, List.map_map]
  refine List.map_congr_left fun j _ => ?_
  simp only [Function.comp]
  have : ∀ k ∈ range Nt, ((psihCall (.real fun w => c * f w) Nt [s]).getD 0 []).getD k 0 * (-1) ^ k * tw Nt (j * k) =
      (c : ℂ) * (((psihCall (.real f) Nt [s]).getD 0 []).getD k 0 * (-1) ^ k * tw Nt (j * k)) := by
    intro k hk
    rw [mem_range] at hk
    rw [psih_real_getD _ _ _ _ hk, psih_real_getD _ _ _ _ hk]
    push_cast; ring
  rw [sum_congr rfl this, ← mul_sum, mul_div_assoc, Complex.normSq_mul, Complex.normSq_ofReal, pow_two]

theorem decayedBy_smul (d c : ℝ) (hc : 0 < c) (a : List ℝ) : DecayedBy d (a.map fun x => c * x) ↔ DecayedBy d a := by
  have hg : ∀ j, (a.map fun x => c * x).getD j 0 = c * a.getD j 0 := by
    intro j
    rcases Nat.lt_or_ge j a.length with h | h
    · exact map_getD_lt h
    · rw [List.getD_eq_default _ _ (by simpa using h), List.getD_eq_default _ _ h, mul_zero]
  unfold DecayedBy
  simp only [List.length_map, hg, ← mul_sum]
  refine exists_congr fun k => and_congr_right fun _ => and_congr ?_ (and_congr ?_ ?_)
  · exact forall_congr' fun j => imp_congr_right fun _ => mul_le_mul_iff_right₀ hc
  · exact mul_pos_iff_of_pos_left hc
  · rw [mul_div_assoc, mul_left_comm, mul_lt_mul_iff_right₀ hc]

theorem timeVar_smul (c : ℝ) (hc : 0 < c) (a : List ℝ) : timeVar (a.map fun x => c * x) = timeVar a := by
  have hg : ∀ j, (a.map fun x => c * x).getD j 0 = c * a.getD j 0 := by
    intro j
    rcases Nat.lt_or_ge j a.length with h | h
    · exact map_getD_lt h
    · rw [List.getD_eq_default _ _ (by simpa using h), List.getD_eq_default _ _ h, mul_zero]
  unfold timeVar
  simp only [List.length_map, hg]
  have e : ∀ x y : ℝ, x * (c * y) = c * (x * y) := fun x y => by ring
  simp only [e, ← mul_sum]
  exact mul_div_mul_left _ _ hc.ne'

/-- **C122**, amplitude: multiplying the wavelet by a constant changes nothing. -/
theorem C122_amplitude (f : ℝ → ℝ) (c : ℝ) (hc : c ≠ 0) (peakCt scale : ℝ) (N : ℕ) (hN : 1 ≤ N) (d : ℝ) (M m : ℕ) (hm : 1 ≤ m) (h2 : 2 ≤ m * N) (v : ℝ) :
    timeResolution (.real fun w => c * f w) peakCt scale N d M m true false = .ok v ↔
      timeResolution (.real f) peakCt scale N d M m true false = .ok v := by
  have hc2 : 0 < c ^ 2 := by positivity
  rw [C122_value _ _ _ _ hN _ _ _ hm h2, C122_value _ _ _ _ hN _ _ _ hm h2]
  simp only [psi2_smul, decayedBy_smul _ _ hc2, timeVar_smul _ hc2]

/-! ### A case -/

/-- `|psi|²` of the constant wavelet: one sample but for the halved Nyquist bin. -/
theorem power2_one (Nt : ℕ) (h0 : 0 < Nt) (he : Nt % 2 = 0) (s : ℝ) (j : ℕ) (hj : j < Nt) :
    power2 (.real fun _ => 1) s Nt j = if j = Nt / 2 then (1 - 1 / (2 * (Nt : ℝ))) ^ 2 else (1 / (2 * (Nt : ℝ))) ^ 2 := by
  have hne : (Nt : ℂ) ≠ 0 := by
    have : Nt ≠ 0 := by omega
    exact_mod_cast this
  unfold power2
  rw [psifn_row _ _ _ _ (by simp), getD_map_range _ _ hj]
  have hsum : ∑ k ∈ range Nt, ((psihCall (.real fun _ => 1) Nt [s]).getD 0 []).getD k 0 * (-1) ^ k * tw Nt (j * k) =
      (if j = Nt / 2 then (Nt : ℂ) else 0) - 1 / 2 * tw Nt ((Nt / 2 : ℕ) * ((j : ℤ) + (Nt / 2 : ℕ))) := by
    have h1 : ∀ k ∈ range Nt, ((psihCall (.real fun _ => 1) Nt [s]).getD 0 []).getD k 0 * (-1) ^ k * tw Nt (j * k) =
        tw Nt (k * ((j : ℤ) + (Nt / 2 : ℕ))) - if k = Nt / 2 then 1 / 2 * tw Nt ((Nt / 2 : ℕ) * ((j : ℤ) + (Nt / 2 : ℕ))) else 0 := by
      intro k hk
      rw [mem_range] at hk
      rw [psih_real_getD _ _ _ _ hk, neg_one_tw h0 he, mul_assoc, ← tw_add, show ((Nt / 2 : ℕ) : ℤ) * k + j * k = k * ((j : ℤ) + (Nt / 2 : ℕ)) by ring]
      by_cases hk2 : k = Nt / 2
      · rw [if_pos ⟨he, hk2⟩, if_pos hk2, hk2]
        push_cast; ring
      · rw [if_neg (by tauto), if_neg hk2]
        push_cast; ring
    rw [sum_congr rfl h1, sum_sub_distrib, sum_tw (by omega), sum_ite_eq' (range Nt) (Nt / 2), if_pos (mem_range.2 (by omega))]
    congr 1
    have : ((Nt : ℤ) ∣ (j : ℤ) + (Nt / 2 : ℕ)) ↔ j = Nt / 2 := by
      constructor
      · intro h
        have h' : Nt ∣ j + Nt / 2 := by exact_mod_cast h
        obtain ⟨q, hq⟩ := h'
        have : q = 1 := by
          rcases q with _ | _ | q
          · omega
          · rfl
          · have : Nt * (q + 1 + 1) = Nt * q + Nt + Nt := by ring
            omega
        subst this
        omega
      · rintro rfl
        refine ⟨1, ?_⟩
        omega
    simp only [this]
  rw [hsum]
  by_cases hj2 : j = Nt / 2
  · rw [if_pos hj2, if_pos hj2]
    have : ((Nt / 2 : ℕ) : ℤ) * ((j : ℤ) + (Nt / 2 : ℕ)) = Nt * (Nt / 2 : ℕ) := by
      rw [hj2, mul_comm]
      congr 1
      omega
    rw [this, tw_mul_n (by omega), mul_one, sub_div, div_self hne]
    have e : (1 : ℂ) - 1 / 2 / Nt = ((1 - 1 / (2 * Nt) : ℝ) : ℂ) := by push_cast; field_simp
    rw [e, Complex.norm_real, Real.norm_eq_abs, sq_abs]
  · rw [if_neg hj2, if_neg hj2, zero_sub, neg_div, norm_neg, norm_div, norm_mul, norm_tw]
    simp
    ring

/-- The constant wavelet decays over `2N` samples for the default arguments, `N = 16`: the hypotheses of `C122_value` and `C122_bounds` are met. -/
example : ∃ v, timeResolution (.real fun _ => 1) 1 10 16 1000 2 2 true false = .ok v := by
  refine ⟨_, (C122_value (.real fun _ => 1) 1 10 16 (by norm_num) 1000 2 2 (by norm_num) (by norm_num) _).2 ⟨2, le_rfl, le_rfl, ?_, by omega, rfl⟩⟩
  have hv : ∀ j < 32, (psi2 (.real fun _ => 1) 10 (2 * 16)).getD j 0 = if j = 16 then (1 - 1 / (2 * (32 : ℝ))) ^ 2 else (1 / (2 * (32 : ℝ))) ^ 2 := by
    intro j hj
    rw [psi2_getD, power2_one _ (by norm_num) (by norm_num) _ _ (by omega)]
    norm_num
  have hl : (psi2 (.real fun _ => 1) 10 (2 * 16)).length = 32 := psi2_length _ _ _
  refine ⟨16, by omega, ?_, ?_, ?_⟩
  · intro j hj
    rw [hl] at hj
    rw [hv j hj, hv 16 (by norm_num), if_pos rfl]
    split <;> norm_num
  · rw [hv 16 (by norm_num), if_pos rfl]; norm_num
  · rw [hl]
    simp only []
    rw [hv 16 (by norm_num), if_pos rfl]
    have : ∑ j ∈ range (min (max 10 (32 / 100)) 32), (psi2 (.real fun _ => 1) 10 (2 * 16)).getD j 0 = 10 * (1 / (2 * (32 : ℝ))) ^ 2 := by
      rw [sum_congr rfl (g := fun _ => (1 / (2 * (32 : ℝ))) ^ 2)]
      · simp
      · intro j hj
        rw [mem_range] at hj
        norm_num at hj
        rw [hv j (by omega), if_neg (by omega)]
    rw [this]
    norm_num

end Ssq
