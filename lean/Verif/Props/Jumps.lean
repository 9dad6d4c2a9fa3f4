import Verif.Model.Signals2
import Verif.Props.Toolkit3
import Mathlib.Tactic.FieldSimp

/-!
# C127: `jumps`; C128: `packed`
-/
namespace Ssq

theorem tVec_length (a b : ℝ) (n : ℕ) (e : Bool) : (tVec a b n e).length = n := by simp [tVec]

theorem tVec_getD (a b : ℝ) (n : ℕ) (e : Bool) (j : ℕ) (hj : j < n) :
    (tVec a b n e).getD j 0 = a + j * ((b - a) / (if e then (n - 1 : ℕ) else n : ℕ)) := by
  unfold tVec; rw [map_range_getD hj]

/-- **C127**: with frequencies `fs`, each tone has `M = N // len(fs)` samples; sample `j` is the cosine of the tone `j // M` at the returned time `t[j]`. -/
theorem C127_samples (N : ℕ) (fs : List ℝ) (hf : fs ≠ []) (tmin tmax : ℝ) (endpoint : Bool) :
    ∃ x t, jumps N (some fs) tmin tmax endpoint = .ok (x, t) ∧ x.length = N / fs.length * fs.length ∧ t.length = N / fs.length * fs.length ∧
      ∀ j < N / fs.length * fs.length, x.getD j 0 = Real.cos (2 * Real.pi * fs.getD (j / (N / fs.length)) 0 * t.getD j 0) := by
  have hn : fs.length ≠ 0 := by simpa using hf
  unfold jumps
  simp only [Option.getD_some]
  rw [if_neg hn]
  set M := N / fs.length with hM
  set tAll := tVec tmin ((tmax - tmin) * fs.length) (M * fs.length) endpoint with ht
  have htl : tAll.length = M * fs.length := tVec_length _ _ _ _
  set L := fs.zipIdx.map fun fi => ((tAll.drop (fi.2 * M)).take M).map fun t => Real.cos (2 * Real.pi * fi.1 * t) with hL
  have hLl : L.length = fs.length := by simp [hL]
  have hrow : ∀ i < fs.length, L.getD i [] = ((tAll.drop (i * M)).take M).map fun t => Real.cos (2 * Real.pi * fs.getD i 0 * t) := by
    intro i hi
    rw [hL, map_getD_lt (d := ((0 : ℝ), 0)) (by simpa using hi), List.getD_eq_getElem _ _ (by simpa using hi), List.getD_eq_getElem _ _ hi]
    simp
  have hrl : ∀ i < fs.length, ((tAll.drop (i * M)).take M).length = M := by
    intro i hi
    rw [List.length_take, List.length_drop, htl]
    have : (i + 1) * M ≤ M * fs.length := by rw [mul_comm M]; exact Nat.mul_le_mul_right _ hi
    have h2 : (i + 1) * M = i * M + M := by ring
    omega
  have hrect : Spec.Rect M L := by
    intro r hr
    obtain ⟨i, hi, rfl⟩ := List.getElem_of_mem hr
    rw [← List.getD_eq_getElem _ [] hi, hrow i (by omega), List.length_map, hrl i (by omega)]
  refine ⟨_, _, rfl, ?_, htl, ?_⟩
  · rw [flatten_length_uniform M L hrect, hLl]
  · intro j hj
    have hM0 : 0 < M := Nat.pos_of_ne_zero fun h => by rw [h] at hj; omega
    have hi : j / M < fs.length := by rw [Nat.div_lt_iff_lt_mul hM0, mul_comm]; exact hj
    have hk : j % M < M := Nat.mod_lt _ hM0
    have e : j = j / M * M + j % M := by rw [mul_comm]; exact (Nat.div_add_mod j M).symm
    conv_lhs => rw [e]
    rw [flatten_getD_uniform M L hrect _ _ hk (by omega), hrow _ hi, map_getD_lt (d := 0) (by rw [hrl _ hi]; exact hk)]
    congr 2
    rw [List.getD_eq_getElem _ _ (by rw [hrl _ hi]; exact hk), List.getD_eq_getElem _ _ (by omega)]
    simp only [List.getElem_take, List.getElem_drop]
    congr 1
    exact e.symm

/-- The claim: `jumps(N, freqs)` has `N` samples. -/
def C127_length_full : Prop := ∀ (N : ℕ) (fs : List ℝ), fs ≠ [] → fs.length ≤ N → ∀ x t, jumps N (some fs) 0 1 true = .ok (x, t) → x.length = N

/-- Ten samples, four frequencies: the signal has eight. -/
theorem C127_length_refuted : ¬ C127_length_full := by
  intro h
  obtain ⟨x, t, e, hl, -⟩ := C127_samples 10 [1, 2, 3, 4] (by simp) 0 1 true
  have := h 10 [1, 2, 3, 4] (by simp) (by simp) x t e
  rw [this] at hl
  norm_num at hl

/-- It has if the number of frequencies divides `N`, and is shorter by the remainder otherwise. -/
theorem C127_length_partial (N : ℕ) (fs : List ℝ) (hf : fs ≠ []) (tmin tmax : ℝ) (endpoint : Bool) (x t : List ℝ)
    (h : jumps N (some fs) tmin tmax endpoint = .ok (x, t)) :
    x.length + N % fs.length = N ∧ t.length = x.length ∧ (x.length = N ↔ fs.length ∣ N) := by
  obtain ⟨x', t', e, h1, h2, -⟩ := C127_samples N fs hf tmin tmax endpoint
  rw [h] at e; cases e
  have := Nat.div_add_mod' N fs.length
  refine ⟨by omega, by omega, ?_⟩
  rw [h1, Nat.dvd_iff_mod_eq_zero]
  omega

/-- The claim: each tone lasts `tmax - tmin`; time starts at `tmin` and goes on evenly. -/
def C127_time_full : Prop := ∀ (N : ℕ) (fs : List ℝ) (tmin tmax : ℝ), fs ≠ [] → tmin < tmax → ∀ x t,
  jumps N (some fs) tmin tmax false = .ok (x, t) → ∀ j < t.length, t.getD j 0 = tmin + j * ((tmax - tmin) / (N / fs.length : ℕ))

/-- One tone from 1 to 2: time stands still at 1. -/
theorem C127_time_refuted : ¬ C127_time_full := by
  intro h
  have e : jumps 2 (some [5]) 1 2 false = .ok ([((tVec 1 ((2 - 1) * 1) (2 / 1 * 1) false).take 2).map fun t => Real.cos (2 * Real.pi * 5 * t)].flatten,
      tVec 1 ((2 - 1) * 1) (2 / 1 * 1) false) := by
    simp [jumps]
  have := h 2 [5] 1 2 (by simp) (by norm_num) _ _ e 1 (by simp [tVec])
  rw [tVec_getD _ _ _ _ _ (by norm_num)] at this
  norm_num at this

/-- It holds if time starts at 0. -/
theorem C127_time_partial (N : ℕ) (fs : List ℝ) (tmax : ℝ) (hf : fs ≠ []) (x t : List ℝ) (h : jumps N (some fs) 0 tmax false = .ok (x, t)) :
    ∀ j < t.length, t.getD j 0 = 0 + j * ((tmax - 0) / (N / fs.length : ℕ)) := by
  have hn : fs.length ≠ 0 := by simpa using hf
  unfold jumps at h
  simp only [Option.getD_some] at h
  rw [if_neg hn] at h
  cases h
  intro j hj
  rw [tVec_length] at hj
  rw [tVec_getD _ _ _ _ _ hj]
  have hM : N / fs.length ≠ 0 := fun h0 => by rw [h0] at hj; omega
  have h1 : (fs.length : ℝ) ≠ 0 := by exact_mod_cast hn
  have h2 : ((N / fs.length : ℕ) : ℝ) ≠ 0 := by exact_mod_cast hM
  simp only [Bool.false_eq_true, if_false]
  push_cast [-Nat.cast_div_le]
  field_simp
  ring

/-- No frequencies: an exception; the default ones are four. -/
theorem C127_empty (N : ℕ) (tmin tmax : ℝ) (e : Bool) : jumps N (some []) tmin tmax e = .error .zeroDivisionError ∧
    jumps N none tmin tmax e = jumps N (some [1, ((N / 4 : ℕ) : ℝ) / 4, ((N / 4 : ℕ) : ℝ) / 2, ((N / 4 : ℕ) : ℝ) / 16]) tmin tmax e := by
  constructor
  · simp [jumps]
  · simp [jumps]

example : ∃ x t, jumps 12 (some [1, 2, 3]) 0 1 false = .ok (x, t) ∧ x.length = 12 := by
  obtain ⟨x, t, e, hl, -⟩ := C127_samples 12 [1, 2, 3] (by simp) 0 1 false
  exact ⟨x, t, e, by rw [hl]; rfl⟩

/-! ## C128 -/

namespace Spec

/-- Sum of the tones heard at sample `j`: those of even number in the first `No` samples, those of odd number in the last `No`. -/
noncomputable def heard (t freqs : List ℝ) (No j : ℕ) : ℝ :=
  ∑ i ∈ Finset.range freqs.length,
    if (i % 2 = 0 ∧ j < No) ∨ (i % 2 = 1 ∧ t.length ≤ j + No) then Real.cos (2 * Real.pi * freqs.getD i 0 * t.getD j 0) else 0

end Spec
open Spec

/-- The claim, for every overlap from 0 to 1. -/
def C128_full : Prop := ∀ (t freqs : List ℝ) (overlap : ℝ), 0 ≤ overlap → overlap ≤ 1 → ∀ j < t.length,
  (packed t freqs overlap).getD j 0 = heard t freqs ⌊overlap * t.length⌋₊ j

theorem packed_fold (t : List ℝ) (No : ℕ) (fs : List ℝ) : ∀ (s : ℕ) (x : List ℝ), x.length = t.length → ∀ j < t.length,
    ((fs.zipIdx s).foldl
      (fun x fi => (List.range t.length).map fun j =>
        if packedIn t.length No fi.2 j then x.getD j 0 + Real.cos (2 * Real.pi * fi.1 * t.getD j 0) else x.getD j 0) x).getD j 0 =
      x.getD j 0 + ∑ i ∈ Finset.range fs.length,
        if packedIn t.length No (s + i) j then Real.cos (2 * Real.pi * fs.getD i 0 * t.getD j 0) else 0 := by
  induction fs with
  | nil => intro s x _ j _; simp
  | cons f fs ih =>
    intro s x hx j hj
    rw [List.zipIdx_cons, List.foldl_cons, ih (s + 1) _ (by simp) j hj, map_range_getD hj, List.length_cons, Finset.sum_range_succ']
    simp only [List.getD_cons_succ, List.getD_cons_zero, add_zero]
    have : ∀ i, s + 1 + i = s + (i + 1) := fun i => by ring
    simp only [this]
    split <;> ring

theorem packed_getD (t freqs : List ℝ) (overlap : ℝ) (j : ℕ) (hj : j < t.length) :
    (packed t freqs overlap).getD j 0 = ∑ i ∈ Finset.range freqs.length,
      if packedIn t.length ⌊overlap * t.length⌋₊ i j then Real.cos (2 * Real.pi * freqs.getD i 0 * t.getD j 0) else 0 := by
  unfold packed
  rw [packed_fold t _ freqs 0 _ (by simp) j hj, List.getD_eq_getElem _ _ (by simpa using hj)]
  simp

/-- **C128**, proved part: right if the overlap is at least one sample. -/
theorem C128_partial (t freqs : List ℝ) (overlap : ℝ) (h : 1 ≤ overlap * t.length) (j : ℕ) (hj : j < t.length) :
    (packed t freqs overlap).getD j 0 = heard t freqs ⌊overlap * t.length⌋₊ j := by
  rw [packed_getD _ _ _ _ hj]
  unfold heard
  have hNo : 1 ≤ ⌊overlap * t.length⌋₊ := Nat.le_floor (by simpa using h)
  refine Finset.sum_congr rfl fun i _ => ?_
  congr 1
  unfold packedIn
  rw [if_neg (show ¬ ⌊overlap * t.length⌋₊ = 0 by omega)]
  by_cases hi : i % 2 = 0
  · simp [hi]
  · have : i % 2 = 1 := by omega
    simp [this]

/-- Less than one sample: tones of even number are silent, but those of odd number sound throughout. -/
theorem C128_none (t freqs : List ℝ) (overlap : ℝ) (h : overlap * t.length < 1) (j : ℕ) (hj : j < t.length) :
    (packed t freqs overlap).getD j 0 =
      ∑ i ∈ Finset.range freqs.length, if i % 2 = 1 then Real.cos (2 * Real.pi * freqs.getD i 0 * t.getD j 0) else 0 := by
  rw [packed_getD _ _ _ _ hj]
  have hNo : ⌊overlap * t.length⌋₊ = 0 := Nat.floor_eq_zero.2 h
  refine Finset.sum_congr rfl fun i _ => ?_
  congr 1
  unfold packedIn
  rw [hNo]
  by_cases hi : i % 2 = 0
  · simp [hi]
  · have : i % 2 = 1 := by omega
    simp [this]

/-- Two tones, no overlap: the second is heard where nothing should be. -/
theorem C128_refuted : ¬ C128_full := by
  intro h
  have := h [0] [0, 0] 0 le_rfl zero_le_one 0 (by simp)
  rw [C128_none _ _ _ (by simp) _ (by simp)] at this
  simp [heard, Finset.sum_range_succ] at this
  have := @this 1 le_rfl
  omega

/-- **C128**: for an overlap above one half all tones sound in the middle. -/
theorem C128_middle (t freqs : List ℝ) (overlap : ℝ) (h : 1 ≤ overlap * t.length) (j : ℕ) (h1 : j < ⌊overlap * t.length⌋₊)
    (h2 : t.length ≤ j + ⌊overlap * t.length⌋₊) (hj : j < t.length) :
    (packed t freqs overlap).getD j 0 = ∑ i ∈ Finset.range freqs.length, Real.cos (2 * Real.pi * freqs.getD i 0 * t.getD j 0) := by
  rw [C128_partial _ _ _ h _ hj]
  refine Finset.sum_congr rfl fun i _ => if_pos ?_
  rcases Nat.mod_two_eq_zero_or_one i with e | e
  · exact Or.inl ⟨e, h1⟩
  · exact Or.inr ⟨e, h2⟩

example : (packed [0, 1, 2, 3, 4] [1, 2] (4 / 5)).getD 2 0 = 2 := by
  have hf : ⌊(4 / 5 : ℝ) * ([0, 1, 2, 3, 4] : List ℝ).length⌋₊ = 4 := by
    rw [Nat.floor_eq_iff (by simp)]; simp
  rw [C128_middle _ _ _ (by simp) 2 (by rw [hf]; norm_num) (by rw [hf]; simp) (by simp)]
  simp only [List.length_cons, List.length_nil, Finset.sum_range_succ, Finset.range_zero, Finset.sum_empty, List.getD_cons_zero, List.getD_cons_succ]
  have c1 : Real.cos (2 * Real.pi * 1 * 2) = 1 := by
    rw [show 2 * Real.pi * 1 * 2 = (2 : ℕ) * (2 * Real.pi) by push_cast; ring]; exact Real.cos_nat_mul_two_pi 2
  have c2 : Real.cos (2 * Real.pi * 2 * 2) = 1 := by
    rw [show 2 * Real.pi * 2 * 2 = (4 : ℕ) * (2 * Real.pi) by push_cast; ring]; exact Real.cos_nat_mul_two_pi 4
  rw [c1, c2]; norm_num

end Ssq
