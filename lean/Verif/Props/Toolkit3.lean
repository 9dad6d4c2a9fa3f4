import Verif.Props.Toolkit2
import Mathlib.Data.List.Pairwise
import Mathlib.Order.Lattice
import Mathlib.Data.Prod.Lex

/-!
# C120, C121: `where_amax`, `cos_f`, `sin_f`
-/
namespace Ssq
open Spec

theorem foldl_max_spec (a : ℝ) (l : List ℝ) : a ≤ l.foldl max a ∧ (∀ y ∈ l, y ≤ l.foldl max a) ∧ (l.foldl max a = a ∨ l.foldl max a ∈ l) := by
  induction l generalizing a with
  | nil => simp
  | cons b l ih =>
    obtain ⟨h1, h2, h3⟩ := ih (max a b)
    simp only [List.foldl_cons, List.mem_cons]
    refine ⟨(le_max_left _ _).trans h1, ?_, ?_⟩
    · rintro y (rfl | hy)
      · exact (le_max_right _ _).trans h1
      · exact h2 y hy
    · rcases h3 with h | h
      · rcases max_choice a b with e | e
        · left; rw [h, e]
        · right; left; rw [h, e]
      · right; right; exact h

theorem maxL_some {l : List ℝ} {m : ℝ} (h : maxL l = some m) : m ∈ l ∧ ∀ y ∈ l, y ≤ m := by
  cases l with
  | nil => simp [maxL] at h
  | cons a l =>
    simp only [maxL, Option.some.injEq] at h
    subst h
    obtain ⟨h1, h2, h3⟩ := foldl_max_spec a l
    constructor
    · rcases h3 with h | h
      · rw [h]; simp
      · exact List.mem_cons_of_mem _ h
    · intro y hy
      rcases List.mem_cons.1 hy with rfl | hy
      · exact h1
      · exact h2 y hy

theorem mem_indices2 {m n : ℕ} {p : ℕ × ℕ} : p ∈ indices2 m n ↔ p.1 < m ∧ p.2 < n := by
  obtain ⟨i, j⟩ := p
  simp only [indices2, List.mem_flatMap, List.mem_range, List.mem_map, Prod.mk.injEq]
  constructor
  · rintro ⟨i', hi, j', hj, rfl, rfl⟩; exact ⟨hi, hj⟩
  · rintro ⟨hi, hj⟩; exact ⟨i, hi, j, hj, rfl, rfl⟩

theorem indices2_sorted (m n : ℕ) : (indices2 m n).Pairwise fun p q => p.1 < q.1 ∨ p.1 = q.1 ∧ p.2 < q.2 := by
  unfold indices2
  rw [List.pairwise_flatMap]
  constructor
  · intro i _
    rw [List.pairwise_map]
    exact (List.pairwise_lt_range).imp fun h => .inr ⟨rfl, h⟩
  · refine (List.pairwise_lt_range).imp fun h => ?_
    intro p hp q hq
    obtain ⟨_, -, rfl⟩ := List.mem_map.1 hp
    obtain ⟨_, -, rfl⟩ := List.mem_map.1 hq
    exact .inl h

theorem mem_norms {n : ℕ} {x : List (List ℂ)} (hr : Rect n x) {y : ℝ} :
    y ∈ (x.map fun r => r.map fun z : ℂ => ‖z‖).flatten ↔ ∃ i j, i < x.length ∧ j < n ∧ ‖(x.getD i []).getD j 0‖ = y := by
  simp only [List.mem_flatten, List.mem_map]
  constructor
  · rintro ⟨_, ⟨r, hrm, rfl⟩, hy⟩
    obtain ⟨z, hz, rfl⟩ := List.mem_map.1 hy
    obtain ⟨i, hi, rfl⟩ := List.getElem_of_mem hrm
    obtain ⟨j, hj, rfl⟩ := List.getElem_of_mem hz
    refine ⟨i, j, hi, ?_, ?_⟩
    · rw [← hr _ hrm]; exact hj
    · rw [List.getD_eq_getElem _ _ hi, List.getD_eq_getElem _ _ hj]
  · rintro ⟨i, j, hi, hj, rfl⟩
    have hrm : x[i] ∈ x := List.getElem_mem hi
    have hj' : j < x[i].length := by rw [hr _ hrm]; exact hj
    refine ⟨_, ⟨x[i], hrm, rfl⟩, ?_⟩
    rw [List.getD_eq_getElem _ _ hi, List.getD_eq_getElem _ _ hj']
    exact List.mem_map_of_mem (f := fun z : ℂ => ‖z‖) (List.getElem_mem hj')

/-- **C120**: the indices returned are those at which no entry has a greater modulus: each of them, once, in row-major order, and there is at least one. -/
theorem C120_where (n : ℕ) (x : List (List ℂ)) (hr : Rect n x) (hn : 1 ≤ n) (hx : x ≠ []) :
    ∃ l, whereAmax n x = .ok l ∧ l ≠ [] ∧ (l.Pairwise fun p q => p.1 < q.1 ∨ p.1 = q.1 ∧ p.2 < q.2) ∧
      ∀ i j, (i, j) ∈ l ↔ i < x.length ∧ j < n ∧
        ∀ i' j', i' < x.length → j' < n → ‖(x.getD i' []).getD j' 0‖ ≤ ‖(x.getD i []).getD j 0‖ := by
  have hne : (x.map fun r => r.map fun z : ℂ => ‖z‖).flatten ≠ [] := by
    have : ‖(x.getD 0 []).getD 0 0‖ ∈ (x.map fun r => r.map fun z : ℂ => ‖z‖).flatten :=
      (mem_norms hr).2 ⟨0, 0, List.length_pos_iff.2 hx, hn, rfl⟩
    exact List.ne_nil_of_mem this
  obtain ⟨mx, hmx⟩ : ∃ mx, maxL ((x.map fun r => r.map fun z : ℂ => ‖z‖).flatten) = some mx := by
    cases h : (x.map fun r => r.map fun z : ℂ => ‖z‖).flatten with
    | nil => exact absurd h hne
    | cons a l => exact ⟨_, rfl⟩
  obtain ⟨hm, hle⟩ := maxL_some hmx
  obtain ⟨i0, j0, hi0, hj0, e0⟩ := (mem_norms hr).1 hm
  refine ⟨(indices2 x.length n).filter fun p => decide (‖(x.getD p.1 []).getD p.2 0‖ = mx), ?_, ?_, ?_, ?_⟩
  · unfold whereAmax; rw [hmx]
  · apply List.ne_nil_of_mem (a := (i0, j0))
    rw [List.mem_filter]
    exact ⟨mem_indices2.2 ⟨hi0, hj0⟩, by simpa using e0⟩
  · exact (indices2_sorted _ _).filter _
  · intro i j
    rw [List.mem_filter, mem_indices2, decide_eq_true_eq]
    constructor
    · rintro ⟨⟨hi, hj⟩, e⟩
      refine ⟨hi, hj, fun i' j' hi' hj' => ?_⟩
      simp only at e
      rw [e]
      exact hle _ ((mem_norms hr).2 ⟨i', j', hi', hj', rfl⟩)
    · rintro ⟨hi, hj, h⟩
      refine ⟨⟨hi, hj⟩, le_antisymm ?_ ?_⟩
      · exact hle _ ((mem_norms hr).2 ⟨i, j, hi, hj, rfl⟩)
      · rw [← e0]; exact h i0 j0 hi0 hj0

/-- An empty array has no maximum. -/
theorem C120_empty (n : ℕ) : whereAmax n [] = .error .valueError := by
  simp [whereAmax, maxL]

example : Rect 2 ([[1, -2], [Complex.I * 2, 0]] : List (List ℂ)) ∧ ([[1, -2], [Complex.I * 2, 0]] : List (List ℂ)) ≠ [] := by simp [Rect]

theorem flatten_getD_uniform (n : ℕ) : ∀ (L : List (List ℝ)), Rect n L → ∀ i k, k < n → i < L.length → L.flatten.getD (i * n + k) 0 = (L.getD i []).getD k 0
  | r :: L, h, 0, k, hk, _ => by
    have hr : r.length = n := h r (by simp)
    rw [List.flatten_cons, List.getD_append _ _ _ _ (by omega)]
    simp
  | r :: L, h, i + 1, k, hk, hi => by
    have hr : r.length = n := h r (by simp)
    have e : (i + 1) * n + k = r.length + (i * n + k) := by rw [hr]; ring
    rw [List.flatten_cons, e, List.getD_append_right _ _ _ _ (by omega), Nat.add_sub_cancel_left,
      flatten_getD_uniform n L (fun s hs => h s (by simp [hs])) i k hk (by simpa using hi)]
    simp

theorem flatten_length_uniform (n : ℕ) : ∀ (L : List (List ℝ)), Rect n L → L.flatten.length = n * L.length
  | [], _ => by simp
  | r :: L, h => by
    rw [List.flatten_cons, List.length_append, h r (by simp), flatten_length_uniform n L (fun s hs => h s (by simp [hs])), List.length_cons]
    ring

/-- Samples of `toneF`. -/
theorem toneF_samples (g : ℝ → ℝ) (freqs : List ℝ) (hf : freqs ≠ []) (N : ℕ) (phi : ℝ) (endpoint : Bool) :
    ∃ x, toneF g freqs N phi endpoint = .ok x ∧ x.length = N * freqs.length ∧
      ∀ i k, i < freqs.length → k < N →
        x.getD (i * N + k) 0 = g (2 * Real.pi * freqs.getD i 0 * (i + k / ((if endpoint then N - 1 else N : ℕ) : ℝ) + phi)) := by
  refine ⟨_, by rw [toneF, if_neg hf], ?_, ?_⟩
  · rw [flatten_length_uniform N]
    · simp
    · intro r hr
      obtain ⟨p, -, rfl⟩ := List.mem_map.1 hr
      simp [toolT]
  · intro i k hi hk
    rw [flatten_getD_uniform N _ _ i k hk (by simpa using hi)]
    · rw [map_getD_lt (d := (0, 0)) (by simpa using hi), List.getD_eq_getElem freqs.zipIdx _ (by simpa using hi), List.getElem_zipIdx,
        map_getD_lt (d := 0) (by simpa [toolT] using hk), toolT, map_range_getD hk, List.getD_eq_getElem _ _ hi]
      simp only [zero_add, add_sub_cancel_left, mul_one_div]
    · intro r hr
      obtain ⟨p, -, rfl⟩ := List.mem_map.1 hr
      simp [toolT]

/-- **C121**, the samples: `N` for each frequency in turn, the tone `i` of frequency `freqs[i]` on the time from `i` to `i + 1`, the end left out. -/
theorem C121_samples (freqs : List ℝ) (hf : freqs ≠ []) (N : ℕ) (phi : ℝ) :
    ∃ c s, cosF freqs N phi false = .ok c ∧ sinF freqs N phi false = .ok s ∧ c.length = N * freqs.length ∧ s.length = N * freqs.length ∧
      ∀ i k, i < freqs.length → k < N →
        c.getD (i * N + k) 0 = Real.cos (2 * Real.pi * freqs.getD i 0 * (i + k / N + phi)) ∧
        s.getD (i * N + k) 0 = Real.sin (2 * Real.pi * freqs.getD i 0 * (i + k / N + phi)) := by
  obtain ⟨c, hc, hcl, hcs⟩ := toneF_samples Real.cos freqs hf N phi false
  obtain ⟨s, hs, hsl, hss⟩ := toneF_samples Real.sin freqs hf N phi false
  exact ⟨c, s, hc, hs, hcl, hsl, fun i k hi hk => ⟨by simpa using hcs i k hi hk, by simpa using hss i k hi hk⟩⟩

/-- **C121**, with `endpoint=True`: the end is the last sample of each tone. -/
theorem C121_endpoint (freqs : List ℝ) (hf : freqs ≠ []) (N : ℕ) (hN : 2 ≤ N) (phi : ℝ) :
    ∃ c s, cosF freqs N phi true = .ok c ∧ sinF freqs N phi true = .ok s ∧ c.length = N * freqs.length ∧ s.length = N * freqs.length ∧
      (∀ i k, i < freqs.length → k < N →
        c.getD (i * N + k) 0 = Real.cos (2 * Real.pi * freqs.getD i 0 * (i + k / (N - 1) + phi)) ∧
        s.getD (i * N + k) 0 = Real.sin (2 * Real.pi * freqs.getD i 0 * (i + k / (N - 1) + phi))) ∧
      ∀ i, i < freqs.length → c.getD (i * N + (N - 1)) 0 = Real.cos (2 * Real.pi * freqs.getD i 0 * (i + 1 + phi)) := by
  obtain ⟨c, hc, hcl, hcs⟩ := toneF_samples Real.cos freqs hf N phi true
  obtain ⟨s, hs, hsl, hss⟩ := toneF_samples Real.sin freqs hf N phi true
  have e : (((if true then N - 1 else N : ℕ) : ℕ) : ℝ) = N - 1 := by
    rw [if_pos rfl, Nat.cast_sub (by omega)]; simp
  rw [e] at hcs hss
  refine ⟨c, s, hc, hs, hcl, hsl, fun i k hi hk => ⟨hcs i k hi hk, hss i k hi hk⟩, fun i hi => ?_⟩
  rw [hcs i (N - 1) hi (by omega), Nat.cast_sub (by omega)]
  have : (N : ℝ) - 1 ≠ 0 := by
    have : (2 : ℝ) ≤ N := by exact_mod_cast hN
    linarith
  rw [Nat.cast_one, div_self this]

/-- **C121**, whole frequencies, no phase: every tone starts at its crest, whatever the tones before. -/
theorem C121_whole (freqs : List ℤ) (hf : freqs ≠ []) (N : ℕ) :
    ∃ c, cosF (freqs.map fun n : ℤ => (n : ℝ)) N 0 false = .ok c ∧
      ∀ i k, i < freqs.length → k < N → c.getD (i * N + k) 0 = Real.cos (2 * Real.pi * freqs.getD i 0 * k / N) := by
  obtain ⟨c, _, hc, -, -, -, h⟩ := C121_samples (freqs.map fun n : ℤ => (n : ℝ)) (by simpa using hf) N 0
  refine ⟨c, hc, fun i k hi hk => ?_⟩
  have h1 := (h i k (by simpa using hi) hk).1
  rw [map_getD_lt (f := fun n : ℤ => (n : ℝ)) (d := 0) hi] at h1
  rw [h1]
  rw [show 2 * Real.pi * (freqs.getD i 0 : ℤ) * ((i : ℝ) + k / N + 0) =
    2 * Real.pi * (freqs.getD i 0 : ℤ) * k / N + ((freqs.getD i 0 * i : ℤ) : ℝ) * (2 * Real.pi) by push_cast; ring]
  exact Real.cos_add_int_mul_two_pi _ _

/-- No frequencies are refused. -/
theorem C121_empty (N : ℕ) (phi : ℝ) (endpoint : Bool) :
    cosF [] N phi endpoint = .error .valueError ∧ sinF [] N phi endpoint = .error .valueError := by
  simp [cosF, sinF, toneF]

example : ([3, 5] : List ℝ) ≠ [] ∧ ([3, 5] : List ℤ) ≠ [] := by simp

end Ssq
