import Verif.Lemmas.Superpose
import Verif.Props.Covariance

/-!
# C153: components that do not overlap are squeezed independently of each other
-/
namespace Ssq
open Finset

namespace Spec

/-- The sum of the signals `xs 0, …, xs (C-1)` of `N` samples. -/
noncomputable def mix (N C : ℕ) (xs : ℕ → List ℝ) : List ℝ := (List.range N).map fun j => ∑ c ∈ range C, (xs c).getD j 0

/-- In column `j` no two of the transforms `p 0, …, p (C-1)` have a cell in common in which the transform or its derivative is not zero. -/
def DisjointAt (C M : ℕ) (p : ℕ → SsqCwtOut) (j : ℕ) : Prop :=
  ∀ i < M, ∀ c < C, ∀ d < C, c ≠ d → ((ent (p c).Wx i j = 0 ∧ ent (p c).dWx i j = 0) ∨ (ent (p d).Wx i j = 0 ∧ ent (p d).dWx i j = 0))

end Spec

theorem mix_length (N C : ℕ) (xs : ℕ → List ℝ) : (Spec.mix N C xs).length = N := by simp [Spec.mix]

theorem mix_succ (N C : ℕ) (xs : ℕ → List ℝ) (h : (xs C).length = N) :
    Spec.mix N (C + 1) xs = List.zipWith (fun u v => 1 * u + 1 * v) (Spec.mix N C xs) (xs C) := by
  apply List.ext_getElem
  · simp [mix_length, h]
  · intro i h1 h2
    rw [mix_length] at h1
    simp only [Spec.mix, List.getElem_map, List.getElem_range, List.getElem_zipWith, sum_range_succ, one_mul]
    rw [List.getD_eq_getElem (xs C) 0 (by omega)]

theorem mix_zero (N : ℕ) (xs : ℕ → List ℝ) : Spec.mix N 0 xs = (Spec.mix N 0 xs).map fun u => 0 * u := by
  apply List.ext_getElem
  · simp
  · intro i h1 h2
    simp [Spec.mix]

/-- The rows `ssq_cwt` gets from `cwt` are as long as the signal. -/
theorem ssq_rows {y : List ℝ} (hy : 0 < y.length) {a : SsqCwtArgs} {t : Option PadType} (ht : a.padtype = t.map padName) {fs : ℝ} {sc : List ℝ}
    {W : List (List ℂ)} {s : List ℝ} {dW : List (List ℂ)} (h : cwt y (a.cwtArgs fs sc) = .ok (W, s, dW)) :
    W.length = s.length ∧ dW.length = s.length ∧ ∀ i < s.length, (W.getD i []).length = y.length ∧ (dW.getD i []).length = y.length := by
  obtain ⟨xp, n1, fs', dt, hp, -, -, h1, h2, h3⟩ := C37_rows_any y (a.cwtArgs fs sc) t ht hy W s dW h
  refine ⟨h1, h2, fun i hi => ?_⟩
  have := h3 i hi
  have he : (if (a.cwtArgs fs sc).rpadded = false ∧ t.isSome = true then y.length else xp.length) = y.length := by
    cases t with
    | none => simp only [Option.isSome_none, Bool.false_eq_true, and_false, if_false]; rw [hp.1]
    | some t => rw [if_pos ⟨rfl, rfl⟩]
  rw [he] at this
  exact ⟨this.1, this.2.1⟩

theorem ent_zip (f : ℂ → ℂ → ℂ) {n N : ℕ} {W V : List (List ℂ)} (hW : W.length = n) (hV : V.length = n)
    (hWr : ∀ i < n, (W.getD i []).length = N) (hVr : ∀ i < n, (V.getD i []).length = N) {i j : ℕ} (hi : i < n) (hj : j < N) :
    ent (List.zipWith (List.zipWith f) W V) i j = f (ent W i j) (ent V i j) := by
  unfold ent
  rw [zipWith_getD (List.zipWith f) W V i [] [] [] (by omega) (by omega)]
  exact zipWith_getD f _ _ j 0 0 0 (by rw [hWr i hi]; exact hj) (by rw [hVr i hi]; exact hj)

/-- Transform and derivative of a sum of signals. -/
theorem cells_mix {N C : ℕ} (hN : 0 < N) {xs : ℕ → List ℝ} (hl : ∀ c < C, (xs c).length = N) {a : SsqCwtArgs} {t : Option PadType}
    (ht : a.padtype = t.map padName) {fs : ℝ} {sc s : List ℝ} {P : List ℝ → List (List ℂ)} {D : List ℝ → List (List ℂ)}
    (hP : ∀ y : List ℝ, y.length = N → cwt y (a.cwtArgs fs sc) = .ok (P y, s, D y)) :
    ∀ i < s.length, ∀ j < N, ent (P (Spec.mix N C xs)) i j = ∑ c ∈ range C, ent (P (xs c)) i j ∧
      ent (D (Spec.mix N C xs)) i j = ∑ c ∈ range C, ent (D (xs c)) i j := by
  induction C with
  | zero =>
    intro i hi j hj
    have h1 := hP _ (mix_length N 0 xs)
    have h2 := cwt_scale (Spec.mix N 0 xs) (by rw [mix_length]; exact hN) 0 (a.cwtArgs fs sc) t ht _ _ _ h1
    rw [← mix_zero, h1] at h2
    simp only [Except.ok.injEq, Prod.mk.injEq, true_and] at h2
    rw [h2.1, h2.2, ent_smul, ent_smul]
    simp
  | succ C ih =>
    intro i hi j hj
    have hC := hl C (by omega)
    have h1 := hP _ (mix_length N C xs)
    have h3 := hP _ hC
    obtain ⟨V, dV, h2, h4⟩ := C36_linear (Spec.mix N C xs) (xs C) (by rw [mix_length, hC]) (by rw [mix_length]; exact hN) 1 1 (a.cwtArgs fs sc) t ht
      _ _ _ h1
    rw [h3] at h2
    simp only [Except.ok.injEq, Prod.mk.injEq, true_and] at h2
    rw [← mix_succ N C xs hC, hP _ (mix_length N (C + 1) xs), ← h2.1, ← h2.2] at h4
    simp only [Except.ok.injEq, Prod.mk.injEq, true_and] at h4
    obtain ⟨d1, d2, d3⟩ := ssq_rows (by rw [mix_length]; exact hN) ht h1
    obtain ⟨e1, e2, e3⟩ := ssq_rows (by rw [hC]; exact hN) ht h3
    rw [mix_length] at d3
    rw [hC] at e3
    have ihc := ih (fun c hc => hl c (by omega)) i hi j hj
    rw [h4.1, h4.2, ent_zip _ d1 e1 (fun i hi => (d3 i hi).1) (fun i hi => (e3 i hi).1) hi hj,
      ent_zip _ d2 e2 (fun i hi => (d3 i hi).2) (fun i hi => (e3 i hi).2) hi hj, ihc.1, ihc.2, sum_range_succ, sum_range_succ]
    simp

/-- A cell of value zero adds nothing. -/
theorem cellTerm_zero (w : Phase) (row : ℝ → ℤ) (k : ℝ) (r : ℤ) :
    Spec.cellTerm row k w 0 r = 0 := by
  unfold Spec.cellTerm
  split
  · rfl
  · split <;> simp

/-- **C153.** For every number of signals of one length, wavelet, scales, padding, frequencies, threshold and other options, squeezing 'sum' or 'abs': if
`ssq_cwt` succeeds for their sum, then for each of them, over the same scales and frequencies; `Wx` and `dWx` of the sum are the sums; and in every column where no two
transforms overlap, `Tx` of the sum is the sum of the signals' `Tx` — although squeezing is not linear. -/
theorem C153_superposition (N C : ℕ) (hN : 0 < N) (xs : ℕ → List ℝ) (hl : ∀ c < C, (xs c).length = N) (a : SsqCwtArgs) (t : Option PadType)
    (ht : a.padtype = t.map padName) (hsq : a.squeezing = .sum ∨ a.squeezing = .abs) (o : SsqCwtOut)
    (h : ssqCwt (Spec.mix N C xs) a = .ok o) :
    ∃ p : ℕ → SsqCwtOut, (∀ c < C, ssqCwt (xs c) a = .ok (p c) ∧ (p c).scales = o.scales ∧ (p c).freqs = o.freqs) ∧
      (∀ i < o.scales.length, ∀ j < N, ent o.Wx i j = ∑ c ∈ range C, ent (p c).Wx i j ∧ ent o.dWx i j = ∑ c ∈ range C, ent (p c).dWx i j) ∧
      ∀ j < N, Spec.DisjointAt C o.scales.length p j → ∀ r, o.Tx r j = ∑ c ∈ range C, (p c).Tx r j := by
  obtain ⟨row, k, fs, sc, hall⟩ := ssqCwt_values (Spec.mix N C xs) (by rw [mix_length]; exact hN) a t ht h
  rw [mix_length] at hall
  have : Nonempty SsqCwtOut := ⟨o⟩
  choose! q hq using hall
  have hqo : q (Spec.mix N C xs) = o := by
    have := (hq _ (mix_length N C xs)).1
    rw [h] at this
    simpa using this.symm
  have hcells := cells_mix (C := C) hN hl ht (P := fun y => (q y).Wx) (D := fun y => (q y).dWx) (fun y hy => (hq y hy).2.1)
  simp only [hqo] at hcells
  refine ⟨fun c => q (xs c), fun c hc => ⟨(hq _ (hl c hc)).1, (hq _ (hl c hc)).2.2.1, (hq _ (hl c hc)).2.2.2.1⟩, hcells, fun j hj hd r => ?_⟩
  have ho := (hq _ (mix_length N C xs)).2.2.2.2 r j hj
  rw [hqo] at ho
  rw [ho, sum_congr rfl fun c hc => (hq _ (hl c (mem_range.1 hc))).2.2.2.2 r j hj, sum_comm]
  refine sum_congr rfl fun i hi => ?_
  have hi := mem_range.1 hi
  have hV : ∀ W : List (List ℂ), applySqueezing a.squeezing o.scales.length (ent W) i j =
      (if a.squeezing matches .abs then ((‖ent W i j‖ : ℝ) : ℂ) else ent W i j) := by
    intro W
    rcases hsq with h | h <;> rw [h] <;> simp [applySqueezing]
  have h0 : ∀ W dW : List (List ℂ), ent W i j = 0 → ent dW i j = 0 → Spec.cellTerm row (k i)
      (cwtCellPhase a (ent W i j) (ent dW i j) (applySqueezing a.squeezing o.scales.length (ent W) i j))
      (applySqueezing a.squeezing o.scales.length (ent W) i j) r = 0 := by
    intro W dW h1 h2
    rw [hV, h1, h2]
    have : (if a.squeezing matches .abs then ((‖(0 : ℂ)‖ : ℝ) : ℂ) else 0) = 0 := by simp
    rw [this]
    exact cellTerm_zero _ row (k i) r
  by_cases hex : ∃ c < C, ¬ (ent (q (xs c)).Wx i j = 0 ∧ ent (q (xs c)).dWx i j = 0)
  · obtain ⟨c, hc, hne⟩ := hex
    have hz : ∀ d ∈ range C, d ≠ c → ent (q (xs d)).Wx i j = 0 ∧ ent (q (xs d)).dWx i j = 0 := by
      intro d hd' hdc
      rcases hd i hi c hc d (mem_range.1 hd') (Ne.symm hdc) with h' | h'
      · exact absurd h' hne
      · exact h'
    rw [sum_eq_single_of_mem c (mem_range.2 hc) fun d hd' hdc => h0 _ _ (hz d hd' hdc).1 (hz d hd' hdc).2]
    have e := hcells i hi j hj
    rw [sum_eq_single_of_mem c (mem_range.2 hc) fun d hd' hdc => (hz d hd' hdc).1,
      sum_eq_single_of_mem c (mem_range.2 hc) fun d hd' hdc => (hz d hd' hdc).2] at e
    rw [hV, hV, e.1, e.2]
  · push Not at hex
    have e := hcells i hi j hj
    rw [sum_eq_zero fun d hd' => (hex d (mem_range.1 hd')).1, sum_eq_zero fun d hd' => (hex d (mem_range.1 hd')).2] at e
    rw [h0 _ _ e.1 e.2, sum_eq_zero fun d hd' => h0 _ _ (hex d (mem_range.1 hd')).1 (hex d (mem_range.1 hd')).2]

end Ssq
