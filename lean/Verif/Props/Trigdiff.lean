import Verif.Model.Trigdiff
import Verif.Lemmas.Xifn
import Verif.Lemmas.Dft
import Verif.Lemmas.Buffer
import Verif.Lemmas.PyM
import Verif.Props.Padding
import Verif.Props.FreqGrid

/-!
# Property C04: frequency-domain differentiation
-/
namespace Ssq
open Finset Complex Spec

@[simp] theorem diffRow_length (fs : ℝ) (row : List ℂ) : (diffRow fs row).length = row.length := by
  simp [diffRow, ifftL, fftL]

theorem diffRow_getD (fs : ℝ) (row : List ℂ) (j : ℕ) (hj : j < row.length) :
    (diffRow fs row).getD j 0 = idft row.length (fun k =>
      dft row.length (fun i => row.getD i 0) k * I * (((xifn 1 row.length).getD k 0 : ℝ) : ℂ) * fs) j := by
  unfold diffRow ifftL
  rw [getD_map_range _ _ (by simpa [fftL] using hj)]
  have hl : (List.zipWith (fun (F : ℂ) (w : ℝ) => F * I * (w : ℂ) * (fs : ℂ)) (fftL row)
      (xifn 1 row.length)).length = row.length := by simp [fftL]
  rw [hl]
  apply idft_congr
  intro k hk
  rw [List.getD_eq_getElem _ _ (by rw [hl]; exact hk), List.getElem_zipWith]
  congr 3
  · simp [fftL]
  · rw [List.getD_eq_getElem _ _ (by simpa using hk)]

/-- **C04 (exactness).** Let a row be a trigonometric polynomial: sample `j` is
`Σ_k c_k e^{2πi jk/L}` over the `L` discrete tones. Then sample `j` of the result is
`Σ_k c_k · (2πi f_k fs / L) · e^{2πi jk/L}`, `f_k` being the signed frequency of tone `k`: each tone is
multiplied by `1j` times its physical angular frequency. Every row is such a polynomial. -/
theorem C04_tones (fs : ℝ) (row : List ℂ) (c : ℕ → ℂ) (f : ℕ → ℤ)
    (hf : ∀ k < row.length, Spec.IsSignedFreq row.length k (f k))
    (hrow : ∀ j < row.length, row.getD j 0 =
      ∑ k ∈ range row.length, c k * exp (2 * Real.pi * I * j * k / row.length)) :
    (diffRow fs row).length = row.length ∧
    ∀ j < row.length, (diffRow fs row).getD j 0 =
      ∑ k ∈ range row.length, c k * (2 * Real.pi * I * f k * fs / row.length) *
        exp (2 * Real.pi * I * j * k / row.length) := by
  refine ⟨by simp, fun j hj => ?_⟩
  set L := row.length with hL
  have hL0 : (L : ℂ) ≠ 0 := by exact_mod_cast (by omega : L ≠ 0)
  have htw : ∀ j k : ℕ, exp (2 * Real.pi * I * j * k / L) = tw L ((j : ℤ) * k) := by
    intro j k; unfold tw; congr 1; push_cast; ring
  have hd : ∀ k < L, dft L (fun i => row.getD i 0) k = c k * L := by
    intro k hk
    rw [show dft L (fun i => row.getD i 0) k = dft L (idft L fun k => c k * L) k from ?_,
      dft_idft _ hk]
    apply dft_congr
    intro i hi
    rw [hrow i hi]; unfold idft
    rw [eq_div_iff hL0, sum_mul]
    refine sum_congr rfl fun k _ => ?_
    rw [htw]; ring
  rw [diffRow_getD fs row j hj, ← hL]
  rw [idft_congr (g := fun k => (c k * (2 * Real.pi * I * f k * fs / L)) * L) ?_]
  · unfold idft
    rw [div_eq_iff hL0, sum_mul]
    refine sum_congr rfl fun k _ => ?_
    rw [htw]; ring
  · intro k hk
    rw [hd k hk]
    obtain ⟨g, hg, -, hx⟩ := (C49_xifn 1 L (by omega)).2 k (by simpa using hk)
    rw [List.getD_eq_getElem _ _ (by simpa using hk), hx, isSignedFreq_unique (hf k hk) hg]
    push_cast; ring

/-- Every row has the form assumed in `C04_tones`, and every bin has a signed frequency. -/
theorem C04_tones_general (row : List ℂ) : ∃ (c : ℕ → ℂ) (f : ℕ → ℤ),
    (∀ k < row.length, Spec.IsSignedFreq row.length k (f k)) ∧
    ∀ j < row.length, row.getD j 0 =
      ∑ k ∈ range row.length, c k * exp (2 * Real.pi * I * j * k / row.length) := by
  set L := row.length with hL
  refine ⟨fun k => dft L (fun i => row.getD i 0) k / L,
    fun k => if k ≤ L / 2 then (k : ℤ) else (k : ℤ) - L, ?_, ?_⟩
  · intro k hk
    refine ⟨?_, ?_, ?_⟩
    · simp only; split <;> omega
    · simp only; split <;> omega
    · simp only
      split
      · simp
      · exact ⟨-1, by ring⟩
  · intro j hj
    rw [← idft_dft (fun i => row.getD i 0) hj]
    unfold idft
    rw [sum_div]
    refine sum_congr rfl fun k _ => ?_
    rw [show exp (2 * Real.pi * I * j * k / L) = tw L ((j : ℤ) * k) by
      unfold tw; congr 1; push_cast; ring]
    ring

theorem padsignal2_eq (t : PadType) (cols : ℕ) (hc : 0 < cols) (rows : List (List ℂ))
    (hrows : ∀ r ∈ rows, r.length = cols) :
    ∃ n1 n2 : ℤ, ∃ pad : List ℂ → List ℂ, 1 ≤ n1 ∧ 0 ≤ n2 ∧ (n1 = n2 ∨ n1 = n2 + 1) ∧
      (n1 = (p2up cols).2.1 ∧ n2 = (p2up cols).2.2) ∧
      padsignal2 true cols rows (padName t) none =
        .ok (rows.map pad, n1 + cols + n2, n1, n2) ∧
      ∀ r ∈ rows, ((pad r).length : ℤ) = n1 + cols + n2 ∧
        ∀ E, IsExtension t r E → ∀ (p : ℕ) (h : p < (pad r).length), (pad r)[p] = E ((p : ℤ) - n1) := by
  obtain ⟨h1, h2, h3, h4, h5⟩ := padWidths_facts cols hc none (by simp)
  set w := padWidths cols none with hw
  have h5' := h5 rfl
  have hx : ∀ r : List ℂ, ∃ xp, r ∈ rows → padNumpy t r w.2.1 w.2.2 = .ok xp ∧
      (xp.length : ℤ) = w.2.1 + r.length + w.2.2 ∧
      ∀ E, IsExtension t r E → ∀ (p : ℕ) (h : p < xp.length), xp[p] = E ((p : ℤ) - w.2.1) := by
    intro r
    by_cases hr : r ∈ rows
    · have hlen := hrows r hr
      obtain ⟨xp, a, b, c⟩ := padNumpy_ext t r w.2.1 w.2.2 (by omega) (by omega) h2
        (fun _ => by omega)
      exact ⟨xp, fun _ => ⟨a, b, c⟩⟩
    · exact ⟨[], fun h => absurd h hr⟩
  choose pad hpad using hx
  refine ⟨w.2.1, w.2.2, pad, by omega, h2, h3, ⟨rfl, rfl⟩, ?_, ?_⟩
  · unfold padsignal2
    rw [parse_padName]
    simp only [if_true, ← hw]
    change (do let xp ← rows.mapM fun x => padNumpy t x w.2.1 w.2.2
               pure (xp, w.1, w.2.1, w.2.2) : Py _) = _
    rw [mapM_ok_of _ pad rows fun r hr => (hpad r hr).1]
    simp only [ok_bind, pure_eq_ok]
    rw [show w.1 = w.2.1 + cols + w.2.2 by omega]
  · intro r hr
    obtain ⟨_, b, c⟩ := hpad r hr
    exact ⟨by rw [b, hrows r hr], c⟩

theorem trimCols_eq (len n1 N : ℕ) : trimCols len ((n1 : ℤ), N) = min N (len - n1) := by
  simp only [trimCols, unpad]
  rw [show (n1 : ℤ) + (N : ℕ) = ((n1 + N : ℕ) : ℤ) by push_cast; rfl, pySlice_nat]
  simp

/-- `A` has the shape `rows × cols`. -/
def Spec.Shape (rows : List (List ℂ)) (cols : ℕ) : Prop := 0 < cols ∧ ∀ r ∈ rows, r.length = cols

theorem padName_ne_empty (t : PadType) : padName t ≠ "" := by cases t <;> decide

/-- What the call does for every 2D array and pad scheme: it succeeds, every row is padded with the
documented extension, differentiated, and the samples from `n1` on are returned — `N` of them if `N`
was passed, `cols + n2` (not `cols`) if it was not. -/
theorem C04_call (rows : List (List ℂ)) (cols : ℕ) (hA : Spec.Shape rows cols) (fs : ℝ) (t : PadType)
    (rp : Option Bool) (N : Option ℕ) (n1' : Option ℤ) (hN : ∀ n, N = some n → n ≤ cols)
    (hrp : rp = some true → N.isSome) :
    ∃ n1 n2 : ℕ, ∃ pad : List ℂ → List ℂ, n1 = (p2up cols).2.1 ∧ n2 = (p2up cols).2.2 ∧
      trigdiff true (.d2 cols rows)
          { fs := fs, padtype := some (padName t), rpadded := rp, N := N, n1 := n1' } =
        .ok (.d2 (N.getD (cols + n2))
          (rows.map fun r => ((diffRow fs (pad r)).drop n1).take (N.getD (n1 + cols + n2)))) ∧
      (∀ r ∈ rows, (((diffRow fs (pad r)).drop n1).take (N.getD (n1 + cols + n2))).length =
        N.getD (cols + n2)) ∧
      ∀ r ∈ rows, (pad r).length = n1 + cols + n2 ∧
        ∀ E, IsExtension t r E → ∀ (p : ℕ) (h : p < (pad r).length), (pad r)[p] = E ((p : ℤ) - n1) := by
  obtain ⟨hc, hrows⟩ := hA
  obtain ⟨n1, n2, pad, h1, h2, -, h3, hpad, hr⟩ := padsignal2_eq t cols hc rows hrows
  obtain ⟨m1, rfl⟩ := Int.eq_ofNat_of_zero_le (by omega : 0 ≤ n1)
  obtain ⟨m2, rfl⟩ := Int.eq_ofNat_of_zero_le h2
  have hlen : ∀ r ∈ rows, (pad r).length = m1 + cols + m2 := fun r hm => by
    have := (hr r hm).1; omega
  refine ⟨m1, m2, pad, h3.1, h3.2, ?_, ?_, fun r hm => ⟨hlen r hm, (hr r hm).2⟩⟩
  · unfold trigdiff
    have e1 : trigPadtype { fs := fs, padtype := some (padName t), rpadded := rp, N := N, n1 := n1' } =
        some (padName t) := by simp [trigPadtype, padName_ne_empty]
    have e2 : ¬ (rp = some true ∧ N = none) := by
      rintro ⟨a, b⟩
      have := hrp a
      simp [b] at this
    simp only [e1, show ("cwt" = "stft") = False by decide, if_false, e2]
    rw [hpad]
    simp only [ok_bind, ne_eq, not_true_eq_false, if_false, trigTrim, Option.getD_some]
    rw [show ((m1 : ℤ) + cols + m2).toNat = m1 + cols + m2 by omega, List.map_map]
    rw [show trimCols (m1 + cols + m2) ((m1 : ℤ), N.getD (m1 + cols + m2)) = N.getD (cols + m2) from ?_]
    · congr 3
      funext r
      simp only [Function.comp, diffTrim, unpad]
      rw [show (m1 : ℤ) + (N.getD (m1 + cols + m2) : ℕ) = ((m1 + N.getD (m1 + cols + m2) : ℕ) : ℤ) by
        push_cast; rfl, pySlice_nat]
      congr 1; omega
    · rw [trimCols_eq]
      cases hN' : N with
      | none => simp; omega
      | some n => have := hN n hN'; simp; omega
  · intro r hm
    rw [List.length_take, List.length_drop, diffRow_length, hlen r hm]
    cases hN' : N with
    | none => simp; omega
    | some n => have := hN n hN'; simp; omega

example : Spec.Shape [[1, 2, 3], [4, 5, 6]] 3 := by simp [Spec.Shape]

/-- Full statement of C04's first half, for 2D and 3D arrays: without `rpadded`, the result has the shape
of the input. -/
def C04_full : Prop :=
  (∀ (rows : List (List ℂ)) (cols : ℕ), Spec.Shape rows cols →
    ∃ out, trigdiff true (.d2 cols rows) {} = .ok (.d2 cols out) ∧ ∀ r ∈ out, r.length = cols) ∧
  ∀ (mats : List (List (List ℂ))) (cols : ℕ), (∀ m ∈ mats, Spec.Shape m cols) →
    ∃ out, trigdiff true (.d3 cols mats) {} = .ok (.d3 cols out) ∧
      ∀ m ∈ out, ∀ r ∈ m, r.length = cols

/-- **C04 (what holds).** If the row length is passed as `N`, then for every 2D array and pad scheme the
result has the shape of the input, and sample `j` of each row is the derivative (`C04_tones`) of the
padded row at the position `n1 + j` of that sample: the padded row there is sample `j` itself.
Missing: the default `N=None` and 3D input, false of the code, below. -/
theorem C04_aligned_partial (rows : List (List ℂ)) (cols : ℕ) (hA : Spec.Shape rows cols) (fs : ℝ)
    (t : PadType) (rp : Option Bool) :
    ∃ (out : List (List ℂ)) (pad : List ℂ → List ℂ) (n1 : ℕ),
      trigdiff true (.d2 cols rows) { fs := fs, padtype := some (padName t), rpadded := rp, N := some cols } =
        .ok (.d2 cols out) ∧
      out.length = rows.length ∧
      ∀ (i : ℕ) (hi : i < out.length) (hi' : i < rows.length), out[i].length = cols ∧
        ∀ j < cols, out[i].getD j 0 = (diffRow fs (pad rows[i])).getD (n1 + j) 0 ∧
          (pad rows[i]).getD (n1 + j) 0 = rows[i].getD j 0 := by
  obtain ⟨n1, n2, pad, h1, h2, h3, h4, h5⟩ := C04_call rows cols hA fs t rp (some cols) none
    (by simp) (by simp)
  refine ⟨_, pad, n1, h3, by simp, ?_⟩
  intro i hi hi'
  have hmem : rows[i] ∈ rows := List.getElem_mem _
  obtain ⟨hl, hE⟩ := h5 _ hmem
  have h4' := h4 _ hmem
  simp only [Option.getD_some] at h4'
  simp only [List.getElem_map, Option.getD_some]
  refine ⟨h4', fun j hj => ⟨?_, ?_⟩⟩
  · rw [List.getD_eq_getElem _ _ (by rw [h4']; exact hj), List.getElem_take, List.getElem_drop,
      List.getD_eq_getElem]
  · have hrl : rows[i].length = cols := hA.2 _ hmem
    obtain ⟨E, hE'⟩ := Ssq.exists_extension t rows[i] (by rw [hrl]; exact hA.1)
    rw [List.getD_eq_getElem _ _ (by omega), hE E hE' _ (by omega),
      List.getD_eq_getElem _ _ (by omega), ← hE'.1 j (by omega)]
    congr 1; push_cast; ring

/-- With the array already padded (`rpadded=True`, as `ssq_cwt` calls it), nothing is padded again and
each row is differentiated and trimmed to `[n1 : n1 + N]`, where an omitted `n1` is the default left pad
width for `N` samples. -/
theorem C04_rpadded (rows : List (List ℂ)) (cols N n1 : ℕ) (hrows : ∀ r ∈ rows, r.length = cols)
    (hN : n1 + N ≤ cols) (fs : ℝ) (n1' : Option ℤ)
    (hn : n1' = some (n1 : ℤ) ∨ n1' = none ∧ (n1 : ℤ) = (p2up N).2.1) :
    ∃ out, trigdiff true (.d2 cols rows) { fs := fs, rpadded := some true, N := some N, n1 := n1' } =
        .ok (.d2 N out) ∧ out.length = rows.length ∧
      ∀ (i : ℕ) (hi : i < out.length) (hi' : i < rows.length), out[i].length = N ∧
        ∀ j < N, out[i].getD j 0 = (diffRow fs rows[i]).getD (n1 + j) 0 := by
  refine ⟨rows.map fun r => ((diffRow fs r).drop n1).take N, ?_, by simp, ?_⟩
  · unfold trigdiff
    simp only [trigPadtype, show ("cwt" = "stft") = False by decide, if_false, Option.getD_some, if_true,
      trigTrim, reduceCtorEq, and_false, ne_eq, not_true_eq_false]
    rw [show n1'.getD (p2up N).2.1 = (n1 : ℤ) by
      rcases hn with h | ⟨h, h'⟩
      · rw [h]; rfl
      · rw [h, h']; rfl]
    rw [trimCols_eq, min_eq_left (by omega)]
    congr 3
    funext r
    simp only [diffTrim, unpad]
    rw [show (n1 : ℤ) + (N : ℕ) = ((n1 + N : ℕ) : ℤ) by push_cast; rfl, pySlice_nat]
    congr 1; omega
  · intro i hi hi'
    have hl : rows[i].length = cols := hrows _ (List.getElem_mem _)
    simp only [List.getElem_map]
    have : (((diffRow fs rows[i]).drop n1).take N).length = N := by
      rw [List.length_take, List.length_drop, diffRow_length, hl]; omega
    refine ⟨this, fun j hj => ?_⟩
    rw [List.getD_eq_getElem _ _ (by rw [this]; exact hj), List.getElem_take, List.getElem_drop,
      List.getD_eq_getElem]

example : ∀ r ∈ [[1, 2, 3, 4], [(4 : ℂ), 5, 6, 7]], r.length = 4 := by simp

/-- **C04 is false of the code**, both halves of it: with the defaults a row of two samples comes back as
three, and any 3D array is rejected. -/
theorem C04_refuted :
    (∀ (rows : List (List ℂ)) (cols : ℕ), Spec.Shape rows cols → ∃ (out : List (List ℂ)) (n2 : ℕ),
      n2 = (p2up cols).2.2 ∧ trigdiff true (.d2 cols rows) {} = .ok (.d2 (cols + n2) out) ∧
      out.length = rows.length ∧ ∀ r ∈ out, r.length = cols + n2) ∧
    (∀ (mats : List (List (List ℂ))) (cols : ℕ), trigdiff true (.d3 cols mats) {} = .error .valueError) ∧
    ¬ C04_full := by
  have h3 : ∀ (mats : List (List (List ℂ))) (cols : ℕ),
      trigdiff true (.d3 cols mats) {} = .error .valueError := by
    intro mats cols; rfl
  refine ⟨?_, h3, ?_⟩
  · intro rows cols hA
    obtain ⟨n1, n2, pad, h1, h2, h3, h4, h5⟩ := C04_call rows cols hA 1 .reflect none none none
      (by simp) (by simp)
    have e : trigdiff true (.d2 cols rows) {} =
        trigdiff true (.d2 cols rows) { fs := 1, padtype := some (padName .reflect) } := rfl
    refine ⟨_, n2, h2, by rw [e]; exact h3, by simp, ?_⟩
    intro r hr
    simp only [List.mem_map] at hr
    obtain ⟨q, hq, rfl⟩ := hr
    exact h4 q hq
  · intro h
    obtain ⟨out, ho, -⟩ := h.2 [] 1 (by simp)
    rw [h3] at ho
    exact absurd ho (by simp)

/-- The extra samples of the default call: for two columns there is one. -/
theorem C04_two_columns : (p2up 2).2.2 = 1 := by
  have h := (C01_default_pad_length 2 (by norm_num)).2.2.2.2.1 2 (by norm_num) (by norm_num)
  have h' := (C01_default_pad_length 2 (by norm_num)).2.2.2.2.2
  rw [h] at h'
  norm_num at h'
  omega

end Ssq
