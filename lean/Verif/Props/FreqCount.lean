import Verif.Props.FeedBack
import Verif.Props.IssqCwt

/-!
# C223: as many rows as frequencies
-/
namespace Ssq
open Finset

/-- `v` continued or cut to `M` points with its first point and first step. -/
noncomputable def Spec.regrid (v : List ℝ) (M : ℕ) : List ℝ :=
  (List.range M).map fun k : ℕ => v.getD 0 0 + k * (v.getD 1 0 - v.getD 0 0)

/-- For linear layouts, the kernels look at the first two frequencies only. -/
theorem params_lin_two {th : ℝ} {v v' : List ℝ} (h2 : 2 ≤ v.length) (h2' : 2 ≤ v'.length) (e0 : v.getD 0 0 = v'.getD 0 0)
    (e1 : v.getD 1 0 = v'.getD 1 0) : processSsqParams th v false = processSsqParams th v' false := by
  rcases v with _ | ⟨a, _ | ⟨b, t⟩⟩
  · simp at h2
  · simp at h2
  rcases v' with _ | ⟨a', _ | ⟨b', t'⟩⟩
  · simp at h2'
  · simp at h2'
  simp only [List.getD_cons_zero, List.getD_cons_succ] at e0 e1
  subst e0 e1
  rfl

/-- **C223, what is used.** Of an array of linearly laid out frequencies, `ssqueeze` uses the first two only: whatever
the others and however many they are, `Tx` is the same. -/
theorem C223_first_two (a : SsqArgs) (d d' : FDtype) (v v' : List ℝ) (h2 : 2 ≤ v.length) (h2' : 2 ≤ v'.length)
    (e0 : v.getD 0 0 = v'.getD 0 0) (e1 : v.getD 1 0 = v'.getD 1 0)
    (hl : Spec.LinearLayout { a with ssqFreqs := .arr d v }) (hl' : Spec.LinearLayout { a with ssqFreqs := .arr d' v' })
    (Tx Tx' : ℤ → ℕ → ℂ) (f f' : List ℝ) (h : ssqueeze { a with ssqFreqs := .arr d v } = .ok (Tx, f))
    (h' : ssqueeze { a with ssqFreqs := .arr d' v' } = .ok (Tx', f')) : Tx' = Tx := by
  obtain ⟨dt, sc, fr, const, ls, k1, k2, k3, k4, k5, k6, -⟩ := ssqueeze_ok h
  obtain ⟨dt', sc', fr', const', ls', m1, m2, m3, m4, m5, m6, -⟩ := ssqueeze_ok h'
  have hsc : sc' = sc := by
    have : (Except.ok sc' : Py _) = .ok sc := m2.symm.trans k2
    exact Except.ok.inj this
  subst hsc
  have q := linearLayout_ls hl k3
  have q' := linearLayout_ls hl' m3
  rw [k5] at q
  rw [m5] at q'
  simp only [Except.ok.injEq] at q q'
  subst q q'
  have hv : ∀ {d : FDtype} {v : List ℝ} {dt : ℝ} {s : Option (List ℝ)} {c : Option (ScaleType × Nv)} {fr : List ℝ × SsqType},
      ssqFreqsOf { a with ssqFreqs := .arr d v } dt s c = .ok fr → fr.1 = v := by
    intro d v dt s c fr h3
    unfold ssqFreqsOf at h3
    simp only at h3
    split at h3
    · simp only [Except.ok.injEq] at h3; rw [← h3]
    · obtain ⟨⟨st, nv⟩, hi, h3⟩ := bind_ok h3
      simp only [Except.ok.injEq] at h3; rw [← h3]
  rw [hv k3] at k4 k6
  rw [hv m3] at m4 m6
  have hconst : ssqConst a.transform sc'.1 sc'.2 v' = ssqConst a.transform sc'.1 sc'.2 v := by
    rcases v with _ | ⟨x, _ | ⟨y, t⟩⟩
    · simp at h2
    · simp at h2
    rcases v' with _ | ⟨x', _ | ⟨y', t'⟩⟩
    · simp at h2'
    · simp at h2'
    simp only [List.getD_cons_zero, List.getD_cons_succ] at e0 e1
    subst e0 e1
    rfl
  have hc : const' = const := by
    have e : (Except.ok const' : Py _) = .ok const := by
      rw [← k4, ← m4]; exact hconst
    exact Except.ok.inj e
  subst hc
  rw [kernel_eq _ _ _ _ _ (Or.inr (Or.inr rfl))] at k6 m6
  unfold indexedSumOnfly onflyBody at k6 m6
  rw [params_lin_two (v := v') (v' := v) h2' h2 e0.symm e1.symm] at m6
  have : (Except.ok Tx' : Py _) = .ok Tx := m6.symm.trans k6
  exact Except.ok.inj this

/-- **C223, any number of frequencies.** With linear frequencies `v₀, v₀ + s, …` (at least two, step not below `EPS64`) of
any number, `Tx` has `M` rows like the transform: row `k` (row `M - 1 - k` with `flipud`) holds the cells nearest to
`v₀ + k·s` among the `M` points `v₀, …, v₀ + (M-1)·s`, whether these frequencies were given or not. The returned
frequencies are the given ones, in reverse for the CWT and with `flipud`; the weights are those of `CellWeights`. -/
theorem C223_rows (a : SsqArgs) (d : FDtype) (v : List ℝ) (hf : a.ssqFreqs = .arr d v) (hl : Spec.LinearLayout a)
    (h2 : 2 ≤ v.length) (hM : 2 ≤ a.M) (hs : eps64 ≤ v.getD 1 0 - v.getD 0 0) (Tx : ℤ → ℕ → ℂ) (f : List ℝ)
    (h : ssqueeze a = .ok (Tx, f)) :
    f = (if a.transform = .cwt ∨ a.flipud = true then v.reverse else v) ∧
    ∃ (c : ℕ → ℝ) (row : ℝ → ℕ), Spec.CellWeights a f c ∧ (∀ x, Spec.Nearest (Spec.regrid v a.M) x (row x)) ∧
      ∀ r < a.M, ∀ j < a.N, Tx r j =
        Spec.squeezed a.M (applySqueezing a.squeezing a.M a.Wx) c
          (Spec.usedPhase a (applySqueezing a.squeezing a.M a.Wx)) (fun x => Spec.flip a.flipud a.M (row x)) r j := by
  obtain ⟨dt, sc, fr, const, ls, h1, h2', h3, h4, h5, h6, h7⟩ := ssqueeze_ok h
  have hls := linearLayout_ls hl h3
  rw [h5] at hls
  simp only [Except.ok.injEq] at hls
  subst hls
  have hfr : fr.1 = v := by
    unfold ssqFreqsOf at h3
    rw [hf] at h3
    simp only at h3
    split at h3
    · simp only [Except.ok.injEq] at h3; rw [← h3]
    · obtain ⟨⟨st, nv⟩, hi, h3⟩ := bind_ok h3
      simp only [Except.ok.injEq] at h3; rw [← h3]
  rw [hfr] at h6 h7
  constructor
  · rw [h7]
    unfold ssqReverses
    cases a.flipud <;> cases a.transform <;> simp
  rw [kernel_eq _ _ _ _ _ (Or.inr (Or.inr rfl))] at h6
  have hlen : (Spec.regrid v a.M).length = a.M := by simp [Spec.regrid]
  have hget : ∀ i < a.M, (Spec.regrid v a.M).getD i 0 = v.getD 0 0 + i * (v.getD 1 0 - v.getD 0 0) := by
    intro i hi
    rw [List.getD_eq_getElem _ _ (by omega)]
    simp [Spec.regrid]
  have h6' : indexedSumOnfly a.dev a.th a.M a.N (fun _ _ => 0) (applySqueezing a.squeezing a.M a.Wx)
      (Spec.usedPhase a (applySqueezing a.squeezing a.M a.Wx)) (Spec.regrid v a.M) const false a.flipud = .ok Tx := by
    unfold indexedSumOnfly onflyBody at h6 ⊢
    rw [params_lin_two (v := Spec.regrid v a.M) (v' := v) (by omega) h2 (by rw [hget 0 (by omega)]; simp)
      (by rw [hget 1 (by omega)]; push_cast; ring)]
    exact h6
  obtain ⟨c, hc, row, hn, -, hT⟩ := C18_lin a.dev a.th a.M a.N _ _ (Spec.regrid v a.M) (v.getD 0 0) (v.getD 1 0 - v.getD 0 0)
    (fun i hi => by rw [← List.getD_eq_getElem _ 0]; exact hget i (by omega)) hlen hM hs const a.flipud Tx h6'
  refine ⟨fun i => c.getD i 0, row, ⟨?_, ?_⟩, hn, hT⟩
  · intro ht i hi
    have e := const_stft ht h4
    subst e
    have hrev : ssqReverses a.transform a.flipud = a.flipud := by
      unfold ssqReverses; rw [ht]; cases a.flipud <;> rfl
    have hv : (if a.flipud then f.reverse else f) = v := by
      rw [h7, hrev]; cases a.flipud <;> simp
    rw [hv, ← hfr]
    exact constArr_scalar hc i hi
  · intro ht sh d sv st nv hsc hl hi hnv i hiM
    exact const_cwt ht hsc hi hl hnv h2' h4 hc i hiM

/-- The full statement of **C223**: one row per frequency given, in which are the cells nearest to that frequency. -/
def C223_full : Prop :=
  ∀ (a : SsqArgs) (d : FDtype) (v : List ℝ) (a0 s : ℝ), a.ssqFreqs = .arr d v → Spec.LinearLayout a → a.flipud = true →
    Spec.Uniform v a0 s → eps64 ≤ s → 2 ≤ v.length → 2 ≤ a.M → ∀ (Tx : ℤ → ℕ → ℂ) (f : List ℝ), ssqueeze a = .ok (Tx, f) →
    ∃ (c : ℕ → ℝ) (row : ℝ → ℕ), (∀ x, Spec.Nearest f x (row x)) ∧
      ∀ r < f.length, r < a.M → ∀ j < a.N, Tx r j =
        Spec.squeezed a.M (applySqueezing a.squeezing a.M a.Wx) c
          (Spec.usedPhase a (applySqueezing a.squeezing a.M a.Wx)) row r j

/-- **C223, as many frequencies as rows.** Then each row holds the cells nearest to the frequency returned for it.
Missing: more or fewer frequencies (`C223_refuted`, `C223_rows`). -/
theorem C223_equal_partial (a : SsqArgs) (d : FDtype) (v : List ℝ) (a0 s : ℝ) (hf : a.ssqFreqs = .arr d v)
    (hl : Spec.LinearLayout a) (hfl : a.flipud = true ∨ a.transform = .stft) (hu : Spec.Uniform v a0 s) (hs : eps64 ≤ s)
    (hM : 2 ≤ a.M) (hlen : v.length = a.M) (Tx : ℤ → ℕ → ℂ) (f : List ℝ) (h : ssqueeze a = .ok (Tx, f)) :
    f.length = a.M ∧ ∃ (c : ℕ → ℝ) (row : ℝ → ℕ), (∀ x, Spec.Nearest f x (row x)) ∧
      ∀ r < a.M, ∀ j < a.N, Tx r j =
        Spec.squeezed a.M (applySqueezing a.squeezing a.M a.Wx) c
          (Spec.usedPhase a (applySqueezing a.squeezing a.M a.Wx)) row r j := by
  have hfv : f = if a.flipud then v.reverse else v := by
    obtain ⟨dt, sc, fr, const, ls, h1, h2', h3, h4, h5, h6, h7⟩ := ssqueeze_ok h
    have hfr : fr.1 = v := by
      unfold ssqFreqsOf at h3
      rw [hf] at h3
      simp only at h3
      split at h3
      · simp only [Except.ok.injEq] at h3; rw [← h3]
      · obtain ⟨⟨st, nv⟩, hi, h3⟩ := bind_ok h3
        simp only [Except.ok.injEq] at h3; rw [← h3]
    have hrev : ssqReverses a.transform a.flipud = a.flipud := by
      unfold ssqReverses
      rcases hfl with hf | ht
      · rw [hf]; simp
      · rw [ht]; cases a.flipud <;> rfl
    rw [h7, hrev, hfr]
  have hfl' : f.length = a.M := by rw [hfv]; split <;> simp [hlen]
  have hv : (if a.flipud then f.reverse else f) = v := by
    rw [hfv]; cases a.flipud <;> simp
  obtain ⟨c, row, -, -, hn, hT⟩ := C27_linear_partial a Tx f h hl hfl a0 s (by rw [hv]; exact hu) hfl' hM hs
  exact ⟨hfl', c, row, hn, hT⟩

/-! ### Concrete calls -/

theorem infer1234 : inferScaletype .f64 [1, 2, 3, 4] = .ok (.linear, .none) := by
  unfold inferScaletype
  rw [if_neg (by decide), if_neg (by simp), if_neg, if_pos]
  · rw [meanAbsDiff2_zero (a := 1) (d := 1)]
    · norm_num [thLog]
    · intro i hi
      simp only [List.length_cons, List.length_nil] at hi
      interval_cases i <;> norm_num
  · rintro ⟨-, h⟩
    have h1 := meanAbsDiff2_ge ([1, 2, 3, 4].map Real.log) 0 (by simp)
    simp only [List.map_cons, List.map_nil, List.length_cons, List.length_nil, List.getD_cons_succ, List.getD_cons_zero,
      Real.log_one] at h1
    have h4 : Real.log 3 - Real.log 2 - (Real.log 2 - 0) = -Real.log (4 / 3) := by
      rw [Real.log_div (by norm_num) (by norm_num), show (4 : ℝ) = 2 ^ 2 by norm_num, Real.log_pow]
      push_cast; ring
    have h5 : (1 : ℝ) / 4 ≤ Real.log (4 / 3) := by
      have := Real.one_sub_inv_le_log_of_pos (show (0 : ℝ) < 4 / 3 by norm_num)
      norm_num at this ⊢
      linarith
    rw [h4, abs_neg, abs_of_nonneg (by linarith)] at h1
    simp only [List.map_cons, List.map_nil, Real.log_one, thLog] at h
    norm_num at h h1
    linarith

/-- `ex124` with four linear frequencies. -/
noncomputable def ex1234 : SsqArgs := { ex124 true with ssqFreqs := .arr .f64 [1, 2, 3, 4] }

theorem ex1234_linear : Spec.LinearLayout ex1234 := Or.inr ⟨.none, infer1234⟩

theorem ex1234_ok : ∃ Tx, ssqueeze ex1234 = .ok (Tx, [4, 3, 2, 1]) := by
  obtain ⟨T, h⟩ := ex124_ok true
  obtain ⟨dt, sc, fr, const, ls, h1, h2, h3, h4, h5, h6, h7⟩ := ssqueeze_ok h
  have e1 : ssqProcessArgs ex1234 = .ok dt := h1
  have e2 : ssqScales ex1234 = .ok sc := h2
  have e3 : ssqFreqsOf ex1234 dt sc.1 sc.2 = .ok ([1, 2, 3, 4], .known .linear) := by
    unfold ssqFreqsOf ex1234
    simp only
    rw [if_neg (by simp [ex124]), infer1234, ok_bind]
  have e4 : ssqConst ex1234.transform sc.1 sc.2 [1, 2, 3, 4] = .ok const := by
    have hs : ssqScales (ex124 true) = .ok (some [1, 2, 4], some (.log, .int 1)) := by
      have hp : positiveInteger ((1 : ℤ) : ℚ) = .ok 1 := by rfl
      simp only [ssqScales, ex124, processScales, infer124, ok_bind, pure_eq_ok, ne_eq,
        not_true_eq_false, false_and, if_false, hp]
      rfl
    rw [hs] at h2
    simp only [Except.ok.injEq] at h2
    subst h2
    exact h4
  have e6 : ∃ T, ssqKernel ex1234 (applySqueezing ex1234.squeezing ex1234.M ex1234.Wx) [1, 2, 3, 4] const false = .ok T := by
    have hw : ∀ v b, ssqKernel ex1234 (applySqueezing ex1234.squeezing ex1234.M ex1234.Wx) v const b =
        indexedSumOnfly .cpu 1 3 1 (fun _ _ => 0) (fun _ _ => 1) (fun i _ => if i = 0 then .fin 1 else .inf) v const b true :=
      fun v b => rfl
    have h6' : indexedSumOnfly .cpu 1 3 1 (fun _ _ => 0) (fun _ _ => 1) (fun i _ => if i = 0 then .fin 1 else .inf)
        fr.1 const ls true = .ok T := h6
    obtain ⟨c, p, hc, -, -⟩ := onfly_ok h6'
    rw [hw]
    unfold indexedSumOnfly onflyBody processSsqParams
    rw [hc]
    simp only [ok_bind, pure_eq_ok, Bool.false_eq_true, if_false]
    exact ⟨_, rfl⟩
  obtain ⟨T', e6⟩ := e6
  refine ⟨T', ?_⟩
  have hr : ssqReverses ex1234.transform ex1234.flipud = true := rfl
  unfold ssqueeze
  simp only [e1, ok_bind, e2, e3, e4, SsqType.isLog, e6, pure_eq_ok, hr, if_true]
  rfl

/-- The hypotheses of `C223_rows` are met with three rows and four frequencies: four frequencies are returned. -/
example : ∃ Tx f, ssqueeze ex1234 = .ok (Tx, f) ∧ f = [4, 3, 2, 1] ∧ Spec.regrid [1, 2, 3, 4] ex1234.M = [1, 2, 3] ∧
    ∃ row : ℝ → ℕ, ∀ x, Spec.Nearest (Spec.regrid [1, 2, 3, 4] ex1234.M) x (row x) := by
  obtain ⟨Tx, h⟩ := ex1234_ok
  obtain ⟨-, c, row, -, hn, -⟩ := C223_rows ex1234 .f64 [1, 2, 3, 4] rfl ex1234_linear (by simp) (by simp [ex1234, ex124])
    (by norm_num; exact eps64_le_one) Tx _ h
  refine ⟨Tx, _, h, rfl, ?_, row, hn⟩
  simp [Spec.regrid, ex1234, ex124, List.range_succ]
  norm_num

/-- **C223 refuted.** Three scales, frequencies 1, 2, 3, 4: a cell of frequency 1 is put in the last row, number 2, which the
returned frequencies `[4, 3, 2, 1]` label as 2. -/
theorem C223_refuted : ¬ C223_full := by
  intro H
  obtain ⟨Tx, h⟩ := ex1234_ok
  have hu : Spec.Uniform [1, 2, 3, 4] 1 1 := by
    intro i hi
    simp only [List.length_cons, List.length_nil] at hi
    interval_cases i <;> norm_num
  obtain ⟨c, row, hn, hT⟩ := H ex1234 .f64 [1, 2, 3, 4] 1 1 rfl ex1234_linear rfl hu eps64_le_one (by simp)
    (by simp [ex1234, ex124]) Tx _ h
  have r1 : row 1 = 3 := by
    obtain ⟨hk, hh⟩ := hn 1
    have h3 := hh 3 (by simp)
    simp only [List.length_cons, List.length_nil] at hk
    interval_cases hr : row 1
    · norm_num at h3
    · norm_num at h3
    · norm_num at h3
    · rfl
  have z : Tx (2 : ℕ) 0 = 0 := by
    rw [hT 2 (by simp) (by simp [ex1234, ex124]) 0 (by simp [ex1234, ex124])]
    simp [Spec.squeezed, Spec.usedPhase, ex1234, ex124, sum_range_succ, r1]
  obtain ⟨-, c', row', hc', hn', hT'⟩ := C223_rows ex1234 .f64 [1, 2, 3, 4] rfl ex1234_linear (by simp) (by simp [ex1234, ex124])
    (by norm_num; exact eps64_le_one) Tx _ h
  have e := hT' 2 (by simp [ex1234, ex124]) 0 (by simp [ex1234, ex124])
  have hg : Spec.regrid [1, 2, 3, 4] ex1234.M = [1, 2, 3] := by
    simp [Spec.regrid, ex1234, ex124, List.range_succ]
    norm_num
  have r0 : row' 1 = 0 := by
    have hh := hn' 1
    rw [hg] at hh
    obtain ⟨hk, hh⟩ := hh
    have h3 := hh 0 (by simp)
    simp only [List.length_cons, List.length_nil] at hk
    interval_cases hr : row' 1
    · rfl
    · norm_num at h3
    · norm_num at h3
  have hc0 : c' 0 = Real.log 2 / ((1 : ℤ) : ℝ) :=
    hc'.2 rfl [3] .f64 [1, 2, 4] .log (.int 1) rfl rfl infer124 (by simp) 0 (by simp [ex1234, ex124])
  have v1 : Tx (2 : ℕ) 0 = (Real.log 2 : ℝ) := by
    rw [e]
    simp [Spec.squeezed, Spec.usedPhase, ex1234, ex124, sum_range_succ, r0, hc0, Spec.flip, applySqueezing]
  rw [z] at v1
  exact (Real.log_pos (by norm_num : (1 : ℝ) < 2)).ne (by exact_mod_cast v1)

end Ssq
