import Verif.Props.Contract
import Verif.Props.SsqCwt
import Mathlib.Tactic.IntervalCases

/-!
# C221: passing the returned frequencies to another call

`ssqueeze` and `ssq_cwt` return the frequencies in decreasing order (ssqueezepy/ssqueezing.py:217-224), but the
kernels take the first two frequencies for the start and the step of an increasing grid and replace a negative step
by `EPS64` (ssqueezepy/algos.py:80-87, 347-374).
-/
namespace Ssq
open Finset

namespace Spec

/-- The frequencies decrease and are laid out uniformly in frequency, or (CWT) in log-frequency, and are recognised
as such. -/
def Decreasing (a : SsqArgs) (d : FDtype) (v : List ℝ) : Prop :=
  (a.transform = .stft ∧ v.getD 1 0 ≤ v.getD 0 0 ∧ 2 ≤ v.length) ∨
  (a.transform = .cwt ∧ v.getD 1 0 ≤ v.getD 0 0 ∧ 2 ≤ v.length ∧ ∃ nv, inferScaletype d v = .ok (.linear, nv)) ∨
  (a.transform = .cwt ∧ 3 ≤ v.length ∧ ∃ b s, s < 0 ∧ Geometric v b s)

/-- The row in which the kernels write the first frequency of the grid. -/
def firstRow (flipud : Bool) (M : ℕ) : ℕ := if flipud then M - 1 else 0

end Spec

theorem rha_nonpos {x : ℝ} (hx : x ≤ 0) : roundHalfAway x ≤ 0 := by
  have := rha_mono hx
  have h0 : roundHalfAway (0 : ℝ) = 0 := by
    unfold roundHalfAway
    rw [if_pos le_rfl, Int.floor_eq_iff]
    norm_num
  rwa [h0] at this

theorem ensure_of_nonpos {x : ℝ} (hx : x ≤ 0) : ensureNonzeroNonneg x = eps64 := by
  unfold ensureNonzeroNonneg
  rw [if_pos (lt_of_le_of_lt hx eps64_pos)]

theorem bin_lin_first (d : Device) {omax : ℤ} (ho : 0 ≤ omax) {v0 x : ℝ} (hx : x ≤ v0) :
    binTP d (.lin v0 eps64) omax x = 0 := by
  have hle : (x - v0) / eps64 ≤ 0 := div_nonpos_of_nonpos_of_nonneg (by linarith) eps64_pos.le
  cases d with
  | cpu =>
    show min (roundHalfEven (max ((x - v0) / eps64) 0)) omax = 0
    rw [max_eq_right hle, rhe_zero, min_eq_left ho]
  | gpu =>
    have := rha_nonpos hle
    simp only [binTP, binGpu]
    split_ifs <;> omega

theorem bin_log_first (d : Device) {omax : ℤ} (ho : 0 ≤ omax) {v0 x : ℝ} (h0 : 0 ≤ x) (hx : x ≤ v0) :
    binTP d (.log (Real.logb 2 v0) eps64) omax x = 0 := by
  by_cases hz : x = 0
  · cases d with
    | cpu =>
      simp only [binTP, binTwoPass, log2E, if_pos hz, relPos, rhe_zero]
      exact min_eq_left ho
    | gpu => simp only [binTP, binGpu, log2E, if_pos hz]
  · have hp : 0 < x := lt_of_le_of_ne h0 (Ne.symm hz)
    have hlog : Real.logb 2 x ≤ Real.logb 2 v0 := Real.logb_le_logb_of_le (by norm_num) hp hx
    have hle : (Real.logb 2 x - Real.logb 2 v0) / eps64 ≤ 0 :=
      div_nonpos_of_nonpos_of_nonneg (by linarith) eps64_pos.le
    cases d with
    | cpu =>
      simp only [binTP, binTwoPass, log2E, if_neg hz]
      show min (roundHalfEven (max ((Real.logb 2 x - Real.logb 2 v0) / eps64) 0)) omax = 0
      rw [max_eq_right hle, rhe_zero, min_eq_left ho]
    | gpu =>
      have := rha_nonpos hle
      simp only [binTP, binGpu, log2E, if_neg hz]
      split_ifs <;> omega

open Classical in
/-- **C221, decreasing frequencies.** If `ssqueeze` is given an array of decreasing frequencies (what an earlier call
returned), every cell whose frequency is at most the greatest of them is added to one and the same row, and if these
are all the cells, all other rows of `Tx` are zero. On any device, two-pass or fused. -/
theorem C221_collapse (a : SsqArgs) (d : FDtype) (v : List ℝ) (hf : a.ssqFreqs = .arr d v) (hd : Spec.Decreasing a d v)
    (hS : a.w.isSome ∨ a.Sfs = none ∨ a.transform = .stft) (hM : 1 ≤ a.M)
    (Tx : ℤ → ℕ → ℂ) (f : List ℝ) (h : ssqueeze a = .ok (Tx, f)) :
    ∃ c : ℕ → ℝ, Spec.CellWeights a f c ∧ ∀ j < a.N,
      (∀ i < a.M, ∀ x, Spec.usedPhase a (applySqueezing a.squeezing a.M a.Wx) i j = .fin x → x ≤ v.getD 0 0) →
      ∀ r < a.M, Tx r j = if r = Spec.firstRow a.flipud a.M then
        ∑ i ∈ range a.M, (if Spec.Moved a (applySqueezing a.squeezing a.M a.Wx) i j
          then applySqueezing a.squeezing a.M a.Wx i j * ((c i : ℝ) : ℂ) else 0) else 0 := by
  obtain ⟨dt, sc, fr, const, ls, h1, h2, h3, h4, h5, h6, h7⟩ := ssqueeze_ok h
  have hlen : 2 ≤ v.length := by
    rcases hd with ⟨-, -, hl⟩ | ⟨-, -, hl, -⟩ | ⟨-, hl, -⟩ <;> omega
  -- the frequencies used are `v`, and linear for the STFT
  have hfr : fr.1 = v := by
    unfold ssqFreqsOf at h3
    rw [hf] at h3
    simp only at h3
    split at h3
    · simp only [Except.ok.injEq] at h3; rw [← h3]
    · obtain ⟨⟨st, nv⟩, hi, h3⟩ := bind_ok h3
      simp only [Except.ok.injEq] at h3; rw [← h3]
  have hls : a.transform = .stft → ls = false := by
    intro ht
    have := linearLayout_ls (show Spec.LinearLayout a by unfold Spec.LinearLayout; rw [hf]; exact Or.inl ht) h3
    rw [h5] at this; simpa using this
  rw [hfr] at h6
  rw [kernel_eq _ _ _ _ _ (by
    rcases hS with hw | hs | ht
    · exact Or.inl hw
    · exact Or.inr (Or.inl hs)
    · exact Or.inr (Or.inr (hls ht)))] at h6
  obtain ⟨c, p, hc, hp, hT⟩ := onfly_ok h6
  refine ⟨fun i => c.getD i 0, ⟨?_, ?_⟩, ?_⟩
  · intro ht i hi
    have e := const_stft ht h4
    subst e
    have hrev : ssqReverses a.transform a.flipud = a.flipud := by
      unfold ssqReverses; rw [ht]; cases a.flipud <;> rfl
    have hv : (if a.flipud then f.reverse else f) = fr.1 := by
      rw [h7, hrev]; cases a.flipud <;> simp
    rw [hv]
    exact constArr_scalar hc i hi
  · intro ht sh d sv st nv hsc hl hi hnv i hiM
    exact const_cwt ht hsc hi hl hnv h2 h4 hc i hiM
  · intro j hj hx r hr
    have hle : v.getD 1 0 ≤ v.getD 0 0 := by
      rcases hd with ⟨-, hl, -⟩ | ⟨-, hl, -⟩ | ⟨-, hl, b, s, hs, hg⟩
      · exact hl
      · exact hl
      · obtain ⟨p0, e0⟩ := hg 0 (by omega)
        obtain ⟨p1, e1⟩ := hg 1 (by omega)
        rw [List.getD_eq_getElem _ _ (by omega), List.getD_eq_getElem _ _ (by omega)]
        rw [← Real.logb_le_logb (b := 2) (by norm_num) p1 p0, e0, e1]
        push_cast
        linarith
    have hbin : ∀ x, 0 ≤ x → x ≤ v.getD 0 0 → binTP a.dev p ((a.M : ℤ) - 1) x = 0 := by
      intro x h0 hx0
      have ho : (0 : ℤ) ≤ (a.M : ℤ) - 1 := by omega
      unfold processSsqParams at hp
      cases ls with
      | false =>
        rw [if_neg (by simp)] at hp
        rcases v with _ | ⟨v0, _ | ⟨v1, t⟩⟩
        · simp at hlen
        · simp at hlen
        · simp only [List.getD_cons_zero, List.getD_cons_succ] at hle hx0
          simp only [Except.ok.injEq, ensure_of_nonpos (show v1 - v0 ≤ 0 by linarith)] at hp
          rw [← hp]
          exact bin_lin_first _ ho hx0
      | true =>
        rw [if_pos rfl] at hp
        rcases hd with ⟨ht, -⟩ | ⟨ht, -, -, nv, hi⟩ | ⟨ht, hl, b, s, hs, hg⟩
        · simpa using hls ht
        · have := linearLayout_ls (show Spec.LinearLayout a by
            unfold Spec.LinearLayout; rw [hf]; exact Or.inr ⟨nv, hi⟩) h3
          rw [h5] at this; simp at this
        · obtain ⟨p0, e0⟩ := hg 0 (by omega)
          obtain ⟨p1, e1⟩ := hg 1 (by omega)
          unfold paramsFindClosestLog at hp
          rw [transition_geometric hg hl, ok_bind] at hp
          simp only [pure_eq_ok, Except.ok.injEq] at hp
          rw [List.getD_eq_getElem _ _ (by omega), List.getD_eq_getElem _ _ (by omega),
            ensure_of_nonpos (by rw [e0, e1]; push_cast; linarith)] at hp
          rw [List.getD_eq_getElem _ _ (by omega)] at hx0
          rw [← hp]
          exact bin_log_first _ ho h0 hx0
    rw [hT r j hj, zero_add]
    have hrow : ∀ x, 0 ≤ x → x ≤ v.getD 0 0 →
        (flipRow a.flipud ((a.M : ℤ) - 1) (binTP a.dev p ((a.M : ℤ) - 1) x) = r ↔ r = Spec.firstRow a.flipud a.M) := by
      intro x h0 hx0
      rw [hbin x h0 hx0]
      unfold flipRow Spec.firstRow
      cases a.flipud <;> simp <;> omega
    by_cases hrr : r = Spec.firstRow a.flipud a.M
    · rw [if_pos hrr]
      refine sum_congr rfl fun i hi => ?_
      have hi := mem_range.1 hi
      rcases hu : Spec.usedPhase a (applySqueezing a.squeezing a.M a.Wx) i j with _ | x
      · rw [if_neg (by rintro ⟨x, hx⟩; rw [hu] at hx; simp at hx)]
      · simp only
        rw [if_pos ((hrow x (usedPhase_nonneg h1 _ i hi j hj x hu) (hx i hi x hu)).2 hrr), if_pos ⟨x, hu⟩]
    · rw [if_neg hrr]
      refine sum_eq_zero fun i hi => ?_
      have hi := mem_range.1 hi
      rcases hu : Spec.usedPhase a (applySqueezing a.squeezing a.M a.Wx) i j with _ | x
      · rfl
      · simp only
        rw [if_neg fun hh => hrr ((hrow x (usedPhase_nonneg h1 _ i hi j hj x hu) (hx i hi x hu)).1 hh)]

/-- The full statement of **C221**: a second call with the frequencies returned by the first one computes the same
reassigned transform, each row labelled with its frequency as before. -/
def C221_full : Prop :=
  ∀ (a : SsqArgs) (d : FDtype) (Tx Tx' : ℤ → ℕ → ℂ) (f f' : List ℝ), a.flipud = true → f.length = a.M → f.Nodup →
    ssqueeze a = .ok (Tx, f) → ssqueeze { a with ssqFreqs := .arr d f } = .ok (Tx', f') →
    ∀ r < a.M, ∀ r' < a.M, f'.getD r' 0 = f.getD r 0 → ∀ j < a.N, Tx' r' j = Tx r j

/-- **C221, increasing frequencies.** A second CWT call with the returned frequencies put back into increasing order
returns exactly what the first one did, transform and frequencies, if the array is recognised as laid out the way the
first call laid it out. Missing: the array as returned (`C221_refuted`, `C221_collapse`). -/
theorem C221_cwt_partial (a : SsqArgs) (ht : a.transform = .cwt) (Tx : ℤ → ℕ → ℂ) (f : List ℝ)
    (h : ssqueeze a = .ok (Tx, f)) (d : FDtype) (st : ScaleType) (nv : Nv)
    (hi : inferScaletype d f.reverse = .ok (st, nv))
    (hlay : Spec.LinearLayout a ∧ st = .linear ∨ Spec.LogLayout a ∧ st ≠ .linear) :
    ssqueeze { a with ssqFreqs := .arr d f.reverse } = .ok (Tx, f) := by
  obtain ⟨dt, sc, fr, const, ls, h1, h2, h3, h4, h5, h6, h7⟩ := ssqueeze_ok h
  have hrev : ssqReverses a.transform a.flipud = true := by
    unfold ssqReverses; rw [ht]; cases a.flipud <;> rfl
  rw [hrev, if_pos rfl] at h7
  have hv : f.reverse = fr.1 := by rw [h7, List.reverse_reverse]
  have hl : (SsqType.known st).isLog = .ok ls := by
    rcases hlay with ⟨hl, rfl⟩ | ⟨hl, hne⟩
    · rw [← h5, linearLayout_ls hl h3]; rfl
    · rw [← h5, logLayout_ls hl h2 h3]
      cases st <;> first | rfl | exact absurd rfl hne
  have h3' : ssqFreqsOf { a with ssqFreqs := .arr d f.reverse } dt sc.1 sc.2 = .ok (fr.1, .known st) := by
    unfold ssqFreqsOf
    simp only
    rw [if_neg (by rw [ht]; simp), hi, ok_bind, hv]
  unfold ssqueeze
  have e1 : ssqProcessArgs { a with ssqFreqs := .arr d f.reverse } = .ok dt := h1
  have e2 : ssqScales { a with ssqFreqs := .arr d f.reverse } = .ok sc := h2
  rw [e1, ok_bind, e2, ok_bind, h3', ok_bind]
  simp only
  rw [h4, ok_bind, hl, ok_bind]
  have e6 : ssqKernel { a with ssqFreqs := .arr d f.reverse } (applySqueezing a.squeezing a.M a.Wx) fr.1 const ls =
      .ok Tx := h6
  rw [e6, ok_bind, hrev, if_pos rfl, h7]
  rfl

/-- **C221, STFT.** Without `flipud` (the default of `ssq_stft`) the frequencies are returned as they were used, and a
second call with them returns exactly the same. -/
theorem C221_stft_partial (a : SsqArgs) (ht : a.transform = .stft) (hfl : a.flipud = false) (hlay : Spec.LinearLayout a)
    (Tx : ℤ → ℕ → ℂ) (f : List ℝ) (h : ssqueeze a = .ok (Tx, f)) (d : FDtype) :
    ssqueeze { a with ssqFreqs := .arr d f } = .ok (Tx, f) := by
  obtain ⟨dt, sc, fr, const, ls, h1, h2, h3, h4, h5, h6, h7⟩ := ssqueeze_ok h
  have hrev : ssqReverses a.transform a.flipud = false := by
    unfold ssqReverses; rw [ht, hfl]; rfl
  rw [hrev, if_neg (by simp)] at h7
  have hl : (SsqType.known .linear).isLog = .ok ls := by
    rw [← h5, linearLayout_ls hlay h3]; rfl
  have h3' : ssqFreqsOf { a with ssqFreqs := .arr d f } dt sc.1 sc.2 = .ok (fr.1, .known .linear) := by
    unfold ssqFreqsOf
    simp only
    rw [if_pos ht, h7]
  unfold ssqueeze
  have e1 : ssqProcessArgs { a with ssqFreqs := .arr d f } = .ok dt := h1
  have e2 : ssqScales { a with ssqFreqs := .arr d f } = .ok sc := h2
  rw [e1, ok_bind, e2, ok_bind, h3', ok_bind]
  simp only
  rw [h4, ok_bind, hl, ok_bind]
  have e6 : ssqKernel { a with ssqFreqs := .arr d f } (applySqueezing a.squeezing a.M a.Wx) fr.1 const ls = .ok Tx := h6
  rw [e6, ok_bind, hrev, if_neg (by simp), h7]
  rfl

/-! ### Concrete calls -/

theorem geo421 : Spec.Geometric [4, 2, 1] 2 (-1) := by
  have h2 : Real.logb 2 2 = 1 := Real.logb_self_eq_one (by norm_num)
  have h4 : Real.logb 2 4 = 2 := by
    rw [show (4 : ℝ) = 2 ^ (2 : ℝ) by norm_num, Real.logb_rpow (by norm_num) (by norm_num)]
  intro i hi
  simp only [List.length_cons, List.length_nil] at hi
  interval_cases i
  · simp [h4]
  · simp; norm_num
  · simp

/-- `ex124` with the frequencies it returned. -/
noncomputable def ex421 : SsqArgs := { ex124 true with ssqFreqs := .arr .f64 [4, 2, 1] }

theorem ex421_ok : ∃ Tx, ssqueeze ex421 = .ok (Tx, [1, 2, 4]) := by
  obtain ⟨T, h⟩ := ex124_ok true
  obtain ⟨dt, sc, fr, const, ls, h1, h2, h3, h4, h5, h6, h7⟩ := ssqueeze_ok h
  have e1 : ssqProcessArgs ex421 = .ok dt := h1
  have e2 : ssqScales ex421 = .ok sc := h2
  have e3 : ssqFreqsOf ex421 dt sc.1 sc.2 = .ok ([4, 2, 1], .known .log) := by
    unfold ssqFreqsOf ex421
    simp only
    rw [if_neg (by simp [ex124]), infer_geometric (by simp) geo421 (by simp) (by norm_num), ok_bind]
  have e4 : ssqConst ex421.transform sc.1 sc.2 [4, 2, 1] = .ok const := by
    have hs : ssqScales (ex124 true) = .ok (some [1, 2, 4], some (.log, .int 1)) := by
      have hp : positiveInteger ((1 : ℤ) : ℚ) = .ok 1 := by rfl
      simp only [ssqScales, ex124, processScales, infer124, ok_bind, pure_eq_ok, ne_eq,
        not_true_eq_false, false_and, if_false, hp]
      rfl
    rw [hs] at h2
    simp only [Except.ok.injEq] at h2
    subst h2
    exact h4
  have e6 : ∃ T, ssqKernel ex421 (applySqueezing ex421.squeezing ex421.M ex421.Wx) [4, 2, 1] const true = .ok T := by
    have hw : ∀ v b, ssqKernel ex421 (applySqueezing ex421.squeezing ex421.M ex421.Wx) v const b =
        indexedSumOnfly .cpu 1 3 1 (fun _ _ => 0) (fun _ _ => 1) (fun i _ => if i = 0 then .fin 1 else .inf) v const b true :=
      fun v b => rfl
    have h6' : indexedSumOnfly .cpu 1 3 1 (fun _ _ => 0) (fun _ _ => 1) (fun i _ => if i = 0 then .fin 1 else .inf)
        fr.1 const ls true = .ok T := h6
    obtain ⟨c, p, hc, -, -⟩ := onfly_ok h6'
    rw [hw]
    unfold indexedSumOnfly onflyBody processSsqParams paramsFindClosestLog
    rw [hc, transition_geometric geo421 (by simp)]
    simp only [ok_bind, pure_eq_ok, if_true]
    exact ⟨_, rfl⟩
  obtain ⟨T', e6⟩ := e6
  refine ⟨T', ?_⟩
  have hr : ssqReverses ex421.transform ex421.flipud = true := rfl
  unfold ssqueeze
  simp only [e1, ok_bind, e2, e3, e4, SsqType.isLog, e6, pure_eq_ok, hr, if_true]
  rfl

theorem ex421_decreasing : Spec.Decreasing ex421 .f64 [4, 2, 1] :=
  Or.inr (Or.inr ⟨rfl, by simp, 2, -1, by norm_num, geo421⟩)

theorem ex421_below : ∀ i < ex421.M, ∀ x, Spec.usedPhase ex421 (applySqueezing ex421.squeezing ex421.M ex421.Wx) i 0 = .fin x →
    x ≤ ([4, 2, 1] : List ℝ).getD 0 0 := by
  intro i _ x hx
  simp only [Spec.usedPhase, ex421, ex124] at hx
  split at hx
  · simp only [Phase.fin.injEq] at hx
    rw [← hx]; norm_num
  · simp at hx

/-- The hypotheses of `C221_collapse` are met by a call with frequencies 4, 2, 1 and a cell of phase 1: it is added to
row 2, which the returned frequencies 1, 2, 4 label as 4; rows 0 and 1 are zero. -/
example : ∃ Tx, ssqueeze ex421 = .ok (Tx, [1, 2, 4]) ∧ Tx (0 : ℕ) 0 = 0 ∧ Tx (1 : ℕ) 0 = 0 := by
  obtain ⟨Tx, h⟩ := ex421_ok
  obtain ⟨c, -, hT⟩ := C221_collapse ex421 .f64 [4, 2, 1] rfl ex421_decreasing (Or.inl rfl) (by simp [ex421, ex124]) Tx _ h
  have := hT 0 (by simp [ex421, ex124]) ex421_below
  refine ⟨Tx, h, ?_, ?_⟩
  · rw [this 0 (by simp [ex421, ex124]), if_neg (by simp [Spec.firstRow, ex421, ex124])]
  · rw [this 1 (by simp [ex421, ex124]), if_neg (by simp [Spec.firstRow, ex421, ex124])]

/-- The hypotheses of `C221_cwt_partial` are met. -/
example : ∃ Tx, ssqueeze { ex124 true with ssqFreqs := .arr .f64 ([4, 2, 1] : List ℝ).reverse } = .ok (Tx, [4, 2, 1]) := by
  obtain ⟨Tx, h⟩ := ex124_ok true
  exact ⟨Tx, C221_cwt_partial _ rfl Tx _ h .f64 .log (.int 1) infer124 (Or.inr ⟨loglayout124 _, by simp⟩)⟩

/-- **C221 refuted.** A cell of frequency 1, squeezed onto the frequencies 1, 2, 4, is in the row of 1. A second call with
the returned 4, 2, 1 puts it in the row of 4. -/
theorem C221_refuted : ¬ C221_full := by
  intro H
  obtain ⟨Tx, h⟩ := ex124_ok true
  obtain ⟨Tx', h'⟩ := ex421_ok
  have e := H (ex124 true) .f64 Tx Tx' [4, 2, 1] [1, 2, 4] rfl rfl (by norm_num) h h' 0 (by simp [ex124]) 2
    (by simp [ex124]) (by simp) 0 (by simp [ex124])
  obtain ⟨c, hc, hT⟩ := C221_collapse ex421 .f64 [4, 2, 1] rfl ex421_decreasing (Or.inl rfl) (by simp [ex421, ex124]) Tx' _ h'
  have e' := hT 0 (by simp [ex421, ex124]) ex421_below 2 (by simp [ex421, ex124])
  rw [if_pos (by simp [Spec.firstRow, ex421, ex124])] at e'
  have hc0 : c 0 = Real.log 2 / ((1 : ℤ) : ℝ) :=
    hc.2 rfl [3] .f64 [1, 2, 4] .log (.int 1) rfl rfl infer124 (by simp) 0 (by simp [ex421, ex124])
  obtain ⟨row, hn, -, hr⟩ := C27_log_partial _ Tx _ h (loglayout124 _) rfl rfl (Or.inl rfl) one_pos loggrid124 rfl
    [3] .f64 [1, 2, 4] rfl .log (.int 1) infer124 rfl (by simp)
  have r1 : row 1 ≠ 0 := by
    intro h0
    obtain ⟨hk, hh⟩ := hn 1 one_pos
    have h2 := hh 2 (by simp)
    have hl4 : 0 < Real.logb 2 4 := Real.logb_pos (by norm_num) (by norm_num)
    simp only [h0, List.getElem_cons_zero, List.getElem_cons_succ, Real.logb_one, sub_self,
      abs_zero, zero_sub, abs_neg] at h2
    rw [abs_of_pos hl4] at h2
    linarith
  have e0 := hr 0 (by simp [ex124]) 0 (by simp [ex124])
  have z : Tx (0 : ℕ) 0 = 0 := by
    rw [e0]
    simp [Spec.squeezed, Spec.usedPhase, ex124, sum_range_succ, r1]
  rw [z, e'] at e
  have m0 : Spec.Moved ex421 (applySqueezing ex421.squeezing ex421.M ex421.Wx) 0 0 := ⟨1, rfl⟩
  have m1 : ¬ Spec.Moved ex421 (applySqueezing ex421.squeezing ex421.M ex421.Wx) 1 0 := by
    rintro ⟨x, hx⟩; simp [Spec.usedPhase, ex421, ex124] at hx
  have m2 : ¬ Spec.Moved ex421 (applySqueezing ex421.squeezing ex421.M ex421.Wx) 2 0 := by
    rintro ⟨x, hx⟩; simp [Spec.usedPhase, ex421, ex124] at hx
  rw [show ex421.M = 3 from rfl] at e m0 m1 m2
  rw [sum_range_succ, sum_range_succ, sum_range_one, if_pos m0, if_neg m1, if_neg m2, hc0] at e
  simp only [ex421, ex124, applySqueezing, one_mul, add_zero, Int.cast_one, div_one] at e
  exact (Real.log_pos (by norm_num : (1 : ℝ) < 2)).ne' (by exact_mod_cast e)

open Classical in
/-- **C221, a tone.** `ssq_cwt` of a tone, called with decreasing geometric frequencies (those of an earlier call) that
reach up to the tone: the whole of `Tx` is in the last row, which the returned frequencies label with the greatest
one, wherever the tone is. -/
theorem C221_tone (N k : ℕ) (A φ : ℝ) (hk : 2 * k < N) (a : SsqCwtArgs) (hp : a.padtype = none)
    (han : Spec.Analytic a.wavelet.fn.eval) (hg : 0 < a.gamma.getD (10 * a.eps)) (hsq : a.squeezing = .sum)
    (hfl : a.flipud = true) (d : FDtype) (v : List ℝ) (hv : a.ssqFreqs = .arr d v) (h3 : 3 ≤ v.length) (b s : ℝ) (hs : s < 0)
    (hgeo : Spec.Geometric v b s) (o : SsqCwtOut) (h : ssqCwt (Spec.tone N k A φ) a = .ok o) (hpos : ∀ s ∈ o.scales, 0 < s)
    (fs dt : ℝ) (hfs : processFsT a.fs a.t N = .ok (.fin fs dt)) (hle : k * fs / N ≤ v.getD 0 0) :
    o.freqs = v.reverse ∧ ∀ j < N, ∀ r < o.scales.length, r ≠ o.scales.length - 1 → o.Tx r j = 0 := by
  have hlenx : (Spec.tone N k A φ).length = N := by simp [Spec.tone]
  obtain ⟨fs', dt', st, na, nv, h1, h2, h3', h4⟩ := ssqCwt_ok h
  rw [hlenx] at h1 h2 h4
  have hff : fs' = fs := by
    rw [hfs] at h1
    simp only [Except.ok.injEq, Rate.fin.injEq] at h1
    exact h1.1.symm
  subst hff
  have hF : (a.ssqArgs fs' st o.scales N o.Wx o.dWx).ssqFreqs = .arr d v := by
    simp only [SsqCwtArgs.ssqArgs, hv]
  constructor
  · obtain ⟨_, _, fr, _, _, _, _, e3, _, _, _, e7⟩ := ssqueeze_ok h4
    unfold ssqFreqsOf at e3
    rw [hF] at e3
    simp only at e3
    rw [if_neg (by simp [SsqCwtArgs.ssqArgs])] at e3
    obtain ⟨⟨st', nv'⟩, hi, e3⟩ := bind_ok e3
    simp only [Except.ok.injEq] at e3
    rw [e7, ← e3, if_pos (by simp [ssqReverses, SsqCwtArgs.ssqArgs, hfl])]
  · intro j hj r hr hne
    obtain ⟨c, -, hT⟩ := C221_collapse _ d v hF (Or.inr (Or.inr ⟨rfl, h3, b, s, hs, hgeo⟩)) (Or.inr (Or.inl rfl))
      (show 1 ≤ o.scales.length by omega) _ _ h4
    have := hT j hj (by
      intro i hi x hx
      have hu := tone_usedPhase N k A φ hk a hp han hg hsq (st := st) h1 h3' hpos i hi j hj
      have hx' : Spec.usedPhase (a.ssqArgs fs' st o.scales N o.Wx o.dWx)
        (applySqueezing a.squeezing o.scales.length (ent o.Wx)) i j = .fin x := hx
      rw [hu] at hx'
      split at hx'
      · simp only [Phase.fin.injEq] at hx'
        rw [← hx']; exact hle
      · simp at hx') r hr
    rw [this, if_neg (by simpa [Spec.firstRow, SsqCwtArgs.ssqArgs, hfl] using hne)]

/-- `exSsq` with the frequencies it returned. -/
noncomputable def exBack (t : Option PadType) : SsqCwtArgs := { exSsq t with ssqFreqs := .arr .f64 [4, 2, 1] }

theorem ssqueeze_exBack (t : Option PadType) (N : ℕ) (W dW : List (List ℂ)) :
    ∃ Tx, ssqueeze ((exBack t).ssqArgs 8 .log [1, 2, 4] N W dW) = .ok (Tx, [1, 2, 4]) := by
  set a := (exBack t).ssqArgs 8 .log [1, 2, 4] N W dW with ha
  have h1 : ssqProcessArgs a = .ok (1 / 8) := by
    have hc : checkSsqueezingArgs false .sum .maximal true none none false .cwt = .ok none := rfl
    unfold ssqProcessArgs
    rw [if_neg (by simp [ha, SsqCwtArgs.ssqArgs, exBack, exSsq]), if_neg]
    · simp only [ha, SsqCwtArgs.ssqArgs, exBack, exSsq, Option.isSome_some, hc, ok_bind, Option.isNone_some, Bool.false_eq_true,
        false_and, if_false, processFsT]
      norm_num
    · rintro ⟨w, hw, -⟩
      simp [ha, SsqCwtArgs.ssqArgs, exBack, exSsq] at hw
  have h2 : ssqScales a = .ok (some [1, 2, 4], some (.log, .int 1)) := by
    have hp : positiveInteger ((1 : ℤ) : ℚ) = .ok 1 := by rfl
    simp only [ha, SsqCwtArgs.ssqArgs, exBack, exSsq, ssqScales, processScales, infer124, ok_bind, pure_eq_ok, ne_eq,
      not_true_eq_false, false_and, if_false, hp]
    rfl
  have h3 : ssqFreqsOf a (1 / 8) (some [1, 2, 4]) (some (.log, .int 1)) =
      .ok ([4, 2, 1], .known .log) := by
    simp only [ssqFreqsOf, ha, SsqCwtArgs.ssqArgs, exBack, reduceCtorEq, if_false,
      infer_geometric (show FDtype.f64 ≠ .other by simp) geo421 (by simp) (by norm_num), ok_bind]
  have h4 : ∀ v, ssqConst a.transform (some [1, 2, 4]) (some (.log, .int 1)) v =
      .ok (.scalar (Real.log 2 / ((1 : ℤ) : ℝ))) := fun v => rfl
  have h6 : ∃ T, ssqKernel a (applySqueezing a.squeezing a.M a.Wx)
      [4, 2, 1] (.scalar (Real.log 2 / ((1 : ℤ) : ℝ))) true = .ok T := by
    rw [kernel_eq _ _ _ _ _ (Or.inr (Or.inl rfl))]
    unfold indexedSumOnfly onflyBody constArr processSsqParams paramsFindClosestLog
    rw [transition_geometric geo421 (by simp)]
    have hM : a.M ≠ 1 := by simp [ha, SsqCwtArgs.ssqArgs]
    simp only [ok_bind, pure_eq_ok, if_neg hM, if_true]
    exact ⟨_, rfl⟩
  obtain ⟨T, h6⟩ := h6
  refine ⟨T, ?_⟩
  have hr : ssqReverses a.transform a.flipud = true := rfl
  unfold ssqueeze
  simp only [h1, ok_bind, h2, h3, h4, SsqType.isLog, h6, pure_eq_ok, hr, if_true]
  rfl

theorem exBack_ok (t : Option PadType) (x : List ℝ) (hx : 0 < x.length) :
    ∃ o, ssqCwt x (exBack t) = .ok o ∧ o.scales = [1, 2, 4] ∧ o.freqs = [1, 2, 4] := by
  have hr : processFsT (some 8) none x.length = .ok (.fin 8 (1 / 8)) := by
    simp only [processFsT]; rw [if_neg (by norm_num)]
  have hd : cwtDt (exBack t).fs (exBack t).t x.length = .ok (8, 1 / 8) := by
    simp only [cwtDt, exBack, exSsq, hr, ok_bind]
  have hs : ∀ N, processScales (exBack t).scales N (some (exBack t).wavelet.sw) (ssqCwtNv (exBack t)) true
      (exBack t).downsample = .ok ([1, 2, 4], .log, 3, .int 1) := fun N => process124 _ _ _ _
  have hs' : processScales ((exBack t).cwtArgs 8 [1, 2, 4]).scales x.length
      (some ((exBack t).cwtArgs 8 [1, 2, 4]).wavelet.sw) none true ((exBack t).cwtArgs 8 [1, 2, 4]).downsample =
      .ok ([1, 2, 4], .log, 3, .int 1) := by
    have hp : positiveInteger ((1 : ℤ) : ℚ) = .ok 1 := by rfl
    simp only [SsqCwtArgs.cwtArgs, ScalesArg.dtype, exBack, exSsq, sc124, processScales, infer124, ok_bind, pure_eq_ok, ne_eq,
      not_true_eq_false, false_and, if_false, hp]
    rfl
  obtain ⟨W, dW, hW⟩ := C37_succeeds x ((exBack t).cwtArgs 8 [1, 2, 4]) t rfl hx 8 (1 / 8) hr
    (by simp [SsqCwtArgs.cwtArgs, exBack, exSsq]) [1, 2, 4] .log 3 (.int 1) none
    (by simp [SsqCwtArgs.cwtArgs]) (fun _ => rfl) hs'
  obtain ⟨Tx, hT⟩ := ssqueeze_exBack t x.length W dW
  refine ⟨⟨Tx, W, [1, 2, 4], [1, 2, 4], dW⟩, ?_, rfl, rfl⟩
  have hc : checkSsqueezingArgs false (exBack t).squeezing (exBack t).maprange true (some .trig)
      (exBack t).difforder (exBack t).getW .cwt = .ok none := rfl
  unfold ssqCwt
  simp only [hc, hd, hs, hW, hT, ok_bind]

/-- The hypotheses of `C221_tone` are met by a tone of 2 Hz and the frequencies 4, 2, 1: `Tx` is in the last row, labelled
4 Hz, not in the row of 2 Hz. -/
example : ∃ o, ssqCwt (Spec.tone 4 1 1 0) (exBack none) = .ok o ∧ o.freqs = [1, 2, 4] ∧
    ∀ j < 4, o.Tx (0 : ℕ) j = 0 ∧ o.Tx (1 : ℕ) j = 0 := by
  obtain ⟨o, h, hsc, hf⟩ := exBack_ok none (Spec.tone 4 1 1 0) (by simp [Spec.tone])
  refine ⟨o, h, hf, fun j hj => ?_⟩
  have := (C221_tone 4 1 1 0 (by norm_num) (exBack none) rfl (analytic_fnR none) (by simp [exBack, exSsq]) rfl rfl .f64
    [4, 2, 1] rfl (by simp) 2 (-1) (by norm_num) geo421 o h (by rw [hsc]; simp) 8 (1 / 8)
    (by simp only [exBack, exSsq, processFsT]; rw [if_neg (by norm_num)]) (by norm_num)).2 j hj
  exact ⟨this 0 (by rw [hsc]; simp) (by rw [hsc]; simp), this 1 (by rw [hsc]; simp) (by rw [hsc]; simp)⟩

end Ssq
