import Verif.Props.SsqFreqs
import Mathlib.Tactic.IntervalCases

/-!
# C26, C27: `ssqueeze` as a whole
-/
namespace Ssq
open Finset

namespace Spec

open Classical in
/-- The phase by which cells are moved: the given `w`, or, when it is absent, the one computed on the fly
where the modulus exceeds `gamma` (from the STFT rows' frequencies if given). -/
noncomputable def usedPhase (a : SsqArgs) (W : ℕ → ℕ → ℂ) (i j : ℕ) : Phase :=
  match a.w with
  | some w => w i j
  | none =>
    if a.gamma.getD 0 < ‖W i j‖ then
      match a.Sfs with
      | some f => .fin (stftFreq (f i) (W i j) ((a.dWx.getD fun _ _ => 0) i j))
      | none => .fin (cwtFreq (W i j) ((a.dWx.getD fun _ _ => 0) i j))
    else .inf

/-- The measure `d(scale)/scale` of row `i` of a CWT over scales `sv`: `ln 2 / nv` for logarithmic
scales, with `nv` per row if there are two densities, and `(s₁ - s₀)/sᵢ` for linear scales. -/
noncomputable def scaleMeasure (st : ScaleType) (nv : Nv) (sv : List ℝ) (i : ℕ) : ℝ :=
  match st, nv with
  | .linear, _ => (sv.getD 1 0 - sv.getD 0 0) / sv.getD i 0
  | _, .int n => Real.log 2 / n
  | _, .arr l => Real.log 2 / l.getD i 0
  | _, .none => 0

/-- The frequencies are laid out linearly: named so, or an array for the STFT, or an array recognised as
linear. -/
def LinearLayout (a : SsqArgs) : Prop :=
  match a.ssqFreqs with
  | .name s => s = .known .linear
  | .arr d v => a.transform = .stft ∨ ∃ nv, inferScaletype d v = .ok (.linear, nv)
  | .none => False

/-- The frequencies are laid out logarithmically: named so, or (CWT) an array recognised as such, or by
default if the scales are. -/
def LogLayout (a : SsqArgs) : Prop :=
  match a.ssqFreqs with
  | .name s => s = .known .log ∨ s = .known .logPiecewise
  | .arr d v => a.transform = .cwt ∧ ∃ st nv, inferScaletype d v = .ok (st, nv) ∧ st ≠ .linear
  | .none => a.transform = .cwt ∧ ∃ sh d sv st nv, a.scales = some (.arr sh d sv) ∧
      inferScaletype d sv = .ok (st, nv) ∧ st ≠ .linear

end Spec

theorem kernel_eq (a : SsqArgs) (W : ℕ → ℕ → ℂ) (v : List ℝ) (const : ConstArg) (ls : Bool)
    (h : a.w.isSome ∨ a.Sfs = none ∨ ls = false) :
    ssqKernel a W v const ls = indexedSumOnfly a.dev a.th a.M a.N (fun _ _ => 0) W
      (Spec.usedPhase a W) v const ls a.flipud := by
  unfold ssqKernel
  cases hw : a.w with
  | some w =>
    simp only
    congr 1
    funext i j
    simp [Spec.usedPhase, hw]
  | none =>
    simp only
    cases hS : a.Sfs with
    | none =>
      rw [fast_eq_onfly_cwt]
      congr 1
      funext i j
      simp [Spec.usedPhase, hw, hS]
    | some f =>
      have hl : ls = false := by simpa [hw, hS] using h
      subst hl
      rw [fast_eq_onfly_stft]
      congr 1
      funext i j
      simp [Spec.usedPhase, hw, hS]

/-- What a successful call went through. -/
theorem ssqueeze_ok {a : SsqArgs} {Tx : ℤ → ℕ → ℂ} {f : List ℝ} (h : ssqueeze a = .ok (Tx, f)) :
    ∃ dt sc fr const ls, ssqProcessArgs a = .ok dt ∧ ssqScales a = .ok sc ∧
      ssqFreqsOf a dt sc.1 sc.2 = .ok fr ∧ ssqConst a.transform sc.1 sc.2 fr.1 = .ok const ∧
      fr.2.isLog = .ok ls ∧
      ssqKernel a (applySqueezing a.squeezing a.M a.Wx) fr.1 const ls = .ok Tx ∧
      f = if ssqReverses a.transform a.flipud then fr.1.reverse else fr.1 := by
  unfold ssqueeze at h
  obtain ⟨dt, h1, h⟩ := bind_ok h
  obtain ⟨sc, h2, h⟩ := bind_ok h
  obtain ⟨fr, h3, h⟩ := bind_ok h
  obtain ⟨const, h4, h⟩ := bind_ok h
  obtain ⟨ls, h5, h⟩ := bind_ok h
  obtain ⟨T, h6, hz⟩ := bind_ok h
  simp only [pure_eq_ok, Except.ok.injEq, Prod.mk.injEq] at hz
  obtain ⟨rfl, hz⟩ := hz
  exact ⟨dt, sc, fr, const, ls, h1, h2, h3, h4, h5, h6, hz.symm⟩

/-- A call that gets past the argument checks has no negative phase. -/
theorem usedPhase_nonneg {a : SsqArgs} {dt : ℝ} (h : ssqProcessArgs a = .ok dt) (W : ℕ → ℕ → ℂ) :
    ∀ i < a.M, ∀ j < a.N, ∀ x, Spec.usedPhase a W i j = .fin x → 0 ≤ x := by
  intro i hi j hj x hx
  unfold Spec.usedPhase at hx
  cases hw : a.w with
  | some w =>
    rw [hw] at hx
    simp only at hx
    by_contra hneg
    unfold ssqProcessArgs at h
    split at h
    · simp at h
    · split at h
      · simp at h
      · next hh => exact hh ⟨w, hw, i, hi, j, hj, x, hx, not_le.mp hneg⟩
  | none =>
    rw [hw] at hx
    simp only at hx
    split at hx
    · cases hS : a.Sfs with
      | none =>
        rw [hS] at hx
        simp only [Phase.fin.injEq] at hx
        rw [← hx]; exact cwtFreq_nonneg _ _
      | some f =>
        rw [hS] at hx
        simp only [Phase.fin.injEq] at hx
        rw [← hx]; exact stftFreq_nonneg _ _ _
    · simp at hx

theorem infer_log_int {d : FDtype} {sv : List ℝ} {nv : Nv}
    (hi : inferScaletype d sv = .ok (.log, nv)) : ∃ n, nv = .int n := by
  unfold inferScaletype at hi
  simp only at hi
  split at hi
  · simp at hi
  split at hi
  · simp at hi
  split at hi
  · split at hi
    · simp at hi
    · simp only [Except.ok.injEq, Prod.mk.injEq, true_and] at hi
      exact ⟨_, hi.symm⟩
  split at hi
  · simp at hi
  split at hi
  · simp at hi
  obtain ⟨o, _, hi⟩ := bind_ok hi
  cases o with
  | none => simp [throw_eq_error] at hi
  | some k =>
    simp only at hi
    obtain ⟨_, _, hi⟩ := bind_ok hi
    simp at hi

theorem processScales_arr {sh : List ℕ} {d : FDtype} {sv : List ℝ} {N : ℕ} {up : Bool} {ds : ℕ}
    {st : ScaleType} {nv : Nv} (hi : inferScaletype d sv = .ok (st, nv))
    {r : List ℝ × ScaleType × ℕ × Nv}
    (h : processScales (.arr sh d sv) N none none up ds = .ok r) :
    r.1 = sv ∧ r.2.1 = st ∧ (st ≠ .linear → r.2.2.2 = nv) := by
  unfold processScales at h
  simp only at h
  split at h
  · simp at h
  · simp only [hi, ok_bind] at h
    split at h
    · next n =>
      simp only [ne_eq, not_true_eq_false, false_and, if_false] at h
      obtain ⟨m, hm, h⟩ := bind_ok h
      simp only [pure_eq_ok, Except.ok.injEq] at h
      subst h
      refine ⟨rfl, rfl, fun _ => ?_⟩
      unfold positiveInteger at hm
      split at hm
      · next hp =>
        simp only [Rat.num_intCast, Except.ok.injEq] at hm
        have h0 : 0 < n := by exact_mod_cast hp.1
        have : (m : ℤ) = n := by omega
        rw [this]
      · simp at hm
    · simp only [pure_eq_ok, Except.ok.injEq] at h
      subst h
      exact ⟨rfl, rfl, fun _ => rfl⟩
    · next h2 h1 =>
      simp only [pure_eq_ok, Except.ok.injEq] at h
      subst h
      refine ⟨rfl, rfl, fun hl => ?_⟩
      cases st with
      | linear => exact absurd rfl hl
      | logPiecewise => exact (h2 rfl).elim
      | log =>
        obtain ⟨n, hn⟩ := infer_log_int hi
        exact (h1 n rfl hn).elim

/-- For an STFT the constant is the spacing of the first two frequencies. -/
theorem const_stft {sc : Option (List ℝ) × Option (ScaleType × Nv)} {v : List ℝ} {const : ConstArg}
    {tr : Transform} (htr : tr = .stft)
    (h : ssqConst tr sc.1 sc.2 v = .ok const) : const = .scalar (v.getD 1 0 - v.getD 0 0) := by
  subst htr
  unfold ssqConst at h
  simp only at h
  split at h
  · simp only [Except.ok.injEq] at h; rw [← h]; rfl
  · simp at h

theorem constArr_scalar {M : ℕ} {x : ℝ} {c : List ℝ} (h : constArr M (.scalar x) = .ok c) :
    ∀ i < M, c.getD i 0 = x := by
  simp only [constArr] at h
  split at h
  · simp at h
  · simp only [Except.ok.injEq] at h
    intro i hi
    rw [← h, List.getD_eq_getElem _ _ (by simpa using hi), List.getElem_replicate]

theorem constArr_array {M : ℕ} {l : List ℝ} {c : List ℝ} (hl : l.length = M)
    (h : constArr M (.array l) = .ok c) : c = l := by
  simp only [constArr] at h
  split at h
  · simp at h
  · simpa [hl] using h.symm

/-- For a CWT over an array of scales, one per row, the constant is the scales' measure. -/
theorem const_cwt {a : SsqArgs} (htr : a.transform = .cwt) {sh : List ℕ} {d : FDtype} {sv : List ℝ}
    (hsc : a.scales = some (.arr sh d sv)) {st : ScaleType} {nv : Nv}
    (hi : inferScaletype d sv = .ok (st, nv)) (hlen : sv.length = a.M)
    (hnv : ∀ l, nv = .arr l → l.length = a.M)
    {sc : Option (List ℝ) × Option (ScaleType × Nv)} (h1 : ssqScales a = .ok sc) {v : List ℝ}
    {const : ConstArg} (h2 : ssqConst a.transform sc.1 sc.2 v = .ok const) {c : List ℝ}
    (h3 : constArr a.M const = .ok c) :
    ∀ i < a.M, c.getD i 0 = Spec.scaleMeasure st nv sv i := by
  unfold ssqScales at h1
  rw [htr, hsc] at h1
  simp only at h1
  obtain ⟨r, hr, hz⟩ := bind_ok h1
  clear h1
  obtain ⟨e1, e2, e3⟩ := processScales_arr hi hr
  obtain ⟨r1, r2, r3, r4⟩ := r
  simp only at e1 e2 e3
  subst e1 e2
  simp only [pure_eq_ok, Except.ok.injEq] at hz
  subst hz
  rw [htr] at h2
  intro i hiM
  unfold ssqConst at h2
  unfold Spec.scaleMeasure
  cases r2 with
  | linear =>
    simp only [Except.ok.injEq] at h2
    subst h2
    rw [constArr_array (by simpa using hlen) h3, List.getD_eq_getElem _ _ (by simp; omega),
      List.getElem_map]
    simp only
    rw [List.getD_eq_getElem _ _ (by omega : i < r1.length)]
  | log =>
    have e3 := e3 (by simp)
    subst e3
    cases r4 with
    | none => simp at h2
    | int n =>
      simp only [Except.ok.injEq] at h2
      subst h2
      rw [constArr_scalar h3 i hiM]
    | arr l =>
      simp only [Except.ok.injEq] at h2
      subst h2
      have hl := hnv l rfl
      rw [constArr_array (by simpa using hl) h3, List.getD_eq_getElem _ _ (by simp; omega),
        List.getElem_map]
      simp only
      rw [List.getD_eq_getElem _ _ (by omega : i < l.length)]
  | logPiecewise =>
    have e3 := e3 (by simp)
    subst e3
    cases r4 with
    | none => simp at h2
    | int n =>
      simp only [Except.ok.injEq] at h2
      subst h2
      rw [constArr_scalar h3 i hiM]
    | arr l =>
      simp only [Except.ok.injEq] at h2
      subst h2
      have hl := hnv l rfl
      rw [constArr_array (by simpa using hl) h3, List.getD_eq_getElem _ _ (by simp; omega),
        List.getElem_map]
      simp only
      rw [List.getD_eq_getElem _ _ (by omega : i < l.length)]

theorem linearLayout_ls {a : SsqArgs} (h : Spec.LinearLayout a) {dt : ℝ}
    {s : Option (List ℝ)} {cst : Option (ScaleType × Nv)} {fr : List ℝ × SsqType}
    (hf : ssqFreqsOf a dt s cst = .ok fr) : fr.2.isLog = .ok false := by
  unfold Spec.LinearLayout at h
  unfold ssqFreqsOf at hf
  cases ha : a.ssqFreqs with
  | none => rw [ha] at h; exact h.elim
  | name s =>
    rw [ha] at h hf
    simp only at h hf
    subst h
    split at hf
    · simp at hf
    · obtain ⟨r, _, hf⟩ := bind_ok hf
      simp only [Except.ok.injEq] at hf
      subst hf; rfl
  | arr d v =>
    rw [ha] at h hf
    simp only at h hf
    split at hf
    · simp only [Except.ok.injEq] at hf
      subst hf; rfl
    · next hn =>
      obtain ⟨nv, hi⟩ := h.resolve_left hn
      simp only [hi, ok_bind, Except.ok.injEq] at hf
      subst hf; rfl

theorem logLayout_ls {a : SsqArgs} (h : Spec.LogLayout a) {dt : ℝ}
    {sc : Option (List ℝ) × Option (ScaleType × Nv)} {fr : List ℝ × SsqType}
    (hs : ssqScales a = .ok sc)
    (hf : ssqFreqsOf a dt sc.1 sc.2 = .ok fr) : fr.2.isLog = .ok true := by
  unfold Spec.LogLayout at h
  unfold ssqFreqsOf at hf
  have hst : ∀ st : ScaleType, st ≠ .linear → (SsqType.known st).isLog = .ok true := by
    intro st hne; cases st <;> first | rfl | exact absurd rfl hne
  cases ha : a.ssqFreqs with
  | none =>
    rw [ha] at h hf
    simp only at h hf
    obtain ⟨htr, sh, d, sv, st, nv, hsc, hi, hne⟩ := h
    unfold ssqScales at hs
    rw [htr, hsc] at hs
    simp only at hs
    obtain ⟨r, hr, hs⟩ := bind_ok hs
    obtain ⟨_, e2, _⟩ := processScales_arr hi hr
    obtain ⟨r1, r2, r3, r4⟩ := r
    simp only at e2
    subst e2
    simp only [pure_eq_ok, Except.ok.injEq] at hs
    subst hs
    simp only at hf
    split at hf
    · simp at hf
    · obtain ⟨r, _, hf⟩ := bind_ok hf
      simp only [Except.ok.injEq] at hf
      subst hf; exact hst _ hne
  | name s =>
    rw [ha] at h hf
    simp only at h hf
    split at hf
    · simp at hf
    · obtain ⟨r, _, hf⟩ := bind_ok hf
      simp only [Except.ok.injEq] at hf
      subst hf
      rcases h with rfl | rfl <;> rfl
  | arr d v =>
    rw [ha] at h hf
    simp only at h hf
    obtain ⟨htr, st, nv, hi, hne⟩ := h
    rw [if_neg (by rw [htr]; simp)] at hf
    simp only [hi, ok_bind, Except.ok.injEq] at hf
    subst hf; exact hst _ hne

theorem nearest_reverse {v : List ℝ} {x : ℝ} {k : ℕ} (h : Spec.Nearest v x k) :
    Spec.Nearest v.reverse x (v.length - 1 - k) := by
  obtain ⟨hk, h⟩ := h
  refine ⟨by rw [List.length_reverse]; omega, fun i hi => ?_⟩
  rw [List.length_reverse] at hi
  rw [List.getElem_reverse, List.getElem_reverse]
  have := h (v.length - 1 - i) (by omega)
  have e : v.length - 1 - (v.length - 1 - k) = k := by omega
  simp only [e]
  exact this

theorem nearestLog_reverse {v : List ℝ} {x : ℝ} {k : ℕ} (h : Spec.NearestLog v x k) :
    Spec.NearestLog v.reverse x (v.length - 1 - k) := by
  obtain ⟨hk, h⟩ := h
  refine ⟨by rw [List.length_reverse]; omega, fun i hi => ?_⟩
  rw [List.length_reverse] at hi
  rw [List.getElem_reverse, List.getElem_reverse]
  have := h (v.length - 1 - i) (by omega)
  have e : v.length - 1 - (v.length - 1 - k) = k := by omega
  simp only [e]
  exact this

theorem squeezed_congr {M : ℕ} {W : ℕ → ℕ → ℂ} {c c' : ℕ → ℝ} {w : ℕ → ℕ → Phase}
    {row row' : ℝ → ℕ} (hc : ∀ i < M, c i = c' i) (hrow : ∀ x, row x = row' x) (r j : ℕ) :
    Spec.squeezed M W c w row r j = Spec.squeezed M W c' w row' r j := by
  have : row = row' := funext hrow
  subst this
  unfold Spec.squeezed
  apply sum_congr rfl
  intro i hi
  rw [hc i (mem_range.mp hi)]

/-- **C27 (partial), linear layout.** For the STFT, and for the CWT with `flipud=True`: if the returned
frequencies form a uniform grid (descending exactly when flipped), row `r` of `Tx` is the sum of the cells whose
phase is nearest to the `r`-th returned frequency, weighted by the frequency step (STFT) or the measure of
their scale (CWT). Missing: CWT with `flipud=False`
(`C27_refuted`). -/
theorem C27_linear_partial (a : SsqArgs) (Tx : ℤ → ℕ → ℂ) (f : List ℝ)
    (h : ssqueeze a = .ok (Tx, f)) (hlay : Spec.LinearLayout a)
    (hok : a.flipud = true ∨ a.transform = .stft)
    (a0 s : ℝ) (hu : Spec.Uniform (if a.flipud then f.reverse else f) a0 s)
    (hlen : f.length = a.M) (h2 : 2 ≤ a.M) (hs : eps64 ≤ s) :
    ∃ (c : ℕ → ℝ) (row : ℝ → ℕ), (a.transform = .stft → ∀ i < a.M, c i = s) ∧
      (a.transform = .cwt → ∀ sh d sv st nv, a.scales = some (.arr sh d sv) → sv.length = a.M →
        inferScaletype d sv = .ok (st, nv) → (∀ l, nv = .arr l → l.length = a.M) →
        ∀ i < a.M, c i = Spec.scaleMeasure st nv sv i) ∧
      (∀ x, Spec.Nearest f x (row x)) ∧
      ∀ r < a.M, ∀ j < a.N, Tx r j =
        Spec.squeezed a.M (applySqueezing a.squeezing a.M a.Wx) c
          (Spec.usedPhase a (applySqueezing a.squeezing a.M a.Wx)) row r j := by
  obtain ⟨dt, sc, fr, const, ls, h1, h2', h3, h4, h5, h6, h7⟩ := ssqueeze_ok h
  have hls : ls = false := by
    have := linearLayout_ls hlay h3
    rw [h5] at this; simpa using this
  subst hls
  rw [kernel_eq _ _ _ _ _ (Or.inr (Or.inr rfl))] at h6
  have hrev : ssqReverses a.transform a.flipud = a.flipud := by
    unfold ssqReverses
    rcases hok with hf | ht
    · rw [hf]; simp
    · rw [ht]; cases a.flipud <;> rfl
  rw [hrev] at h7
  have hv : (if a.flipud then f.reverse else f) = fr.1 := by
    rw [h7]; cases a.flipud <;> simp
  have hfl : fr.1.length = a.M := by
    rw [← hv, ← hlen]; cases a.flipud <;> simp
  rw [hv] at hu
  obtain ⟨c, hc, row, hn, _, hT⟩ := C18_lin a.dev a.th a.M a.N _ _ fr.1 a0 s hu hfl h2 hs const
    a.flipud Tx h6
  refine ⟨fun i => c.getD i 0, fun x => Spec.flip a.flipud a.M (row x), ?_, ?_, ?_, hT⟩
  · intro ht i hi
    have := const_stft ht h4
    subst this
    simp only
    rw [constArr_scalar hc i hi, List.getD_eq_getElem _ _ (by omega : 1 < fr.1.length),
      List.getD_eq_getElem _ _ (by omega : 0 < fr.1.length), hu, hu]
    push_cast; ring
  · intro ht sh d sv st nv hsc hl hi hnv i hiM
    exact const_cwt ht hsc hi hl hnv h2' h4 hc i hiM
  · intro x
    unfold Spec.flip
    rw [h7]
    cases a.flipud
    · exact hn x
    · simp only [if_true]
      rw [← hfl]
      exact nearest_reverse (hn x)

/-- Where rows go in the logarithmic layout, for the frequencies `v` before reversal. -/
theorem log_rows {a : SsqArgs} {Tx : ℤ → ℕ → ℂ} {f : List ℝ} (h : ssqueeze a = .ok (Tx, f))
    (hlay : Spec.LogLayout a) (hS : a.w.isSome ∨ a.Sfs = none) (hth : 0 < a.th)
    {v : List ℝ} (hv : v = if ssqReverses a.transform a.flipud then f.reverse else f)
    (hgrid : (3 ≤ v.length ∧ ∃ a0 s, Spec.Geometric v a0 s ∧ eps64 ≤ s) ∨
      (∃ q a0 d0 d1, Spec.TwoSegment v q a0 d0 d1 ∧ eps64 ≤ d0 ∧ eps64 ≤ d1 ∧ d0 ≠ d1))
    (hlen : v.length = a.M) :
    ∃ (dt : ℝ) (sc : Option (List ℝ) × Option (ScaleType × Nv)) (const : ConstArg) (c : List ℝ)
      (row : ℝ → ℕ),
      ssqProcessArgs a = .ok dt ∧ ssqScales a = .ok sc ∧ ssqConst a.transform sc.1 sc.2 v = .ok const ∧
      constArr a.M const = .ok c ∧
      (∀ x, 0 < x → Spec.NearestLog v x (row x)) ∧ row 0 = 0 ∧
      ∀ r < a.M, ∀ j < a.N, Tx r j =
        Spec.squeezed a.M (applySqueezing a.squeezing a.M a.Wx) (fun i => c.getD i 0)
          (Spec.usedPhase a (applySqueezing a.squeezing a.M a.Wx))
          (fun x => Spec.flip a.flipud a.M (row x)) r j := by
  obtain ⟨dt, sc, fr, const, ls, h1, h2', h3, h4, h5, h6, h7⟩ := ssqueeze_ok h
  have hls : ls = true := by
    have := logLayout_ls hlay h2' h3
    rw [h5] at this; simpa using this
  subst hls
  rw [kernel_eq _ _ _ _ _ (hS.elim Or.inl fun h => Or.inr (Or.inl h))] at h6
  have hvf : fr.1 = v := by
    rw [hv, h7]; split <;> simp
  rw [hvf] at h4 h6
  have hw := usedPhase_nonneg h1 (applySqueezing a.squeezing a.M a.Wx)
  rcases hgrid with ⟨h3', a0, s, hg, hs⟩ | ⟨q, a0, d0, d1, hg, hd0, hd1, hne⟩
  · obtain ⟨c, hc, row, hn, h0, _, hT⟩ := C19_log a.dev a.th a.M a.N _ _ v a0 s hg hlen (by omega) hs
      const a.flipud Tx hw h6
    exact ⟨dt, sc, const, c, row, h1, h2', h4, hc, hn, h0, hT⟩
  · obtain ⟨c, hc, row, hn, h0, _, hT⟩ := C20_piecewise a.dev a.th hth a.M a.N _ _ v q a0 d0 d1 hg
      hlen hd0 hd1 hne const a.flipud Tx hw h6
    exact ⟨dt, sc, const, c, row, h1, h2', h4, hc, hn, h0, hT⟩

/-- A logarithmic grid, ascending: geometric with at least three entries, or of two geometric segments. -/
def Spec.LogGrid (v : List ℝ) : Prop :=
  (3 ≤ v.length ∧ ∃ a0 s, Spec.Geometric v a0 s ∧ eps64 ≤ s) ∨
    (∃ q a0 d0 d1, Spec.TwoSegment v q a0 d0 d1 ∧ eps64 ≤ d0 ∧ eps64 ≤ d1 ∧ d0 ≠ d1)

/-- **C27 (partial), logarithmic layout.** For the CWT with `flipud=True` (the default of `ssq_cwt`):
if the returned frequencies are a descending logarithmic grid with one frequency per row, row `r` of
`Tx` is the sum of the cells whose phase is nearest (in log-frequency) to the `r`-th returned
frequency, weighted by the measure of their scale; phase 0 goes to the lowest frequency, which is the
last. Missing: `flipud=False` (`C27_refuted`). -/
theorem C27_log_partial (a : SsqArgs) (Tx : ℤ → ℕ → ℂ) (f : List ℝ)
    (h : ssqueeze a = .ok (Tx, f)) (hlay : Spec.LogLayout a) (htr : a.transform = .cwt)
    (hok : a.flipud = true) (hS : a.w.isSome ∨ a.Sfs = none) (hth : 0 < a.th)
    (hgrid : Spec.LogGrid f.reverse) (hlen : f.length = a.M)
    (sh : List ℕ) (d : FDtype) (sv : List ℝ) (hsc : a.scales = some (.arr sh d sv)) (st : ScaleType)
    (nv : Nv) (hi : inferScaletype d sv = .ok (st, nv)) (hsl : sv.length = a.M)
    (hnv : ∀ l, nv = .arr l → l.length = a.M) :
    ∃ row : ℝ → ℕ, (∀ x, 0 < x → Spec.NearestLog f x (row x)) ∧ row 0 = a.M - 1 ∧
      ∀ r < a.M, ∀ j < a.N, Tx r j =
        Spec.squeezed a.M (applySqueezing a.squeezing a.M a.Wx) (Spec.scaleMeasure st nv sv)
          (Spec.usedPhase a (applySqueezing a.squeezing a.M a.Wx)) row r j := by
  have hrev : ssqReverses a.transform a.flipud = true := by rw [htr, hok]; rfl
  obtain ⟨dt, sc, const, c, row, h1, h2, h3, h4, hn, h0, hT⟩ := log_rows h hlay hS hth
    (v := f.reverse) (by rw [hrev]; rfl) hgrid (by simpa using hlen)
  have hcc := const_cwt htr hsc hi hsl hnv h2 h3 h4
  refine ⟨fun x => Spec.flip a.flipud a.M (row x), ?_, ?_, ?_⟩
  · intro x hx
    have := nearestLog_reverse (hn x hx)
    rw [List.reverse_reverse, List.length_reverse, hlen] at this
    unfold Spec.flip
    rw [hok]
    exact this
  · simp [Spec.flip, hok, h0]
  · intro r hr j hj
    rw [hT r hr j hj]
    exact squeezed_congr hcc (fun _ => rfl) r j

/-- **C27, the failing case.** For the CWT with `flipud=False` the returned frequencies are in the
opposite order: row `r` of `Tx` holds the cells nearest to the frequency at position `M - 1 - r`. -/
theorem C27_noflip (a : SsqArgs) (Tx : ℤ → ℕ → ℂ) (f : List ℝ)
    (h : ssqueeze a = .ok (Tx, f)) (hlay : Spec.LogLayout a) (htr : a.transform = .cwt)
    (hok : a.flipud = false) (hS : a.w.isSome ∨ a.Sfs = none) (hth : 0 < a.th)
    (hgrid : Spec.LogGrid f.reverse) (hlen : f.length = a.M)
    (sh : List ℕ) (d : FDtype) (sv : List ℝ) (hsc : a.scales = some (.arr sh d sv)) (st : ScaleType)
    (nv : Nv) (hi : inferScaletype d sv = .ok (st, nv)) (hsl : sv.length = a.M)
    (hnv : ∀ l, nv = .arr l → l.length = a.M) :
    ∃ row : ℝ → ℕ, (∀ x, 0 < x → Spec.NearestLog f x (row x)) ∧
      ∀ r < a.M, ∀ j < a.N, Tx r j =
        Spec.squeezed a.M (applySqueezing a.squeezing a.M a.Wx) (Spec.scaleMeasure st nv sv)
          (Spec.usedPhase a (applySqueezing a.squeezing a.M a.Wx)) (fun x => a.M - 1 - row x) r j := by
  have hrev : ssqReverses a.transform a.flipud = true := by rw [htr, hok]; rfl
  obtain ⟨dt, sc, const, c, row, h1, h2, h3, h4, hn, h0, hT⟩ := log_rows h hlay hS hth
    (v := f.reverse) (by rw [hrev]; rfl) hgrid (by simpa using hlen)
  have hcc := const_cwt htr hsc hi hsl hnv h2 h3 h4
  have hM : 1 ≤ a.M := by
    obtain ⟨hk, _⟩ := hn 1 one_pos
    rw [List.length_reverse] at hk; omega
  have hle : ∀ x, row x ≤ a.M - 1 ∨ x ≤ 0 := by
    intro x
    by_cases hx : 0 < x
    · obtain ⟨hk, _⟩ := hn x hx
      rw [List.length_reverse] at hk; left; omega
    · right; exact not_lt.mp hx
  have hw := usedPhase_nonneg h1 (applySqueezing a.squeezing a.M a.Wx)
  refine ⟨fun x => a.M - 1 - row x, ?_, ?_⟩
  · intro x hx
    have := nearestLog_reverse (hn x hx)
    rwa [List.reverse_reverse, List.length_reverse, hlen] at this
  · intro r hr j hj
    rw [hT r hr j hj]
    unfold Spec.squeezed
    apply sum_congr rfl
    intro i hi
    simp only
    rw [hcc i (mem_range.mp hi)]
    rcases hp : Spec.usedPhase a (applySqueezing a.squeezing a.M a.Wx) i j with _ | x
    · rfl
    · have hx := hw i (mem_range.mp hi) j hj x hp
      have : row x ≤ a.M - 1 := by
        rcases hle x with h | h
        · exact h
        · have : x = 0 := le_antisymm h hx
          rw [this, h0]; omega
      simp only [Spec.flip, hok, Bool.false_eq_true, if_false,
        show a.M - 1 - (a.M - 1 - row x) = row x by omega]

/-- The full statement of **C27** for the logarithmic CWT layout: whatever `flipud`. -/
def C27_full : Prop :=
  ∀ (a : SsqArgs) (Tx : ℤ → ℕ → ℂ) (f : List ℝ), ssqueeze a = .ok (Tx, f) → Spec.LogLayout a →
    a.transform = .cwt → (a.w.isSome ∨ a.Sfs = none) → 0 < a.th → Spec.LogGrid f.reverse →
    f.length = a.M →
    ∃ (c : ℕ → ℝ) (row : ℝ → ℕ), (∀ x, 0 < x → Spec.NearestLog f x (row x)) ∧
      ∀ r < a.M, ∀ j < a.N, Tx r j =
        Spec.squeezed a.M (applySqueezing a.squeezing a.M a.Wx) c
          (Spec.usedPhase a (applySqueezing a.squeezing a.M a.Wx)) row r j

/-- A CWT-shaped call over the scales 1, 2, 4 and frequencies 1, 2, 4 with one active cell of phase 1. -/
noncomputable def ex124 (flipud : Bool) : SsqArgs where
  dev := .cpu
  M := 3
  N := 1
  Wx := fun _ _ => 1
  w := some fun i _ => if i = 0 then .fin 1 else .inf
  dWx := none
  ssqFreqs := .arr .f64 [1, 2, 4]
  scales := some (.arr [3] .f64 [1, 2, 4])
  Sfs := none
  fs := none
  t := none
  squeezing := .sum
  maprange := .maximal
  wavelet := none
  gamma := none
  wasPadded := true
  flipud := flipud
  transform := .cwt
  th := 1

theorem infer124 : inferScaletype .f64 [1, 2, 4] = .ok (.log, .int 1) := by
  rw [infer_geometric (by simp) geo124 (by simp) one_ne_zero]
  have : roundHalfEven ((1 : ℝ) / 1) = 1 := by
    have := rhe_intCast (K := ℝ) 1
    simpa using this
  rw [this]

theorem ex124_ok (b : Bool) : ∃ Tx, ssqueeze (ex124 b) = .ok (Tx, [4, 2, 1]) := by
  have h1 : ssqProcessArgs (ex124 b) = .ok 1 := by
    have hc : checkSsqueezingArgs false .sum .maximal false none none false .cwt = .ok none := rfl
    unfold ssqProcessArgs
    rw [if_neg (by simp [ex124]), if_neg]
    · simp only [ex124, Option.isSome_none, hc, ok_bind, Option.isNone_some, Bool.false_eq_true,
        false_and, if_false, processFsT]
      norm_num
    · rintro ⟨w, hw, i, hi, j, hj, x, hx, hneg⟩
      simp only [ex124, Option.some.injEq] at hw
      subst hw
      simp only at hx
      split at hx
      · simp only [Phase.fin.injEq] at hx; linarith
      · simp at hx
  have h2 : ssqScales (ex124 b) = .ok (some [1, 2, 4], some (.log, .int 1)) := by
    have hp : positiveInteger ((1 : ℤ) : ℚ) = .ok 1 := by rfl
    simp only [ssqScales, ex124, processScales, infer124, ok_bind, pure_eq_ok, ne_eq,
      not_true_eq_false, false_and, if_false, hp]
    rfl
  have h3 : ssqFreqsOf (ex124 b) 1 (some [1, 2, 4]) (some (.log, .int 1)) =
      .ok ([1, 2, 4], .known .log) := by
    simp only [ssqFreqsOf, ex124, reduceCtorEq, if_false, infer124, ok_bind]
  have h4 : ∀ v, ssqConst (ex124 b).transform (some [1, 2, 4]) (some (.log, .int 1)) v =
      .ok (.scalar (Real.log 2 / ((1 : ℤ) : ℝ))) := fun v => rfl
  have h6 : ∃ T, ssqKernel (ex124 b) (applySqueezing (ex124 b).squeezing (ex124 b).M (ex124 b).Wx)
      [1, 2, 4] (.scalar (Real.log 2 / ((1 : ℤ) : ℝ))) true = .ok T := by
    rw [kernel_eq _ _ _ _ _ (Or.inl rfl)]
    unfold indexedSumOnfly onflyBody constArr processSsqParams paramsFindClosestLog
    rw [transition_geometric geo124 (by simp)]
    have hM : (ex124 b).M ≠ 1 := by simp [ex124]
    simp only [ok_bind, pure_eq_ok, if_neg hM, if_true]
    exact ⟨_, rfl⟩
  obtain ⟨T, h6⟩ := h6
  refine ⟨T, ?_⟩
  have hr : ssqReverses (ex124 b).transform (ex124 b).flipud = true := by cases b <;> rfl
  unfold ssqueeze
  simp only [h1, ok_bind, h2, h3, h4, SsqType.isLog, h6, pure_eq_ok, hr, if_true]
  rfl

theorem loggrid124 : Spec.LogGrid ([4, 2, 1] : List ℝ).reverse :=
  Or.inl ⟨by simp, 0, 1, geo124, eps64_le_one⟩

theorem loglayout124 (b : Bool) : Spec.LogLayout (ex124 b) :=
  ⟨rfl, .log, .int 1, infer124, by simp⟩

/-- C27 hypotheses are met by a concrete call. -/
example : ∃ Tx f, ssqueeze (ex124 true) = .ok (Tx, f) ∧ Spec.LogLayout (ex124 true) ∧
    Spec.LogGrid f.reverse ∧ f.length = (ex124 true).M :=
  (ex124_ok true).imp fun _ h => ⟨_, h, loglayout124 _, loggrid124, rfl⟩

/-- **C27 refuted.** With `flipud=False` a CWT cell of phase 1 is put in row 0, which the returned
frequencies `[4, 2, 1]` label as 4. -/
theorem C27_refuted : ¬ C27_full := by
  intro H
  obtain ⟨Tx, hT⟩ := ex124_ok false
  obtain ⟨c, row, hn, hrow⟩ := H _ Tx _ hT (loglayout124 _) rfl (Or.inl rfl) one_pos loggrid124 rfl
  obtain ⟨row', hn', hrow'⟩ := C27_noflip _ Tx _ hT (loglayout124 _) rfl rfl (Or.inl rfl) one_pos
    loggrid124 rfl [3] .f64 [1, 2, 4] rfl .log (.int 1) infer124 rfl (by simp)
  have key : ∀ k, Spec.NearestLog [4, 2, 1] 1 k → k = 2 := by
    rintro k ⟨hk, hh⟩
    have h2 := hh 2 (by simp)
    have hl2 : 0 < Real.logb 2 2 := Real.logb_pos (by norm_num) (by norm_num)
    have hl4 : 0 < Real.logb 2 4 := Real.logb_pos (by norm_num) (by norm_num)
    simp only [List.length_cons, List.length_nil] at hk
    interval_cases k
    · simp only [List.getElem_cons_zero, List.getElem_cons_succ, Real.logb_one, sub_self,
        abs_zero, zero_sub, abs_neg] at h2
      rw [abs_of_pos hl4] at h2
      linarith
    · simp only [List.getElem_cons_zero, List.getElem_cons_succ, Real.logb_one, sub_self,
        abs_zero, zero_sub, abs_neg] at h2
      rw [abs_of_pos hl2] at h2
      linarith
    · rfl
  have e1 := key _ (hn 1 one_pos)
  have e2 := key _ (hn' 1 one_pos)
  have a1 := hrow 0 (by simp [ex124]) 0 (by simp [ex124])
  have a2 := hrow' 0 (by simp [ex124]) 0 (by simp [ex124])
  rw [a1] at a2
  have hl : Real.log 2 ≠ 0 := (Real.log_pos (by norm_num)).ne'
  simp [Spec.squeezed, Spec.usedPhase, ex124, applySqueezing, sum_range_succ, e1, e2,
    Spec.scaleMeasure] at a2
  have : Complex.log 2 = ((Real.log 2 : ℝ) : ℂ) := by
    rw [Complex.ofReal_log (by norm_num)]; norm_num
  rw [this] at a2
  exact hl (by exact_mod_cast a2.symm)

/-! ## C26 -/

/-- The same call with the phase computed beforehand (`get_w=True`). -/
noncomputable def withPhase (a : SsqArgs) (W dW : ℕ → ℕ → ℂ) (gamma : ℝ) : SsqArgs :=
  { a with
    Wx := W
    dWx := none
    gamma := some gamma
    w := some (match a.Sfs with
      | some f => phaseStft gamma f W dW
      | none => phaseCwt gamma W dW) }

/-- The same call with the phase computed on the fly (`get_w=False`). -/
noncomputable def withoutPhase (a : SsqArgs) (W dW : ℕ → ℕ → ℂ) (gamma : ℝ) : SsqArgs :=
  { a with Wx := W, dWx := some dW, gamma := some gamma, w := none }

/-- The full statement of **C26**, for transforms without a cell of modulus exactly `gamma` (see C23 for
those). -/
def C26_full : Prop :=
  ∀ (a : SsqArgs) (W dW : ℕ → ℕ → ℂ) (gamma : ℝ), (∀ i j, ‖W i j‖ ≠ gamma) →
    (a.Sfs.isSome → a.transform = .stft ∧ Spec.LinearLayout a) →
    ∀ Tx f Tx' f', ssqueeze (withPhase a W dW gamma) = .ok (Tx, f) →
      ssqueeze (withoutPhase a W dW gamma) = .ok (Tx', f') →
      f = f' ∧ ∀ r < a.M, ∀ j < a.N, Tx r j = Tx' r j

theorem phase_nonneg (a : SsqArgs) (W dW : ℕ → ℕ → ℂ) (gamma : ℝ) (M N : ℕ) (w : ℕ → ℕ → Phase)
    (hw : (withPhase a W dW gamma).w = some w) : ¬ hasNegative M N w := by
  rintro ⟨i, _, j, _, x, hx, hneg⟩
  simp only [withPhase, Option.some.injEq] at hw
  subst hw
  cases hS : a.Sfs with
  | none =>
    rw [hS] at hx
    simp only [phaseCwt] at hx
    split at hx
    · simp at hx
    · simp only [Phase.fin.injEq] at hx
      have := cwtFreq_nonneg (W i j) (dW i j); linarith
  | some f =>
    rw [hS] at hx
    simp only [phaseStft] at hx
    split at hx
    · simp at hx
    · simp only [Phase.fin.injEq] at hx
      have := stftFreq_nonneg (f i) (W i j) (dW i j); linarith

/-- **C26 (partial).** With `squeezing='sum'` and no cell of modulus exactly `gamma`, `ssqueeze` does the
same (the same `Tx` and frequencies, or the same error) whether the phase is computed beforehand or on
the fly. Missing: the other squeezing options (`C26_refuted`). -/
theorem C26_sum_partial (a : SsqArgs) (hsum : a.squeezing = .sum) (W dW : ℕ → ℕ → ℂ) (gamma : ℝ)
    (hne : ∀ i j, ‖W i j‖ ≠ gamma)
    (hS : a.Sfs.isSome → a.transform = .stft ∧ Spec.LinearLayout a) :
    ssqueeze (withPhase a W dW gamma) = ssqueeze (withoutPhase a W dW gamma) := by
  have h1 : ssqProcessArgs (withPhase a W dW gamma) = ssqProcessArgs (withoutPhase a W dW gamma) := by
    unfold ssqProcessArgs
    rw [if_neg (by simp [withPhase]), if_neg (by
      rintro ⟨w, hw, hn⟩; exact phase_nonneg a W dW gamma _ _ w hw hn)]
    symm
    rw [if_neg (by simp [withoutPhase]), if_neg (by simp [withoutPhase])]
    rfl
  have h2 : ssqScales (withPhase a W dW gamma) = ssqScales (withoutPhase a W dW gamma) := rfl
  have h3 : ssqFreqsOf (withPhase a W dW gamma) = ssqFreqsOf (withoutPhase a W dW gamma) := rfl
  unfold ssqueeze
  rw [h1, h2, h3]
  rcases ssqProcessArgs (withoutPhase a W dW gamma) with e | dt
  · rfl
  simp only [ok_bind]
  rcases ssqScales (withoutPhase a W dW gamma) with e | sc
  · rfl
  simp only [ok_bind]
  rcases hfr : ssqFreqsOf (withoutPhase a W dW gamma) dt sc.1 sc.2 with e | fr
  · rfl
  simp only [ok_bind]
  have h4 : (withPhase a W dW gamma).transform = (withoutPhase a W dW gamma).transform := rfl
  rw [h4]
  rcases ssqConst (withoutPhase a W dW gamma).transform sc.1 sc.2 fr.1 with e | const
  · rfl
  simp only [ok_bind]
  rcases hls : fr.2.isLog with e | ls
  · rfl
  simp only [ok_bind]
  have hW : applySqueezing (withPhase a W dW gamma).squeezing (withPhase a W dW gamma).M
      (withPhase a W dW gamma).Wx = W := by simp [withPhase, hsum, applySqueezing]
  have hW' : applySqueezing (withoutPhase a W dW gamma).squeezing (withoutPhase a W dW gamma).M
      (withoutPhase a W dW gamma).Wx = W := by simp [withoutPhase, hsum, applySqueezing]
  rw [hW, hW']
  have h6 : ssqKernel (withPhase a W dW gamma) W fr.1 const ls =
      ssqKernel (withoutPhase a W dW gamma) W fr.1 const ls := by
    unfold ssqKernel
    simp only [withPhase, withoutPhase, Option.getD_some]
    cases hSf : a.Sfs with
    | none => exact C23_cwt_partial _ _ _ _ _ _ _ _ _ _ _ _ hne
    | some f =>
      obtain ⟨_, hl⟩ := hS (by rw [hSf]; rfl)
      have hl' : Spec.LinearLayout (withoutPhase a W dW gamma) := hl
      have := linearLayout_ls hl' hfr
      rw [hls] at this
      simp only [Except.ok.injEq] at this
      subst this
      exact C23_stft_partial _ _ _ _ _ _ _ _ _ _ _ _ hne
  rw [h6]
  rfl

/-- An STFT-shaped call of two rows and one column with the given squeezing. -/
noncomputable def ex01 (sq : Squeezing) : SsqArgs where
  dev := .cpu
  M := 2
  N := 1
  Wx := fun _ _ => 1
  w := none
  dWx := none
  ssqFreqs := .arr .f64 [0, 1]
  scales := none
  Sfs := some fun i => i
  fs := none
  t := none
  squeezing := sq
  maprange := .maximal
  wavelet := none
  gamma := none
  wasPadded := true
  flipud := false
  transform := .stft
  th := 1

theorem ex01_ok {sq : Squeezing} (hsq : Spec.SqueezingOk sq) (w : Option (ℕ → ℕ → Phase))
    (W dW : ℕ → ℕ → ℂ) (dWx : Option (ℕ → ℕ → ℂ)) (hw : ∀ w', w = some w' → ¬ hasNegative 2 1 w')
    (hd : w = none → dWx.isSome) :
    ∃ Tx, ssqueeze { ex01 sq with w := w, Wx := W, dWx := dWx, gamma := some (1 / 2) } =
      .ok (Tx, [0, 1]) := by
  set a : SsqArgs := { ex01 sq with w := w, Wx := W, dWx := dWx, gamma := some (1 / 2) } with ha
  have hc : checkSsqueezingArgs false sq .maximal false none none false .stft = .ok none := by
    rw [C29_check_iff]
    exact ⟨Or.inr rfl, hsq, Or.inr (Or.inr (Or.inl rfl)), Or.inl rfl, rfl⟩
  have h1 : ssqProcessArgs a = .ok 1 := by
    unfold ssqProcessArgs
    rw [if_neg, if_neg]
    · simp only [ha, ex01, Option.isSome_none, hc, ok_bind, reduceCtorEq, and_false, if_false,
        processFsT]
      norm_num
    · rintro ⟨w', hw', hn⟩
      exact hw w' hw' hn
    · rintro ⟨hn, h⟩
      have hn' : w = none := by simpa [ha] using hn
      have := hd hn'
      rcases h with h | h
      · simp only [ha] at h
        cases hdx : dWx with
        | none => rw [hdx] at this; simp at this
        | some _ => rw [hdx] at h; simp at h
      · simp [ha] at h
  have h2 : ssqScales a = .ok (none, none) := rfl
  have h3 : ssqFreqsOf a 1 none none = .ok ([0, 1], .known .linear) := by
    simp only [ssqFreqsOf, ha, ex01, if_true]
  have h4 : ssqConst a.transform none none [0, 1] = .ok (.scalar (1 - 0)) := rfl
  have h6 : ∃ T, ssqKernel a (applySqueezing a.squeezing a.M a.Wx)
      [0, 1] (.scalar (1 - 0)) false = .ok T := by
    rw [kernel_eq _ _ _ _ _ (Or.inr (Or.inr rfl))]
    unfold indexedSumOnfly onflyBody constArr processSsqParams
    have hM : a.M ≠ 1 := by simp [ha, ex01]
    simp only [ok_bind, pure_eq_ok, if_neg hM, Bool.false_eq_true, if_false]
    exact ⟨_, rfl⟩
  obtain ⟨T, h6⟩ := h6
  refine ⟨T, ?_⟩
  have hr : ssqReverses a.transform a.flipud = false := rfl
  unfold ssqueeze
  simp only [h1, ok_bind, h2, h3, h4, SsqType.isLog, h6, pure_eq_ok, hr, Bool.false_eq_true,
    if_false]

theorem uni01 : Spec.Uniform [0, 1] 0 1 := by
  intro i hi
  simp only [List.length_cons, List.length_nil] at hi
  match i, hi with
  | 0, _ => simp
  | 1, _ => simp

theorem nearest01 {k : ℕ} {x : ℝ} (h : Spec.Nearest [0, 1] x k) (hx : x = k ∨ x = 1 - k) (hk : k < 2) :
    x = k := by
  rcases hx with hx | hx
  · exact hx
  · obtain ⟨_, hh⟩ := h
    interval_cases k
    · have := hh 1 (by simp)
      simp only [List.getElem_cons_zero, List.getElem_cons_succ] at this
      subst hx; norm_num at this
    · have := hh 0 (by simp)
      simp only [List.getElem_cons_zero, List.getElem_cons_succ] at this
      subst hx; norm_num at this

/-- **C26 refuted.** With `squeezing='abs'` the on-the-fly phase is computed from `abs(Wx)` instead of
`Wx`. Witness: two STFT rows at frequencies 0 and 1, `Sx = [i, 0]`, `dSx = [-2π, 0]`: the true phase of
the first cell is 1, and `get_w=True` puts it in row 1; `get_w=False` leaves it in row 0. -/
theorem C26_refuted : ¬ C26_full := by
  intro H
  let W : ℕ → ℕ → ℂ := fun i _ => if i = 0 then Complex.I else 0
  let dW : ℕ → ℕ → ℂ := fun i _ => if i = 0 then -(2 * Real.pi : ℝ) else 0
  have hpi : Real.pi ≠ 0 := Real.pi_ne_zero
  obtain ⟨Tx, h1⟩ := ex01_ok (sq := .abs) (Or.inr (Or.inr (Or.inl rfl)))
    (some (phaseStft (1 / 2) (fun i => (i : ℝ)) W dW)) W dW none
    (by intro w' hw'; exact phase_nonneg (ex01 .abs) W dW (1 / 2) 2 1 w' hw') (by simp)
  obtain ⟨Tx', h2⟩ := ex01_ok (sq := .abs) (Or.inr (Or.inr (Or.inl rfl))) none W dW (some dW)
    (by simp) (by simp)
  have hl : ∀ w dWx, Spec.LinearLayout
      { ex01 .abs with w := w, Wx := W, dWx := dWx, gamma := some (1 / 2) } := fun _ _ => Or.inl rfl
  obtain ⟨-, heq⟩ := H (ex01 .abs) W dW (1 / 2) (by
      intro i j
      by_cases h : i = 0
      · simp [W, h]
      · simp [W, h]) (fun _ => ⟨rfl, Or.inl rfl⟩) Tx [0, 1] Tx' [0, 1] h1 h2
  have e := heq 0 (by simp [ex01]) 0 (by simp [ex01])
  obtain ⟨c, row, hc, -, hn, hr⟩ := C27_linear_partial _ Tx _ h1 (hl _ _) (Or.inr rfl) 0 1 uni01 rfl
    (le_refl 2) eps64_le_one
  obtain ⟨c', row', hc', -, hn', hr'⟩ := C27_linear_partial _ Tx' _ h2 (hl _ _) (Or.inr rfl) 0 1 uni01 rfl
    (le_refl 2) eps64_le_one
  have a1 := hr 0 (by simp [ex01]) 0 (by simp [ex01])
  have a2 := hr' 0 (by simp [ex01]) 0 (by simp [ex01])
  have hc0 : c' 0 = 1 := hc' rfl 0 (by simp [ex01])
  have r1 : row 1 = 1 := by
    obtain ⟨hk, _⟩ := hn 1
    simp only [List.length_cons, List.length_nil] at hk
    have := nearest01 (hn 1) (by interval_cases row 1 <;> simp) (by simpa using hk)
    exact_mod_cast this.symm
  have r0 : row' 0 = 0 := by
    obtain ⟨hk, _⟩ := hn' 0
    simp only [List.length_cons, List.length_nil] at hk
    have := nearest01 (hn' 0) (by interval_cases row' 0 <;> simp) (by simpa using hk)
    exact_mod_cast this.symm
  have w1 : phaseStft (1 / 2) (fun i => (i : ℝ)) W dW 0 0 = .fin 1 := by
    simp only [phaseStft, W, dW, if_true, Complex.norm_I, stftFreq]
    rw [if_neg (by norm_num)]
    simp [hpi]
  have w1' : phaseStft (1 / 2) (fun i => (i : ℝ)) W dW 1 0 = .inf := by
    simp only [phaseStft, W, dW, one_ne_zero, if_false, norm_zero]
    rw [if_pos (by norm_num)]
  have t1 : Tx (0 : ℕ) 0 = 0 := by
    rw [a1]
    simp only [Spec.squeezed, ex01, sum_range_succ, range_zero, sum_empty, Spec.usedPhase, w1, w1', r1]
    simp
  have t2 : Tx' (0 : ℕ) 0 = 1 := by
    have f0 : stftFreq 0 1 (-((2 * Real.pi : ℝ) : ℂ)) = 0 := by
      unfold stftFreq
      rw [← Complex.ofReal_neg, Complex.ofReal_im, Complex.one_im]
      simp
    have u0 : Spec.usedPhase { ex01 .abs with w := none, Wx := W, dWx := some dW, gamma := some (1 / 2) }
        (applySqueezing .abs 2 W) 0 0 = .fin 0 := by
      simp only [Spec.usedPhase, applySqueezing, W, dW, ex01, if_true, Complex.norm_I,
        Complex.ofReal_one, norm_one, Option.getD_some, Nat.cast_zero, f0]
      rw [if_pos (by norm_num)]
    have u1 : Spec.usedPhase { ex01 .abs with w := none, Wx := W, dWx := some dW, gamma := some (1 / 2) }
        (applySqueezing .abs 2 W) 1 0 = .inf := by
      simp only [Spec.usedPhase, applySqueezing, W, dW, ex01, one_ne_zero, if_false, norm_zero,
        Complex.ofReal_zero, Option.getD_some]
      rw [if_neg (by norm_num)]
    refine a2.trans ?_
    change Spec.squeezed 2 (applySqueezing .abs 2 W) c' (Spec.usedPhase { ex01 .abs with
      w := none, Wx := W, dWx := some dW, gamma := some (1 / 2) } (applySqueezing .abs 2 W)) row' 0 0 = 1
    unfold Spec.squeezed
    rw [sum_range_succ, sum_range_succ, range_zero, sum_empty, u0, u1]
    simp only [r0, if_true, hc0]
    simp [applySqueezing, W]
  rw [t1, t2] at e
  exact zero_ne_one e

/-- Hypotheses of `C26_sum_partial` and `C27_linear_partial` are met by a concrete call. -/
example (W dW : ℕ → ℕ → ℂ) : ∃ Tx f, ssqueeze (withoutPhase (ex01 .sum) W dW (1 / 2)) = .ok (Tx, f) ∧
    Spec.LinearLayout (withoutPhase (ex01 .sum) W dW (1 / 2)) ∧ Spec.Uniform f 0 1 ∧ f.length = 2 :=
  (ex01_ok (sq := .sum) (Or.inl rfl) none W dW (some dW) (by simp) (by simp)).imp
    fun _ h => ⟨_, h, Or.inl rfl, uni01, rfl⟩

end Ssq
