import Verif.Props.Superpose
import Verif.Props.StftUnits

/-!
# C159: the STFT is linear, and components that do not overlap are squeezed independently
-/
namespace Ssq
open Finset

namespace Spec

/-- In column `j` no two of the transforms `(S 0, dS 0), …, (S (C-1), dS (C-1))` have a cell in common in which the transform or its derivative is not zero. -/
def DisjointCols (C M : ℕ) (S dS : ℕ → List (List ℂ)) (j : ℕ) : Prop :=
  ∀ i < M, ∀ c < C, ∀ d < C, c ≠ d → ((entC (S c) i j = 0 ∧ entC (dS c) i j = 0) ∨ (entC (S d) i j = 0 ∧ entC (dS d) i j = 0))

end Spec

theorem ext_mix {N C : ℕ} {xs : ℕ → List ℝ} (hl : ∀ c < C, (xs c).length = N) {t : PadType} {E : ℕ → ℤ → ℝ} (hE : ∀ c < C, Spec.IsExtension t (xs c) (E c)) :
    Spec.IsExtension t (Spec.mix N C xs) (fun i => ∑ c ∈ range C, E c i) := by
  refine ⟨fun i h => ?_, ?_⟩
  · rw [mix_length] at h
    simp only [Spec.mix, List.getElem_map, List.getElem_range]
    refine sum_congr rfl fun c hc => ?_
    have hc := mem_range.1 hc
    rw [List.getD_eq_getElem (xs c) 0 (by rw [hl c hc]; exact h), (hE c hc).1 i (by rw [hl c hc]; exact h)]
  · have h2 : ∀ c ∈ range C, _ := fun c hc => (hE c (mem_range.1 hc)).2
    have hl' : ∀ c ∈ range C, (xs c).length = N := fun c hc => hl c (mem_range.1 hc)
    cases t <;> simp only [mix_length] at h2 ⊢
    · exact fun i hi => sum_eq_zero fun c hc => h2 c hc i (by rw [hl' c hc]; exact hi)
    · exact ⟨fun i => sum_congr rfl fun c hc => (h2 c hc).1 i,
        fun i => sum_congr rfl fun c hc => by have := (h2 c hc).2.1 i; rwa [hl' c hc] at this,
        fun h i => sum_congr rfl fun c hc => (h2 c hc).2.2 (by rw [hl' c hc]; exact h) i⟩
    · exact ⟨fun i => sum_congr rfl fun c hc => (h2 c hc).1 i, fun i => sum_congr rfl fun c hc => by have := (h2 c hc).2 i; rwa [hl' c hc] at this⟩
    · exact ⟨fun i hi => sum_congr rfl fun c hc => (h2 c hc).1 i hi,
        fun i hi => sum_congr rfl fun c hc => by have := (h2 c hc).2 i (by rw [hl' c hc]; exact hi); rwa [hl' c hc] at this⟩
    · exact fun i => sum_congr rfl fun c hc => by have := h2 c hc i; rwa [hl' c hc] at this

theorem spec_stft_sum (m hop : ℕ) (w : ℕ → ℝ) (C : ℕ) (E : ℕ → ℤ → ℝ) (b : Bool) (k j : ℕ) :
    Spec.stft m hop w (fun i => ∑ c ∈ range C, E c i) b k j = ∑ c ∈ range C, Spec.stft m hop w (E c) b k j := by
  unfold Spec.stft
  rw [sum_comm]
  refine sum_congr rfl fun r _ => ?_
  rw [← sum_mul, mul_sum]
  push_cast
  rfl

/-- **C159, linearity.** For every valid call: the transform of a sum of signals, and its derivative, are the sums of the signals' own. -/
theorem C159_stft_linear {lib : WinLib} {tiny : ℝ} {N C : ℕ} {xs : ℕ → List ℝ} (hl : ∀ c < C, (xs c).length = N) {a : StftArgs} {m : ℕ} {w dw : List ℝ} {t : PadType}
    (h : StftValid lib tiny (Spec.mix N C xs) a m w dw t) :
    ∃ S dS, ∃ s ds : ℕ → List (List ℂ), stft lib tiny (Spec.mix N C xs) a = .ok (m, S, dS) ∧ (∀ c < C, stft lib tiny (xs c) a = .ok (m, s c, ds c)) ∧
      S.length = (N - 1) / a.hop + 1 ∧ dS.length = S.length ∧ (∀ c < C, (s c).length = S.length ∧ (ds c).length = S.length) ∧
      ∀ k < m / 2 + 1, ∀ j < S.length, entC S k j = ∑ c ∈ range C, entC (s c) k j ∧ entC dS k j = ∑ c ∈ range C, entC (ds c) k j := by
  have hN : 0 < N := by have := h.hx; rwa [mix_length] at this
  have hx : ∀ c, ∃ E : ℤ → ℝ, ∃ s ds : List (List ℂ), c < C → Spec.IsExtension t (xs c) E ∧ stft lib tiny (xs c) a = .ok (m, s, ds) ∧
      s.length = (N - 1) / a.hop + 1 ∧ ds.length = (N - 1) / a.hop + 1 ∧
      (∀ j (hj : j < s.length), s[j].length = m / 2 + 1 ∧ ∀ k, k < m / 2 + 1 → s[j].getD k 0 = Spec.stft m a.hop (fun r => w.getD r 0) E a.modulated k j) ∧
      (∀ j (hj : j < ds.length), ds[j].length = m / 2 + 1 ∧ ∀ k, k < m / 2 + 1 →
        ds[j].getD k 0 = Spec.stft m a.hop (fun r => (if a.modulated then a.fs else 1) * dw.getD r 0) E a.modulated k j) := by
    intro c
    by_cases hc : c < C
    · obtain ⟨E, hE⟩ := exists_extension t (xs c) (by rw [hl c hc]; exact hN)
      obtain ⟨s, ds, h1, h2, h3, h4, h5⟩ := C07_stft_entries (validShift h (xs c) (by rw [hl c hc, mix_length])) E hE
      rw [hl c hc] at h2 h3
      exact ⟨E, s, ds, fun _ => ⟨hE, h1, h2, h3, h4, h5⟩⟩
    · exact ⟨fun _ => 0, [], [], fun h => absurd h hc⟩
  choose E s ds hs using hx
  obtain ⟨S, dS, k1, k2, k3, k4, k5⟩ := C07_stft_entries h _ (ext_mix hl fun c hc => (hs c hc).1)
  rw [mix_length] at k2 k3
  refine ⟨S, dS, s, ds, k1, fun c hc => (hs c hc).2.1, k2, by omega, fun c hc => ⟨by rw [(hs c hc).2.2.1, k2], by rw [(hs c hc).2.2.2.1, k2]⟩, fun k hk j hj => ?_⟩
  unfold entC
  rw [List.getD_eq_getElem S _ hj, (k4 j hj).2 k hk, List.getD_eq_getElem dS _ (by omega), (k5 j (by omega)).2 k hk, spec_stft_sum, spec_stft_sum]
  constructor <;> refine sum_congr rfl fun c hc => ?_
  · have hc := mem_range.1 hc
    obtain ⟨-, -, e1, e2, e3, e4⟩ := hs c hc
    rw [List.getD_eq_getElem (s c) _ (by omega), (e3 j (by omega)).2 k hk]
  · have hc := mem_range.1 hc
    obtain ⟨-, -, e1, e2, e3, e4⟩ := hs c hc
    rw [List.getD_eq_getElem (ds c) _ (by omega), (e4 j (by omega)).2 k hk]

/-- The phase of a cell of `ssq_stft` at frequency `f0`, with transform `z`, derivative `d` and measure `v`. -/
noncomputable def stftCellPhase (a : SsqStftArgs) (f0 : ℝ) (z d v : ℂ) : Phase :=
  open Classical in
  if a.getW then (if ‖z‖ < a.gamma.getD (10 * a.eps) then .inf else .fin (stftFreq f0 z d))
  else if a.gamma.getD (10 * a.eps) < ‖v‖ then .fin (stftFreq f0 v d) else .inf

/-- `ssq_stft` of all signals of one length, cell by cell. -/
theorem ssqStft_values {lib : WinLib} {tiny : ℝ} {x : List ℝ} {a : SsqStftArgs} {m : ℕ} {w dw : List ℝ} {t : PadType}
    (hv : StftValid lib tiny x a.stft m w dw t) {Tx : ℤ → ℕ → ℂ} {S : List (List ℂ)} {f Sfs : List ℝ} (h : ssqStft lib tiny x a = .ok (Tx, S, f, Sfs)) :
    ∃ (row : ℝ → ℤ) (k : ℕ → ℝ) (fs dt : ℝ), processFsT a.fs a.t x.length = .ok (.fin fs dt) ∧ ∀ (y : List ℝ) (S' dS' : List (List ℂ)), y.length = x.length →
      stft lib tiny y { a.stft with fs := fs } = .ok (m, S', dS') → S'.length = S.length → ∃ T', ssqStft lib tiny y a = .ok (T', S', f, Sfs) ∧
      ∀ r, ∀ j < S.length, T' r j = ∑ i ∈ range (m / 2 + 1), Spec.cellTerm row (k i)
        (stftCellPhase a (Sfs.getD i 0) (entC S' i j) (entC dS' i j) (applySqueezing a.squeezing (m / 2 + 1) (entC S') i j))
        (applySqueezing a.squeezing (m / 2 + 1) (entC S') i j) r := by
  obtain ⟨fs, dt, m', dS, h1, ⟨u, h2⟩, h3, h4, rfl, h6⟩ := ssqStft_ok h
  have hm : m' = m := by
    obtain ⟨xp, -, -, hr⟩ := stft_run (validFs hv fs)
    rw [h4] at hr
    simp only [Except.ok.injEq, Prod.mk.injEq] at hr
    exact hr.1
  subst hm
  obtain ⟨row, k, hall⟩ := ssqueeze_values _ (Or.inr ⟨rfl, by
        simp only [ssqStftCall]
        cases a.ssqFreqs with
        | none => exact ⟨_, _, rfl⟩
        | some p => exact ⟨p.1, p.2, rfl⟩⟩) h6
  refine ⟨row, k, fs, dt, h1, fun y S' dS' hy hst hlen => ?_⟩
  set A := ssqStftCall a fs (m' / 2 + 1) S dS with hA
  set A' := ssqStftCall a fs (m' / 2 + 1) S' dS' with hA'
  have he : A' = { A with Wx := A'.Wx, w := A'.w, dWx := A'.dWx, gamma := A'.gamma } := by
    simp only [hA, hA', ssqStftCall, hlen]
  obtain ⟨T', hT', hval⟩ := hall A'.Wx A'.w A'.dWx A'.gamma
    (by simp only [hA, hA', ssqStftCall]; split <;> rfl) (by simp only [hA, hA', ssqStftCall]; split <;> rfl) rfl
    (by
      intro w hw hn
      simp only [hA', ssqStftCall] at hw
      split at hw
      · simp only [Option.some.injEq] at hw
        rw [← hw] at hn
        exact phaseStft_not_neg hn
      · simp at hw)
  rw [← he] at hT' hval
  refine ⟨T', ?_, fun r j hj => ?_⟩
  · unfold ssqStft
    rw [hy, h1, ok_bind]
    simp only
    rw [h2, ok_bind, h3, ok_bind, hst, ok_bind]
    simp only
    rw [hT', ok_bind]
  · rw [hval r j hj]
    refine sum_congr rfl fun i _ => ?_
    have : Spec.usedPhase A' (applySqueezing A.squeezing A.M A'.Wx) i j =
        stftCellPhase a ((makeSfs (m' / 2 + 1) fs).getD i 0) (entC S' i j) (entC dS' i j) (applySqueezing a.squeezing (m' / 2 + 1) (entC S') i j) := by
      unfold Spec.usedPhase stftCellPhase
      cases hg : a.getW
      · simp [hA', hA, ssqStftCall, hg, entC]
        rfl
      · simp [hA', hA, ssqStftCall, hg, entC, phaseStft]
    rw [this]
    rfl

/-- **C159.** For every number of signals of one length, window, FFT length, hop, padding, variant, frequencies, threshold and other options, squeezing 'sum' or 'abs': if `ssq_stft`
succeeds for their sum, then for each of them, over the same frequencies; the transform of the sum is the sum of the transforms; and in every column where no two of the
transforms overlap, `Tx` of the sum is the sum of the signals' `Tx`. -/
theorem C159_superposition {lib : WinLib} {tiny : ℝ} {N C : ℕ} {xs : ℕ → List ℝ} (hl : ∀ c < C, (xs c).length = N) {a : SsqStftArgs} {m : ℕ} {w dw : List ℝ} {t : PadType}
    (hv : StftValid lib tiny (Spec.mix N C xs) a.stft m w dw t) (hsq : a.squeezing = .sum ∨ a.squeezing = .abs)
    {Tx : ℤ → ℕ → ℂ} {S : List (List ℂ)} {f Sfs : List ℝ} (h : ssqStft lib tiny (Spec.mix N C xs) a = .ok (Tx, S, f, Sfs)) :
    ∃ (fs dt : ℝ) (dS : List (List ℂ)) (T : ℕ → ℤ → ℕ → ℂ) (s ds : ℕ → List (List ℂ)), processFsT a.fs a.t N = .ok (.fin fs dt) ∧
      stft lib tiny (Spec.mix N C xs) { a.stft with fs := fs } = .ok (m, S, dS) ∧
      (∀ c < C, stft lib tiny (xs c) { a.stft with fs := fs } = .ok (m, s c, ds c) ∧ ssqStft lib tiny (xs c) a = .ok (T c, s c, f, Sfs)) ∧
      (∀ k < m / 2 + 1, ∀ j < S.length, entC S k j = ∑ c ∈ range C, entC (s c) k j ∧ entC dS k j = ∑ c ∈ range C, entC (ds c) k j) ∧
      ∀ j < S.length, Spec.DisjointCols C (m / 2 + 1) s ds j → ∀ r, Tx r j = ∑ c ∈ range C, T c r j := by
  obtain ⟨row, k, fs, dt, h1, hall⟩ := ssqStft_values hv h
  rw [mix_length] at h1 hall
  obtain ⟨S0, dS, s, ds, e1, e2, e3, e4, e5, e6⟩ := C159_stft_linear hl (validFs hv fs)
  have hSS : S0 = S := by
    obtain ⟨fs', dt', m', dS', g1, -, -, g4, -, -⟩ := ssqStft_ok h
    rw [mix_length, h1] at g1
    simp only [Except.ok.injEq, Rate.fin.injEq] at g1
    obtain ⟨rfl, rfl⟩ := g1
    rw [e1] at g4
    simp only [Except.ok.injEq, Prod.mk.injEq] at g4
    exact g4.2.1
  subst hSS
  have hT : ∀ c, ∃ T' : ℤ → ℕ → ℂ, c < C → ssqStft lib tiny (xs c) a = .ok (T', s c, f, Sfs) ∧
      ∀ r, ∀ j < S0.length, T' r j = ∑ i ∈ range (m / 2 + 1), Spec.cellTerm row (k i)
        (stftCellPhase a (Sfs.getD i 0) (entC (s c) i j) (entC (ds c) i j) (applySqueezing a.squeezing (m / 2 + 1) (entC (s c)) i j))
        (applySqueezing a.squeezing (m / 2 + 1) (entC (s c)) i j) r := by
    intro c
    by_cases hc : c < C
    · obtain ⟨T', q1, q2⟩ := hall (xs c) (s c) (ds c) (hl c hc) (e2 c hc) (e5 c hc).1
      exact ⟨T', fun _ => ⟨q1, q2⟩⟩
    · exact ⟨fun _ _ => 0, fun h => absurd h hc⟩
  choose T hT using hT
  obtain ⟨T0, q1, q2⟩ := hall (Spec.mix N C xs) S0 dS (mix_length _ _ _) e1 rfl
  rw [h] at q1
  simp only [Except.ok.injEq, Prod.mk.injEq, and_true] at q1
  subst q1
  refine ⟨fs, dt, dS, T, s, ds, h1, e1, fun c hc => ⟨e2 c hc, (hT c hc).1⟩, e6, fun j hj hd r => ?_⟩
  rw [q2 r j hj, sum_congr rfl fun c hc => (hT c (mem_range.1 hc)).2 r j hj, sum_comm]
  refine sum_congr rfl fun i hi => ?_
  have hi := mem_range.1 hi
  have hV : ∀ W : List (List ℂ), applySqueezing a.squeezing (m / 2 + 1) (entC W) i j =
      (if a.squeezing matches .abs then ((‖entC W i j‖ : ℝ) : ℂ) else entC W i j) := by
    intro W
    rcases hsq with h | h <;> rw [h] <;> simp [applySqueezing]
  have h0 : ∀ W dW : List (List ℂ), entC W i j = 0 → Spec.cellTerm row (k i)
      (stftCellPhase a (Sfs.getD i 0) (entC W i j) (entC dW i j) (applySqueezing a.squeezing (m / 2 + 1) (entC W) i j))
      (applySqueezing a.squeezing (m / 2 + 1) (entC W) i j) r = 0 := by
    intro W dW h1
    rw [hV, h1]
    have : (if a.squeezing matches .abs then ((‖(0 : ℂ)‖ : ℝ) : ℂ) else 0) = 0 := by simp
    rw [this]
    exact cellTerm_zero _ row (k i) r
  have e := e6 i hi j hj
  by_cases hex : ∃ c < C, ¬ (entC (s c) i j = 0 ∧ entC (ds c) i j = 0)
  · obtain ⟨c, hc, hne⟩ := hex
    have hz : ∀ d ∈ range C, d ≠ c → entC (s d) i j = 0 ∧ entC (ds d) i j = 0 := by
      intro d hd' hdc
      rcases hd i hi c hc d (mem_range.1 hd') (Ne.symm hdc) with h' | h'
      · exact absurd h' hne
      · exact h'
    rw [sum_eq_single_of_mem c (mem_range.2 hc) fun d hd' hdc => h0 _ _ (hz d hd' hdc).1]
    rw [sum_eq_single_of_mem c (mem_range.2 hc) fun d hd' hdc => (hz d hd' hdc).1,
      sum_eq_single_of_mem c (mem_range.2 hc) fun d hd' hdc => (hz d hd' hdc).2] at e
    rw [hV, hV, e.1, e.2]
  · push Not at hex
    rw [sum_eq_zero fun d hd' => (hex d (mem_range.1 hd')).1, sum_eq_zero fun d hd' => (hex d (mem_range.1 hd')).2] at e
    rw [h0 _ _ e.1, sum_eq_zero fun d hd' => h0 _ _ (hex d (mem_range.1 hd')).1]

end Ssq
