import Verif.Model.Signals2
import Mathlib.Tactic.Linarith
import Mathlib.Tactic.Positivity

/-!
# C126: parallel chirps
-/
namespace Ssq

namespace Spec

/-- A value is used if it is given. -/
def Uses (given : Option ℝ) (used : ℝ) : Prop := ∀ v, given = some v → used = v

end Spec
open Spec

/-- The claim: every frequency that is given is used. -/
def C126_given_full : Prop := ∀ (N : ℕ) (fdef : ℝ) (a b c d : Option ℝ),
  Uses a (parLchirp N fdef a b c d).fmin1 ∧ Uses b (parLchirp N fdef a b c d).fmax1 ∧ Uses c (parLchirp N fdef a b c d).fmin2 ∧
    Uses d (parLchirp N fdef a b c d).fmax2

/-- `par_lchirp(100, fmax2=30)` goes up to 50. -/
theorem C126_given_refuted : ¬ C126_given_full := by
  intro h
  have := (h 100 0 none none none (some 30)).2.2.2 30 rfl
  simp [parLchirp, parFreqs] at this
  norm_num at this

/-- `fmin1`, `fmin2`, `fmax1` are used if given; `fmax2` if `fmax1` is given, too. -/
theorem C126_given_partial (up down : ℝ → ℝ) (N : ℕ) (fdef : ℝ) (a b c d : Option ℝ) :
    Uses a (parFreqs up down N fdef a b c d).fmin1 ∧ Uses b (parFreqs up down N fdef a b c d).fmax1 ∧
      Uses c (parFreqs up down N fdef a b c d).fmin2 ∧ (b ≠ none → Uses d (parFreqs up down N fdef a b c d).fmax2) := by
  cases a <;> cases b <;> cases c <;> cases d <;> simp [parFreqs, Uses]

/-- Without `fmax1` the value of `fmax2` makes no difference. -/
theorem C126_ignored (up down : ℝ → ℝ) (N : ℕ) (fdef : ℝ) (a c d d' : Option ℝ) :
    parFreqs up down N fdef a none c d = parFreqs up down N fdef a none c d' := by
  cases d <;> cases d' <;> rfl

/-- The frequencies are in order: `fmin2 > fmin1`, `fmax2 > fmax1`, and both chirps stay below half the sampling rate. -/
def InOrder (N : ℕ) (p : ParFreqs) : Prop := p.fmin1 < p.fmin2 ∧ p.fmax1 < p.fmax2 ∧ p.fmax2 ≤ (N : ℝ) / 2

/-- The claim for the frequencies chosen by the functions: in order whenever the second chirp's are left open. -/
def C126_order_full : Prop := ∀ (N : ℕ) (fdef : ℝ) (a b : Option ℝ), 1 ≤ N → 0 ≤ fdef → (∀ v, b = some v → v ≤ (N : ℝ) / 2) →
  InOrder N (parLchirp N fdef a b none none)

/-- `par_lchirp(100, fmax1=50)`: both chirps end at 50. -/
theorem C126_order_refuted : ¬ C126_order_full := by
  intro h
  have := (h 100 0 none (some 50) (by norm_num) le_rfl (by intro v hv; cases hv; norm_num)).2.1
  simp [parLchirp, parFreqs] at this
  norm_num at this

/-- In order if `fmax1` is less than half the sampling rate or left open, for all three kinds (with positive frequencies where they are multiplied). -/
theorem C126_order_partial (N : ℕ) (hN : 1 ≤ N) (fdef : ℝ) (a b : Option ℝ) (hb : ∀ v, b = some v → v < (N : ℝ) / 2) :
    InOrder N (parLchirp N fdef a b none none) ∧
      ((0 < a.getD fdef) → (∀ v, b = some v → 0 < v) →
        InOrder N (parEchirp N fdef a b none none) ∧ InOrder N (parHchirp N fdef a b none none)) := by
  have hN' : (0 : ℝ) < N := by exact_mod_cast hN
  constructor
  · cases b with
    | none => refine ⟨?_, ?_, ?_⟩ <;> simp [parLchirp, parFreqs] <;> omega
    | some v =>
      have := hb v rfl
      refine ⟨?_, ?_, ?_⟩ <;> simp [parLchirp, parFreqs]
      · omega
      · exact ⟨this, hN⟩
  · intro h1 h2
    cases b with
    | none =>
      refine ⟨⟨?_, ?_, ?_⟩, ⟨?_, ?_, ?_⟩⟩ <;> simp only [parEchirp, parHchirp, parFreqs, Option.getD_none] <;> linarith
    | some v =>
      have h3 := hb v rfl
      have h4 := h2 v rfl
      refine ⟨⟨?_, ?_, ?_⟩, ⟨?_, ?_, ?_⟩⟩ <;> simp only [parEchirp, parHchirp, parFreqs, Option.getD_none]
      · linarith
      · rw [lt_min_iff]; exact ⟨h3, by linarith⟩
      · exact min_le_left _ _
      · linarith
      · rw [lt_min_iff]; exact ⟨h3, by linarith⟩
      · exact min_le_left _ _

/-- Where they are chosen by the functions, the chirps run parallel: the frequencies of the second are `N/10` above those of the first for `par_lchirp`, 1.5 times for
`par_echirp` and 3 times for `par_hchirp`, at both ends. -/
theorem C126_parallel (N : ℕ) (fdef : ℝ) (a : Option ℝ) :
    ((parLchirp N fdef a none none none).fmin2 - (parLchirp N fdef a none none none).fmin1 = N / 10 ∧
      (parLchirp N fdef a none none none).fmax2 - (parLchirp N fdef a none none none).fmax1 = N / 10) ∧
    ((parEchirp N fdef a none none none).fmin2 = 1.5 * (parEchirp N fdef a none none none).fmin1 ∧
      (parEchirp N fdef a none none none).fmax2 = 1.5 * (parEchirp N fdef a none none none).fmax1) ∧
    (parHchirp N fdef a none none none).fmin2 = 3 * (parHchirp N fdef a none none none).fmin1 ∧
      (parHchirp N fdef a none none none).fmax2 = 3 * (parHchirp N fdef a none none none).fmax1 := by
  refine ⟨⟨?_, ?_⟩, ⟨?_, ?_⟩, ?_, ?_⟩ <;> simp only [parLchirp, parEchirp, parHchirp, parFreqs, Option.getD_none] <;> ring

/-- The defaults, `par_hchirp(512)`: 1 to 256/3 and 3 to 256. -/
example : (parHchirp 512 1 none none none none).fmin2 = 3 ∧ (parHchirp 512 1 none none none none).fmax2 = 256 ∧
    InOrder 512 (parHchirp 512 1 none none none none) := by
  refine ⟨by simp [parHchirp, parFreqs], by simp [parHchirp, parFreqs]; norm_num, ?_⟩
  exact ((C126_order_partial 512 (by norm_num) 1 none none (by simp)).2 (by simp) (by simp)).2

end Ssq
