import Verif.Model.ScaleBoundsArgs
import Verif.Props.MaxScaleAlt
import Verif.Props.ScaleOrder

/-!
# C152: what `cwt_scalebounds` makes of its arguments
-/
namespace Ssq

namespace Spec

/-- The cutoffs in effect without a preset: those given, else `0.6` and `0.8`. -/
noncomputable def cutoffsInEffect (minC maxC : Option ℝ) : ℝ × ℝ := (minC.getD (3/5), maxC.getD (4/5))

/-- A wavelet whose `find_max_scale_alt` is the search of the library over the function `fn`. -/
def SearchesAlt (fn : ℝ → ℝ) (wv : ScaleWavelet) : Prop :=
  ∀ N lo hi, ∃ fuel, findMaxScaleAlt fn N lo hi fuel = some (wv.maxScaleAlt N lo hi)

end Spec

/-- `cwtScalebounds` of the other properties is this function without `bin_loc` and `bin_amp`. -/
theorem cwtScalebounds_all (wv : ScaleWavelet) (N : ℕ) (preset : Option Preset) (minC maxC cutoff : Option ℝ) (padded : Bool) :
    cwtScalebounds wv N preset minC maxC cutoff padded =
      cwtScaleboundsAll wv N (match preset with | none => .none | some p => .known p) minC maxC cutoff none none padded := by
  unfold cwtScalebounds cwtScaleboundsAll scaleboundsArgs
  cases preset with
  | none =>
    cases minC with
    | none =>
      cases maxC with
      | none => rfl
      | some b =>
        by_cases hb : b < 3 / 5
        · simp only [pure_eq_ok, ok_bind, Except.bind, if_pos hb]; rfl
        · simp only [pure_eq_ok, ok_bind, Except.bind, if_neg hb]; rfl
    | some a =>
      by_cases ha : a ≤ 0
      · simp only [if_pos ha]; rfl
      · cases maxC with
        | none => simp only [pure_eq_ok, ok_bind, Except.bind, if_neg ha]; rfl
        | some b =>
          by_cases hb : b < a
          · simp only [pure_eq_ok, ok_bind, Except.bind, if_neg ha, if_pos hb]; rfl
          · simp only [pure_eq_ok, ok_bind, Except.bind, if_neg ha, if_neg hb]; rfl
  | some p => cases p <;> rfl

/-- **C152, without a preset.** The call succeeds only with `0 < min_cutoff < max_cutoff` in effect, and then returns what the searches find
with these cutoffs, over the padded length if asked for. -/
theorem C152_cutoffs (fn : ℝ → ℝ) (wv : ScaleWavelet) (hs : Spec.SearchesAlt fn wv) (N : ℕ) (minC maxC cutoff binLoc binAmp : Option ℝ)
    (padded : Bool) (mn mx : ℝ) :
    cwtScaleboundsAll wv N .none minC maxC cutoff binLoc binAmp padded = .ok (mn, mx) ↔
      0 < (Spec.cutoffsInEffect minC maxC).1 ∧ (Spec.cutoffsInEffect minC maxC).1 < (Spec.cutoffsInEffect minC maxC).2 ∧
      wv.minScale (cutoff.getD (-1/2)) = .ok mn ∧
      wv.maxScaleAlt (if padded then (p2up N).1 else N) (Spec.cutoffsInEffect minC maxC).1 (Spec.cutoffsInEffect minC maxC).2 = .ok mx := by
  have halt : ∀ M lo hi r, wv.maxScaleAlt M lo hi = .ok r → 0 < lo ∧ lo < hi := by
    intro M lo hi r hr
    obtain ⟨fuel, hf⟩ := hs M lo hi
    rw [hr] at hf
    exact (C113_cutoffs_partial fn M lo hi fuel).2 r hf
  have hrest : ∀ lo hi, ((wv.minScale (cutoff.getD (-1/2))).bind fun mn =>
      (wv.maxScaleAlt (if padded then (p2up N).1 else N) lo hi).bind fun mx => .ok (mn, mx)) = .ok (mn, mx) ↔
      wv.minScale (cutoff.getD (-1/2)) = .ok mn ∧ wv.maxScaleAlt (if padded then (p2up N).1 else N) lo hi = .ok mx := by
    intro lo hi
    cases wv.minScale (cutoff.getD (-1/2)) with
    | error e => simp [Except.bind]
    | ok a =>
      cases wv.maxScaleAlt (if padded then (p2up N).1 else N) lo hi with
      | error e => simp [Except.bind]
      | ok b => simp [Except.bind]
  have hmain : ∀ lo hi, (minC.getD (3/5) = lo) → (maxC.getD (4/5) = hi) → 0 < lo → lo ≤ hi ∨ maxC = none →
      (cwtScaleboundsAll wv N .none minC maxC cutoff binLoc binAmp padded = (wv.minScale (cutoff.getD (-1/2))).bind fun mn =>
      (wv.maxScaleAlt (if padded then (p2up N).1 else N) lo hi).bind fun mx => .ok (mn, mx)) := by
    intro lo hi h1 h2 h3 h4
    unfold cwtScaleboundsAll
    cases minC with
    | none =>
      simp only [Option.getD_none] at h1
      subst h1
      cases maxC with
      | none => simp only [Option.getD_none] at h2; subst h2; rfl
      | some b =>
        simp only [Option.getD_some] at h2
        subst h2
        have : ¬ b < 3 / 5 := not_lt.2 (h4.resolve_right (by simp))
        simp only [Except.bind, if_neg this]
    | some a =>
      simp only [Option.getD_some] at h1
      subst h1
      cases maxC with
      | none => simp only [Option.getD_none] at h2; subst h2; simp only [Except.bind, if_neg (not_le.2 h3)]
      | some b =>
        simp only [Option.getD_some] at h2
        subst h2
        have : ¬ b < a := not_lt.2 (h4.resolve_right (by simp))
        simp only [Except.bind, if_neg this, if_neg (not_le.2 h3)]
  unfold Spec.cutoffsInEffect
  simp only
  constructor
  · intro h
    have hlo : 0 < minC.getD (3/5) := by
      cases minC with
      | none => norm_num
      | some a =>
        by_contra hc
        unfold cwtScaleboundsAll at h
        simp only [Except.bind, Option.getD_some] at h hc
        rw [if_pos (not_lt.1 hc)] at h
        simp at h
    have hle : minC.getD (3/5) ≤ maxC.getD (4/5) ∨ maxC = none := by
      cases hM : maxC with
      | none => exact Or.inr rfl
      | some b =>
        left
        by_contra hc
        rw [hM] at h
        unfold cwtScaleboundsAll at h
        cases hm : minC with
        | none =>
          rw [hm] at h hc
          simp only [Except.bind, Option.getD_some, Option.getD_none] at h hc
          rw [if_pos (not_le.1 hc)] at h
          simp at h
        | some a =>
          rw [hm] at h hc hlo
          simp only [Except.bind, Option.getD_some] at h hc hlo
          rw [if_neg (not_le.2 hlo), ] at h
          simp only at h
          rw [if_pos (not_le.1 hc)] at h
          simp at h
    rw [hmain _ _ rfl rfl hlo hle, hrest] at h
    exact ⟨hlo, (halt _ _ _ _ h.2).2, h⟩
  · rintro ⟨h1, h2, h3⟩
    rw [hmain _ _ rfl rfl h1 (Or.inl h2.le), hrest]
    exact h3

/-- **C152, refusals.** A cutoff given that is not positive, or a greatest cutoff below the least, is a `ValueError`, whatever the wavelet; so are all other
cutoffs in effect that are out of order, once the least scale has been found. -/
theorem C152_refuses (fn : ℝ → ℝ) (wv : ScaleWavelet) (hs : Spec.SearchesAlt fn wv) (N : ℕ) (minC maxC cutoff binLoc binAmp : Option ℝ)
    (padded : Bool) :
    ((∃ m, minC = some m ∧ m ≤ 0) ∨ (∃ m, maxC = some m ∧ m < (Spec.cutoffsInEffect minC maxC).1) →
      cwtScaleboundsAll wv N .none minC maxC cutoff binLoc binAmp padded = .error .valueError) ∧
    ((Spec.cutoffsInEffect minC maxC).2 ≤ (Spec.cutoffsInEffect minC maxC).1 → ∀ mn, wv.minScale (cutoff.getD (-1/2)) = .ok mn →
      cwtScaleboundsAll wv N .none minC maxC cutoff binLoc binAmp padded = .error .valueError) := by
  have halt : ∀ M lo hi, hi ≤ lo → wv.maxScaleAlt M lo hi = .error .valueError := by
    intro M lo hi h
    obtain ⟨fuel, hf⟩ := hs M lo hi
    have := (C113_cutoffs_partial fn M lo hi fuel).1 (Or.inr (Or.inr h))
    rw [hf] at this
    simpa using this
  unfold Spec.cutoffsInEffect cwtScaleboundsAll
  simp only
  constructor
  · rintro (⟨m, rfl, h⟩ | ⟨m, rfl, h⟩)
    · simp only [if_pos h]; rfl
    · cases minC with
      | none =>
        simp only [Option.getD_none] at h
        simp only [Except.bind, if_pos h]
      | some a =>
        simp only [Option.getD_some] at h
        by_cases ha : a ≤ 0
        · simp only [if_pos ha]; rfl
        · simp only [if_neg ha, Except.bind, if_pos h]
  · intro h mn hmn
    cases minC with
    | none =>
      cases maxC with
      | none => simp only [Option.getD_none] at h; norm_num at h
      | some b =>
        simp only [Except.bind, Option.getD_none, Option.getD_some, hmn] at h ⊢
        by_cases hb : b < 3 / 5
        · rw [if_pos hb]
        · rw [if_neg hb]; simp only [halt _ _ _ h]
    | some a =>
      by_cases ha : a ≤ 0
      · simp only [if_pos ha]; rfl
      cases maxC with
      | none =>
        simp only [Except.bind, Option.getD_none, Option.getD_some, hmn, if_neg ha] at h ⊢
        simp only [halt _ _ _ h]
      | some b =>
        simp only [Except.bind, Option.getD_some, hmn, if_neg ha] at h ⊢
        by_cases hb : b < a
        · rw [if_pos hb]
        · rw [if_neg hb]; simp only [halt _ _ _ h]

/-- **C152, presets.** They override the cutoffs: `'naive'` is `(1, N)`; `'minimal'` uses `(0.6, 0.8, -0.5)`; `'maximal'` uses `-0.5`, `bin_loc` (`2` if not given or zero)
and `bin_amp` (`1`); any other name is a `ValueError`. -/
theorem C152_presets (wv : ScaleWavelet) (N : ℕ) (minC maxC cutoff binLoc binAmp : Option ℝ) (padded : Bool) (mn mx : ℝ) :
    cwtScaleboundsAll wv N (.known .naive) minC maxC cutoff binLoc binAmp padded = .ok (1, N) ∧
    cwtScaleboundsAll wv N .other minC maxC cutoff binLoc binAmp padded = .error .valueError ∧
    (cwtScaleboundsAll wv N (.known .minimal) minC maxC cutoff binLoc binAmp padded = .ok (mn, mx) ↔
      cwtScaleboundsAll wv N .none (some (3/5)) (some (4/5)) (some (-1/2)) none none padded = .ok (mn, mx)) ∧
    (cwtScaleboundsAll wv N (.known .maximal) minC maxC cutoff binLoc binAmp padded = .ok (mn, mx) ↔
      wv.minScale (-1/2) = .ok mn ∧ ∃ loc amp, (binLoc = some loc ∧ loc ≠ 0 ∨ (binLoc = none ∨ binLoc = some 0) ∧ loc = 2) ∧
        (binAmp = some amp ∧ amp ≠ 0 ∨ (binAmp = none ∨ binAmp = some 0) ∧ amp = 1) ∧
        wv.maxScale (if padded then (p2up N).1 else N) loc amp = .ok mx) := by
  refine ⟨rfl, rfl, ?_, ?_⟩
  · unfold cwtScaleboundsAll
    simp only [Except.bind, Option.getD_some]
    rw [if_neg (show ¬ ((3/5 : ℝ) ≤ 0) by norm_num)]
    simp only
    rw [if_neg (show ¬ ((4/5 : ℝ) < 3/5) by norm_num)]
  · have hor : ∀ (v : Option ℝ) (d y : ℝ), (v = some y ∧ y ≠ 0 ∨ (v = none ∨ v = some 0) ∧ y = d) ↔ y = orNum v d := by
      intro v d y
      unfold orNum
      cases v with
      | none => simp
      | some z =>
        by_cases hz : z = 0
        · subst hz
          simp only [Option.some.injEq, reduceCtorEq, false_or, true_and, if_true]
          constructor
          · rintro (⟨h1, h2⟩ | h)
            · exact absurd h1.symm h2
            · exact h
          · exact Or.inr
        · simp only [Option.some.injEq, reduceCtorEq, false_or, hz, false_and, or_false, if_neg hz]
          constructor
          · rintro ⟨h, -⟩; exact h.symm
          · rintro rfl; exact ⟨rfl, hz⟩
    simp only [hor]
    unfold cwtScaleboundsAll
    simp only
    cases wv.minScale (-1/2) with
    | error e => simp [Except.bind]
    | ok a =>
      have : (∃ loc amp, loc = orNum binLoc 2 ∧ amp = orNum binAmp 1 ∧ wv.maxScale (if padded then (p2up N).1 else N) loc amp = .ok mx) ↔
          wv.maxScale (if padded then (p2up N).1 else N) (orNum binLoc 2) (orNum binAmp 1) = .ok mx := by
        constructor
        · rintro ⟨_, _, rfl, rfl, h⟩; exact h
        · exact fun h => ⟨_, _, rfl, rfl, h⟩
      rw [this]
      cases wv.maxScale (if padded then (p2up N).1 else N) (orNum binLoc 2) (orNum binAmp 1) with
      | error e => simp [Except.bind]
      | ok b => simp [Except.bind]

/-- Non-vacuity: the triangular wavelet, `min_cutoff=0.6`, `max_cutoff=0.7`, without padding. -/
example : ∃ wv mn mx, Spec.SearchesAlt tri wv ∧ cwtScaleboundsAll wv 100 .none none (some (7/10)) none none none false = .ok (mn, mx) := by
  classical
  have hterm : ∀ N lo hi, ∃ r fuel, findMaxScaleAlt tri N lo hi fuel = some r := by
    intro N lo hi
    obtain ⟨fuel, r, h⟩ := C113_terminates tri N lo hi
    exact ⟨r, fuel, h⟩
  obtain ⟨s, hs⟩ := tri_alt (7/10) (by norm_num) 0
  let alt : ℕ → ℝ → ℝ → Py ℝ := fun N lo hi =>
    if N = 100 ∧ lo = 3/5 ∧ hi = 7/10 then .ok s else Classical.choose (hterm N lo hi)
  have hAlt : ∀ N lo hi, ∃ fuel, findMaxScaleAlt tri N lo hi fuel = some (alt N lo hi) := by
    intro N lo hi
    by_cases hk : N = 100 ∧ lo = 3/5 ∧ hi = 7/10
    · obtain ⟨rfl, rfl, rfl⟩ := hk
      exact ⟨2, by simp only [alt, if_pos (And.intro rfl (And.intro rfl rfl))]; exact hs⟩
    · simp only [alt, if_neg hk]
      exact Classical.choose_spec (hterm N lo hi)
  refine ⟨⟨fun _ => .ok 1, fun _ _ _ => .ok 1, alt, fun _ => []⟩, 1, s, hAlt, ?_⟩
  rw [C152_cutoffs tri ⟨fun _ => .ok 1, fun _ _ _ => .ok 1, alt, fun _ => []⟩ hAlt]
  refine ⟨by norm_num [Spec.cutoffsInEffect], by norm_num [Spec.cutoffsInEffect], rfl, ?_⟩
  simp [Spec.cutoffsInEffect, alt]

end Ssq
