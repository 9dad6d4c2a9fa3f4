import Verif.Props.Scales

/-!
# C47: the `scales` argument
-/
namespace Ssq

/-- The documented name of each scale type. -/
def Spec.scaleName : ScaleType → List Char
  | .log => "log".toList
  | .logPiecewise => "log-piecewise".toList
  | .linear => "linear".toList

/-- The documented name of each preset. -/
def Spec.presetName : Preset → List Char
  | .maximal => "maximal".toList
  | .minimal => "minimal".toList
  | .naive => "naive".toList

/-- The documented scale specifications: a scale type, optionally followed by `:preset`. -/
inductive Spec.ScaleSpec : List Char → ScaleType → Option Preset → Prop
  | plain (st) : st ≠ .logPiecewise → ScaleSpec (scaleName st) st none
  | piecewise : ScaleSpec (scaleName .logPiecewise) .logPiecewise (some .maximal)
  | preset (st p) : ScaleSpec (scaleName st ++ ':' :: presetName p) st (some p)

theorem scaleTypeOfName_some {s : List Char} {st : ScaleType} (h : scaleTypeOfName s = some st) :
    s = Spec.scaleName st := by
  unfold scaleTypeOfName at h
  split_ifs at h with h1 h2 h3 <;> simp only [Option.some.injEq] at h <;> subst h <;> assumption

theorem presetOfName_some {s : List Char} {p : Preset} (h : presetOfName s = some p) :
    s = Spec.presetName p := by
  unfold presetOfName at h
  split_ifs at h with h1 h2 h3 <;> simp only [Option.some.injEq] at h <;> subst h <;> assumption

theorem scaleTypeOfName_name (st : ScaleType) : scaleTypeOfName (Spec.scaleName st) = some st := by
  cases st <;> rfl

theorem presetOfName_name (p : Preset) : presetOfName (Spec.presetName p) = some p := by
  cases p <;> rfl

/-- How an accepted string is read: exactly the documented specifications. -/
theorem parse_spec (s : List Char) (st : ScaleType) (p : Option Preset) :
    (∃ pc, parseScalesStr s = .ok (st, pc) ∧
      ((pc = none ∧ p = none) ∨ ∃ c q, pc = some c ∧ presetOfName c = some q ∧ p = some q)) ↔
    Spec.ScaleSpec s st p := by
  constructor
  · rintro ⟨pc, h, hp⟩
    unfold parseScalesStr at h
    rw [bind_eq_ok] at h
    obtain ⟨⟨base, preset⟩, h1, h2⟩ := h
    simp only at h2
    split at h2
    · simp at h2
    · next st' hst =>
      simp only [Except.ok.injEq, Prod.mk.injEq] at h2
      obtain ⟨rfl, rfl⟩ := h2
      have hb := scaleTypeOfName_some hst
      unfold splitScalesStr at h1
      split at h1
      · split at h1
        · next a b hab =>
          simp only [Except.ok.injEq, Prod.mk.injEq] at h1
          obtain ⟨rfl, rfl⟩ := h1
          have hs := List.intercalate_splitOn (xs := s) (x := ':')
          rw [hab] at hs
          rcases hp with ⟨hp, -⟩ | ⟨c, q, hc, hq, rfl⟩
          · simp at hp
          · simp only [Option.some.injEq] at hc
            subst hc
            rw [hb, presetOfName_some hq] at hs
            have hs' : s = Spec.scaleName st' ++ ':' :: Spec.presetName q := by
              rw [← hs]; simp [List.intercalate]
            rw [hs']
            exact .preset _ _
        · simp at h1
      · split at h1
        · next hpw =>
          simp only [Except.ok.injEq, Prod.mk.injEq] at h1
          obtain ⟨rfl, rfl⟩ := h1
          rw [hpw] at hst
          have : st' = .logPiecewise := by
            have h3 : scaleTypeOfName "log-piecewise".toList = some .logPiecewise := rfl
            rw [h3] at hst; simpa using hst.symm
          subst this
          rcases hp with ⟨hp, -⟩ | ⟨c, q, hc, hq, rfl⟩
          · simp at hp
          · simp only [Option.some.injEq] at hc
            subst hc
            have h3 : presetOfName "maximal".toList = some .maximal := rfl
            rw [h3] at hq
            simp only [Option.some.injEq] at hq
            subst hq
            rw [hpw]
            exact .piecewise
        · next hpw =>
          simp only [Except.ok.injEq, Prod.mk.injEq] at h1
          obtain ⟨rfl, rfl⟩ := h1
          rcases hp with ⟨-, rfl⟩ | ⟨c, q, hc, -⟩
          · rw [hb]
            refine .plain _ ?_
            rintro rfl
            exact hpw hb
          · simp at hc
  · intro h
    cases h with
    | plain st hst =>
      cases st
      · exact ⟨none, rfl, Or.inl ⟨rfl, rfl⟩⟩
      · exact absurd rfl hst
      · exact ⟨none, rfl, Or.inl ⟨rfl, rfl⟩⟩
    | piecewise => exact ⟨_, rfl, Or.inr ⟨_, .maximal, rfl, rfl, rfl⟩⟩
    | preset st q =>
      refine ⟨some (Spec.presetName q), ?_, Or.inr ⟨_, q, rfl, presetOfName_name q, rfl⟩⟩
      cases st <;> cases q <;> rfl

/-- Errors of the string form are `ValueError`s. -/
theorem parse_error (s : List Char) (e : PyErr) (h : parseScalesStr s = .error e) :
    e = .valueError := by
  unfold parseScalesStr splitScalesStr at h
  split_ifs at h
  · split at h
    · simp only [ok_bind] at h
      split at h <;> simp at h
      exact h.symm
    · simp only [error_bind, Except.error.injEq] at h
      exact h.symm
  · simp only [ok_bind] at h
    split at h <;> simp at h
    exact h.symm
  · simp only [ok_bind] at h
    split at h <;> simp at h
    exact h.symm

/-- **C47, strings.** `process_scales` accepts a string only if it is a documented specification, a
wavelet is given and `nv` is a positive integer (32 if omitted); it then makes the scales between
the bounds of the named preset and returns their type, number and `nv`. Conversely a documented
specification whose bounds and scales can be computed is accepted. -/
theorem C47_string (s : List Char) (N : ℕ) (wv : Option ScaleWavelet) (nv : Option ℚ) (up : Bool)
    (d : ℕ) (r : List ℝ × ScaleType × ℕ × Nv) :
    processScales (.str s) N wv nv up d = .ok r ↔
      ∃ (w : ScaleWavelet) (st : ScaleType) (p : Option Preset) (n : ℕ) (mn mx : ℝ) (sc : List ℝ),
        wv = some w ∧ Spec.ScaleSpec s st p ∧ 1 ≤ n ∧ nv.getD 32 = n ∧
        cwtScalebounds w N p none none none up = .ok (mn, mx) ∧
        makeScales N (some mn) (some mx) n (.known st) (some w) d = .ok sc ∧
        r = (sc, st, sc.length, .int n) := by
  have hpi : ∀ (q : ℚ) (n : ℕ), positiveInteger q = .ok n ↔ 1 ≤ n ∧ q = n := by
    intro q n
    unfold positiveInteger
    constructor
    · intro h
      split_ifs at h with hq
      simp only [Except.ok.injEq] at h
      have hnum : 0 < q.num := Rat.num_pos.mpr hq.1
      refine ⟨by omega, ?_⟩
      have : q = (q.num : ℚ) := (Rat.den_eq_one_iff q).mp hq.2 |>.symm
      rw [this, ← h]
      have : ((q.num.toNat : ℤ) : ℚ) = (q.num : ℚ) := by rw [Int.toNat_of_nonneg hnum.le]
      exact_mod_cast this.symm
    · rintro ⟨h1, rfl⟩
      rw [if_pos ⟨by exact_mod_cast h1, by simp⟩]; simp
  unfold processScales
  constructor
  · intro h
    simp only [bind_eq_ok] at h
    obtain ⟨⟨st, pc⟩, hparse, h⟩ := h
    rcases wv with _ | w
    · simp [throw_eq_error] at h
    · simp only [bind_eq_ok] at h
      obtain ⟨n, hn, p, hp, ⟨mn, mx⟩, hb, sc, hsc, h⟩ := h
      simp only [pure_eq_ok, Except.ok.injEq] at h
      obtain ⟨h1, h2⟩ := (hpi _ _).mp hn
      refine ⟨w, st, p, n, mn, mx, sc, rfl, ?_, h1, h2, hb, hsc, h.symm⟩
      rw [← parse_spec]
      refine ⟨pc, hparse, ?_⟩
      rcases pc with _ | c
      · simp only [checkPreset, Except.ok.injEq] at hp
        exact Or.inl ⟨rfl, hp.symm⟩
      · simp only [checkPreset] at hp
        split at hp
        · next q hq =>
          simp only [Except.ok.injEq] at hp
          exact Or.inr ⟨c, q, rfl, hq, hp.symm⟩
        · simp at hp
  · rintro ⟨w, st, p, n, mn, mx, sc, rfl, hspec, h1, h2, hb, hsc, rfl⟩
    rw [← parse_spec] at hspec
    obtain ⟨pc, hparse, hp⟩ := hspec
    have hn := (hpi _ _).mpr ⟨h1, h2⟩
    simp only [hparse, ok_bind, hn]
    rcases hp with ⟨rfl, rfl⟩ | ⟨c, q, rfl, hq, rfl⟩
    · simp only [checkPreset, pure_eq_ok, ok_bind, hb, hsc]
    · simp only [checkPreset, hq, pure_eq_ok, ok_bind, hb, hsc]

/-- **C47, strings: rejection.** Any other string is a `ValueError`, whatever the other arguments. -/
theorem C47_string_reject (s : List Char) (N : ℕ) (w : ScaleWavelet) (nv : Option ℚ) (up : Bool)
    (d : ℕ) (h : ∀ st p, ¬ Spec.ScaleSpec s st p) :
    processScales (.str s) N (some w) nv up d = .error .valueError := by
  unfold processScales
  simp only
  cases hparse : parseScalesStr s with
  | error e => rw [error_bind, parse_error s e hparse]
  | ok r =>
    obtain ⟨st, pc⟩ := r
    rw [ok_bind]
    simp only
    cases hpi : positiveInteger (nv.getD 32) with
    | error e =>
      rw [error_bind]
      unfold positiveInteger at hpi
      split_ifs at hpi
      simp only [Except.error.injEq] at hpi
      rw [← hpi]
    | ok n =>
      rw [ok_bind]
      rcases pc with _ | c
      · exact absurd ((parse_spec s st none).mp ⟨none, hparse, Or.inl ⟨rfl, rfl⟩⟩) (h _ _)
      · cases hq : presetOfName c with
        | some q =>
          exact absurd ((parse_spec s st (some q)).mp
            ⟨some c, hparse, Or.inr ⟨c, q, rfl, hq, rfl⟩⟩) (h _ _)
        | none => simp only [checkPreset, hq, error_bind]

/-- Something that is neither a string nor an array is a `TypeError`. -/
theorem C47_other (N : ℕ) (wv : Option ScaleWavelet) (nv : Option ℚ) (up : Bool) (d : ℕ) :
    processScales .other N wv nv up d = .error .typeError := rfl

/-- The full statement of **C47** for arrays: an accepted array is one-dimensional (up to axes of length
1) and positive, and is returned unchanged. -/
def C47_array_full : Prop :=
  ∀ (shape : List ℕ) (dt : FDtype) (v : List ℝ) (N : ℕ) (wv : Option ScaleWavelet) (nv : Option ℚ)
    (up : Bool) (d : ℕ) (r : List ℝ × ScaleType × ℕ × Nv), v.length = shape.prod →
    processScales (.arr shape dt v) N wv nv up d = .ok r →
    (shape.filter (· ≠ 1)).length = 1 ∧ (∀ x ∈ v, 0 < x) ∧ r.1 = v ∧ r.2.2.1 = v.length

/-- **C47 refuted for arrays.** Linear arrays are not checked for positivity: the scales 0, 1, 2 are
accepted. -/
theorem C47_array_refuted : ¬ C47_array_full := by
  intro H
  have hm : meanAbsDiff2 [0, 1, 2] = 0 := by
    apply meanAbsDiff2_zero (a := 0) (d := 1)
    intro i h
    match i, h with
    | 0, _ => norm_num
    | 1, _ => norm_num
    | 2, _ => norm_num
  have hi : inferScaletype .f64 [0, 1, 2] = .ok (.linear, .none) := by
    unfold inferScaletype
    rw [if_neg (by decide), if_neg (by simp), if_neg, if_pos]
    · rw [hm]; simp [thLog]
    · rintro ⟨h, _⟩
      have := h 0 (by simp)
      exact lt_irrefl _ this
  have := H [3] .f64 [0, 1, 2] 0 none none true 1 ([0, 1, 2], .linear, 3, .none) (by simp) (by
    unfold processScales
    simp [hi, ok_bind, pure_eq_ok])
  have := this.2.1 0 (by simp)
  exact lt_irrefl _ this

/-- **C47, arrays (partial).** An accepted array has exactly one axis longer than 1, is returned
unchanged with its length, and has the inferred type; any other shape is a `ValueError`; for a log
array the returned `nv` is the inferred one and a passed `nv` agrees with it. Missing: positivity,
which is not enforced. -/
theorem C47_array_partial (shape : List ℕ) (dt : FDtype) (v : List ℝ) (N : ℕ)
    (wv : Option ScaleWavelet) (nv : Option ℚ) (up : Bool) (d : ℕ) :
    ((shape.filter (· ≠ 1)).length ≠ 1 →
      processScales (.arr shape dt v) N wv nv up d = .error .valueError) ∧
    ∀ r, processScales (.arr shape dt v) N wv nv up d = .ok r →
      (shape.filter (· ≠ 1)).length = 1 ∧ r.1 = v ∧ r.2.2.1 = v.length ∧
      (∃ nvI, inferScaletype dt v = .ok (r.2.1, nvI)) ∧
      (∀ n, inferScaletype dt v = .ok (.log, .int n) →
        r.2.2.2 = .int n ∧ 0 < n ∧ ∀ q, nv = some q → q = n) := by
  constructor
  · intro h; unfold processScales; simp only [if_pos h]
  · intro r h
    unfold processScales at h
    simp only at h
    split at h
    · simp at h
    · next hsh =>
      rw [not_not] at hsh
      refine ⟨hsh, ?_⟩
      rw [bind_eq_ok] at h
      obtain ⟨⟨st, nvI⟩, hinf, h⟩ := h
      simp only at h
      split at h
      · next n =>
        split at h
        · simp at h
        next hnv =>
        have hq : ∀ q, nv = some q → q = n := by
          intro q hq
          by_contra hne
          exact hnv ⟨by simp [hq], by simpa [hq] using hne⟩
        have h' : ∃ m, positiveInteger (n : ℚ) = .ok m ∧ r = (v, .log, v.length, .int m) := by
          simp only [pure_eq_ok, bind_eq_ok, Except.ok.injEq] at h
          obtain ⟨m, hm, e⟩ := h
          exact ⟨m, hm, e.symm⟩
        obtain ⟨m, hm, rfl⟩ := h'
        unfold positiveInteger at hm
        split_ifs at hm with hpos
        simp only [Except.ok.injEq, Rat.num_intCast] at hm
        have hn : 0 < n := by exact_mod_cast hpos.1
        refine ⟨rfl, rfl, ⟨_, hinf⟩, fun n' hn' => ?_⟩
        rw [hinf] at hn'
        simp only [Except.ok.injEq, Prod.mk.injEq, true_and, Nv.int.injEq] at hn'
        subst hn'
        refine ⟨?_, hn, hq⟩
        simp only [Nv.int.injEq]
        omega
      · next nvI' =>
        simp only [pure_eq_ok, Except.ok.injEq] at h
        subst h
        refine ⟨rfl, rfl, ⟨_, hinf⟩, fun n' hn' => ?_⟩
        rw [hinf] at hn'
        simp at hn'
      · next h1 h2 =>
        rcases nv with _ | q
        · simp only [pure_eq_ok, Except.ok.injEq] at h
          subst h
          refine ⟨rfl, rfl, ⟨_, hinf⟩, fun n' hn' => ?_⟩
          rw [hinf] at hn'
          simp only [Except.ok.injEq, Prod.mk.injEq] at hn'
          exact (h2 n' hn'.1 hn'.2).elim
        · simp only [bind_eq_ok] at h
          obtain ⟨m, hm, h⟩ := h
          simp only [pure_eq_ok, Except.ok.injEq] at h
          subst h
          refine ⟨rfl, rfl, ⟨_, hinf⟩, fun n' hn' => ?_⟩
          rw [hinf] at hn'
          simp only [Except.ok.injEq, Prod.mk.injEq] at hn'
          exact (h2 n' hn'.1 hn'.2).elim

/-- Non-vacuity: `'log:maximal'`, `nv = 4`, accepted with 16 scales. -/
example : ∃ r, processScales (.str "log:maximal".toList) 100 (some exWavelet) (some 4) true 4 =
    .ok r ∧ r.2.2.1 = 16 := by
  have hlog : Real.logb 2 (16 / 1) = 4 := by
    rw [show (16 / 1 : ℝ) = 2 ^ (4 : ℝ) by norm_num, Real.logb_rpow (by norm_num) (by norm_num)]
  refine ⟨(logScales 4 16 0, .log, 16, .int 4), ?_, rfl⟩
  rw [C47_string]
  refine ⟨exWavelet, .log, some .maximal, 4, 1, 16, logScales 4 16 0, rfl, .preset .log .maximal, by norm_num,
    by norm_num, ?_, ?_, ?_⟩
  · unfold cwtScalebounds scaleboundsArgs
    simp [exWavelet, pure_eq_ok, ok_bind]
  · rw [makeScales_log _ _ _ _ one_pos (by norm_num)]
    simp only [scalePows, hlog]; norm_num
  · rw [logScales_length]; rfl

end Ssq
