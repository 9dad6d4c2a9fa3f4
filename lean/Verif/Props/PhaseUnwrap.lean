import Verif.Model.PhaseNum
import Mathlib.Analysis.SpecialFunctions.Complex.Arg
import Mathlib.Analysis.SpecialFunctions.Trigonometric.Angle
import Mathlib.Analysis.Real.Pi.Bounds
import Mathlib.Tactic.Linarith
import Mathlib.Tactic.FieldSimp

/-!
# C96: phase transform from the unwrapped phase
-/
namespace Ssq
open Complex

/-- C96 in full: on a tone of `f` Hz (below half the rate `fs`) every entry is `f`. -/
def C96_full : Prop := ∀ (fs f g : ℝ) (c : ℂ) (r : List ℂ), 0 < fs → 0 ≤ f → f < fs / 2 → 0 < g → g ≤ ‖c‖ → 0 < r.length →
  (∀ (k : ℕ) (hk : k < r.length), r[k] = c * exp (2 * Real.pi * (f / fs) * k * I)) →
  ∃ w, phaseCwtPhase g r = .ok w ∧ ∀ j < r.length, w[j]? = some (.fin f)

/-! ## `unwrap` -/

/-- The unwrapped difference. -/
noncomputable def uDiff (dd : ℝ) : ℝ := dd + unwrapStep dd

theorem uDiff_mod (dd : ℝ) : ∃ k : ℤ, uDiff dd = dd - 2 * Real.pi * k := by
  unfold uDiff unwrapStep
  have hpi := Real.pi_pos
  by_cases h : |dd| < Real.pi
  · exact ⟨0, by simp [h]⟩
  · simp only [if_neg h]
    split_ifs with h2
    · refine ⟨⌊(dd + Real.pi) / (2 * Real.pi)⌋ - 1, ?_⟩
      push_cast
      linarith [h2.1]
    · exact ⟨⌊(dd + Real.pi) / (2 * Real.pi)⌋, by ring⟩

theorem uDiff_range (dd : ℝ) : -Real.pi ≤ uDiff dd ∧ uDiff dd ≤ Real.pi := by
  have hpi := Real.pi_pos
  unfold uDiff unwrapStep
  by_cases h : |dd| < Real.pi
  · have := abs_lt.1 h
    simp only [if_pos h]
    constructor <;> linarith
  · simp only [if_neg h]
    have h1 := Int.floor_le ((dd + Real.pi) / (2 * Real.pi))
    have h2 := Int.lt_floor_add_one ((dd + Real.pi) / (2 * Real.pi))
    rw [le_div_iff₀ (by positivity)] at h1
    rw [div_lt_iff₀ (by positivity)] at h2
    split_ifs with h3
    · constructor <;> linarith
    · constructor <;> nlinarith

theorem uDiff_toReal (dd : ℝ) (h : uDiff dd ≠ -Real.pi) : uDiff dd = (dd : Real.Angle).toReal := by
  obtain ⟨k, hk⟩ := uDiff_mod dd
  have h1 := uDiff_range dd
  have h2 : ((uDiff dd : ℝ) : Real.Angle) = (dd : Real.Angle) := by
    rw [Real.Angle.angle_eq_iff_two_pi_dvd_sub]
    exact ⟨-k, by rw [hk]; push_cast; ring⟩
  rw [← h2]
  exact (Real.Angle.toReal_coe_eq_self_iff.2 ⟨lt_of_le_of_ne h1.1 (Ne.symm h), h1.2⟩).symm

theorem uDiff_abs (dd : ℝ) : |uDiff dd| = |(dd : Real.Angle).toReal| := by
  by_cases h : uDiff dd = -Real.pi
  · obtain ⟨k, hk⟩ := uDiff_mod dd
    have h2 : ((Real.pi : ℝ) : Real.Angle) = (dd : Real.Angle) := by
      rw [Real.Angle.angle_eq_iff_two_pi_dvd_sub]
      exact ⟨1 - k, by push_cast; linarith [h.symm.trans hk]⟩
    rw [← h2, h, Real.Angle.toReal_pi, abs_neg]
  · rw [uDiff_toReal dd h]

theorem arg_ratio (a b : ℂ) (ha : a ≠ 0) (hb : b ≠ 0) : ((arg a - arg b : ℝ) : Real.Angle).toReal = arg (a / b) := by
  rw [Real.Angle.coe_sub, ← Complex.arg_div_coe_angle ha hb]
  simp

/-- The differences of the unwrapped phase. -/
theorem unwrap_go_diff (ps : List ℝ) : ∀ (prev corr : ℝ),
    List.zipWith (fun a b : ℝ => a - b) (unwrap.go prev corr ps) ((prev + corr) :: unwrap.go prev corr ps) =
      List.zipWith (fun a b : ℝ => uDiff (a - b)) ps (prev :: ps) := by
  induction ps with
  | nil => intro prev corr; rfl
  | cons p ps ih =>
    intro prev corr
    simp only [unwrap.go, List.zipWith_cons_cons]
    refine congrArg₂ _ (by unfold uDiff; ring) ?_
    exact ih p (corr + unwrapStep (p - prev))

theorem unwrap_diff (p : ℝ) (ps : List ℝ) :
    List.zipWith (fun a b : ℝ => a - b) (unwrap (p :: ps)).tail (unwrap (p :: ps)) =
      List.zipWith (fun a b : ℝ => uDiff (a - b)) ps (p :: ps) := by
  have := unwrap_go_diff ps p 0
  simpa [unwrap] using this

theorem unwrap_length (l : List ℝ) : (unwrap l).length = l.length := by
  have : ∀ (ps : List ℝ) (a b : ℝ), (unwrap.go a b ps).length = ps.length := by
    intro ps
    induction ps with
    | nil => intro a b; rfl
    | cons p ps ih => intro a b; simp [unwrap.go, ih]
  cases l with
  | nil => rfl
  | cons p ps => simp [unwrap, this]

/-- Telescoping. -/
theorem sum_diffs (u : ℝ) : ∀ us : List ℝ, (List.zipWith (fun a b : ℝ => a - b) us (u :: us)).sum = (u :: us).getLastD 0 - u := by
  intro us
  induction us generalizing u with
  | nil => simp
  | cons v vs ih =>
    simp only [List.zipWith_cons_cons, List.sum_cons]
    rw [ih v]
    simp

/-- The list divided by `2π` in the model, in closed form. -/
theorem phaseCwtPhase_eq (g : ℝ) (z : ℂ) (zs : List ℂ) :
    let D := List.zipWith (fun a b : ℂ => uDiff (arg a - arg b)) zs (z :: zs)
    phaseCwtPhase g (z :: zs) = .ok (List.zipWith (fun (x : ℝ) (W : ℂ) =>
      if ‖W‖ < g then Phase.inf else Phase.fin |x / (2 * Real.pi)|) (D ++ [D.sum]) (z :: zs)) := by
  intro D
  have h1 := unwrap_diff (arg z) (zs.map fun z : ℂ => arg z)
  have h2 := sum_diffs (arg z) (unwrap.go (arg z) 0 (zs.map fun z : ℂ => arg z))
  have hD : List.zipWith (fun a b : ℝ => uDiff (a - b)) (zs.map fun z : ℂ => arg z) (arg z :: zs.map fun z : ℂ => arg z) = D := by
    rw [← List.map_cons (f := fun z : ℂ => arg z), List.zipWith_map]
  rw [hD] at h1
  simp only [unwrap, List.tail_cons] at h1
  rw [h1] at h2
  unfold phaseCwtPhase
  simp only [List.map_cons, unwrap, h1, ← h2]

/-- **C96 (values).** For any non-empty row there is one entry per column: `inf` where `|Wx|` is below the threshold; elsewhere the
absolute phase advance to the next column, in cycles (so at most 1/2), except in the last column, where it is the total phase advance
of the row. -/
theorem C96_values (g : ℝ) (hg : 0 < g) (r : List ℂ) (hr : 0 < r.length) :
    ∃ w, phaseCwtPhase g r = .ok w ∧ w.length = r.length ∧ ∀ (j : ℕ) (hj : j < w.length) (hj' : j < r.length),
      (‖r[j]‖ < g → w[j] = .inf) ∧
      (g ≤ ‖r[j]‖ → ∀ h : j + 1 < r.length, r[j + 1] ≠ 0 → w[j] = .fin (|arg (r[j + 1] / r[j])| / (2 * Real.pi))) ∧
      (g ≤ ‖r[j]‖ → j + 1 = r.length → (∀ (k : ℕ) (hk : k < r.length), r[k] ≠ 0) →
        (∀ (k : ℕ) (hk : k + 1 < r.length), arg (r[k + 1] / r[k]) ≠ Real.pi) →
        w[j] = .fin (|(List.ofFn fun k : Fin (r.length - 1) =>
          arg ((r[k.val + 1]'(by have := k.isLt; omega)) / (r[k.val]'(by have := k.isLt; omega)))).sum| / (2 * Real.pi))) := by
  have hpi : (0 : ℝ) < 2 * Real.pi := by have := Real.pi_pos; positivity
  match r, hr with
  | z :: zs, _ =>
    refine ⟨_, phaseCwtPhase_eq g z zs, ?_, ?_⟩
    · simp
    · intro j hj hj'
      refine ⟨fun h => ?_, fun h hlt hne => ?_, fun h hlast hne hna => ?_⟩
      · simp only [List.getElem_zipWith]; rw [if_pos h]
      · simp only [List.getElem_zipWith]
        rw [if_neg (not_lt.2 h), List.getElem_append_left (by simp at hlt ⊢; omega)]
        simp only [List.getElem_zipWith]
        have hz : (z :: zs)[j] ≠ 0 := norm_pos_iff.1 (lt_of_lt_of_le hg h)
        rw [abs_div, abs_of_pos hpi, uDiff_abs]
        rw [← arg_ratio _ _ hne hz]
        rfl
      · simp only [List.getElem_zipWith]
        have hj0 : j = zs.length := by simpa using hlast
        subst hj0
        rw [if_neg (not_lt.2 h), List.getElem_append_right (by simp)]
        rw [abs_div, abs_of_pos hpi]
        congr 3
        simp only [List.length_zipWith, List.length_cons, Nat.min_eq_left (Nat.le_succ _), Nat.sub_self, List.getElem_singleton]
        congr 1
        apply List.ext_getElem
        · simp
        · intro i h1 h2
          simp only [List.getElem_zipWith, List.getElem_ofFn]
          have hi : i + 1 < (z :: zs).length := by simp at h1 ⊢; omega
          have e := arg_ratio (z :: zs)[i + 1] (z :: zs)[i] (hne _ hi) (hne _ (by omega))
          have hnp : uDiff (arg (z :: zs)[i + 1] - arg (z :: zs)[i]) ≠ -Real.pi := by
            intro hc
            have := uDiff_abs (arg (z :: zs)[i + 1] - arg (z :: zs)[i])
            rw [hc, e, abs_neg, abs_of_pos Real.pi_pos] at this
            obtain ⟨k, hk⟩ := uDiff_mod (arg (z :: zs)[i + 1] - arg (z :: zs)[i])
            have h3 : ((Real.pi : ℝ) : Real.Angle) = ((arg (z :: zs)[i + 1] - arg (z :: zs)[i] : ℝ) : Real.Angle) := by
              rw [Real.Angle.angle_eq_iff_two_pi_dvd_sub]
              exact ⟨1 - k, by push_cast; linarith [hc.symm.trans hk]⟩
            rw [← h3, Real.Angle.toReal_pi] at e
            exact hna i hi e.symm
          rw [← e, ← uDiff_toReal _ hnp]
          rfl

/-- An empty row raises. -/
theorem C96_empty (g : ℝ) : phaseCwtPhase g [] = .error .indexError := rfl

/-- Other difference types, tensors and several threads are rejected. -/
theorem C96_rejects (difftype : String) (tensor parallel : Bool) :
    phaseCwtCheck difftype tensor parallel = .ok () ↔ difftype = "trig" ∨ difftype = "phase" ∧ tensor = false ∧ parallel = false := by
  unfold phaseCwtCheck
  by_cases h : difftype = "trig"
  · simp [h]
  · cases tensor <;> cases parallel <;> by_cases h2 : difftype = "phase" <;> simp [h, h2]

theorem tone_ratio (θ : ℝ) (h0 : 0 ≤ θ) (h1 : θ < Real.pi) (c : ℂ) (hc : c ≠ 0) (k : ℕ) :
    arg ((c * exp (θ * ((k + 1 : ℕ) : ℂ) * I)) / (c * exp (θ * (k : ℂ) * I))) = θ := by
  rw [mul_div_mul_left _ _ hc, ← exp_sub, show (θ : ℂ) * ((k + 1 : ℕ) : ℂ) * I - θ * k * I = θ * I by push_cast; ring,
    Complex.arg_exp_mul_I, toIocMod_eq_self]
  constructor <;> linarith

/-- **C96 (tones).** On a tone of `f` Hz, `0 ≤ f < fs/2`, the entries are `f/fs` (cycles per sample, not Hz) in all columns but the last,
where it is the number of periods in the row. -/
theorem C96_tone_partial (fs f g : ℝ) (c : ℂ) (r : List ℂ) (hfs : 0 < fs) (hf : 0 ≤ f) (hf2 : f < fs / 2) (hg : 0 < g) (hc : g ≤ ‖c‖)
    (hr : 0 < r.length) (htone : ∀ (k : ℕ) (hk : k < r.length), r[k] = c * exp (2 * Real.pi * (f / fs) * k * I)) :
    ∃ w, phaseCwtPhase g r = .ok w ∧ w.length = r.length ∧
      (∀ j, j + 1 < r.length → w[j]? = some (.fin (f / fs))) ∧
      w[r.length - 1]? = some (.fin ((r.length - 1 : ℕ) * (f / fs))) := by
  obtain ⟨w, hw, hl, hv⟩ := C96_values g hg r hr
  have hpi := Real.pi_pos
  set θ : ℝ := 2 * Real.pi * (f / fs) with hθ
  have hθ0 : 0 ≤ θ := by positivity
  have hθ1 : θ < Real.pi := by
    have : f / fs < 1 / 2 := by rw [div_lt_iff₀ hfs]; linarith
    rw [hθ]; nlinarith
  have hc0 : c ≠ 0 := norm_pos_iff.1 (lt_of_lt_of_le hg hc)
  have ht : ∀ (k : ℕ) (hk : k < r.length), r[k] = c * exp (θ * (k : ℂ) * I) := by
    intro k hk; rw [htone k hk, hθ]; push_cast; rfl
  have hne : ∀ (k : ℕ) (hk : k < r.length), r[k] ≠ 0 := fun k hk => by
    rw [ht k hk]; exact mul_ne_zero hc0 (exp_ne_zero _)
  have hn : ∀ (k : ℕ) (hk : k < r.length), g ≤ ‖r[k]‖ := fun k hk => by
    rw [ht k hk, norm_mul, show (θ * (k : ℂ) * I : ℂ) = ((θ * k : ℝ) : ℂ) * I by push_cast; rfl, Complex.norm_exp_ofReal_mul_I, mul_one]
    exact hc
  have hrat : ∀ (k : ℕ) (hk : k + 1 < r.length), arg (r[k + 1] / r[k]) = θ := fun k hk => by
    rw [ht k (by omega), ht (k + 1) hk]; exact tone_ratio θ hθ0 hθ1 c hc0 k
  have hθf : |θ| / (2 * Real.pi) = f / fs := by rw [abs_of_nonneg hθ0, hθ]; field_simp
  refine ⟨w, hw, hl, fun j hj => ?_, ?_⟩
  · rw [List.getElem?_eq_getElem (by omega), ((hv j (by omega) (by omega)).2.1 (hn _ _) hj (hne _ _)), hrat j hj, hθf]
  · rw [List.getElem?_eq_getElem (by omega), ((hv (r.length - 1) (by omega) (by omega)).2.2 (hn _ _) (by omega) hne
      (fun k hk => by rw [hrat k hk]; exact hθ1.ne))]
    have : (List.ofFn fun k : Fin (r.length - 1) =>
          arg ((r[k.val + 1]'(by have := k.isLt; omega)) / (r[k.val]'(by have := k.isLt; omega)))) =
        List.replicate (r.length - 1) θ := by
      apply List.ext_getElem
      · simp
      · intro i h1 h2
        simp only [List.getElem_ofFn, List.getElem_replicate]
        exact hrat i (by simp at h1; omega)
    rw [this]
    simp only [List.sum_replicate, nsmul_eq_mul]
    rw [abs_mul, Nat.abs_cast, mul_div_assoc, hθf]

/-- A tone of 1 Hz at 10 samples per second: 0.1 is reported. -/
theorem C96_refuted : ¬ C96_full := fun h => by
  let r : List ℂ := (List.range 3).map fun k : ℕ => (1 : ℂ) * exp (2 * Real.pi * (((1 : ℝ) : ℂ) / ((10 : ℝ) : ℂ)) * k * I)
  have ht : ∀ (k : ℕ) (hk : k < r.length), r[k] = (1 : ℂ) * exp (2 * Real.pi * (((1 : ℝ) : ℂ) / ((10 : ℝ) : ℂ)) * k * I) := by
    intro k hk; simp [r]
  have hl : r.length = 3 := by simp [r]
  obtain ⟨w, hw, hv⟩ := h 10 1 1 1 r (by norm_num) (by norm_num) (by norm_num) one_pos (by simp) (by omega) ht
  obtain ⟨w', hw', _, hv', _⟩ := C96_tone_partial 10 1 1 1 r (by norm_num) (by norm_num) (by norm_num) one_pos (by simp) (by omega) ht
  rw [hw] at hw'
  cases hw'
  have := (hv 0 (by omega)).symm.trans (hv' 0 (by omega))
  simp at this

end Ssq
