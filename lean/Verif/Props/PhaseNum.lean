import Verif.Model.PhaseNum
import Verif.Props.Phase
import Mathlib.Analysis.SpecialFunctions.Trigonometric.Bounds
import Mathlib.Analysis.SpecialFunctions.Complex.Arg
import Mathlib.Analysis.Calculus.MeanValue
import Mathlib.Tactic.Linarith
import Mathlib.Tactic.FieldSimp

/-!
# C95: phase transform by finite differences
-/
namespace Ssq
open Complex

/-! ## Specification -/

/-- Entry `j` of a row continued periodically. -/
noncomputable def Spec.cyc (r : List ℂ) (j : ℤ) : ℂ := r.getD (j % r.length).toNat 0

/-- The difference schemes named in the documentation: forward of order 1 and 2, central of order 4, at column `j`. -/
noncomputable def Spec.stencil (p : ℤ) (dt : ℝ) (r : List ℂ) (j : ℤ) : ℂ :=
  if p = 1 then (Spec.cyc r (j + 1) - Spec.cyc r j) / dt
  else if p = 2 then (-Spec.cyc r (j + 2) + 4 * Spec.cyc r (j + 1) - 3 * Spec.cyc r j) / (2 * dt)
  else (-Spec.cyc r (j + 2) + 8 * Spec.cyc r (j + 1) - 8 * Spec.cyc r (j - 1) + Spec.cyc r (j - 2)) / (12 * dt)

/-! ## Slices of tabulated lists -/

theorem pySlice_range {α : Type} (f : ℕ → α) (m a b : ℕ) (hb : a ≤ m - b) (hbm : b ≤ m) (h0 : 0 < b) :
    pySlice ((List.range m).map f) (some (a : ℤ)) (some (-(b : ℤ))) = (List.range (m - b - a)).map fun i => f (a + i) := by
  have h1 : sliceBound m (a : ℤ) = a := by unfold sliceBound; rw [if_neg (by omega)]; omega
  have h2 : sliceBound m (-(b : ℤ)) = m - b := by unfold sliceBound; rw [if_pos (by omega)]; omega
  unfold pySlice
  simp only [List.length_map, List.length_range, h1, h2]
  apply List.ext_getElem
  · simp; omega
  · intro i h3 h4; simp

theorem pyFrom_range {α : Type} (f : ℕ → α) (m a : ℕ) (ha : a ≤ m) :
    pyFrom ((List.range m).map f) (a : ℤ) = (List.range (m - a)).map fun i => f (a + i) := by
  have h1 : sliceBound m (a : ℤ) = a := by unfold sliceBound; rw [if_neg (by omega)]; omega
  unfold pyFrom pySlice
  simp only [List.length_map, List.length_range, h1]
  apply List.ext_getElem
  · simp
  · intro i h3 h4; simp

theorem zipWith_range {α β γ : Type} (g : α → β → γ) (f : ℕ → α) (h : ℕ → β) (n : ℕ) :
    List.zipWith g ((List.range n).map f) ((List.range n).map h) = (List.range n).map fun i => g (f i) (h i) := by
  apply List.ext_getElem
  · simp
  · intro i h1 h2; simp

theorem row_range (r : List ℂ) : r = (List.range r.length).map fun i : ℕ => Spec.cyc r i := by
  apply List.ext_getElem
  · simp
  · intro i h1 h2
    have h3 : ((i : ℤ) % (r.length : ℤ)).toNat = i := by rw [Int.emod_eq_of_lt (by omega) (by omega)]; simp
    simp [Spec.cyc, h3, List.getD_eq_getElem?_getD, h1]

theorem cyc_sub (r : List ℂ) (j : ℤ) : Spec.cyc r (j + r.length) = Spec.cyc r j := by
  simp [Spec.cyc]

theorem cyc_of_lt (r : List ℂ) (i : ℕ) (h : i < r.length) : Spec.cyc r i = r[i] := by
  have h3 : ((i : ℤ) % (r.length : ℤ)).toNat = i := by rw [Int.emod_eq_of_lt (by omega) (by omega)]; simp
  simp [Spec.cyc, h3, List.getD_eq_getElem?_getD, h]

theorem wrapTwo_range (r : List ℂ) (hr : 2 ≤ r.length) :
    wrapTwo r = (List.range (r.length + 4)).map fun i : ℕ => Spec.cyc r ((i : ℤ) - 2) := by
  have e1 : pyFrom r (-2) = [r[r.length - 2], r[r.length - 1]] := by
    have h2 : sliceBound r.length (-2) = r.length - 2 := by unfold sliceBound; rw [if_pos (by omega)]; omega
    unfold pyFrom pySlice
    simp only [h2]
    apply List.ext_getElem
    · simp; omega
    · intro i h3 h4
      simp at h4
      rcases i with _ | _ | i
      · simp
      · simp; congr 1; omega
      · omega
  have e2 : pyUpto r 2 = [r[0], r[1]] := by
    have h2 : sliceBound r.length 2 = 2 := by unfold sliceBound; rw [if_neg (by omega)]; omega
    unfold pyUpto pySlice
    simp only [h2]
    apply List.ext_getElem
    · simp; omega
    · intro i h3 h4
      simp at h4
      rcases i with _ | _ | i
      · simp
      · simp
      · omega
  unfold wrapTwo
  rw [e1, e2]
  apply List.ext_getElem
  · simp
  · intro i h1 h2
    simp at h2
    simp only [List.getElem_map, List.getElem_range]
    by_cases hi : i < 2
    · have : Spec.cyc r ((i : ℤ) - 2) = Spec.cyc r ((r.length - 2 + i : ℕ) : ℤ) := by
        rw [← cyc_sub]; congr 1; omega
      rw [this, cyc_of_lt _ _ (by omega)]
      rcases i with _ | _ | i
      · simp
      · simp; congr 1; omega
      · omega
    · by_cases hi2 : i < 2 + r.length
      · have : Spec.cyc r ((i : ℤ) - 2) = Spec.cyc r ((i - 2 : ℕ) : ℤ) := by congr 1; omega
        rw [this, cyc_of_lt _ _ (by omega)]
        rw [List.getElem_append_left (by simp; omega), List.getElem_append_right (by simp; omega)]
        simp
      · have : Spec.cyc r ((i : ℤ) - 2) = Spec.cyc r ((i - 2 - r.length : ℕ) : ℤ) := by
          rw [← cyc_sub r ((i - 2 - r.length : ℕ) : ℤ)]; congr 1; omega
        rw [this, cyc_of_lt _ _ (by omega)]
        rw [List.getElem_append_right (by simp; omega)]
        have hi3 : i = r.length + 2 ∨ i = r.length + 3 := by omega
        rcases hi3 with rfl | rfl
        · simp
        · simp

theorem numDiff1_range (dt : ℝ) (r : List ℂ) (hr : 1 ≤ r.length) :
    numDiff1 dt r = (List.range r.length).map fun i : ℕ => Spec.stencil 1 dt r i := by
  have h1 : sliceBound r.length 1 = 1 := by unfold sliceBound; rw [if_neg (by omega)]; omega
  have h2 : sliceBound r.length (-1) = r.length - 1 := by unfold sliceBound; rw [if_pos (by omega)]; omega
  unfold numDiff1 pyFrom pyUpto pySlice
  simp only [h1, h2, Spec.stencil, if_true]
  apply List.ext_getElem
  · simp; omega
  · intro i h3 h4
    simp at h4
    simp only [List.getElem_map, List.getElem_range]
    congr 1
    rw [cyc_of_lt r i h4]
    by_cases hi : i < r.length - 1
    · rw [List.getElem_append_left (by simp; omega)]
      have : Spec.cyc r ((i : ℤ) + 1) = r[i + 1] := by
        rw [← cyc_of_lt r (i + 1) (by omega)]; push_cast; rfl
      rw [this]
      simp
    · rw [List.getElem_append_right (by simp; omega)]
      have : Spec.cyc r ((i : ℤ) + 1) = r[0] := by
        rw [← cyc_of_lt r 0 (by omega), ← cyc_sub r ((0 : ℕ) : ℤ)]; congr 1; omega
      rw [this]
      simp
      congr 2 <;> omega

theorem numDiff2_range (dt : ℝ) (r : List ℂ) (hr : 2 ≤ r.length) :
    numDiff2 dt r = (List.range r.length).map fun i : ℕ => Spec.stencil 2 dt r i := by
  unfold numDiff2
  simp only [wrapTwo_range r hr]
  have e4 := pyFrom_range (fun i : ℕ => Spec.cyc r ((i : ℤ) - 2)) (r.length + 4) 4 (by omega)
  have e3 := pySlice_range (fun i : ℕ => Spec.cyc r ((i : ℤ) - 2)) (r.length + 4) 3 1 (by omega) (by omega) (by omega)
  have e2 := pySlice_range (fun i : ℕ => Spec.cyc r ((i : ℤ) - 2)) (r.length + 4) 2 2 (by omega) (by omega) (by omega)
  rw [show r.length + 4 - 4 = r.length by omega] at e4
  rw [show r.length + 4 - 1 - 3 = r.length by omega] at e3
  rw [show r.length + 4 - 2 - 2 = r.length by omega] at e2
  simp only [Nat.cast_ofNat, Nat.cast_one] at e4 e3 e2
  rw [e4, e3, e2, zipWith_range, zipWith_range, List.map_map]
  refine List.map_congr_left fun i _ => ?_
  simp only [Function.comp, Spec.stencil, if_neg (by norm_num : ¬ (2 : ℤ) = 1), if_true]
  push_cast
  rw [show (4 + (i : ℤ) - 2) = i + 2 by ring, show (3 + (i : ℤ) - 2) = i + 1 by ring, show (2 + (i : ℤ) - 2) = i by ring]

theorem numDiff4_range (dt : ℝ) (r : List ℂ) (hr : 2 ≤ r.length) :
    numDiff4 dt r = (List.range r.length).map fun i : ℕ => Spec.stencil 4 dt r i := by
  unfold numDiff4
  simp only [wrapTwo_range r hr]
  have e4 := pyFrom_range (fun i : ℕ => Spec.cyc r ((i : ℤ) - 2)) (r.length + 4) 4 (by omega)
  have e3 := pySlice_range (fun i : ℕ => Spec.cyc r ((i : ℤ) - 2)) (r.length + 4) 3 1 (by omega) (by omega) (by omega)
  have e1 := pySlice_range (fun i : ℕ => Spec.cyc r ((i : ℤ) - 2)) (r.length + 4) 1 3 (by omega) (by omega) (by omega)
  have e0 := pySlice_range (fun i : ℕ => Spec.cyc r ((i : ℤ) - 2)) (r.length + 4) 0 4 (by omega) (by omega) (by omega)
  rw [show r.length + 4 - 4 = r.length by omega] at e4
  rw [show r.length + 4 - 1 - 3 = r.length by omega] at e3
  rw [show r.length + 4 - 3 - 1 = r.length by omega] at e1
  rw [show r.length + 4 - 4 - 0 = r.length by omega] at e0
  simp only [Nat.cast_ofNat, Nat.cast_one, Nat.cast_zero] at e4 e3 e1 e0
  rw [e4, e3, e1, e0, zipWith_range, zipWith_range, zipWith_range, List.map_map]
  refine List.map_congr_left fun i _ => ?_
  simp only [Function.comp, Spec.stencil, if_neg (by norm_num : ¬ (4 : ℤ) = 1), if_neg (by norm_num : ¬ (4 : ℤ) = 2)]
  push_cast
  rw [show (4 + (i : ℤ) - 2) = i + 2 by ring, show (3 + (i : ℤ) - 2) = i + 1 by ring, show (1 + (i : ℤ) - 2) = i - 1 by ring,
    show (0 + (i : ℤ) - 2) = i - 2 by ring]
  ring

/-! ## Values -/

theorem abs_re_negI (z W : ℂ) : |(-I * z / W).re / (2 * Real.pi)| = |(z / W).im| / (2 * Real.pi) := by
  have hpi : (0 : ℝ) < 2 * Real.pi := by have := Real.pi_pos; positivity
  rw [abs_div, abs_of_pos hpi, mul_div_assoc]
  simp

/-- **C95 (values).** `difforder` must be 1, 2 or 4. On at least two columns each entry is `inf` where `|Wx|` is below the threshold and
`|Im(D/Wx)| / 2π` elsewhere, `D` being the documented difference scheme on the row continued periodically; there is one entry per
column. -/
theorem C95_values (eps dt : ℝ) (p : ℤ) (g : ℝ) (hg : g ≠ 0) (r : List ℂ) (hr : 2 ≤ r.length) :
    (∀ w, phaseCwtNum eps dt p (some g) r = .ok w → p = 1 ∨ p = 2 ∨ p = 4) ∧
    (p = 1 ∨ p = 2 ∨ p = 4 → ∃ w, phaseCwtNum eps dt p (some g) r = .ok w ∧ w.length = r.length ∧
      ∀ (j : ℕ) (hj : j < w.length) (hj' : j < r.length),
        (‖r[j]‖ < g → w[j] = .inf) ∧
        (g ≤ ‖r[j]‖ → w[j] = .fin (|(Spec.stencil p dt r j / r[j]).im| / (2 * Real.pi)))) := by
  constructor
  · intro w h
    unfold phaseCwtNum at h
    by_contra hp
    push Not at hp
    rw [if_pos hp] at h
    cases h
  · intro hp
    unfold phaseCwtNum
    rw [if_neg (by omega)]
    refine ⟨_, rfl, ?_⟩
    have hd : (if p = 1 then numDiff1 dt r else if p = 2 then numDiff2 dt r else numDiff4 dt r) =
        (List.range r.length).map fun i : ℕ => Spec.stencil p dt r i := by
      rcases hp with rfl | rfl | rfl
      · rw [if_pos rfl]; exact numDiff1_range dt r (by omega)
      · rw [if_neg (by norm_num), if_pos rfl]; exact numDiff2_range dt r hr
      · rw [if_neg (by norm_num), if_neg (by norm_num)]; exact numDiff4_range dt r hr
    have hng : numGamma eps (some g) = g := by simp [numGamma, hg]
    simp only [hd, hng]
    refine ⟨by simp, fun j hj hj' => ⟨fun h => ?_, fun h => ?_⟩⟩
    · simp [h]
    · simp only [List.getElem_zipWith, if_neg (not_lt.2 h), List.getElem_map, List.getElem_range, abs_re_negI]

/-- The default threshold is ten machine epsilons; 0 counts as the default. -/
theorem C95_threshold (eps dt : ℝ) (p : ℤ) (r : List ℂ) (he : eps ≠ 0) :
    phaseCwtNum eps dt p none r = phaseCwtNum eps dt p (some (10 * eps)) r ∧
    phaseCwtNum eps dt p (some 0) r = phaseCwtNum eps dt p (some (10 * eps)) r := by
  have h : (10 : ℝ) * eps ≠ 0 := by positivity
  unfold phaseCwtNum
  simp [numGamma, he]

/-! ## Tones -/

/-- Response of the scheme to a tone of `θ` radians per sample, in radians per sample. -/
noncomputable def Spec.response (p : ℤ) (θ : ℝ) : ℝ :=
  if p = 1 then Real.sin θ
  else if p = 2 then (4 * Real.sin θ - Real.sin (2 * θ)) / 2
  else (8 * Real.sin θ - Real.sin (2 * θ)) / 6

theorem mono_bound {f f' g g' : ℝ → ℝ} (hf : ∀ x, HasDerivAt f (f' x) x) (hg : ∀ x, HasDerivAt g (g' x) x)
    (h0 : f 0 = g 0) (hle : ∀ x, 0 ≤ x → f' x ≤ g' x) (x : ℝ) (hx : 0 ≤ x) : f x ≤ g x := by
  have h1 : ∀ y, HasDerivAt (fun y => g y - f y) (g' y - f' y) y := fun y => (hg y).sub (hf y)
  have h2 : MonotoneOn (fun y => g y - f y) (Set.Ici 0) := by
    apply monotoneOn_of_deriv_nonneg (convex_Ici 0)
    · exact fun y _ => (h1 y).continuousAt.continuousWithinAt
    · exact fun y _ => (h1 y).differentiableAt.differentiableWithinAt
    · intro y hy
      rw [(h1 y).deriv]
      have : 0 ≤ y := by simp at hy; exact hy.le
      linarith [hle y this]
  have := h2 (Set.mem_Ici.2 le_rfl) (Set.mem_Ici.2 hx) hx
  simp only [h0, sub_self] at this
  linarith

theorem hasDeriv_sin2 (x : ℝ) : HasDerivAt (fun y : ℝ => Real.sin (2 * y)) (2 * Real.cos (2 * x)) x := by
  have := (Real.hasDerivAt_sin (2 * x)).comp x ((hasDerivAt_id x).const_mul 2)
  rw [show 2 * Real.cos (2 * x) = Real.cos (2 * x) * (2 * 1) by ring]
  exact this

theorem response_hasDeriv (p : ℤ) (x : ℝ) : HasDerivAt (Spec.response p)
    (if p = 1 then Real.cos x else if p = 2 then (4 * Real.cos x - 2 * Real.cos (2 * x)) / 2
      else (8 * Real.cos x - 2 * Real.cos (2 * x)) / 6) x := by
  unfold Spec.response
  by_cases h1 : p = 1
  · simp only [h1, if_true]; exact Real.hasDerivAt_sin x
  · by_cases h2 : p = 2
    · simp only [h2, if_neg (by norm_num : ¬ (2 : ℤ) = 1), if_true]
      exact (((Real.hasDerivAt_sin x).const_mul 4).sub (hasDeriv_sin2 x)).div_const 2
    · simp only [if_neg h1, if_neg h2]
      exact (((Real.hasDerivAt_sin x).const_mul 8).sub (hasDeriv_sin2 x)).div_const 6

/-- The error of the response: third power for orders 1 and 2, fifth for order 4. -/
noncomputable def Spec.responseError (p : ℤ) (θ : ℝ) : ℝ :=
  if p = 1 then θ ^ 3 / 6 else if p = 2 then θ ^ 3 / 3 else θ ^ 5 / 30

theorem err_hasDeriv (p : ℤ) (x : ℝ) : HasDerivAt (Spec.responseError p)
    (if p = 1 then x ^ 2 / 2 else if p = 2 then x ^ 2 else x ^ 4 / 6) x := by
  unfold Spec.responseError
  by_cases h1 : p = 1
  · simp only [h1, if_true]; exact ((hasDerivAt_pow 3 x).div_const 6).congr_deriv (by push_cast; ring)
  · by_cases h2 : p = 2
    · simp only [h2, if_neg (by norm_num : ¬ (2 : ℤ) = 1), if_true]
      exact ((hasDerivAt_pow 3 x).div_const 3).congr_deriv (by push_cast; ring)
    · simp only [if_neg h1, if_neg h2]
      exact ((hasDerivAt_pow 5 x).div_const 30).congr_deriv (by push_cast; ring)

/-- For every `θ ≥ 0` the response is within the error of `θ`. -/
theorem response_bound (p : ℤ) (θ : ℝ) (hθ : 0 ≤ θ) : |Spec.response p θ - θ| ≤ Spec.responseError p θ := by
  have key : ∀ x : ℝ, 0 ≤ x →
      |(if p = 1 then Real.cos x else if p = 2 then (4 * Real.cos x - 2 * Real.cos (2 * x)) / 2
        else (8 * Real.cos x - 2 * Real.cos (2 * x)) / 6) - 1| ≤
      (if p = 1 then x ^ 2 / 2 else if p = 2 then x ^ 2 else x ^ 4 / 6) := by
    intro x _
    have hc := Real.one_sub_sq_div_two_le_cos (x := x)
    have hc1 := Real.cos_le_one x
    have hc2 := Real.neg_one_le_cos x
    rw [Real.cos_two_mul]
    set c := Real.cos x
    by_cases h1 : p = 1
    · simp only [h1, if_true]; rw [abs_le]; constructor <;> nlinarith [sq_nonneg x]
    · by_cases h2 : p = 2
      · simp only [h2, if_neg (by norm_num : ¬ (2 : ℤ) = 1), if_true]
        rw [show (4 * c - 2 * (2 * c ^ 2 - 1)) / 2 - 1 = 2 * c * (1 - c) by ring, abs_le]
        constructor <;> nlinarith [sq_nonneg x]
      · simp only [if_neg h1, if_neg h2]
        rw [show (8 * c - 2 * (2 * c ^ 2 - 1)) / 6 - 1 = -(2 / 3 * (1 - c) ^ 2) by ring, abs_neg, abs_of_nonneg (by positivity)]
        have : (1 - c) ^ 2 ≤ (x ^ 2 / 2) ^ 2 := by
          apply pow_le_pow_left₀ <;> linarith
        nlinarith
  have r0 : Spec.response p 0 = 0 := by unfold Spec.response; simp
  have e0 : Spec.responseError p 0 = 0 := by unfold Spec.responseError; simp
  have hid : ∀ x, HasDerivAt (fun y : ℝ => y) 1 x := fun x => hasDerivAt_id' x
  rw [abs_le]
  constructor
  · have := mono_bound (fun x => (hid x).sub (err_hasDeriv p x)) (response_hasDeriv p)
      (by simp [r0, e0]) (fun x hx => by have := (abs_le.1 (key x hx)).1; linarith) θ hθ
    simp only [Pi.sub_apply] at this
    linarith
  · have := mono_bound (response_hasDeriv p) (fun x => (hid x).add (err_hasDeriv p x))
      (by simp [r0, e0]) (fun x hx => by have := (abs_le.1 (key x hx)).2; linarith) θ hθ
    simp only [Pi.add_apply] at this
    linarith

/-- The scheme on a row that is a tone near column `j`. -/
theorem stencil_tone (p : ℤ) (dt θ : ℝ) (r : List ℂ) (j : ℤ) (z : ℂ) (hz : z ≠ 0)
    (h : ∀ m : ℤ, 0 ≤ m ∨ p = 4 → -2 ≤ m → m ≤ 2 → (p = 1 → m ≤ 1) → Spec.cyc r (j + m) = z * exp (θ * m * I))
    (hp : p = 1 ∨ p = 2 ∨ p = 4) :
    (Spec.stencil p dt r j / z).im = Spec.response p θ / dt := by
  have him : ∀ w : ℂ, (w / (dt : ℂ)).im = w.im / dt := fun w => by rw [Complex.div_ofReal_im]
  have e1 : ∀ m : ℤ, (exp ((θ : ℂ) * m * I)).im = Real.sin (θ * m) := by
    intro m
    have : (θ : ℂ) * m * I = ((θ * m : ℝ) : ℂ) * I := by push_cast; ring
    rw [this, Complex.exp_ofReal_mul_I_im]
  have h0 : Spec.cyc r j = z := by have := h 0 (.inl le_rfl) (by norm_num) (by norm_num) (by omega); simpa using this
  have h1 := h 1 (.inl (by norm_num)) (by norm_num) (by norm_num) (by omega)
  rcases hp with rfl | rfl | rfl
  · simp only [Spec.stencil, Spec.response, if_true]
    rw [h0, h1, div_right_comm, him, show (z * exp (θ * ((1 : ℤ) : ℂ) * I) - z) / z = exp (θ * ((1 : ℤ) : ℂ) * I) - 1 by field_simp,
      Complex.sub_im, e1]
    simp
  · have h2 := h 2 (.inl (by norm_num)) (by norm_num) (by norm_num) (by omega)
    simp only [Spec.stencil, Spec.response, if_neg (by norm_num : ¬ (2 : ℤ) = 1), if_true]
    rw [h0, h1, h2, show ∀ a b c : ℂ, (-(z * a) + 4 * (z * b) - 3 * z) / (2 * c) / z = ((-a + 4 * b - 3) / 2) / c from fun a b c => by
      field_simp, him]
    congr 1
    rw [show ∀ w : ℂ, w / 2 = w / ((2 : ℝ) : ℂ) from fun w => by simp, Complex.div_ofReal_im]
    simp only [Complex.sub_im, Complex.add_im, Complex.neg_im, Complex.mul_im, e1]
    simp
    ring_nf
  · have h2 := h 2 (.inl (by norm_num)) (by norm_num) (by norm_num) (by omega)
    have h3 := h (-1) (.inr rfl) (by norm_num) (by norm_num) (by omega)
    have h4 := h (-2) (.inr rfl) (by norm_num) (by norm_num) (by omega)
    simp only [Spec.stencil, Spec.response, if_neg (by norm_num : ¬ (4 : ℤ) = 1), if_neg (by norm_num : ¬ (4 : ℤ) = 2)]
    rw [h1, h2, sub_eq_add_neg j 1, sub_eq_add_neg j 2, h3, h4,
      show ∀ a b c d e : ℂ, (-(z * a) + 8 * (z * b) - 8 * (z * c) + z * d) / (12 * e) / z = ((-a + 8 * b - 8 * c + d) / 12) / e from
        fun a b c d e => by field_simp, him]
    congr 1
    rw [show ∀ w : ℂ, w / 12 = w / ((12 : ℝ) : ℂ) from fun w => by simp, Complex.div_ofReal_im]
    simp only [Complex.sub_im, Complex.add_im, Complex.neg_im, Complex.mul_im, e1]
    simp
    ring_nf

/-- The core of the tone theorems: the entry, given the neighbouring columns. -/
theorem tone_entry (eps dt f g : ℝ) (hdt : 0 < dt) (hf : 0 ≤ f) (hg : 0 < g) (p : ℤ) (hp : p = 1 ∨ p = 2 ∨ p = 4)
    (r : List ℂ) (hr : 2 ≤ r.length) (j : ℕ) (hj : j < r.length) (hW : g ≤ ‖r[j]‖)
    (h : ∀ m : ℤ, 0 ≤ m ∨ p = 4 → -2 ≤ m → m ≤ 2 → (p = 1 → m ≤ 1) →
      Spec.cyc r (j + m) = r[j] * exp ((2 * Real.pi * f * dt : ℝ) * m * I)) :
    ∃ w v, phaseCwtNum eps dt p (some g) r = .ok w ∧ w[j]? = some (.fin v) ∧
      |v - f| ≤ Spec.responseError p (2 * Real.pi * f * dt) / (2 * Real.pi * dt) := by
  obtain ⟨w, hw, hl, hv⟩ := (C95_values eps dt p g hg.ne' r hr).2 hp
  have hjw : j < w.length := hl ▸ hj
  have hz : r[j] ≠ 0 := norm_pos_iff.1 (lt_of_lt_of_le hg hW)
  refine ⟨w, _, hw, by rw [List.getElem?_eq_getElem hjw, (hv j hjw hj).2 hW], ?_⟩
  rw [stencil_tone p dt (2 * Real.pi * f * dt) r j r[j] hz h hp]
  have hpi := Real.pi_pos
  set θ := 2 * Real.pi * f * dt with hθ
  have hθ0 : 0 ≤ θ := by positivity
  have hb := response_bound p θ hθ0
  have hd : (0 : ℝ) < 2 * Real.pi * dt := by positivity
  have e : |Spec.response p θ / dt| / (2 * Real.pi) - f = (|Spec.response p θ| - θ) / (2 * Real.pi * dt) := by
    rw [abs_div, abs_of_pos hdt, hθ]; field_simp
  rw [e, abs_div, abs_of_pos hd]
  refine div_le_div_of_nonneg_right ?_ hd.le
  calc abs (|Spec.response p θ| - θ) = abs (|Spec.response p θ| - |θ|) := by rw [abs_of_nonneg hθ0]
    _ ≤ |Spec.response p θ - θ| := abs_abs_sub_abs_le_abs_sub _ _
    _ ≤ _ := hb

/-- **C95 (tones).** On a row that is a tone of `f ≥ 0` Hz (sampled every `dt` seconds), at every column whose neighbours used by the
scheme exist, the reported frequency is within `θ³/6`, `θ³/3`, `θ⁵/30` over `2π dt` of `f`, for orders 1, 2, 4, with `θ = 2π f dt`. -/
theorem C95_tone (eps dt f g : ℝ) (hdt : 0 < dt) (hf : 0 ≤ f) (hg : 0 < g) (p : ℤ) (hp : p = 1 ∨ p = 2 ∨ p = 4)
    (c : ℂ) (hc : g ≤ ‖c‖) (r : List ℂ) (hr : 2 ≤ r.length)
    (htone : ∀ (k : ℕ) (hk : k < r.length), r[k] = c * exp (2 * Real.pi * f * dt * k * I))
    (j : ℕ) (h1 : j + 1 < r.length) (h2 : p ≠ 1 → j + 2 < r.length) (h4 : p = 4 → 2 ≤ j) :
    ∃ w v, phaseCwtNum eps dt p (some g) r = .ok w ∧ w[j]? = some (.fin v) ∧
      |v - f| ≤ Spec.responseError p (2 * Real.pi * f * dt) / (2 * Real.pi * dt) := by
  have hj : j < r.length := by omega
  refine tone_entry eps dt f g hdt hf hg p hp r hr j hj ?_ fun m hm hm1 hm2 hm3 => ?_
  · rw [htone j hj, norm_mul, show (2 * Real.pi * f * dt * j * I : ℂ) = ((2 * Real.pi * f * dt * j : ℝ) : ℂ) * I by push_cast; rfl,
      Complex.norm_exp_ofReal_mul_I, mul_one]
    exact hc
  · obtain ⟨k, hk⟩ : ∃ k : ℕ, (j : ℤ) + m = k := ⟨((j : ℤ) + m).toNat, by
      rcases hm with hm | hm
      · omega
      · have := h4 hm; omega⟩
    have hkl : k < r.length := by
      by_cases hp1 : p = 1
      · have := hm3 hp1; omega
      · have := h2 hp1; omega
    rw [hk, cyc_of_lt r k hkl, htone k hkl, htone j hj, mul_assoc c, ← exp_add]
    congr 2
    have : (k : ℂ) = j + m := by exact_mod_cast congrArg (Int.cast (R := ℂ)) hk.symm
    rw [this]
    push_cast
    ring

/-- **C95 (periodic tones).** If the row holds a whole number of periods, this holds at every column. -/
theorem C95_tone_periodic (eps dt f g : ℝ) (hdt : 0 < dt) (hf : 0 ≤ f) (hg : 0 < g) (p : ℤ) (hp : p = 1 ∨ p = 2 ∨ p = 4)
    (c : ℂ) (hc : g ≤ ‖c‖) (r : List ℂ) (hr : 2 ≤ r.length) (q : ℤ) (hq : f * dt * r.length = q)
    (htone : ∀ (k : ℕ) (hk : k < r.length), r[k] = c * exp (2 * Real.pi * f * dt * k * I)) (j : ℕ) (hj : j < r.length) :
    ∃ w v, phaseCwtNum eps dt p (some g) r = .ok w ∧ w[j]? = some (.fin v) ∧
      |v - f| ≤ Spec.responseError p (2 * Real.pi * f * dt) / (2 * Real.pi * dt) := by
  have hcyc : ∀ m : ℤ, Spec.cyc r m = c * exp (2 * Real.pi * f * dt * m * I) := by
    intro m
    have hn : (0 : ℤ) < r.length := by omega
    obtain ⟨k, hk⟩ : ∃ k : ℕ, m % r.length = k := ⟨(m % r.length).toNat, by have := Int.emod_nonneg m hn.ne'; omega⟩
    have hkl : k < r.length := by have := Int.emod_lt_of_pos m hn; omega
    have e1 : Spec.cyc r m = r[k] := by
      simp [Spec.cyc, hk, List.getD_eq_getElem?_getD, hkl]
    rw [e1, htone k hkl]
    congr 1
    have hm : (m : ℂ) = k + r.length * (m / r.length : ℤ) := by
      have := Int.emod_add_mul_ediv m r.length
      rw [hk] at this
      exact_mod_cast congrArg (Int.cast (R := ℂ)) this.symm
    have hqc : (f : ℂ) * dt * r.length = q := by exact_mod_cast congrArg (Complex.ofReal) hq
    rw [hm, show (2 * Real.pi * f * dt * (k + r.length * (m / r.length : ℤ)) * I : ℂ) =
      2 * Real.pi * f * dt * k * I + ((q * (m / r.length : ℤ) : ℤ) : ℂ) * (2 * Real.pi * I) by push_cast; rw [← hqc]; push_cast; ring,
      Complex.exp_add, Complex.exp_int_mul_two_pi_mul_I, mul_one]
  refine tone_entry eps dt f g hdt hf hg p hp r hr j hj ?_ fun m _ _ _ _ => ?_
  · rw [htone j hj, norm_mul, show (2 * Real.pi * f * dt * j * I : ℂ) = ((2 * Real.pi * f * dt * j : ℝ) : ℂ) * I by push_cast; rfl,
      Complex.norm_exp_ofReal_mul_I, mul_one]
    exact hc
  · rw [hcyc, htone j hj, mul_assoc c, ← exp_add]
    congr 2
    push_cast
    ring

/-- A tone of 1 Hz sampled 4 times a second, two periods. -/
example : ∃ w v, phaseCwtNum 1 (1 / 4) 4 (some 1) ((List.range 8).map fun k : ℕ => (2 : ℂ) * exp (2 * Real.pi * (1 : ℝ) * (1 / 4 : ℝ) * k * I))
    = .ok w ∧ w[0]? = some (.fin v) ∧ |v - 1| ≤ Spec.responseError 4 (2 * Real.pi * 1 * (1 / 4)) / (2 * Real.pi * (1 / 4)) :=
  C95_tone_periodic 1 (1 / 4) 1 1 (by norm_num) (by norm_num) one_pos 4 (by norm_num) 2 (by simp) _ (by simp) 2 (by simp; norm_num)
    (by intro k hk; simp) 0 (by simp)

end Ssq
