import Verif.Props.CwtTone
import Verif.Props.InvErr
import Verif.Props.Gmw

/-!
# C188: amplitude, phase and scale of a tone
-/
namespace Ssq
open Complex Spec

/-- **C188**. The transform of a tone of `k` cycles in `N` samples (no padding), with a real wavelet that is zero up to frequency 0, rises to `P` at `p` and falls: every row is a rotating
phasor in phase with the tone, of constant modulus `|A|/2` times the wavelet at scale times frequency (times the root of the scale without `l1_norm`). -/
theorem C188_phasor (N k : ℕ) (A φ : ℝ) (hk0 : 0 < k) (hk : 2 * k < N) (a : CwtArgs) (hp : a.padtype = none) (f : ℝ → ℝ) (hf : a.wavelet.fn = .real f) (hneg : ∀ w < 0, f w = 0)
    (W : List (List ℂ)) (scales : List ℝ) (dW : List (List ℂ)) (h : cwt (Spec.tone N k A φ) a = .ok (W, scales, dW)) (hpos : ∀ s ∈ scales, 0 < s) :
    ∀ i (hi : i < scales.length), (W.getD i []).length = N ∧ ∀ j < N,
      ent W i j = (((if a.l1Norm then 1 else Real.sqrt scales[i]) * (A / 2 * f (scales[i] * (2 * Real.pi * k / N))) : ℝ) : ℂ) * exp (I * ((2 * Real.pi * k * j / N + φ : ℝ) : ℂ)) := by
  obtain ⟨fs, dt, -, -, -, -, hrow⟩ := cwt_tone N k A φ hk a hp (fun w hw => by rw [hf]; simp [WFn.eval, hneg w hw]) W scales dW h hpos
  intro i hi
  obtain ⟨ψ, hψ, hl, -, hv⟩ := hrow i hi
  refine ⟨hl, fun j hj => ?_⟩
  have hψ' : ψ = ((f (scales[i] * (2 * Real.pi * k / N)) : ℝ) : ℂ) := by
    rw [hf] at hψ
    rcases hψ with h | h <;> simpa [WFn.eval] using h
  rw [(hv j hj).1, hψ', if_neg (by omega)]
  have hn : a.norm scales[i] = if a.l1Norm then 1 else Real.sqrt scales[i] := rfl
  rw [hn]
  have he : exp (I * φ) * tw N ((j : ℤ) * k) = exp (I * ((2 * Real.pi * k * j / N + φ : ℝ) : ℂ)) := by
    unfold tw
    rw [← Complex.exp_add]
    congr 1
    push_cast
    ring
  rw [← he]
  push_cast
  ring

/-- **C188** (amplitude). With `l1_norm` the modulus is at most `P/2` times the amplitude of the tone, equal to it at the scale `p` over the tone's frequency, and decreases away from that
scale; the same in all columns. -/
theorem C188_amplitude (N k : ℕ) (A φ : ℝ) (hk0 : 0 < k) (hk : 2 * k < N) (a : CwtArgs) (hp : a.padtype = none) (hl1 : a.l1Norm = true) (f : ℝ → ℝ) (hf : a.wavelet.fn = .real f) {p P : ℝ}
    (hH : Hump f p P) (W : List (List ℂ)) (scales : List ℝ) (dW : List (List ℂ)) (h : cwt (Spec.tone N k A φ) a = .ok (W, scales, dW)) (hpos : ∀ s ∈ scales, 0 < s) (s0 : ℝ)
    (hs0 : s0 = p / (2 * Real.pi * k / N)) :
    ∀ i (hi : i < scales.length), ∀ j < N, ‖ent W i j‖ ≤ |A| * P / 2 ∧ (scales[i] = s0 → ‖ent W i j‖ = |A| * P / 2) ∧
      ∀ i' (hi' : i' < scales.length), ∀ j' < N, (s0 ≤ scales[i] ∧ scales[i] ≤ scales[i'] ∨ scales[i'] ≤ scales[i] ∧ scales[i] ≤ s0) → ‖ent W i' j'‖ ≤ ‖ent W i j‖ := by
  have hω : 0 < 2 * Real.pi * k / N := by
    have : (0 : ℝ) < k := by exact_mod_cast hk0
    have : (0 : ℝ) < N := by exact_mod_cast (show 0 < N by omega)
    have := Real.pi_pos
    positivity
  set ω := 2 * Real.pi * k / N with hωd
  have hph := C188_phasor N k A φ hk0 hk a hp f hf (fun w hw => hH.zero w hw.le) W scales dW h hpos
  have hnorm : ∀ i (hi : i < scales.length), ∀ j < N, ‖ent W i j‖ = |A| * f (scales[i] * ω) / 2 := by
    intro i hi j hj
    rw [(hph i hi).2 j hj, if_pos hl1, one_mul, norm_mul, mul_comm I, Complex.norm_exp_ofReal_mul_I, mul_one, Complex.norm_real, Real.norm_eq_abs, abs_mul, abs_div,
      abs_of_nonneg (hH.nonneg _), abs_of_pos (two_pos : (0 : ℝ) < 2)]
    ring
  intro i hi j hj
  rw [hnorm i hi j hj]
  have hA := abs_nonneg A
  have hmono : ∀ x y : ℝ, x ≤ y → |A| * x / 2 ≤ |A| * y / 2 := fun x y hxy => by
    have := mul_le_mul_of_nonneg_left hxy hA
    linarith
  refine ⟨hmono _ _ (hH.le _), fun hs => ?_, fun i' hi' j' hj' hor => ?_⟩
  · rw [hs, hs0, div_mul_cancel₀ _ hω.ne', hH.top]
  · rw [hnorm i' hi' j' hj']
    apply hmono
    have e0 : s0 * ω = p := by rw [hs0, div_mul_cancel₀ _ hω.ne']
    rcases hor with ⟨h1, h2⟩ | ⟨h1, h2⟩
    · exact hH.fall _ _ (by rw [← e0]; exact mul_le_mul_of_nonneg_right h1 hω.le) (mul_le_mul_of_nonneg_right h2 hω.le)
    · exact hH.rise _ _ (mul_pos (hpos _ (List.getElem_mem hi')) hω) (mul_le_mul_of_nonneg_right h1 hω.le) (by rw [← e0]; exact mul_le_mul_of_nonneg_right h2 hω.le)

/-- **C188** (Morse wavelets). With a bandpass Morse wavelet of order 0 and `l1_norm` the modulus is the amplitude of the tone exactly at the scale that is the wavelet's peak frequency over the
tone's, and smaller at all other scales. -/
theorem C188_gmw (N k : ℕ) (A φ : ℝ) (hk0 : 0 < k) (hk : 2 * k < N) (hA : A ≠ 0) (a : CwtArgs) (hp : a.padtype = none) (hl1 : a.l1Norm = true) (f : ℝ → ℝ) (hf : a.wavelet.fn = .real f) {γ β : ℝ}
    {c : Option Bool} {f32 : Bool} (hg : gmw (some γ) (some β) (.known .bandpass) (.int 0) c f32 = .ok f)
    (W : List (List ℂ)) (scales : List ℝ) (dW : List (List ℂ)) (h : cwt (Spec.tone N k A φ) a = .ok (W, scales, dW)) (hpos : ∀ s ∈ scales, 0 < s) :
    ∀ i (hi : i < scales.length), ∀ j < N, ‖ent W i j‖ ≤ |A| ∧
      (‖ent W i j‖ = |A| ↔ scales[i] * (2 * Real.pi * k / N) = if c = some true then 1 else (β / γ) ^ (1 / γ)) := by
  have hH := (C183_gmw hg).1
  intro i hi j hj
  have h1 := (C188_amplitude N k A φ hk0 hk a hp hl1 f hf hH W scales dW h hpos _ rfl i hi j hj).1
  refine ⟨by linarith, ?_⟩
  have hph := (C188_phasor N k A φ hk0 hk a hp f hf (fun w hw => hH.zero w hw.le) W scales dW h hpos i hi).2 j hj
  rw [← (C52_peak hg _).2, hph, if_pos hl1, one_mul, norm_mul, mul_comm I, Complex.norm_exp_ofReal_mul_I, mul_one, Complex.norm_real, Real.norm_eq_abs, abs_mul, abs_div,
    abs_of_nonneg (hH.nonneg _), abs_of_pos (two_pos : (0 : ℝ) < 2)]
  have hA' := abs_pos.2 hA
  constructor
  · intro h
    have : |A| * (f (scales[i] * (2 * Real.pi * k / N)) - 2) = 0 := by linarith
    rcases mul_eq_zero.1 this with h | h
    · exact absurd h hA'.ne'
    · linarith
  · intro h; rw [h]; ring

/-- The hypotheses hold for a tone of one cycle in four samples and the default Morse wavelet. -/
example : ∃ (a : CwtArgs) (f : ℝ → ℝ) (W dW : List (List ℂ)), a.wavelet.fn = .real f ∧ gmw (some 3) (some 60) (.known .bandpass) (.int 0) none true = .ok f ∧
    cwt (Spec.tone 4 1 3 0) a = .ok (W, [1, 2, 4], dW) ∧ ∀ j < 4, ‖ent W 1 j‖ ≤ 3 ∧ ‖ent W 2 j‖ ≤ ‖ent W 1 j‖ := by
  have hg := gmw_eq (γ := some 3) (β := some 60) (norm := .known .bandpass) (order := .int 0) (n := .bandpass) (k := 0)
    (f32 := true) none (by norm_num) (by norm_num) rfl (by simp [gmwCheckOrder]) rfl (by simp)
  generalize hf : (fun w : ℝ => gmwClosed ((some (3 : ℝ)).getD 3) ((some (60 : ℝ)).getD 60) .bandpass 0 (gmwArg ((none : Option Bool).getD false)
    (morsefreq ((some (3 : ℝ)).getD 3) ((some (60 : ℝ)).getD 60)) w)) = f at hg
  let a : CwtArgs := { argsR none with wavelet := ⟨.real f, sw0, none⟩ }
  obtain ⟨W, dW, h⟩ : ∃ W dW, cwt (Spec.tone 4 1 3 0) a = .ok (W, [1, 2, 4], dW) :=
    C37_succeeds _ a none rfl (by simp [Spec.tone]) 2 (1 / 2) (by simp [processFsT, a, argsR]) (by simp [a, argsR]) [1, 2, 4] .log 3 (.int 1) none (by simp [a, argsR, sc124]) (fun _ => rfl)
      (process124 _ _ _ _)
  have hpos : ∀ s ∈ ([1, 2, 4] : List ℝ), 0 < s := by simp
  refine ⟨a, f, W, dW, rfl, hg, h, fun j hj => ?_⟩
  have h1 := (C188_gmw 4 1 3 0 (by norm_num) (by norm_num) (by norm_num) a rfl rfl f rfl hg W _ dW h hpos 1 (by simp) j hj).1
  have h2 := (C188_amplitude 4 1 3 0 (by norm_num) (by norm_num) a rfl rfl f rfl (C183_gmw hg).1 W _ dW h hpos _ rfl 1 (by simp) j hj).2.2 2 (by simp) j hj
  rw [abs_of_pos (by norm_num : (0 : ℝ) < 3)] at h1
  refine ⟨h1, h2 (Or.inl ⟨?_, by simp; norm_num⟩)⟩
  have hx : ((60 : ℝ) / 3) ^ (1 / 3 : ℝ) ≤ 3 := by
    have h27 : (27 : ℝ) ^ (1 / 3 : ℝ) = 3 := by
      rw [show (27 : ℝ) = 3 ^ (3 : ℝ) by norm_num, ← Real.rpow_mul (by norm_num)]; norm_num
    refine le_of_le_of_eq ?_ h27
    exact Real.rpow_le_rpow (by norm_num) (by norm_num) (by norm_num)
  have hpi := Real.pi_gt_three
  rw [if_neg (by simp)]
  simp only [List.getElem_cons_succ, List.getElem_cons_zero]
  rw [div_le_iff₀ (by positivity)]
  push_cast
  linarith

end Ssq
