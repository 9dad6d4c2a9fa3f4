import Verif.Lemmas.StftTone
import Verif.Props.SuperposeStft
import Verif.Props.SuperposeTones
import Mathlib.Tactic.IntervalCases

/-!
# C160: tones in the STFT and in the synchrosqueezed STFT
-/
namespace Ssq
open Finset Complex

namespace Spec

/-- `N` samples of `A·cos(2π·k·j/m + φ)`: a tone of `k` cycles per `m` samples. -/
noncomputable def stftTone (N m k : ℕ) (A φ : ℝ) : List ℝ := (List.range N).map fun j : ℕ => A * Real.cos (2 * Real.pi * k * j / m + φ)

/-- The phase of that tone at sample `j`. -/
noncomputable def toneAngle (m k : ℕ) (φ : ℝ) (j : ℕ) : ℝ := 2 * Real.pi * k * j / m + φ

/-- A cosine-sum window: boxcar for `B = 0`, periodic Hann and Hamming for `B = 1`, periodic Blackman for `B = 2`. -/
def CosineWindow (m : ℕ) (w : ℕ → ℝ) (B : ℕ) : Prop :=
  ∃ α : ℕ → ℝ, ∀ r < m, w r = ∑ p ∈ range (B + 1), α p * Real.cos (2 * Real.pi * p * r / m)

/-- Whether a cell of magnitude `z` survives the threshold of `ssq_stft`. -/
def KeptCell (a : SsqStftArgs) (z : ℝ) : Prop :=
  if a.getW then a.gamma.getD (10 * a.eps) ≤ z else a.gamma.getD (10 * a.eps) < z

open Classical in
/-- What `ssq_stft` multiplies a tone of `k` cycles and amplitude `A` with: the window's coefficients, where they survive the threshold for this amplitude, times the frequency step. -/
noncomputable def stftGain (a : SsqStftArgs) (m : ℕ) (w : ℕ → ℝ) (step : ℝ) (k : ℕ) (A : ℝ) : ℂ :=
  ∑ i ∈ range (m / 2 + 1), if KeptCell a (|A| / 2 * ‖winHat m w ((i : ℤ) - k)‖) then winHat m w ((i : ℤ) - k) * (step : ℂ) else 0

end Spec

/-- Cosine-sum windows are band-limited. -/
theorem C160_windows {m : ℕ} {w : ℕ → ℝ} {B : ℕ} (h : Spec.CosineWindow m w B) : Spec.WinBand m w B := by
  obtain ⟨α, hα⟩ := h
  intro l h1 h2
  have hm : m ≠ 0 := by
    rintro rfl
    have := abs_nonneg l
    omega
  rw [winHat_eq]
  have hc : ∀ r ∈ range m, (w r : ℂ) * tw m (-(l * ((r : ℤ) - (m / 2 : ℕ)))) =
      ∑ p ∈ range (B + 1), ((α p / 2 : ℝ) : ℂ) * tw m (l * (m / 2 : ℕ)) * (tw m ((r : ℤ) * (p - l)) + tw m ((r : ℤ) * (-p - l))) := by
    intro r hr
    rw [hα r (mem_range.1 hr)]
    push_cast
    rw [sum_mul]
    refine sum_congr rfl fun p _ => ?_
    have e : Complex.cos (2 * Real.pi * p * r / m) = (tw m ((r : ℤ) * p) + tw m (-((r : ℤ) * p))) / 2 := by
      unfold tw Complex.cos
      congr 3 <;> push_cast <;> ring
    have e' : (-(l * ((r : ℤ) - (m / 2 : ℕ))) : ℤ) = l * (m / 2 : ℕ) + (-((r : ℤ) * l)) := by ring
    have e1 : tw m ((r : ℤ) * (p - l)) = tw m ((r : ℤ) * p) * tw m (-((r : ℤ) * l)) := by rw [← tw_add]; congr 1; ring
    have e2 : tw m ((r : ℤ) * (-p - l)) = tw m (-((r : ℤ) * p)) * tw m (-((r : ℤ) * l)) := by rw [← tw_add]; congr 1; ring
    have e'' : (-(l * ((r : ℤ) - (m : ℤ) / 2)) : ℤ) = l * ((m : ℤ) / 2) + (-((r : ℤ) * l)) := by ring
    rw [e'', tw_add, e1, e2, e]
    ring
  rw [sum_congr rfl hc, sum_comm]
  refine sum_eq_zero fun p hp => ?_
  have hp := mem_range.1 hp
  rw [← mul_sum, sum_add_distrib, sum_tw hm, sum_tw hm]
  have key : ∀ q : ℤ, |q| ≤ B → ¬ (m : ℤ) ∣ q - l := by
    rintro q hq ⟨z, hz⟩
    have a1 := abs_le.1 hq
    have a2 : |q - l| < m := by
      have := abs_sub q l
      omega
    rw [hz, abs_mul] at a2
    have a3 : z = 0 := by
      by_contra hne
      have := Int.one_le_abs hne
      have : (m : ℤ) * 1 ≤ |(m : ℤ)| * |z| := mul_le_mul (le_abs_self _) this (by omega) (abs_nonneg _)
      omega
    rw [a3, mul_zero] at hz
    have : q = l := by omega
    rw [this] at hq
    omega
  rw [if_neg (key p (by rw [abs_of_nonneg (by omega)]; omega)), if_neg (key (-p) (by rw [abs_neg, abs_of_nonneg (by omega)]; omega))]
  simp

/-- Periodic Hann windows of every length. -/
example (m : ℕ) : Spec.CosineWindow m (fun r => 1 / 2 - 1 / 2 * Real.cos (2 * Real.pi * r / m)) 1 := by
  refine ⟨fun p => if p = 0 then 1 / 2 else -(1 / 2), fun r _ => ?_⟩
  simp [sum_range_succ]
  ring

theorem stftTone_length (N m k : ℕ) (A φ : ℝ) : (Spec.stftTone N m k A φ).length = N := by simp [Spec.stftTone]

theorem winHat_high {m : ℕ} {w : ℕ → ℝ} {B k : ℕ} (hb : Spec.WinBand m w B) (hk : B < k) (hk2 : 2 * (k + B) < m) (i : ℕ) (hi : i < m / 2 + 1) :
    Spec.winHat m w ((i : ℤ) + k) = 0 := by
  by_cases h : 2 * (i + k) ≤ m
  · exact hb _ (by rw [abs_of_nonneg (by omega)]; omega) (by rw [abs_of_nonneg (by omega)]; omega)
  · have e : (i : ℤ) + k = (i : ℤ) + k - m + m * 1 := by ring
    rw [e, winHat_periodic (by omega)]
    exact hb _ (by rw [abs_of_nonpos (by omega)]; omega) (by rw [abs_of_nonpos (by omega)]; omega)

theorem winHat_smul (m : ℕ) (c : ℝ) (w : ℕ → ℝ) (l : ℤ) : Spec.winHat m (fun r => c * w r) l = c * Spec.winHat m w l := by
  unfold Spec.winHat
  rw [mul_sum]
  refine sum_congr rfl fun r _ => ?_
  push_cast
  ring

/-- **C160, transform.** For every window without frequencies above `B` cycles per FFT length, FFT length `m`, hop, sampling rate and tone of `k` cycles per FFT length with a whole number of
cycles in the signal, more than `B` away from 0 and half of the sampling rate, under periodic padding: `stft` of the tone is its analytic signal times the window's coefficient at the
distance of the bin from `k`, so zero in all bins further than `B` away; and the derivative is the transform times `2πi` times that distance in Hz. -/
theorem C160_stft {lib : WinLib} {tiny : ℝ} {N k : ℕ} {A φ : ℝ} {a : StftArgs} {m : ℕ} {w dw : List ℝ} {B : ℕ}
    (hv : StftValid lib tiny (Spec.stftTone N m k A φ) a m w dw .wrap) (hmod : a.modulated = true) (hdw : dw = diffWindow w)
    (hb : Spec.WinBand m (fun r => w.getD r 0) B) (hk : B < k) (hk2 : 2 * (k + B) < m) (hN : m ∣ k * N) :
    ∃ S dS, stft lib tiny (Spec.stftTone N m k A φ) a = .ok (m, S, dS) ∧ S.length = (N - 1) / a.hop + 1 ∧ dS.length = S.length ∧
      ∀ i < m / 2 + 1, ∀ j < S.length,
        entC S i j = (A / 2 : ℝ) * exp ((Spec.toneAngle m k φ (j * a.hop) : ℝ) * I) * Spec.winHat m (fun r => w.getD r 0) ((i : ℤ) - k) ∧
        entC dS i j = I * ((2 * Real.pi * (((i : ℤ) - k : ℤ) * (a.fs / m)) : ℝ) : ℂ) * entC S i j ∧
        ((B : ℤ) < |(i : ℤ) - k| → entC S i j = 0) := by
  have hm := hv.hm
  obtain ⟨S, dS, h1, h2, h3, h4, h5⟩ := C07_stft_entries hv _ (tone_ext N m k hm hN A φ)
  rw [stftTone_length] at h2 h3
  refine ⟨S, dS, h1, h2, by omega, fun i hi j hj => ?_⟩
  have hw := hv.hw
  have hwne : w ≠ [] := by intro h; rw [h] at hw; simp at hw; omega
  have hl : 2 * |(i : ℤ) - k| ≤ m := by
    rcases abs_cases ((i : ℤ) - k) with ⟨e, -⟩ | ⟨e, -⟩ <;> omega
  have c1 : entC S i j = (A / 2 : ℝ) * exp ((Spec.toneAngle m k φ (j * a.hop) : ℝ) * I) * Spec.winHat m (fun r => w.getD r 0) ((i : ℤ) - k) := by
    unfold entC
    rw [List.getD_eq_getElem S _ hj, (h4 j hj).2 i hi, hmod, stft_of_tone, winHat_high hb hk hk2 i hi, mul_zero, add_zero]
    rfl
  refine ⟨c1, ?_, fun hd => ?_⟩
  · unfold entC at c1 ⊢
    rw [List.getD_eq_getElem dS _ (by omega), (h5 j (by omega)).2 i hi, hmod, stft_of_tone, c1]
    simp only [if_true]
    rw [winHat_smul, winHat_smul, hdw]
    have hw' : ∀ l : ℤ, 2 * |l| ≤ m → _ := fun l hl => winHat_diff w hwne l (by rw [hw]; exact hl)
    rw [hw] at hw'
    have hz : Spec.winHat m (fun r => (diffWindow w).getD r 0) ((i : ℤ) + k) = 0 := by
      by_cases h : 2 * (i + k) ≤ m
      · rw [hw' _ (by rw [abs_of_nonneg (by omega)]; omega), winHat_high hb hk hk2 i hi, mul_zero]
      · have e : (i : ℤ) + k = (i : ℤ) + k - m + m * 1 := by ring
        have hz := winHat_high hb hk hk2 i hi
        rw [e, winHat_periodic (by omega)] at hz ⊢
        rw [hw' _ (by rw [abs_of_nonpos (by omega)]; omega), hz, mul_zero]
    rw [hz, hw' _ hl, if_neg (by rcases abs_cases ((i : ℤ) - k) with ⟨e, -⟩ | ⟨e, -⟩ <;> omega)]
    have : Spec.toneAngle m k φ (j * a.hop) = 2 * Real.pi * k * (j * a.hop : ℕ) / m + φ := rfl
    rw [this]
    push_cast
    ring
  · rw [c1, hb _ hd hl, mul_zero]

theorem nearest_row {v : List ℝ} {M : ℕ} {s x : ℝ} {k r : ℕ} {b : Bool} (hu : Spec.Uniform v 0 s) (hl : v.length = M) (hs : 0 < s) (hk : k < M)
    (hx : |x - k * s| < s / 2) (h : Spec.Nearest (if b then v.reverse else v) x r) : r = Spec.flip b M k := by
  obtain ⟨hr, hall⟩ := h
  have hr' : r < M := by cases b <;> simpa [hl] using hr
  have hfl : Spec.flip b M k < M := by unfold Spec.flip; split <;> omega
  have hv : ∀ i (hi : i < (if b then v.reverse else v).length), (if b then v.reverse else v)[i] = (Spec.flip b M i : ℕ) * s := by
    intro i hi
    have hi' : i < M := by cases b <;> simpa [hl] using hi
    cases b
    · simp only [Bool.false_eq_true, if_false, Spec.flip]
      rw [hu i (by omega)]; ring
    · simp only [if_true, Spec.flip, List.getElem_reverse]
      rw [hu _ (by omega), hl]; ring
  have := hall (Spec.flip b M k) (by cases b <;> simpa [hl] using hfl)
  rw [hv, hv] at this
  have hff : Spec.flip b M (Spec.flip b M k) = k := by unfold Spec.flip; cases b <;> simp; omega
  rw [hff] at this
  have h2 : |((Spec.flip b M r : ℕ) : ℝ) * s - k * s| < s := by
    have := abs_sub_le (((Spec.flip b M r : ℕ) : ℝ) * s) x (k * s)
    rw [abs_sub_comm _ x] at this
    linarith
  rw [← sub_mul, abs_mul, abs_of_pos hs] at h2
  have h3 : |((Spec.flip b M r : ℕ) : ℝ) - k| < 1 := by
    by_contra hc
    push Not at hc
    nlinarith
  have h4 : Spec.flip b M r = k := by
    have : |((Spec.flip b M r : ℕ) : ℤ) - k| < 1 := by exact_mod_cast h3
    rw [Int.abs_lt_one_iff] at this
    omega
  rw [← h4]
  unfold Spec.flip
  cases b <;> simp; omega

theorem keptCell_phase (a : SsqStftArgs) (f0 : ℝ) (z d : ℂ) :
    stftCellPhase a f0 z d z = open Classical in if Spec.KeptCell a ‖z‖ then .fin (stftFreq f0 z d) else .inf := by
  classical
  unfold stftCellPhase Spec.KeptCell
  cases a.getW
  · simp
  · simp only [if_true]
    by_cases h : ‖z‖ < a.gamma.getD (10 * a.eps)
    · rw [if_pos h, if_neg (not_le.2 h)]
    · rw [if_neg h, if_pos (not_lt.1 h)]

/-- One tone: the synchrosqueezed transform is zero outside the row of the tone's frequency. -/
theorem ssqStft_tone {lib : WinLib} {tiny : ℝ} {N k : ℕ} {A φ : ℝ} {a : SsqStftArgs} {m : ℕ} {w dw : List ℝ} {B : ℕ}
    (hv : StftValid lib tiny (Spec.stftTone N m k A φ) a.stft m w dw .wrap) (hmod : a.stft.modulated = true) (hdw : dw = diffWindow w)
    (hb : Spec.WinBand m (fun r => w.getD r 0) B) (hk : B < k) (hk2 : 2 * (k + B) < m) (hN : m ∣ k * N)
    (hsq : a.squeezing = .sum) (hfr : a.ssqFreqs = none) {fs dt : ℝ} (hrate : processFsT a.fs a.t N = .ok (.fin fs dt)) (hfs : 2 * (m / 2 : ℕ) * eps64 ≤ fs)
    {Tx : ℤ → ℕ → ℂ} {S : List (List ℂ)} {f Sfs : List ℝ} (h : ssqStft lib tiny (Spec.stftTone N m k A φ) a = .ok (Tx, S, f, Sfs)) :
    ∀ r : ℕ, r < m / 2 + 1 → ∀ j < S.length, Tx r j =
      if r = Spec.flip a.flipud (m / 2 + 1) k then
        Spec.stftGain a m (fun r => w.getD r 0) (fs / (2 * (m / 2 : ℕ))) k A * ((A / 2 : ℝ) * exp ((Spec.toneAngle m k φ (j * a.stft.hop) : ℝ) * I)) else 0 := by
  classical
  obtain ⟨fs', dt', m', dS, h1, -, -, h4, rfl, h6⟩ := ssqStft_ok h
  rw [stftTone_length, hrate] at h1
  simp only [Except.ok.injEq, Rate.fin.injEq] at h1
  obtain ⟨rfl, rfl⟩ := h1
  obtain ⟨S2, dS2, k1, k2, k3, k4⟩ := C160_stft (validFs hv fs) hmod hdw hb hk hk2 hN
  rw [h4] at k1
  simp only [Except.ok.injEq, Prod.mk.injEq] at k1
  obtain ⟨rfl, rfl, rfl⟩ := k1
  set M := m' / 2 + 1 with hM
  have hm2 : 0 < m' / 2 := by omega
  have hmR : (0 : ℝ) < ((m' / 2 : ℕ) : ℝ) := by exact_mod_cast hm2
  have heps : (0 : ℝ) < eps64 := by norm_num [eps64]
  have hfs0 : 0 < fs := lt_of_lt_of_le (by positivity) hfs
  set s : ℝ := fs / (2 * (m' / 2 : ℕ)) with hs
  have hs0 : 0 < s := by positivity
  have hseps : eps64 ≤ s := by rw [hs, le_div_iff₀ (by positivity)]; linarith
  set A' := ssqStftCall a fs M S dS with hA'
  set v := makeSfs M fs with hvdef
  have hvl : v.length = M := by simp [hvdef, makeSfs, linspace_length]
  have hvu : Spec.Uniform v 0 s := by
    intro i hi
    have e : v[i] = 0 + i * ((1 / 2 * fs - 0) / (M - 1 : ℕ)) := linspace_getElem (by rw [linspace_length]; omega)
    rw [e, hs, show M - 1 = m' / 2 by omega]
    field_simp
    ring
  have hf : f = if a.flipud then v.reverse else v := by
    obtain ⟨dt', scl, fr, const, ls, q1, q2, q3, q4, q5, q6, q7⟩ := ssqueeze_ok h6
    have hscl : scl = (none, none) := by
      have : ssqScales A' = .ok (none, none) := rfl
      rw [this] at q2
      simpa using q2.symm
    subst hscl
    have hfq : ssqFreqsOf A' dt' none none = .ok (v, .known .linear) := by
      simp [ssqFreqsOf, hA', ssqStftCall, hfr, hvdef]
    rw [hfq] at q3
    simp only [Except.ok.injEq] at q3
    have hrev : ssqReverses A'.transform A'.flipud = a.flipud := by simp [ssqReverses, hA', ssqStftCall]
    rw [hrev, ← q3] at q7
    exact q7
  have hlay : Spec.LinearLayout A' := by
    unfold Spec.LinearLayout
    simp only [hA', ssqStftCall, hfr]
    exact Or.inl trivial
  obtain ⟨c, row, hc, -, hn, hT⟩ := C27_linear_partial A' Tx f h6 hlay (Or.inr rfl) 0 s
    (by
      have : (if A'.flipud then f.reverse else f) = v := by
        show (if a.flipud then f.reverse else f) = v
        rw [hf]; split <;> simp
      rw [this]; exact hvu)
    (by rw [hf]; show _ = M; split <;> simp [hvl]) (by show 2 ≤ M; omega) hseps
  intro r hr j hj
  rw [hT r hr j hj]
  unfold Spec.squeezed
  have hW : applySqueezing A'.squeezing A'.M A'.Wx = entC S := by
    simp only [hA', ssqStftCall, hsq, applySqueezing]
    rfl
  rw [hW]
  have hterm : ∀ i ∈ range A'.M, (match Spec.usedPhase A' (entC S) i j with
      | .inf => 0
      | .fin x => if row x = r then entC S i j * (c i : ℂ) else 0) =
      if r = Spec.flip a.flipud M k then
        (if Spec.KeptCell a (|A| / 2 * ‖Spec.winHat m' (fun r => w.getD r 0) ((i : ℤ) - k)‖) then Spec.winHat m' (fun r => w.getD r 0) ((i : ℤ) - k) * (s : ℂ) else 0) *
          ((A / 2 : ℝ) * exp ((Spec.toneAngle m' k φ (j * a.stft.hop) : ℝ) * I)) else 0 := by
    intro i hi
    have hi : i < M := mem_range.1 hi
    obtain ⟨c1, c2, -⟩ := k4 i hi j hj
    have hph : Spec.usedPhase A' (entC S) i j = stftCellPhase a (v.getD i 0) (entC S i j) (entC dS i j) (entC S i j) := by
      unfold Spec.usedPhase stftCellPhase
      cases hg : a.getW
      · simp [hA', ssqStftCall, hg, entC]
        rfl
      · simp [hA', ssqStftCall, hg, entC, phaseStft]
        rfl
    rw [hph, keptCell_phase, hc rfl i hi]
    have hnorm : ‖entC S i j‖ = |A| / 2 * ‖Spec.winHat m' (fun r => w.getD r 0) ((i : ℤ) - k)‖ := by
      rw [c1, norm_mul, norm_mul, Complex.norm_exp_ofReal_mul_I, mul_one, Complex.norm_real, Real.norm_eq_abs, abs_div, abs_two]
    rw [hnorm]
    by_cases hkeep : Spec.KeptCell a (|A| / 2 * ‖Spec.winHat m' (fun r => w.getD r 0) ((i : ℤ) - k)‖)
    · rw [if_pos hkeep, if_pos hkeep]
      simp only
      by_cases hz : entC S i j = 0
      · have hz' := hz
        rw [c1] at hz'
        rw [hz]
        rw [zero_mul, ite_self]
        split
        · rw [show Spec.winHat m' (fun r => w.getD r 0) ((i : ℤ) - k) * (s : ℂ) * ((A / 2 : ℝ) * exp ((Spec.toneAngle m' k φ (j * a.stft.hop) : ℝ) * I)) =
            (s : ℂ) * ((A / 2 : ℝ) * exp ((Spec.toneAngle m' k φ (j * a.stft.hop) : ℝ) * I) * Spec.winHat m' (fun r => w.getD r 0) ((i : ℤ) - k)) by ring]
          have hz'' : ((A / 2 : ℝ) : ℂ) * exp ((Spec.toneAngle m' k φ (j * a.stft.hop) : ℝ) * I) * Spec.winHat m' (fun r => w.getD r 0) ((i : ℤ) - k) = 0 := hz'
          rw [hz'', mul_zero]
        · rfl
      · have hfreq : stftFreq (v.getD i 0) (entC S i j) (entC dS i j) = |i * s - ((i : ℝ) - k) * (fs / m')| := by
          rw [stftFreq_eq _ _ _ hz, c2, mul_div_assoc, div_self hz, mul_one, List.getD_eq_getElem v _ (by omega), hvu i (by omega), Complex.I_mul_im, Complex.ofReal_re]
          congr 1
          push_cast
          field_simp
          ring
        have hrow : row (stftFreq (v.getD i 0) (entC S i j) (entC dS i j)) = Spec.flip a.flipud M k := by
          have hnr := hn (stftFreq (v.getD i 0) (entC S i j) (entC dS i j))
          rw [hf] at hnr
          refine nearest_row hvu hvl hs0 (show k < M by omega) ?_ hnr
          rw [hfreq]
          have hmm : (0 : ℝ) < m' := by
            have : 0 < m' := by omega
            exact_mod_cast this
          -- distance of the bins' spacing from the step of the frequencies
          have hd : 0 ≤ s - fs / m' ∧ (m' : ℝ) * (s - fs / m') ≤ s := by
            have e1 : 2 * ((m' / 2 : ℕ) : ℝ) ≤ m' := by
              have : 2 * (m' / 2) ≤ m' := by omega
              exact_mod_cast this
            have e2 : (m' : ℝ) ≤ 2 * ((m' / 2 : ℕ) : ℝ) + 1 := by
              have : m' ≤ 2 * (m' / 2) + 1 := by omega
              exact_mod_cast this
            have e3 : s * (2 * ((m' / 2 : ℕ) : ℝ)) = fs := by rw [hs]; field_simp
            have e4 : (m' : ℝ) * (fs / m') = fs := by field_simp
            constructor
            · rw [sub_nonneg, div_le_iff₀ hmm]
              nlinarith
            · rw [mul_sub, e4]
              nlinarith
          have hik : 2 * |(i : ℝ) - k| < m' := by
            have : 2 * |(i : ℤ) - k| < m' := by rcases abs_cases ((i : ℤ) - k) with ⟨e, -⟩ | ⟨e, -⟩ <;> omega
            exact_mod_cast this
          have hsmall : |((i : ℝ) - k) * (s - fs / m')| < s / 2 := by
            rw [abs_mul, abs_of_nonneg hd.1]
            rcases hd.1.lt_or_eq with hpos | heq
            · nlinarith [hd.2]
            · rw [← heq, mul_zero]; positivity
          have hval : i * s - ((i : ℝ) - k) * (fs / m') = k * s + ((i : ℝ) - k) * (s - fs / m') := by ring
          have hk1 : (1 : ℝ) ≤ k := by
            have : 1 ≤ k := by omega
            exact_mod_cast this
          have hnn : 0 ≤ k * s + ((i : ℝ) - k) * (s - fs / m') := by
            have := (abs_lt.1 hsmall).1
            nlinarith
          rw [hval, abs_of_nonneg hnn, add_sub_cancel_left]
          exact hsmall
        rw [hrow]
        by_cases hrk : Spec.flip a.flipud M k = r
        · rw [if_pos hrk, if_pos hrk.symm, c1]
          ring
        · rw [if_neg hrk, if_neg (Ne.symm hrk)]
    · rw [if_neg hkeep, if_neg hkeep]
      simp
  refine (sum_congr rfl hterm).trans ?_
  by_cases hrk : r = Spec.flip a.flipud M k
  · simp only [if_pos hrk]
    unfold Spec.stftGain
    rw [sum_mul]
    rfl
  · simp only [if_neg hrk, sum_const_zero]

/-- With every cell kept, the gain is the window's centre tap, in units of the frequency step. -/
theorem stftGain_all {a : SsqStftArgs} {m : ℕ} {w : ℕ → ℝ} {step : ℝ} {k : ℕ} {A : ℝ} {B : ℕ} (hb : Spec.WinBand m w B) (hk : B < k) (hk2 : 2 * (k + B) < m)
    (hkeep : ∀ i < m / 2 + 1, Spec.winHat m w ((i : ℤ) - k) = 0 ∨ Spec.KeptCell a (|A| / 2 * ‖Spec.winHat m w ((i : ℤ) - k)‖)) :
    Spec.stftGain a m w step k A = ((step * (m * w (m / 2)) : ℝ) : ℂ) := by
  classical
  unfold Spec.stftGain
  have h1 : ∀ i ∈ range (m / 2 + 1), (if Spec.KeptCell a (|A| / 2 * ‖Spec.winHat m w ((i : ℤ) - k)‖) then Spec.winHat m w ((i : ℤ) - k) * (step : ℂ) else 0) =
      Spec.winHat m w ((i : ℤ) - k) * (step : ℂ) := by
    intro i hi
    rcases hkeep i (mem_range.1 hi) with h | h
    · rw [h, zero_mul, ite_self]
    · rw [if_pos h]
  rw [sum_congr rfl h1, ← sum_mul]
  have h2 : ∑ i ∈ range (m / 2 + 1), Spec.winHat m w ((i : ℤ) - k) = ∑ i ∈ range m, Spec.winHat m w ((i : ℤ) - k) := by
    refine sum_subset (fun i hi => mem_range.2 ?_) fun i hi hn => ?_
    · have := mem_range.1 hi; omega
    · have hi := mem_range.1 hi
      have hn : ¬ i < m / 2 + 1 := fun h => hn (mem_range.2 h)
      by_cases hc : 2 * ((i : ℤ) - k) ≤ m
      · exact hb _ (by rw [abs_of_nonneg (by omega)]; omega) (by rw [abs_of_nonneg (by omega)]; omega)
      · have e : (i : ℤ) - k = (i : ℤ) - k - m + m * 1 := by ring
        rw [e, winHat_periodic (by omega)]
        exact hb _ (by rw [abs_of_nonpos (by omega)]; omega) (by rw [abs_of_nonpos (by omega)]; omega)
  rw [h2, winHat_sum (by omega)]
  push_cast
  ring

namespace Spec

/-- Tones that `stft` with a window of band `B` and FFT length `m` can tell apart: `k 0, …, k (C-1)` cycles per `m` samples, whole numbers of cycles in the `N` samples, more than `B` away
from 0 and `m/2`, and more than `2 B` away from each other. -/
structure Resolved (N C m B : ℕ) (k : ℕ → ℕ) : Prop where
  low : ∀ c < C, B < k c
  high : ∀ c < C, 2 * (k c + B) < m
  whole : ∀ c < C, m ∣ k c * N
  apart : ∀ c < C, ∀ d < C, c ≠ d → 2 * B < k c - k d ∨ 2 * B < k d - k c

end Spec

/-- **C160, synchrosqueezing.** For every number of resolved tones, band-limited window, FFT length, hop, threshold, device, `get_w` and `flipud`, over the default frequencies and with squeezing
'sum' and periodic padding: `ssq_stft` of the sum of the tones is zero outside the rows of the tones' frequencies; in each of these rows it is the tone's analytic signal times a
constant. -/
theorem C160_rows {lib : WinLib} {tiny : ℝ} {N C : ℕ} {k : ℕ → ℕ} {A φ : ℕ → ℝ} {a : SsqStftArgs} {m : ℕ} {w dw : List ℝ} {B : ℕ}
    (hv : StftValid lib tiny (Spec.mix N C fun c => Spec.stftTone N m (k c) (A c) (φ c)) a.stft m w dw .wrap) (hmod : a.stft.modulated = true) (hdw : dw = diffWindow w)
    (hb : Spec.WinBand m (fun r => w.getD r 0) B) (hres : Spec.Resolved N C m B k)
    (hsq : a.squeezing = .sum) (hfr : a.ssqFreqs = none) {fs dt : ℝ} (hrate : processFsT a.fs a.t N = .ok (.fin fs dt)) (hfs : 2 * (m / 2 : ℕ) * eps64 ≤ fs)
    {Tx : ℤ → ℕ → ℂ} {S : List (List ℂ)} {f Sfs : List ℝ} (h : ssqStft lib tiny (Spec.mix N C fun c => Spec.stftTone N m (k c) (A c) (φ c)) a = .ok (Tx, S, f, Sfs)) :
    S.length = (N - 1) / a.stft.hop + 1 ∧ ∀ r : ℕ, r < m / 2 + 1 → ∀ j < S.length, Tx r j =
      ∑ c ∈ range C, if r = Spec.flip a.flipud (m / 2 + 1) (k c) then
        Spec.stftGain a m (fun r => w.getD r 0) (fs / (2 * (m / 2 : ℕ))) (k c) (A c) *
          ((A c / 2 : ℝ) * exp ((Spec.toneAngle m (k c) (φ c) (j * a.stft.hop) : ℝ) * I)) else 0 := by
  have hl : ∀ c < C, (Spec.stftTone N m (k c) (A c) (φ c)).length = N := fun c _ => stftTone_length _ _ _ _ _
  obtain ⟨fs', dt', dS, T, s, ds, h1, h2, h3, h4, h5⟩ := C159_superposition hl hv (Or.inl hsq) h
  rw [hrate] at h1
  simp only [Except.ok.injEq, Rate.fin.injEq] at h1
  obtain ⟨rfl, rfl⟩ := h1
  have hvc : ∀ c < C, StftValid lib tiny (Spec.stftTone N m (k c) (A c) (φ c)) a.stft m w dw .wrap :=
    fun c hc => validShift hv _ (by rw [stftTone_length, mix_length])
  have hlen : S.length = (N - 1) / a.stft.hop + 1 := by
    obtain ⟨E, hE⟩ := exists_extension .wrap _ hv.hx
    obtain ⟨S2, dS2, k1, k2, -⟩ := C07_stft_entries (validFs hv fs) E hE
    rw [h2] at k1
    simp only [Except.ok.injEq, Prod.mk.injEq] at k1
    rw [k1.2.1, k2, mix_length]
  have hcell : ∀ c < C, (s c).length = S.length ∧ ∀ i < m / 2 + 1, ∀ j < S.length, (B : ℤ) < |(i : ℤ) - k c| → entC (s c) i j = 0 ∧ entC (ds c) i j = 0 := by
    intro c hc
    obtain ⟨S2, dS2, k1, k2, k3, k4⟩ := C160_stft (validFs (hvc c hc) fs) hmod hdw hb (hres.low c hc) (hres.high c hc) (hres.whole c hc)
    rw [(h3 c hc).1] at k1
    simp only [Except.ok.injEq, Prod.mk.injEq, true_and] at k1
    obtain ⟨rfl, rfl⟩ := k1
    have hll : (s c).length = S.length := by rw [hlen]; exact k2
    refine ⟨hll, fun i hi j hj hB => ?_⟩
    obtain ⟨c1, c2, c3⟩ := k4 i hi j (by omega)
    exact ⟨c3 hB, by rw [c2, c3 hB, mul_zero]⟩
  refine ⟨hlen, fun r hr j hj => ?_⟩
  rw [h5 j hj ?_ r]
  · refine sum_congr rfl fun c hc => ?_
    have hc := mem_range.1 hc
    exact ssqStft_tone (hvc c hc) hmod hdw hb (hres.low c hc) (hres.high c hc) (hres.whole c hc) hsq hfr hrate hfs (h3 c hc).2 r hr j (by rw [(hcell c hc).1]; exact hj)
  · intro i hi c hc d hd hcd
    by_cases hB : (B : ℤ) < |(i : ℤ) - k c|
    · exact Or.inl ((hcell c hc).2 i hi j hj hB)
    · right
      refine (hcell d hd).2 i hi j hj ?_
      have := hres.apart c hc d hd hcd
      rcases abs_cases ((i : ℤ) - k c) with ⟨e, _⟩ | ⟨e, _⟩ <;> rcases abs_cases ((i : ℤ) - k d) with ⟨e', _⟩ | ⟨e', _⟩ <;> omega

/-- **C160, recovery.** If moreover the hop is 1 and every cell in which a tone appears survives the threshold, then `issq_stft` with one curve per tone along the tone's row, and no width, returns
every tone times the sampling rate (times `n/(n-1)` if the FFT length `n` is odd), and an empty remainder. -/
theorem C160_recovered {lib : WinLib} {tiny : ℝ} {N C : ℕ} {k : ℕ → ℕ} {A φ : ℕ → ℝ} {a : SsqStftArgs} {m : ℕ} {w dw : List ℝ} {B : ℕ} (hC : 0 < C)
    (hv : StftValid lib tiny (Spec.mix N C fun c => Spec.stftTone N m (k c) (A c) (φ c)) a.stft m w dw .wrap) (hmod : a.stft.modulated = true) (hdw : dw = diffWindow w)
    (hb : Spec.WinBand m (fun r => w.getD r 0) B) (hres : Spec.Resolved N C m B k)
    (hsq : a.squeezing = .sum) (hfr : a.ssqFreqs = none) {fs dt : ℝ} (hrate : processFsT a.fs a.t N = .ok (.fin fs dt)) (hfs : 2 * (m / 2 : ℕ) * eps64 ≤ fs)
    (hhop : a.stft.hop = 1) (hwl : 0 < stftWinLen m a.stft) (hcen : w.getD (m / 2) 0 ≠ 0)
    (hkeep : ∀ c < C, ∀ i < m / 2 + 1, Spec.winHat m (fun r => w.getD r 0) ((i : ℤ) - k c) = 0 ∨
      Spec.KeptCell a (|A c| / 2 * ‖Spec.winHat m (fun r => w.getD r 0) ((i : ℤ) - k c)‖))
    {Tx : ℤ → ℕ → ℂ} {S : List (List ℂ)} {f Sfs : List ℝ} (h : ssqStft lib tiny (Spec.mix N C fun c => Spec.stftTone N m (k c) (A c) (φ c)) a = .ok (Tx, S, f, Sfs)) :
    ∃ xs, issqStft lib tiny (m / 2 + 1) N (fun r j => Tx r j) { inverseArgs a m with
        cc := some (.twoD N C fun _ c => (Spec.flip a.flipud (m / 2 + 1) (k c) : ℤ)), cw := some (.twoD N C fun _ _ => 0) } = .ok (.comps xs) ∧
      xs.length = C + 1 ∧ (∀ x ∈ xs, x.length = N) ∧
      (∀ c < C, ∀ j < N, (xs.getD c []).getD j 0 = fs * (m / (2 * (m / 2 : ℕ))) * (A c * Real.cos (2 * Real.pi * k c * j / m + φ c))) ∧
      ∀ j < N, (xs.getD C []).getD j 0 = 0 := by
  obtain ⟨hlen, hT⟩ := C160_rows hv hmod hdw hb hres hsq hfr hrate hfs h
  have hN : 0 < N := by have := hv.hx; rwa [mix_length] at this
  have hlen : S.length = N := by rw [hlen, hhop, Nat.div_one]; omega
  rw [hlen] at hT
  have hm : 2 * (k 0 + B) < m := hres.high 0 hC
  have hk0 := hres.low 0 hC
  set M := m / 2 + 1 with hM
  set rs : ℕ → ℕ := fun c => Spec.flip a.flipud M (k c) with hrs
  have hkM : ∀ c < C, k c < M := fun c hc => by have := hres.high c hc; omega
  have hrsM : ∀ c < C, rs c < M := fun c hc => by
    have := hkM c hc
    simp only [hrs, Spec.flip]
    split <;> omega
  have hinj : ∀ c < C, ∀ d < C, rs c = rs d → c = d := by
    intro c hc d hd he
    by_contra hne
    have := hres.apart c hc d hd hne
    have := hkM c hc
    have := hkM d hd
    simp only [hrs, Spec.flip] at he
    split at he <;> omega
  have hwm := hv.hw
  have hwin := getWindow_of_D hv.hwin
  have hproc : ∀ cc cw, issqStftProcess lib tiny M { inverseArgs a m with cc := cc, cw := cw } = (processComponentArgs cc cw).bind fun c => .ok (c, w) := by
    intro cc cw
    have o1 : orElse (some m) ((M - 1) * 2) = m := by
      match m, hm with
      | k + 1, _ => rfl
    have o2 : orElse (some (stftWinLen m a.stft)) m = stftWinLen m a.stft := by
      generalize stftWinLen m a.stft = z at *
      match z, hwl with
      | k + 1, _ => rfl
    have hw1 : getWindow lib tiny a.stft.window (stftWinLen m a.stft) (some m) = .ok w := hwin
    have hnola : checkNOLA w 1 = .ok () := by
      unfold checkNOLA; split <;> simp
    have hne : w ≠ [] := by
      intro h0; rw [h0] at hwm; simp at hwm; omega
    unfold issqStftProcess
    rw [if_neg (by simp [inverseArgs]), if_neg (by simp [inverseArgs])]
    simp only [inverseArgs, o1, o2, hw1, ok_bind, Int.toNat_one, hnola, hne, if_false]
    rfl
  have hcw : ∀ cc cw, issqStft lib tiny M N (fun r j => Tx r j) { inverseArgs a m with cc := cc, cw := cw } = issqCwt M N (fun r j => Tx r j) (w.getD (m / 2) 0) cc cw := by
    intro cc cw
    unfold issqStft issqCwt
    rw [hproc]
    cases processComponentArgs cc cw with
    | error e => rfl
    | ok c =>
      simp only [Except.bind, ok_bind, hwm]
  obtain ⟨xs, h1, h2, h3, h4, h5⟩ := C43_contents M N (fun r j => Tx r j) (w.getD (m / 2) 0) C (fun _ c => (rs c : ℤ)) (fun _ _ => 0) hC
  refine ⟨xs, (hcw _ _).trans h1, h2, h3, fun c hc j hj => ?_, fun j hj => ?_⟩
  · rw [h4 c hc j hj, sum_eq_single_of_mem (rs c) (mem_range.2 (hrsM c hc)) fun r _ hr => if_neg (mt (inBand_zero (hrsM c hc)).1 hr),
      if_pos ((inBand_zero (hrsM c hc)).2 rfl), hT _ (hrsM c hc) j hj,
      sum_eq_single_of_mem c (mem_range.2 hc) fun d hd hdc => if_neg fun e => hdc (hinj c hc d (mem_range.1 hd) e).symm, if_pos rfl,
      stftGain_all hb (hres.low c hc) (hres.high c hc) (hkeep c hc), hhop, mul_one, Complex.re_ofReal_mul, Complex.re_ofReal_mul, Complex.exp_ofReal_mul_I_re]
    unfold Spec.toneAngle
    have hm2 : ((m / 2 : ℕ) : ℝ) ≠ 0 := by
      have : m / 2 ≠ 0 := by omega
      exact_mod_cast this
    field_simp
  · rw [h5 j hj, sum_eq_zero, mul_zero]
    intro r hr
    have hr := mem_range.1 hr
    split
    · rfl
    next hno =>
    rw [hT r hr j hj, sum_eq_zero]
    · rfl
    intro c hc
    rw [if_neg]
    intro e
    exact hno ⟨c, mem_range.1 hc, (inBand_zero (hrsM c (mem_range.1 hc))).2 e⟩

/-! ## Non-vacuity -/

theorem zeroDenormals_zero (w : List ℝ) : zeroDenormals 0 w = w := by
  unfold zeroDenormals
  rw [neg_zero]
  conv_rhs => rw [← List.map_id w]
  refine List.map_congr_left fun v _ => ?_
  rw [if_neg fun h => absurd h.2 (not_lt.2 h.1.le)]
  rfl

/-- Boxcar window of six taps, periodic padding, no threshold. -/
noncomputable def ex160 : SsqStftArgs :=
  { stft := { window := .arr [1, 1, 1, 1, 1, 1], nFft := some 6, padtype := "wrap" }, fs := some 1, gamma := some 0, th := 1, eps := 1 }

theorem ex160_valid (x : List ℝ) (hx : 0 < x.length) : StftValid onesLib 0 x ex160.stft 6 [1, 1, 1, 1, 1, 1] (diffWindow [1, 1, 1, 1, 1, 1]) .wrap where
  hx := hx
  hhop := by simp [ex160]
  hm := by simp
  hnfft := rfl
  hwin := by
    unfold getWindowD getWindowRaw
    simp [ex160, stftWinLen, zeroDenormals_zero]
  hw := rfl
  hpad := rfl
  hsym := by simp

theorem ex160_run (x : List ℝ) (hx : 0 < x.length) : ∃ Tx S f Sfs, ssqStft onesLib 0 x ex160 = .ok (Tx, S, f, Sfs) := by
  obtain ⟨E, hE⟩ := exists_extension .wrap x hx
  obtain ⟨S, dS, k1, k2, -⟩ := C07_stft_entries (validFs (ex160_valid x hx) 1) E hE
  obtain ⟨Tx, f, q1, q2, q3⟩ := ssqStftCall_sum ex160 1 4 S dS (by norm_num) rfl rfl (by norm_num [ex160])
    (fun i hi j hj => by
      simp only [ex160, Option.getD_some]
      by_cases h0 : (S.getD j []).getD i 0 = 0
      · exact Or.inl h0
      · exact Or.inr (norm_pos_iff.2 h0))
  refine ⟨Tx, S, f, makeSfs 4 1, ?_⟩
  have hrate : processFsT ex160.fs ex160.t x.length = .ok (.fin 1 (1 / 1)) := by simp [ex160, processFsT]
  unfold ssqStft
  rw [hrate, ok_bind]
  have hc : ∃ u, checkSsqueezingArgs false ex160.squeezing .none false none none false .cwt = .ok u := ⟨_, rfl⟩
  obtain ⟨u, hc⟩ := hc
  have hl : checkLinearFreqs ex160.ssqFreqs = .ok () := rfl
  simp only
  rw [hc, ok_bind, hl, ok_bind, k1, ok_bind]
  simp only
  rw [show 6 / 2 + 1 = 4 from rfl, q1, ok_bind]

theorem ex160_band : Spec.CosineWindow 6 (fun r => ([1, 1, 1, 1, 1, 1] : List ℝ).getD r 0) 0 := by
  refine ⟨fun _ => 1, fun r hr => ?_⟩
  interval_cases r <;> simp

/-- The hypotheses of C159 and C160 are met: two tones of one and two cycles in six samples; they are told apart, and recovered. -/
example : ∃ Tx S f Sfs xs, ssqStft onesLib 0 (Spec.mix 6 2 fun c => Spec.stftTone 6 6 (c + 1) (c + 1) 0) ex160 = .ok (Tx, S, f, Sfs) ∧
    issqStft onesLib 0 4 6 (fun r j => Tx r j) { inverseArgs ex160 6 with
      cc := some (.twoD 6 2 fun _ c => (Spec.flip false 4 (c + 1) : ℤ)), cw := some (.twoD 6 2 fun _ _ => 0) } = .ok (.comps xs) ∧
    ∀ c < 2, ∀ j < 6, (xs.getD c []).getD j 0 = (c + 1) * Real.cos (2 * Real.pi * (c + 1) * j / 6) := by
  have hx : 0 < (Spec.mix 6 2 fun c => Spec.stftTone 6 6 (c + 1) (c + 1) 0).length := by rw [mix_length]; norm_num
  obtain ⟨Tx, S, f, Sfs, h⟩ := ex160_run _ hx
  have hrate : processFsT ex160.fs ex160.t 6 = .ok (.fin 1 (1 / 1)) := by simp [ex160, processFsT]
  obtain ⟨xs, h1, -, -, h4, -⟩ := C160_recovered (k := fun c => c + 1) (A := fun c => c + 1) (φ := fun _ => 0) (by norm_num) (ex160_valid _ hx) rfl rfl
    (C160_windows ex160_band)
    ⟨fun c hc => by omega, fun c hc => by omega, fun c _ => Dvd.intro_left _ rfl, fun c hc d hd hcd => by omega⟩ rfl rfl hrate (by norm_num [eps64]) rfl
    (by norm_num [stftWinLen, ex160]) (by simp)
    (fun c hc i hi => by
      by_cases h0 : Spec.winHat 6 (fun r => ([1, 1, 1, 1, 1, 1] : List ℝ).getD r 0) ((i : ℤ) - (c + 1 : ℕ)) = 0
      · exact Or.inl h0
      · refine Or.inr ?_
        have : Spec.KeptCell ex160 = fun z => 0 < z := by
          funext z
          simp [Spec.KeptCell, ex160]
        rw [this]
        have := norm_pos_iff.2 h0
        have : (0 : ℝ) < |(c : ℝ) + 1| := abs_pos.2 (by positivity)
        positivity) h
  refine ⟨Tx, S, f, Sfs, xs, h, h1, fun c hc j hj => ?_⟩
  rw [h4 c hc j hj]
  push_cast
  norm_num

end Ssq
