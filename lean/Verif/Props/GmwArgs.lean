import Verif.Props.Gmw

/-!
# Arguments of the Morse wavelets (C79), in-place evaluation (C80), `compute_gmw` (C81), `morsewave` (C82)
-/
namespace Ssq

open Spec (morse)

/-! ## C79 -/

/-- Orders that are non-negative integers: ints and integer-valued floats. -/
def Spec.OrderIs (o : OrderArg) (k : ℕ) : Prop :=
  match o with
  | .none => k = 0
  | .int z => z = k
  | .float x => x = k
  | .other => False

/-- C79 in full: `gmw` accepts exactly positive `gamma` and `beta`, the two norms (energy not in float32), and non-negative
integer orders (ints or integer-valued floats, as its checker says). -/
def C79_full : Prop := ∀ (γ β : Option ℝ) (norm : NormArg) (order : OrderArg) (c : Option Bool) (f32 : Bool),
  (∃ f, gmw γ β norm order c f32 = .ok f) ↔
    0 < γ.getD 3 ∧ 0 < β.getD 60 ∧ norm ≠ .other ∧ ¬ (norm = .known .energy ∧ f32 = true) ∧ ∃ k, Spec.OrderIs order k

/-- The checker accepts the order 2.0 but the construction fails with a TypeError. -/
theorem C79_refuted : ¬ C79_full := fun h => by
  obtain ⟨f, hf⟩ := (h none none .none (.float 2) none false).2
    ⟨by norm_num, by norm_num, by simp, by simp, 2, by simp [Spec.OrderIs]⟩
  obtain ⟨_, _, _, _, _, _, hk, _⟩ := gmw_ok hf
  simp [gmwOrder] at hk

/-- The same call, with its exception. -/
theorem C79_float_order (x : ℝ) (k : ℕ) (hk : 0 < k) (hx : x = k) (c : Option Bool) :
    gmwCheckOrder (.float x) = .ok () ∧ gmw none none .none (.float x) c false = .error .typeError := by
  subst hx
  have h0 : ((k : ℕ) : ℝ) ≠ 0 := by exact_mod_cast hk.ne'
  have ho : gmwCheckOrder (.float (k : ℝ)) = .ok () := by
    have h1 : ∃ z : ℤ, (z : ℝ) = (k : ℝ) := ⟨k, by simp⟩
    simp only [gmwCheckOrder]
    rw [if_neg (not_not.2 h1), if_neg (not_lt.2 (Nat.cast_nonneg k))]
  refine ⟨ho, ?_⟩
  unfold gmw
  rw [gmwCheck_true _ _ (by norm_num) (by norm_num), ok_bind]
  simp only [gmwNormOf]
  rw [ok_bind, ho, ok_bind, if_neg (by simp), (gmwCheck_false _ _).2 (by norm_num), ok_bind]
  simp [gmwOrder, h0]

/-- **C79** (all orders but positive floats). -/
theorem C79_accepts_partial (γ β : Option ℝ) (norm : NormArg) (order : OrderArg) (c : Option Bool) (f32 : Bool)
    (ho : ∀ x, order = .float x → x ≤ 0) :
    (∃ f, gmw γ β norm order c f32 = .ok f) ↔
      0 < γ.getD 3 ∧ 0 < β.getD 60 ∧ norm ≠ .other ∧ ¬ (norm = .known .energy ∧ f32 = true) ∧
        ∃ k, Spec.OrderIs order k := by
  constructor
  · rintro ⟨f, hf⟩
    obtain ⟨hγ, hβ, n, k, hn, hc, hk, he, _⟩ := gmw_ok hf
    refine ⟨hγ, hβ, (fun h => by rw [h] at hn; cases hn), (fun h => he ?_), k, ?_⟩
    · rw [h.1] at hn
      simp only [gmwNormOf, Except.ok.injEq] at hn
      exact ⟨hn.symm, h.2⟩
    · cases order with
      | none => simpa [gmwOrder, Spec.OrderIs] using hk.symm
      | int z =>
        simp only [gmwCheckOrder] at hc
        split_ifs at hc with hz
        simp only [gmwOrder, Except.ok.injEq] at hk
        simp only [Spec.OrderIs]; omega
      | float x =>
        simp only [gmwOrder] at hk
        split_ifs at hk with hx
        simp only [Except.ok.injEq] at hk
        simp [Spec.OrderIs, hx, ← hk]
      | other => simp [gmwOrder] at hk
  · rintro ⟨hγ, hβ, hn, he, k, hk⟩
    obtain ⟨n, hn', hne⟩ : ∃ n, gmwNormOf norm = .ok n ∧ (n = .energy → norm = .known .energy) := by
      cases norm with
      | none => exact ⟨.bandpass, rfl, by simp⟩
      | known n => exact ⟨n, rfl, fun h => by rw [h]⟩
      | other => exact absurd rfl hn
    have hord : gmwCheckOrder order = .ok () ∧ gmwOrder order = .ok k := by
      cases order with
      | none => simp only [Spec.OrderIs] at hk; subst hk; exact ⟨rfl, rfl⟩
      | int z => simp only [Spec.OrderIs] at hk; subst hk; simp [gmwCheckOrder, gmwOrder]
      | float x =>
        simp only [Spec.OrderIs] at hk
        have h1 := ho x rfl
        have h2 : (0 : ℝ) ≤ k := Nat.cast_nonneg k
        have h3 : (k : ℝ) = 0 := by linarith
        have h4 : k = 0 := by exact_mod_cast h3
        subst h4
        have hx : x = 0 := by simpa using hk
        subst hx
        refine ⟨?_, by simp [gmwOrder]⟩
        have : ∃ z : ℤ, (z : ℝ) = 0 := ⟨0, by simp⟩
        simp [gmwCheckOrder, this]
      | other => exact absurd hk (by simp [Spec.OrderIs])
    exact ⟨_, gmw_eq c hγ hβ hn' hord.1 hord.2 fun h => he ⟨hne h.1, h.2⟩⟩

/-- **C79** (exceptions). Which exception a bad argument raises; the first bad argument, in this order, decides. -/
theorem C79_errors (c : Option Bool) (f32 : Bool) :
    (∀ (γ : ℝ) (β : Option ℝ) (norm : NormArg) (order : OrderArg), γ ≤ 0 →
      gmw (some γ) β norm order c f32 = .error .valueError) ∧
    (∀ (β : ℝ) (norm : NormArg) (order : OrderArg), β < 0 → gmw none (some β) norm order c f32 = .error .valueError) ∧
    (∀ order : OrderArg, gmw none none .other order c f32 = .error .valueError) ∧
    (∀ z : ℤ, z < 0 → gmw none none .none (.int z) c f32 = .error .valueError) ∧
    (∀ x : ℝ, (∀ z : ℤ, (z : ℝ) ≠ x) → gmw none none .none (.float x) c f32 = .error .typeError) ∧
    gmw none none .none .other c f32 = .error .typeError ∧
    gmw none none (.known .energy) .none c true = .error .valueError ∧
    gmw none (some 0) .none .none c f32 = .error .valueError := by
  refine ⟨fun γ β n o h => ?_, fun β n o h => ?_, fun o => ?_, fun z hz => ?_, fun x hx => ?_, ?_, ?_, ?_⟩
  · simp [gmw, gmwCheck, h]
  · simp [gmw, gmwCheck, gmwCheck.checkBeta, h]
  · simp [gmw, gmwCheck, gmwCheck.checkBeta, gmwNormOf]
  · simp [gmw, gmwCheck, gmwCheck.checkBeta, gmwNormOf, gmwCheckOrder, hz]
  · have : ¬ ∃ z : ℤ, (z : ℝ) = x := fun ⟨z, h⟩ => hx z h
    simp [gmw, gmwCheck, gmwCheck.checkBeta, gmwNormOf, gmwCheckOrder, hx]
  · simp [gmw, gmwCheck, gmwCheck.checkBeta, gmwNormOf, gmwCheckOrder]
  · simp [gmw, gmwCheck, gmwCheck.checkBeta, gmwNormOf, gmwCheckOrder]
  · simp [gmw, gmwCheck, gmwCheck.checkBeta, gmwNormOf, gmwCheckOrder]

/-! ## C80 -/

/-- C80 in full: evaluating a Morse wavelet leaves the array of frequencies as it was. -/
def C80_full : Prop := ∀ (f : ℝ → ℝ), gmw none none .none .none none false = .ok f →
  ∀ (shared : Bool) (w : List ℝ), (gmwApply f shared w).2 = w

/-- The negative entries of the caller's array are zeroed. -/
theorem C80_refuted : ¬ C80_full := fun h => by
  have := h _ (gmw_eq (n := .bandpass) (k := 0) none (by norm_num) (by norm_num) rfl rfl rfl (by simp)) true [-1]
  simp [gmwApply, nonneg01] at this

/-- **C80** (partial). The returned values are those of the frequencies as passed; the array is untouched when it had to be
converted, or when it has no negative entries. -/
theorem C80_array_partial (f : ℝ → ℝ) (shared : Bool) (w : List ℝ) :
    (gmwApply f shared w).1 = w.map f ∧ ((shared = false ∨ ∀ x ∈ w, 0 ≤ x) → (gmwApply f shared w).2 = w) := by
  refine ⟨rfl, fun h => ?_⟩
  unfold gmwApply
  rcases h with h | h
  · simp [h]
  · cases shared
    · rfl
    · simp only [if_true]
      conv_rhs => rw [← List.map_id w]
      refine List.map_congr_left fun x hx => ?_
      simp [nonneg01, h x hx]

/-- What happens to the array in general: negative entries become 0. -/
theorem C80_zeroed (f : ℝ → ℝ) (w : List ℝ) : (gmwApply f true w).2 = w.map fun x => max x 0 := by
  unfold gmwApply
  simp only [if_true]
  refine List.map_congr_left fun x _ => ?_
  unfold nonneg01
  split_ifs with h
  · rw [mul_one, max_eq_left h]
  · rw [mul_zero, max_eq_right (not_le.1 h).le]

/-! ## C81 -/

/-- **C81**. `compute_gmw(N, scale)` is the wavelet returned by `gmw` sampled at all `N` DFT frequencies times `scale`
(negative ones included), times `sqrt(scale)` — `sqrt(wc·scale)` if centred — for the rescaled energy norm. -/
theorem C81_samples {N k : ℕ} {scale γ β : ℝ} {norm : GmwNorm} {c ns : Bool} {X : List ℝ}
    (h : computeGmw N scale γ β norm k c ns = .ok X) :
    ∃ f, gmw (some γ) (some β) (.known norm) (.int k) (some c) false = .ok f ∧ 0 < scale ∧ X.length = N ∧
      ∀ i < N, X.getD i 0 = f ((if 2 * i ≤ N then (i : ℝ) else (i : ℝ) - N) * (scale * (2 * Real.pi) / N)) *
        (if norm = .energy ∧ ns = true then Real.sqrt (if c then (β / γ) ^ (1 / γ) * scale else scale) else 1) := by
  unfold computeGmw at h
  obtain ⟨_, _, h⟩ := bind_ok h
  by_cases hs : scale ≤ 0
  · rw [if_pos hs] at h; cases h
  rw [if_neg hs] at h
  obtain ⟨f, hf, h⟩ := bind_ok h
  have hs := not_le.1 hs
  simp only [Except.ok.injEq] at h
  subst h
  refine ⟨f, hf, hs, by simp, fun i hi => ?_⟩
  have hN : (0 : ℝ) < N := by exact_mod_cast (by omega : 0 < N)
  have hp := Real.pi_pos
  rw [List.getD_eq_getElem?_getD, List.getElem?_map, List.getElem?_range hi]
  simp only [Option.map_some, Option.getD_some]
  rw [xifn_getD _ _ _ hi]
  congr 1
  · by_cases hle : i < N / 2 + 1
    · rw [if_pos hle, if_pos (show 2 * i ≤ N by omega)]
      rw [if_pos (show i ≤ N / 2 by omega)]; push_cast; rfl
    · rw [if_neg hle, if_neg (show ¬ 2 * i ≤ N by omega)]
      symm
      refine C51_gmw hf _ (mul_nonpos_of_nonpos_of_nonneg ?_ (by positivity))
      have : (i : ℝ) < N := by exact_mod_cast hi
      linarith
  · split_ifs <;> rfl

/-- `compute_gmw` succeeds for positive parameters. -/
theorem C81_ok (N k : ℕ) (scale γ β : ℝ) (norm : GmwNorm) (c ns : Bool) (hγ : 0 < γ) (hβ : 0 < β) (hs : 0 < scale) :
    ∃ X, computeGmw N scale γ β norm k c ns = .ok X := by
  unfold computeGmw
  rw [gmwCheck_true (some γ) (some β) hγ hβ, ok_bind, if_neg (not_le.2 hs),
    gmw_eq (γ := some γ) (β := some β) (norm := .known norm) (order := .int k) (n := norm) (k := k) (some c) hγ hβ rfl
      (by simp [gmwCheckOrder]) rfl (by simp), ok_bind]
  exact ⟨_, rfl⟩

example : ∃ X, computeGmw 16 4 3 60 .energy 2 true true = .ok X := C81_ok 16 2 4 3 60 .energy true true
  (by norm_num) (by norm_num) (by norm_num)

/-! ## C82 -/

/-- C82 in full: `morsewave` returns, for every non-zero frequency, wavelet samples (for negative frequencies the reflected
ones), for every `beta ≥ 0`. -/
def C82_full : Prop := ∀ (N K : ℕ) (freqs : List ℝ) (γ β : ℝ) (norm : GmwNorm), 0 < γ → 0 ≤ β → (∀ f ∈ freqs, f ≠ 0) →
  ∃ P, morsewave N freqs γ β K norm = .ok P

/-- Negative frequencies raise a ValueError for every `N ≠ 1`. -/
theorem C82_negative (N K : ℕ) (freqs : List ℝ) (γ β : ℝ) (norm : GmwNorm) (hN : N ≠ 1) (hγ : 0 < γ) (hβ : 0 < β)
    (hf : ∃ f ∈ freqs, f < 0) : morsewave N freqs γ β K norm = .error .valueError := by
  unfold morsewave
  rw [gmwCheck_true (some γ) (some β) hγ hβ, ok_bind, if_neg (fun h => hβ.ne' h.2), if_pos ⟨hN, hf⟩]

/-- `beta = 0`, for which `gmw` refers to `morsewave`, divides by zero. -/
theorem C82_zero_beta (N K : ℕ) (f γ : ℝ) (norm : GmwNorm) (hγ : 0 < γ) :
    morsewave N [f] γ 0 K norm = .error .zeroDivisionError := by
  unfold morsewave
  have : gmwCheck true (some γ) (some 0) = .ok () := by simp [gmwCheck, gmwCheck.checkBeta, not_le.2 hγ]
  rw [this, ok_bind, if_pos (by simp)]

theorem C82_refuted : ¬ C82_full := fun h => by
  obtain ⟨P, hP⟩ := h 4 1 [-1] 3 60 .bandpass (by norm_num) (by norm_num) (by simp)
  rw [C82_negative 4 1 [-1] 3 60 .bandpass (by norm_num) (by norm_num) (by norm_num) ⟨-1, by simp, by norm_num⟩] at hP
  cases hP

theorem psizero_eq {γ β : ℝ} (hγ : 0 < γ) (hβ : 0 < β) (norm : GmwNorm) {w : ℝ} (hw : 0 ≤ w) :
    psizero γ β (morsefreq γ β) norm w =
      match norm with
      | .energy => morse γ β w
      | .bandpass => 2 * (morse γ β w / morse γ β (morsefreq γ β)) := by
  have h1 : nonneg01 w = 1 := by simp [nonneg01, hw]
  cases norm
  · have := bandpass_core hγ hβ w
    rw [h1, mul_one, mul_one] at this
    simp only [psizero]
    rw [this]
  · have := energy_core γ hβ w
    rw [h1, mul_one, mul_one] at this
    simp only [psizero]
    rw [this]

/-- **C82** (positive frequencies). For positive frequencies and `beta > 0`, order `k` of `morsewave` at frequency `f` is
`compute_gmw` at the scale `wc / f` that moves the peak to `f`. -/
theorem C82_morsewave_partial {N K : ℕ} {freqs : List ℝ} {γ β : ℝ} {norm : GmwNorm} {P : List (List (List ℝ))}
    (hβ : 0 < β) (hpos : ∀ f ∈ freqs, 0 < f) (h : morsewave N freqs γ β K norm = .ok P) :
    P.length = freqs.length ∧ ∀ (a : ℕ) (ha : a < freqs.length) (k : ℕ), k < K →
      ∃ X, computeGmw N ((β / γ) ^ (1 / γ) / freqs[a]) γ β norm k false true = .ok X ∧
        ∀ i < N, (((P.getD a []).getD i []).getD k 0) = X.getD i 0 := by
  unfold morsewave at h
  obtain ⟨_, hc, h⟩ := bind_ok h
  have hγ : 0 < γ := by
    by_contra hn
    simp [gmwCheck, not_lt.1 hn] at hc
  rw [if_neg (fun h => hβ.ne' h.2), if_neg (by rintro ⟨_, f, hf, hlt⟩; exact absurd hlt (not_lt.2 (hpos f hf).le))] at h
  simp only [Except.ok.injEq] at h
  subst h
  refine ⟨by simp, fun a ha k hk => ?_⟩
  have hf := hpos _ (List.getElem_mem ha)
  set f := freqs[a] with hfdef
  have hwc := morsefreq_pos hγ hβ
  have hs : 0 < morsefreq γ β / f := by positivity
  obtain ⟨X, hX⟩ := C81_ok N k (morsefreq γ β / f) γ β norm false true hγ hβ hs
  refine ⟨X, hX, fun i hi => ?_⟩
  obtain ⟨g, hg, _, hlen, hval⟩ := C81_samples hX
  rw [hval i hi]
  have hP : ((((freqs.map fun f => (List.range N).map fun n : ℕ => (List.range K).map fun k : ℕ =>
      morsewave1 N |f| γ β norm n k).getD a []).getD i []).getD k 0) = morsewave1 N |f| γ β norm i k := by
    rw [List.getD_eq_getElem?_getD (l := freqs.map _), List.getElem?_map, List.getElem?_eq_getElem ha]
    simp only [Option.map_some, Option.getD_some]
    rw [List.getD_eq_getElem?_getD (l := (List.range N).map _), List.getElem?_map, List.getElem?_range hi]
    simp only [Option.map_some, Option.getD_some]
    rw [List.getD_eq_getElem?_getD (l := (List.range K).map _), List.getElem?_map, List.getElem?_range hk]
    rfl
  rw [hP, abs_of_pos hf]
  obtain ⟨_, _, n', k', hn, _, hk', _, rfl⟩ := gmw_ok hg
  obtain rfl : norm = n' := by simpa [gmwNormOf] using hn
  obtain rfl : k = k' := by simpa [gmwOrder] using hk'
  have hN : (0 : ℝ) < N := by exact_mod_cast (by omega : 0 < N)
  have hp := Real.pi_pos
  have hr : 0 < (2 * β + 1) / γ := by positivity
  simp only [Option.getD_some, gmwArg, Bool.false_eq_true, if_false]
  have ew : 2 * Real.pi * ((i : ℝ) / N) / (f / morsefreq γ β) = (i : ℝ) * (morsefreq γ β / f * (2 * Real.pi) / N) := by
    field_simp
  have hw0 : 0 ≤ 2 * Real.pi * ((i : ℝ) / N) / (f / morsefreq γ β) := by positivity
  by_cases hle : i < N / 2 + 1
  · rw [if_pos (show 2 * i ≤ N by omega), ← ew]
    simp only [morsewave1, if_pos hle]
    rw [psizero_eq hγ hβ norm hw0, C53_laguerre _ _ _ (by linarith)]
    cases norm
    · simp only [gmwClosed, morseCoeff, gmwCoeff]
      simp
      ring
    · simp only [gmwClosed, morseCoeff, morseafun, gmwCoeff]
      simp only [true_and, if_true]
      rw [show (k : ℝ) + 1 + (2 * β + 1) / γ - 1 = k + (2 * β + 1) / γ by ring, one_div_div]
      change _ = _ * Real.sqrt (morsefreq γ β / f)
      ring
  · simp only [morsewave1, if_neg hle, if_neg (show ¬ 2 * i ≤ N by omega)]
    rw [gmwClosed_nonpos, zero_mul, mul_zero]
    refine mul_nonpos_of_nonpos_of_nonneg ?_ (by positivity)
    have : (i : ℝ) < N := by exact_mod_cast hi
    linarith

/-- Two frequencies, three orders. -/
example : ∃ P, morsewave 16 [1, 2] 3 60 3 .energy = .ok P := by
  unfold morsewave
  rw [gmwCheck_true (some 3) (some 60) (by norm_num) (by norm_num), ok_bind, if_neg (by norm_num),
    if_neg (by rintro ⟨_, f, hf, hlt⟩; simp at hf; rcases hf with rfl | rfl <;> norm_num at hlt)]
  exact ⟨_, rfl⟩

end Ssq
