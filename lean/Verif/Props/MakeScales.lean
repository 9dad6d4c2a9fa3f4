import Verif.Props.Scales
import Verif.Props.Anim

/-!
# C157: bounds not given to `make_scales`, and linear scales
-/
namespace Ssq

namespace Spec

/-- A bound that is given and not zero, or else the default. -/
noncomputable def boundOr (o : Option ℝ) (d : ℝ) : ℝ := if o = none ∨ o = some 0 then d else o.getD d

end Spec

/-- **C157, bounds.** For all lengths, numbers of voices, scale types (unknown ones too), wavelets and downsampling factors: without a wavelet, or with one bound given, a bound not given or zero is
1 and `N`, respectively; with a wavelet and no bounds, they are those of `cwt_scalebounds`, whose error is passed on. -/
theorem C157_bounds (N : ℕ) (mn mx : Option ℝ) (nv : ℕ) (st : ScaleTypeArg) (wv : Option ScaleWavelet) (d : ℕ) (hN : 0 < N) :
    ((mn ≠ none ∨ mx ≠ none ∨ wv = none) →
      makeScales N mn mx nv st wv d = makeScales N (some (Spec.boundOr mn 1)) (some (Spec.boundOr mx N)) nv st wv d) ∧
    (∀ w, wv = some w → (∀ lo hi, lo ≠ 0 → hi ≠ 0 → cwtScalebounds w N none none none none true = .ok (lo, hi) →
      makeScales N none none nv st wv d = makeScales N (some lo) (some hi) nv st wv d) ∧
      ∀ e, cwtScalebounds w N none none none none true = .error e → makeScales N none none nv st wv d = .error e) := by
  have hN' : (N : ℝ) ≠ 0 := by exact_mod_cast hN.ne'
  refine ⟨fun h => ?_, ?_⟩
  · have hbn : ∀ d : ℝ, Spec.boundOr none d = d := fun d => by simp [Spec.boundOr]
    have hbs : ∀ x d : ℝ, Spec.boundOr (some x) d = if x = 0 then d else x := fun x d => by simp [Spec.boundOr]
    rcases mn with _ | mn
    · rcases mx with _ | mx
      · rcases wv with _ | wv
        · unfold makeScales
          simp only [hbn, one_ne_zero, hN', if_false]
        · simp at h
      · unfold makeScales
        by_cases hx : mx = 0 <;> simp only [hbn, hbs, hx, one_ne_zero, hN', if_false, if_true]
    · rcases mx with _ | mx
      · unfold makeScales
        by_cases hx : mn = 0 <;> simp only [hbn, hbs, hx, one_ne_zero, hN', if_false, if_true]
      · unfold makeScales
        by_cases hx : mn = 0 <;> by_cases hx' : mx = 0 <;> simp only [hbs, hx, hx', one_ne_zero, hN', if_false, if_true]
  · rintro w rfl
    refine ⟨fun lo hi h1 h2 h => ?_, fun e h => ?_⟩
    · unfold makeScales
      simp only [h, if_neg h1, if_neg h2, pure_eq_ok, ok_bind, Option.isNone_some, Bool.and_false, Bool.false_eq_true, if_false]
    · unfold makeScales
      simp only [h, Option.isNone_some, Bool.and_false, Bool.false_eq_true, if_false, pure_eq_ok, ok_bind]
      rfl

theorem makeScales_linear (N nv : ℕ) {mn mx : ℝ} (wv : Option ScaleWavelet) (d : ℕ) (h0 : 0 < mn) (hx : 0 < mx) :
    makeScales N (some mn) (some mx) nv (.known .linear) wv d =
      .ok (linspace ((2 : ℝ) ^ (((scalePows nv mn mx).2 : ℝ) / nv)) ((2 : ℝ) ^ ((((scalePows nv mn mx).2 + (scalePows nv mn mx).1 : ℤ) : ℝ) / nv))
        ⌈(2 : ℝ) ^ ((((scalePows nv mn mx).2 + (scalePows nv mn mx).1 : ℤ) : ℝ) / nv) / (2 : ℝ) ^ (((scalePows nv mn mx).2 : ℝ) / nv)⌉.toNat) := by
  unfold makeScales
  simp only [Bool.false_and, Bool.false_eq_true, if_false, h0.ne', hx.ne', pure_eq_ok, ok_bind]

/-- **C157, linear scales.** The linear scales are at least two, equally spaced, ascending; the first is within one voice at or below `min_scale`, the last within one voice of `max_scale`, to either side;
the spacing is at most the first scale and more than that times one minus first over last. -/
theorem C157_linear (N nv : ℕ) (mn mx : ℝ) (wv : Option ScaleWavelet) (d : ℕ) (hnv : 1 ≤ nv) (h0 : 0 < mn) (hlt : mn < mx) :
    ∃ l, makeScales N (some mn) (some mx) nv (.known .linear) wv d = .ok l ∧ 2 ≤ l.length ∧
      ∃ lo s hi : ℝ, (∀ i, ∀ h : i < l.length, l[i] = lo + i * s) ∧ lo + (l.length - 1 : ℕ) * s = hi ∧
        0 < lo ∧ 0 < s ∧ lo ≤ mn ∧ mn < lo * 2 ^ ((1 : ℝ) / nv) ∧ mx < hi * 2 ^ ((1 : ℝ) / nv) ∧ hi < mx * 2 ^ ((1 : ℝ) / nv) ∧
        lo * (1 - lo / hi) < s ∧ s ≤ lo := by
  have hmx : 0 < mx := h0.trans hlt
  have hnv' : (0 : ℝ) < nv := by exact_mod_cast hnv
  have hpos : 0 < (nv : ℝ) * Real.logb 2 (mx / mn) :=
    mul_pos hnv' (Real.logb_pos (by norm_num) ((one_lt_div h0).mpr hlt))
  refine ⟨_, makeScales_linear N nv wv d h0 hmx, ?_⟩
  set na := ⌈(nv : ℝ) * Real.logb 2 (mx / mn)⌉ with hna
  set p := ⌊(nv : ℝ) * Real.logb 2 mn⌋ with hp
  rw [show scalePows nv mn mx = (na, p) from rfl]
  dsimp only
  have hna0 : 0 < na := Int.ceil_pos.mpr hpos
  have hc1 : (nv : ℝ) * Real.logb 2 (mx / mn) ≤ na := Int.le_ceil _
  have hc2 : (na : ℝ) < (nv : ℝ) * Real.logb 2 (mx / mn) + 1 := Int.ceil_lt_add_one _
  have hf1 : (p : ℝ) ≤ (nv : ℝ) * Real.logb 2 mn := Int.floor_le _
  have hf2 : (nv : ℝ) * Real.logb 2 mn < p + 1 := Int.lt_floor_add_one _
  have hdiv : Real.logb 2 (mx / mn) = Real.logb 2 mx - Real.logb 2 mn :=
    Real.logb_div hmx.ne' h0.ne'
  rw [hdiv, mul_sub] at hc1 hc2
  have key1 : ∀ {x y : ℝ}, 0 < y → x ≤ nv * Real.logb 2 y → (2 : ℝ) ^ (x / nv) ≤ y := by
    intro x y hy h
    rw [← Real.le_logb_iff_rpow_le (by norm_num) hy, div_le_iff₀ hnv']; linarith
  have key2 : ∀ {x y : ℝ}, 0 < y → x < nv * Real.logb 2 y → (2 : ℝ) ^ (x / nv) < y := by
    intro x y hy h
    rw [← Real.lt_logb_iff_rpow_lt (by norm_num) hy, div_lt_iff₀ hnv']; linarith
  have key3 : ∀ {x y : ℝ}, 0 < y → nv * Real.logb 2 y < x → y < (2 : ℝ) ^ (x / nv) := by
    intro x y hy h
    rw [← Real.logb_lt_iff_lt_rpow (by norm_num) hy, lt_div_iff₀ hnv']; linarith
  have hp1 : 0 < (2 : ℝ) ^ ((1 : ℝ) / nv) := by positivity
  have b1 : (2 : ℝ) ^ ((p : ℝ) / nv) ≤ mn := key1 h0 hf1
  have b2 : mn < (2 : ℝ) ^ ((p : ℝ) / nv) * 2 ^ ((1 : ℝ) / nv) := by
    rw [← Real.rpow_add (by norm_num), ← add_div]
    exact key3 h0 hf2
  have b3 : mx < (2 : ℝ) ^ (((p + na : ℤ) : ℝ) / nv) * 2 ^ ((1 : ℝ) / nv) := by
    rw [← Real.rpow_add (by norm_num), ← add_div]
    exact key3 hmx (by push_cast; linarith)
  have b4 : (2 : ℝ) ^ (((p + na : ℤ) : ℝ) / nv) < mx * 2 ^ ((1 : ℝ) / nv) := by
    have : (2 : ℝ) ^ ((((p + na : ℤ) : ℝ) - 1) / nv) < mx := key2 hmx (by push_cast; linarith)
    have e : (2 : ℝ) ^ (((p + na : ℤ) : ℝ) / nv) = (2 : ℝ) ^ ((((p + na : ℤ) : ℝ) - 1) / nv) * 2 ^ ((1 : ℝ) / nv) := by
      rw [← Real.rpow_add (by norm_num), ← add_div]
      congr 2
      ring
    rw [e]
    exact mul_lt_mul_of_pos_right this hp1
  have b5 : (2 : ℝ) ^ ((p : ℝ) / nv) < (2 : ℝ) ^ (((p + na : ℤ) : ℝ) / nv) := by
    apply Real.rpow_lt_rpow_of_exponent_lt (by norm_num)
    apply div_lt_div_of_pos_right _ hnv'
    have : (0 : ℝ) < na := by exact_mod_cast hna0
    push_cast
    linarith
  have b0 : 0 < (2 : ℝ) ^ ((p : ℝ) / nv) := by positivity
  generalize (2 : ℝ) ^ ((p : ℝ) / nv) = lo at *
  generalize (2 : ℝ) ^ (((p + na : ℤ) : ℝ) / nv) = hi at *
  have hR : 1 < hi / lo := (one_lt_div b0).2 b5
  have hm1 : (1 : ℤ) < ⌈hi / lo⌉ := Int.lt_ceil.2 (by exact_mod_cast hR)
  obtain ⟨n, hn⟩ : ∃ n : ℕ, ⌈hi / lo⌉ = n := ⟨_, (Int.toNat_of_nonneg (by omega)).symm⟩
  have hn2 : 2 ≤ n := by rw [hn] at hm1; exact_mod_cast hm1
  have hn' : ⌈hi / lo⌉.toNat = n := by rw [hn]; simp
  rw [hn']
  have hcast : (((n - 1 : ℕ)) : ℝ) = n - 1 := by rw [Nat.cast_sub (by omega)]; simp
  have hn1 : (0 : ℝ) < ((n - 1 : ℕ) : ℝ) := by exact_mod_cast (by omega : 0 < n - 1)
  have hle : hi / lo ≤ n := by
    have := Int.le_ceil (hi / lo)
    rw [hn] at this
    exact_mod_cast this
  have hgt : (n : ℝ) < hi / lo + 1 := by
    have := Int.ceil_lt_add_one (hi / lo)
    rw [hn] at this
    exact_mod_cast this
  rw [div_le_iff₀ b0] at hle
  rw [← sub_lt_iff_lt_add, lt_div_iff₀ b0] at hgt
  have hhi : 0 < hi := b0.trans b5
  refine ⟨by rw [linspace_length]; exact hn2, lo, (hi - lo) / ((n - 1 : ℕ) : ℝ), hi, fun i h => linspace_getElem h, ?_, b0, div_pos (by linarith) hn1, b1, b2, b3, b4, ?_, ?_⟩
  · rw [linspace_length]
    field_simp
    ring
  · rw [lt_div_iff₀ hn1, hcast]
    have e : lo * (1 - lo / hi) * (n - 1) = (hi - lo) * (((n : ℝ) - 1) * lo / hi) := by
      field_simp
    rw [e]
    have : ((n : ℝ) - 1) * lo / hi < 1 := (div_lt_one hhi).2 hgt
    nlinarith
  · rw [div_le_iff₀ hn1, hcast]
    linarith

theorem meanAbsDiff2_ge_first {l : List ℝ} (h : 3 ≤ l.length) (c : ℝ) (hc : c ≤ |(l.getD 2 0 - l.getD 1 0) - (l.getD 1 0 - l.getD 0 0)|) :
    c / (l.length - 2 : ℕ) ≤ meanAbsDiff2 l := by
  unfold meanAbsDiff2
  refine div_le_div_of_nonneg_right (hc.trans ?_) (Nat.cast_nonneg _)
  refine List.single_le_sum (fun y hy => ?_) _ (List.mem_map.2 ⟨0, List.mem_range.2 (by omega), rfl⟩)
  obtain ⟨i, -, rfl⟩ := List.mem_map.1 hy
  exact abs_nonneg _

/-- **C157, recognition.** Linear scales that `make_scales` makes, between three and 10¹³ (float32: 10⁵), are recognised as linear. -/
theorem C157_linear_recognised (N nv : ℕ) (mn mx : ℝ) (wv : Option ScaleWavelet) (d : ℕ) (hnv : 1 ≤ nv) (h0 : 0 < mn) (hlt : mn < mx) (l : List ℝ)
    (h : makeScales N (some mn) (some mx) nv (.known .linear) wv d = .ok l) (h3 : 3 ≤ l.length) :
    (l.length ≤ 10 ^ 13 → inferScaletype .f64 l = .ok (.linear, .none)) ∧ (l.length ≤ 10 ^ 5 → inferScaletype .f32 l = .ok (.linear, .none)) := by
  obtain ⟨l', hl', h2, lo, s, hi, hget, hlast, b0, hs0, b1, b2, b3, b4, b5, b6⟩ := C157_linear N nv mn mx wv d hnv h0 hlt
  rw [h] at hl'
  simp only [Except.ok.injEq] at hl'
  subst hl'
  have hu : lo / 2 < s := by
    have hn2 : (2 : ℝ) ≤ ((l.length - 1 : ℕ) : ℝ) := by exact_mod_cast (by omega : 2 ≤ l.length - 1)
    have hhi : lo + 2 * s ≤ hi := by rw [← hlast]; nlinarith
    have hhi0 : 0 < hi := by linarith
    -- `hi > lo`, and `s > lo (1 - lo/hi)` with `hi ≥ lo + 2 s`
    by_contra hc
    push Not at hc
    have e : lo / hi < 1 := (div_lt_one hhi0).2 (by linarith)
    have h5 : lo * (hi - lo) < s * hi := by
      have := mul_lt_mul_of_pos_right b5 hhi0
      have e : lo * (1 - lo / hi) * hi = lo * (hi - lo) := by field_simp
      rwa [e] at this
    nlinarith
  have hpos : ∀ x ∈ l, 0 < x := by
    intro x hx
    obtain ⟨i, hi, rfl⟩ := List.getElem_of_mem hx
    rw [hget]
    have := mul_nonneg (Nat.cast_nonneg (α := ℝ) i) hs0.le
    linarith
  have hg : ∀ i, i < l.length → (l.map Real.log).getD i 0 = Real.log (lo + i * s) := by
    intro i hi
    rw [List.getD_eq_getElem _ _ (by simpa using hi), List.getElem_map, hget]
  have hlogs : (1 : ℝ) / 10 ≤ |((l.map Real.log).getD 2 0 - (l.map Real.log).getD 1 0) - ((l.map Real.log).getD 1 0 - (l.map Real.log).getD 0 0)| := by
    rw [hg 0 (by omega), hg 1 (by omega), hg 2 (by omega), abs_sub_comm]
    refine le_trans ?_ (le_abs_self _)
    push_cast
    have e : Real.log (lo + 1 * s) - Real.log (lo + 0 * s) - (Real.log (lo + 2 * s) - Real.log (lo + 1 * s)) =
        Real.log ((lo + s) ^ 2 / (lo * (lo + 2 * s))) := by
      rw [Real.log_div (by positivity) (by positivity), Real.log_pow, Real.log_mul b0.ne' (by positivity)]
      simp only [one_mul, zero_mul, add_zero]
      push_cast
      ring
    rw [e]
    have h9 : (9 : ℝ) / 8 ≤ (lo + s) ^ 2 / (lo * (lo + 2 * s)) := by
      rw [le_div_iff₀ (by positivity)]
      nlinarith
    have h10 : (1 : ℝ) - (9 / 8)⁻¹ ≤ Real.log (9 / 8) := Real.one_sub_inv_le_log_of_pos (by norm_num)
    have := Real.log_le_log (by norm_num) h9
    norm_num at h10
    linarith
  have hm := meanAbsDiff2_ge_first (by simpa using h3) _ hlogs
  rw [List.length_map] at hm
  have hlin : meanAbsDiff2 l = 0 := meanAbsDiff2_zero hget
  have hn0 : (0 : ℝ) < ((l.length - 2 : ℕ) : ℝ) := by exact_mod_cast (by omega : 0 < l.length - 2)
  have fin : ∀ dt, dt ≠ FDtype.other → thLog dt ≤ 1 / 10 / ((l.length - 2 : ℕ) : ℝ) → inferScaletype dt l = .ok (.linear, .none) := by
    intro dt hdt hth
    unfold inferScaletype
    have htp : 0 < thLog dt := thLog_pos dt
    rw [if_neg hdt, if_neg (by omega), if_neg (by rintro ⟨-, hc⟩; linarith), if_pos (by rw [hlin]; positivity)]
  refine ⟨fun hn => fin .f64 (by decide) ?_, fun hn => fin .f32 (by decide) ?_⟩
  · have : ((l.length - 2 : ℕ) : ℝ) ≤ 10 ^ 13 := by exact_mod_cast (by omega : l.length - 2 ≤ 10 ^ 13)
    rw [le_div_iff₀ hn0]
    calc (4 / 10 ^ 15 : ℝ) * ((l.length - 2 : ℕ) : ℝ) ≤ 4 / 10 ^ 15 * 10 ^ 13 := by gcongr
      _ ≤ 1 / 10 := by norm_num
  · have : ((l.length - 2 : ℕ) : ℝ) ≤ 10 ^ 5 := by exact_mod_cast (by omega : l.length - 2 ≤ 10 ^ 5)
    rw [le_div_iff₀ hn0]
    calc (8 / 10 ^ 7 : ℝ) * ((l.length - 2 : ℕ) : ℝ) ≤ 8 / 10 ^ 7 * 10 ^ 5 := by gcongr
      _ ≤ 1 / 10 := by norm_num

/-- Non-vacuity: linear scales from 1 to 4 with one voice: 1, 2, 3, 4. -/
example : ∃ l, makeScales 0 (some 1) (some 4) 1 (.known .linear) none 1 = .ok l ∧ l.length = 4 := by
  refine ⟨_, makeScales_linear 0 1 none 1 one_pos (by norm_num), ?_⟩
  have : Real.logb 2 4 = 2 := by
    rw [show (4 : ℝ) = 2 ^ (2 : ℝ) by norm_num, Real.logb_rpow (by norm_num) (by norm_num)]
  rw [linspace_length]
  norm_num [scalePows, this]
  rfl

end Ssq
