import Verif.Props.PeaksGmw
import Verif.Props.MaxScale
import Verif.Props.Passed
import Verif.Props.ScaleOrder

/-!
# C237: the scale bounds exist and are in order

C116 says that the bounds are in order if the searches return; here they do return. `Spec.Searches fn wv` says that the searches of `wv` are those of the
code for the function `fn`, `Spec.OnePeak` is that of C234.
-/
namespace Ssq
open Set Spec

/-- `find_max_scale` succeeds if the wavelet vanishes at zero frequency and some sample is positive. -/
theorem maxScale_succeeds {fn : ℝ → ℝ} {N b : ℕ} {amp : ℝ} {fuel : ℕ} {wc pk : ℝ} (hp : findPeak fn fuel = some (.ok (wc, pk))) (hN : 2 ≤ N) (hb : b < N)
    (h0 : fn 0 = 0) (hamp : 0 < amp) (k : ℕ) (hk : k ≤ N / 2) (hpos : 0 < fn (sampleFreq (4 / Real.pi * wc) N k)) :
    ∃ s, findMaxScale fn N b amp fuel = some (.ok s) := by
  unfold findMaxScale
  rw [hp, andThen_some]
  simp only
  rw [if_neg (by omega)]
  set c := 4 / Real.pi * wc with hc
  set psih := ((xifn c N).map fn).take (N / 2 + 1) with hps
  have hlen : psih.length = min (N / 2 + 1) N := psih_length fn c N
  have hne : psih ≠ [] := List.ne_nil_of_length_pos (by rw [hlen]; omega)
  have hpg : ∀ j, j < min (N / 2 + 1) N → psih.getD j 0 = fn (sampleFreq c N j) := fun j hj => psih_getD fn c N j (by omega) hj
  have hm := argmaxL_lt psih hne
  have hmax : 0 < rowMax psih := by
    refine hpos.trans_le ?_
    rw [← hpg k (by omega), List.getD_eq_getElem _ _ (by omega)]
    exact le_rowMax _ _ (List.getElem_mem _)
  have hz : psih.getD 0 0 = 0 := by
    rw [hpg 0 (by omega)]
    simp [sampleFreq, h0]
  have hm0 : 0 < argmaxL psih := by
    by_contra hc
    have : rowMax psih = 0 := by unfold rowMax; rw [Nat.eq_zero_of_not_pos hc, hz]
    linarith
  have hmem : 0 ∈ whereIdx (psih.take (argmaxL psih)) fun p => p < rowMax psih * amp := by
    rw [whereIdx_mem]
    refine ⟨by rw [List.length_take]; omega, ?_⟩
    rw [List.getD_eq_getElem?_getD, List.getElem?_take, if_pos hm0, ← List.getD_eq_getElem?_getD, hz]
    positivity
  obtain ⟨i, hi⟩ : ∃ i, (whereIdx (psih.take (argmaxL psih)) fun p => p < rowMax psih * amp).getLast? = some i :=
    ⟨_, List.getLast?_eq_some_getLast (List.ne_nil_of_mem hmem)⟩
  rw [hi]
  simp only
  rw [if_pos hb]
  exact ⟨_, rfl⟩

/-- Both searches succeed, and the lesser scale is less than the greater. -/
theorem bothScales (fn : ℝ → ℝ) (p : ℝ) (h0 : fn 0 = 0) (hnn : ∀ w, 0 ≤ w → 0 ≤ fn w) (h : Spec.OnePeak (fun w => |fn w|) (Ici 0) p) (hp0 : p ≤ 999) (b : ℕ)
    (hp1 : 10 * b + 1 / 10 ≤ p) (hp2 : p ≤ 10 * b + 9.99) (hb : ∀ v, |v - p| ≤ 1 / 1000 → 2 * fn (10 * b) ≤ fn v) (N : ℕ) (hN : 32 ≤ N) (k : ℕ) :
    ∃ mn mx, findMinScale fn (-1 / 2) (k + 101) = some (.ok mn) ∧ findMaxScale fn N 2 1 (k + 101) = some (.ok mx) ∧ 0 ≤ mn ∧ mn < mx := by
  have hpi := Real.pi_pos
  have hb0 : (0 : ℝ) ≤ b := Nat.cast_nonneg b
  have hb99 : b ≤ 99 := by
    have : (b : ℝ) < 100 := by linarith
    have : b < 100 := by exact_mod_cast this
    omega
  obtain ⟨v, e, hv⟩ := C234_finds fn (Ici 0) ordConnected_Ici p (by linarith) (by linarith) h (fun w hw hw' => absurd hw hw') (fun w hw _ => hw) k
  obtain ⟨hv1, hv2⟩ := abs_le.1 hv
  norm_num at hp2
  have hv0 : 0 < v := by linarith
  have hN0 : (32 : ℝ) ≤ N := by exact_mod_cast hN
  -- the lesser scale
  obtain ⟨w, o, ew⟩ := C236_block_partial fn (|(-1 / 2 : ℝ)| * |fn v|) 0 v b 0 9999 (by norm_num) (by norm_num) (.inr (by linarith))
    (by
      norm_num
      rw [min_eq_left (by linarith), abs_of_nonneg (hnn _ (by linarith)), abs_of_nonneg (hnn _ hv0.le)]
      linarith [hb v hv])
    (by norm_num; rw [min_eq_right (by linarith)]; linarith [abs_nonneg (fn v)]) (k + 100 - b)
  have hmn : findMinScale fn (-1 / 2) (k + 101) = some (.ok (w / Real.pi)) := by
    unfold findMinScale
    rw [e, andThen_some]
    simp only
    rw [if_neg (by norm_num)]
    simp only
    rw [show k + 101 = k + 100 - b + (b + 1) by omega, ew, andThen_some]
  obtain ⟨-, hle, -, -⟩ := C111_value fn (-1 / 2) _ v _ _ e hmn
  obtain ⟨hmn0, hmnv⟩ := hle (by norm_num)
  rw [mul_div_cancel₀ _ hpi.ne'] at hmn0 hmnv
  -- the greater scale
  have hsf : ∀ j : ℕ, sampleFreq (4 / Real.pi * v) N j = 8 * v * j / N := by
    intro j; unfold sampleFreq; field_simp; ring
  have hpos : 0 < fn (sampleFreq (4 / Real.pi * v) N 1) := by
    rw [hsf]
    have hlt : 8 * v * (1 : ℕ) / N < p := by
      rw [div_lt_iff₀ (by linarith)]; push_cast; nlinarith
    have hge : 0 < 8 * v * (1 : ℕ) / (N : ℝ) := by push_cast; positivity
    have := h.rises ⟨mem_Ici.2 le_rfl, mem_Iic.2 (by linarith)⟩ ⟨mem_Ici.2 hge.le, mem_Iic.2 hlt.le⟩ hge
    simp only [h0, abs_zero] at this
    rwa [abs_of_nonneg (hnn _ hge.le)] at this
  obtain ⟨mx, hmx⟩ := maxScale_succeeds (b := 2) e (by omega) (by omega) h0 one_pos 1 (by omega) hpos
  refine ⟨_, mx, hmn, hmx, div_nonneg hmn0 hpi.le, ?_⟩
  obtain ⟨-, -, -, i, m, h2, h3, h4, h5, h6, h7, h8, h9⟩ := maxScale_ok e hmx
  have him : i + 1 = m := by
    by_contra hc
    have a1 := h8 (i + 1) (by omega) (by omega)
    have a2 := h6 (i + 1) (by omega)
    rw [mul_one] at a1
    linarith
  have hm3 : 4 ≤ m + 1 := by
    by_contra hc
    have hlt : 8 * v * ((m + 1 : ℕ) : ℝ) / N ≤ p := by
      have : ((m + 1 : ℕ) : ℝ) ≤ 3 := by exact_mod_cast (by omega : m + 1 ≤ 3)
      rw [div_le_iff₀ (by linarith)]
      nlinarith
    have hlt2 : 8 * v * (m : ℝ) / N < 8 * v * ((m + 1 : ℕ) : ℝ) / N := by
      refine div_lt_div_of_pos_right ?_ (by linarith)
      push_cast
      nlinarith
    have hge : 0 ≤ 8 * v * (m : ℝ) / (N : ℝ) := by positivity
    have a1 := h.rises ⟨mem_Ici.2 hge, mem_Iic.2 (hlt2.le.trans hlt)⟩ ⟨mem_Ici.2 (hge.trans hlt2.le), mem_Iic.2 hlt⟩ hlt2
    rw [abs_of_nonneg (hnn _ hge), abs_of_nonneg (hnn _ (hge.trans hlt2.le)), ← hsf, ← hsf] at a1
    have a2 := h5 (m + 1) (by omega) (by omega)
    linarith
  have hi2 : (2 : ℝ) ≤ i := by exact_mod_cast (by omega : 2 ≤ i)
  have hs : mx = 4 / Real.pi * v * (i / 2) := by
    rw [h9, hsf, xifn_getD _ _ _ (by omega), if_pos (by omega)]
    push_cast
    field_simp
    norm_num
  rw [hs, div_lt_iff₀ hpi]
  have : 4 / Real.pi * v * ((i : ℝ) / 2) * Real.pi = 2 * v * i := by field_simp; ring
  rw [this]
  nlinarith

/-- **C237.** For every wavelet that vanishes at zero frequency, is nonnegative for the others and has its only peak `p` between `10 b + 0.1` and `10 b + 9.99` for
some `b`, with the value at `10 b` at most half of that at the peak (the step of 0.001 allowed for), `cwt_scalebounds(preset='maximal')` succeeds whenever the
wavelet is sampled at 32 points or more, whatever cutoffs are passed, and the lesser scale is less than the greater. -/
theorem C237_block (fn : ℝ → ℝ) (wv : ScaleWavelet) (hs : Searches fn wv) (p : ℝ) (h0 : fn 0 = 0) (hnn : ∀ w, 0 ≤ w → 0 ≤ fn w)
    (h : Spec.OnePeak (fun w => |fn w|) (Ici 0) p) (hp0 : p ≤ 999) (b : ℕ) (hp1 : 10 * b + 1 / 10 ≤ p) (hp2 : p ≤ 10 * b + 9.99)
    (hb : ∀ v, |v - p| ≤ 1 / 1000 → 2 * fn (10 * b) ≤ fn v) (N : ℕ) (minC maxC cutoff : Option ℝ) (padded : Bool)
    (hM : 32 ≤ if padded then (p2up N).1 else N) :
    ∃ mn mx, cwtScalebounds wv N (some .maximal) minC maxC cutoff padded = .ok (mn, mx) ∧ 0 ≤ mn ∧ mn < mx := by
  obtain ⟨mn, mx, a, b, hmn, hlt⟩ := bothScales fn p h0 hnn h hp0 b hp1 hp2 hb _ hM 0
  obtain ⟨f1, h1⟩ := hs.1 (-1 / 2)
  obtain ⟨f2, h2⟩ := hs.2 (if padded then (p2up N).1 else N) 2 1
  have e1 := findMinScale_det h1 a
  have e2 := findMaxScale_det h2 b
  push_cast at e2
  refine ⟨mn, mx, ?_, hmn, hlt⟩
  unfold cwtScalebounds
  simp only [scaleboundsArgs, ok_bind]
  rw [if_neg (by simp), e1, ok_bind, if_pos trivial, e2]
  rfl

/-- **C237**, peaks between 0.1 and 9.99: there nothing else is needed. -/
theorem C237_maximal (fn : ℝ → ℝ) (wv : ScaleWavelet) (hs : Searches fn wv) (p : ℝ) (h0 : fn 0 = 0) (hnn : ∀ w, 0 ≤ w → 0 ≤ fn w)
    (h : Spec.OnePeak (fun w => |fn w|) (Ici 0) p) (hp1 : 1 / 10 ≤ p) (hp2 : p ≤ 9.99) (N : ℕ) (minC maxC cutoff : Option ℝ) (padded : Bool)
    (hM : 32 ≤ if padded then (p2up N).1 else N) :
    ∃ mn mx, cwtScalebounds wv N (some .maximal) minC maxC cutoff padded = .ok (mn, mx) ∧ 0 ≤ mn ∧ mn < mx := by
  refine C237_block fn wv hs p h0 hnn h (by norm_num at hp2; linarith) 0 (by simpa using hp1) (by simpa using hp2) (fun v hv => ?_) N minC maxC cutoff padded hM
  have := (abs_le.1 hv).1
  simpa [h0] using hnn v (by linarith)

theorem gmw_sign {γ β : ℝ} {norm : NormArg} {c : Option Bool} {f32 : Bool} {f : ℝ → ℝ} (hg : gmw (some γ) (some β) norm (.int 0) c f32 = .ok f) :
    f 0 = 0 ∧ ∀ w, 0 ≤ f w := by
  obtain ⟨hγ, hβ, n, k, hn, _, hk, _, rfl⟩ := gmw_ok hg
  obtain rfl : 0 = k := by simpa [gmwOrder] using hk
  simp only [Option.getD_some] at hγ hβ ⊢
  have hwc := morsefreq_pos hγ hβ
  have hm := morse_pos γ β _ hwc
  constructor
  · have : gmwArg (c.getD false) (morsefreq γ β) 0 = 0 := by unfold gmwArg; split_ifs <;> simp
    rw [this]
    cases n <;> simp [gmwClosed, morse_of_nonpos]
  · intro w
    have := morse_nonneg γ β (gmwArg (c.getD false) (morsefreq γ β) w)
    cases n
    · simp only [gmwClosed, gmwCoeff_zero_bandpass, Spec.laguerre]
      positivity
    · simp only [gmwClosed, gmwCoeff_energy hγ hβ, Spec.laguerre]
      positivity

/-- **C237 for `gmw`** of order 0. -/
theorem C237_gmw {γ β : ℝ} {norm : NormArg} {c : Option Bool} {f32 : Bool} {f : ℝ → ℝ} (hg : gmw (some γ) (some β) norm (.int 0) c f32 = .ok f)
    (wv : ScaleWavelet) (hs : Searches f wv) (hp1 : 1 / 10 ≤ if c = some true then 1 else (β / γ) ^ (1 / γ))
    (hp2 : (if c = some true then 1 else (β / γ) ^ (1 / γ)) ≤ 9.99) (N : ℕ) (minC maxC cutoff : Option ℝ) (padded : Bool)
    (hM : 32 ≤ if padded then (p2up N).1 else N) :
    ∃ mn mx, cwtScalebounds wv N (some .maximal) minC maxC cutoff padded = .ok (mn, mx) ∧ 0 ≤ mn ∧ mn < mx := by
  obtain ⟨h, _⟩ := C234_gmw hg
  obtain ⟨h0, hnn⟩ := gmw_sign hg
  exact C237_maximal f wv hs _ h0 (fun w _ => hnn w) h hp1 hp2 N minC maxC cutoff padded hM

theorem exp_neg_le_inv (x : ℝ) (hx : 0 ≤ x) : Real.exp (-x) ≤ 1 / (1 + x) := by
  rw [Real.exp_neg, ← one_div]
  exact one_div_le_one_div_of_le (by linarith) (by linarith [Real.add_one_le_exp x])

/-- **C237 for `morlet`** with `mu` between `10 b + 2` and `10 b + 9.4`, in particular for the default 13.4. -/
theorem C237_morlet (μ : ℝ) (b : ℕ) (h1 : 10 * b + 2 ≤ μ) (h2 : μ ≤ 10 * b + 9.4) (h3 : μ ≤ 998) (wv : ScaleWavelet) (hs : Searches (morletFn μ) wv) (N : ℕ)
    (minC maxC cutoff : Option ℝ) (padded : Bool) (hM : 32 ≤ if padded then (p2up N).1 else N) :
    ∃ mn mx, cwtScalebounds wv N (some .maximal) minC maxC cutoff padded = .ok (mn, mx) ∧ 0 ≤ mn ∧ mn < mx := by
  have hb0 : (0 : ℝ) ≤ b := Nat.cast_nonneg b
  obtain ⟨p, -, g1, g2, h⟩ := C234_morlet μ (by linarith)
  have hinv : 1 / μ ≤ 1 / 2 := one_div_le_one_div_of_le (by norm_num) (by linarith)
  have hn := morlet_norm_pos μ (by linarith)
  refine C237_block _ wv hs p (by simp [morletFn]) (fun w hw => ?_) h (by linarith) b (by linarith) (by norm_num at h2 ⊢; linarith) (fun v hv => ?_)
    N minC maxC cutoff padded hM
  · simp only [morletFn]
    refine mul_nonneg (by have := Real.pi_pos; positivity) (sub_nonneg.2 ?_)
    rw [← Real.exp_add]
    refine Real.exp_le_exp.2 ?_
    nlinarith [mul_nonneg (by linarith : 0 ≤ μ) hw]
  · obtain ⟨v1, v2⟩ := abs_le.1 hv
    simp only [morletFn]
    rw [mul_left_comm]
    refine mul_le_mul_of_nonneg_left ?_ (by have := Real.pi_pos; positivity)
    have a1 : Real.exp (-(1 / 2) * (10 * b - μ) ^ 2) ≤ 1 / 3 := by
      have := exp_neg_le_inv 2 (by norm_num)
      norm_num at this
      refine (Real.exp_le_exp.2 ?_).trans this
      nlinarith
    have a2 : 0 < Real.exp (-(1 / 2) * μ ^ 2) * Real.exp (-(1 / 2) * (10 * b) ^ 2) := by positivity
    have a3 : Real.exp (-(1 / 2) * μ ^ 2) * Real.exp (-(1 / 2) * v ^ 2) ≤ 50 / 249 := by
      rw [← Real.exp_add]
      have := exp_neg_le_inv 3.98 (by norm_num)
      norm_num at this
      refine (Real.exp_le_exp.2 ?_).trans this
      nlinarith
    have a4 := Real.add_one_le_exp (-(1 / 2) * (v - μ) ^ 2)
    have a5 : (v - μ) ^ 2 ≤ 0.2511 := by norm_num; nlinarith
    norm_num at a5
    linarith

/-- The default wavelet, `gamma = 3, beta = 60`, and a signal of 1024 samples. -/
example : ∃ f wv, gmw (some 3) (some 60) (.known .bandpass) (.int 0) none true = .ok f ∧ Searches f wv ∧
    ∃ mn mx, cwtScalebounds wv 1024 (some .maximal) none none none false = .ok (mn, mx) ∧ 0 ≤ mn ∧ mn < mx := by
  have h := gmw_eq (γ := some 3) (β := some 60) (norm := .known .bandpass) (order := .int 0) (n := .bandpass) (k := 0)
    (f32 := true) none (by norm_num) (by norm_num) rfl (by simp [gmwCheckOrder]) rfl (by simp)
  have h1 : (1 : ℝ) ≤ (60 / 3) ^ (1 / 3 : ℝ) := Real.one_le_rpow (by norm_num) (by norm_num)
  have h2 : (60 / 3 : ℝ) ^ (1 / 3 : ℝ) ≤ 3 := by
    have : (3 : ℝ) = ((3 : ℝ) ^ (3 : ℝ)) ^ (1 / 3 : ℝ) := by rw [← Real.rpow_mul (by norm_num)]; norm_num
    conv_rhs => rw [this]
    refine Real.rpow_le_rpow (by norm_num) ?_ (by norm_num)
    norm_num
  obtain ⟨wv, hs⟩ := searches_exist (_ : ℝ → ℝ)
  exact ⟨_, wv, h, hs, C237_gmw h wv hs (by simp; norm_num at h1 ⊢; linarith) (by simp; norm_num at h2 ⊢; linarith) 1024 none none none false (by norm_num)⟩

/-- The default `morlet`, and a signal of 100 samples. -/
example : ∃ wv mn mx, Searches (morletFn 13.4) wv ∧ cwtScalebounds wv 100 (some .maximal) none none none false = .ok (mn, mx) ∧ mn < mx := by
  obtain ⟨wv, hs⟩ := searches_exist (morletFn 13.4)
  obtain ⟨mn, mx, a, _, b⟩ := C237_morlet 13.4 1 (by norm_num) (by norm_num) (by norm_num) wv hs 100 none none none false (by norm_num)
  exact ⟨wv, mn, mx, hs, a, b⟩

end Ssq
