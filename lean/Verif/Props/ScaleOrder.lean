import Verif.Props.MaxScale
import Verif.Model.Scales
import Verif.Lemmas.P2up

/-!
# C116: the bounds found by `cwt_scalebounds` with its real searches
-/
namespace Ssq
open Spec

namespace Spec

/-- The searches of `wv` are those of the code for the function `fn`. -/
def Searches (fn : ℝ → ℝ) (wv : ScaleWavelet) : Prop :=
  (∀ c, ∃ fuel, findMinScale fn c fuel = some (wv.minScale c)) ∧
    ∀ (N b : ℕ) (amp : ℝ), ∃ fuel, findMaxScale fn N b amp fuel = some (wv.maxScale N b amp)

/-- One peak, at `p`. -/
def Unimodal (fn : ℝ → ℝ) (p : ℝ) : Prop :=
  (∀ x, 0 ≤ fn x) ∧ (∀ x y, 0 ≤ x → x < y → y ≤ p → fn x < fn y) ∧ ∀ x y, p ≤ x → x ≤ y → fn y ≤ fn x

end Spec

/-- `find_maximum` finds the peak up to one step. -/
theorem peak_close (fn : ℝ → ℝ) (p : ℝ) (hp : 0 ≤ p) (hu : Unimodal fn p) (fuel : ℕ) (wc pk : ℝ) (h : findPeak fn fuel = some (.ok (wc, pk))) :
    p - 1 / 1000 < wc ∧ wc < p + 1 / 1000 := by
  obtain ⟨hf, hinc, hdec⟩ := hu
  obtain ⟨C, t0, h0, h1, h2, -, h4, h5, h6⟩ := C64_max_result _ _ _ _ _ _ _ _ _ h
  simp only [gridPt_default, zero_add] at *
  have ha : ∀ x, |fn x| = fn x := fun x => abs_of_nonneg (hf x)
  simp only [ha] at *
  subst h1 h2
  constructor
  · by_contra hc
    push Not at hc
    have hlt : fn ((t0 : ℝ) / 1000) < fn (((t0 + 1 : ℕ) : ℝ) / 1000) := by
      apply hinc _ _ (by positivity)
      · push_cast; linarith
      · push_cast; linarith
    rcases Nat.lt_or_ge (t0 + 1) (C * 10000) with h | h
    · have := h5 (t0 + 1) h; linarith
    · have := h6 (t0 + 1) h (by omega); linarith
  · by_contra hc
    push Not at hc
    have ht : 0 < t0 := by
      rcases Nat.eq_zero_or_pos t0 with e | e
      · rw [e] at hc; push_cast at hc; linarith
      · exact e
    have h7 := h4 (t0 - 1) (by omega)
    have hle := hdec (((t0 - 1 : ℕ) : ℝ) / 1000) ((t0 : ℝ) / 1000) (by rw [Nat.cast_sub (by omega)]; push_cast; linarith)
      (by rw [Nat.cast_sub (by omega)]; push_cast; linarith)
    linarith

/-- **C116**, 'maximal': for a wavelet with one peak at `p ≥ 0.02` sampled at 21 points or more, the bounds are in order, and the lesser one is at most the scale
that puts the peak on the greatest bin. -/
theorem C116_order_partial (fn : ℝ → ℝ) (wv : ScaleWavelet) (hs : Searches fn wv) (p : ℝ) (hp : 1 / 50 ≤ p) (hu : Unimodal fn p) (N : ℕ)
    (minC maxC cutoff : Option ℝ) (padded : Bool) (mn mx : ℝ) (hM : 21 ≤ if padded then (p2up N).1 else N)
    (h : cwtScalebounds wv N (some .maximal) minC maxC cutoff padded = .ok (mn, mx)) :
    0 ≤ mn ∧ Real.pi * mn < p + 1 / 1000 ∧ mn < mx := by
  have hpi := Real.pi_pos
  unfold cwtScalebounds at h
  simp only [scaleboundsArgs, ok_bind] at h
  rw [if_neg (by simp)] at h
  obtain ⟨mn', h1, h⟩ := bind_ok h
  rw [if_pos trivial] at h
  obtain ⟨mx', h2, h⟩ := bind_ok h
  simp only [pure_eq_ok, Except.ok.injEq, Prod.mk.injEq] at h
  obtain ⟨rfl, rfl⟩ := h
  obtain ⟨f1, hs1⟩ := hs.1 (-1 / 2)
  obtain ⟨f2, hs2⟩ := hs.2 (if padded then (p2up N).1 else N) 2 1
  push_cast at hs2
  rw [h1] at hs1
  rw [h2] at hs2
  generalize (if padded = true then (p2up N).1 else N) = M at *
  obtain ⟨⟨wc, pk⟩, hpk, -⟩ := andThen_ok hs1
  obtain ⟨⟨wc', pk'⟩, hpk', -⟩ := andThen_ok hs2
  have hsame : (wc', pk') = (wc, pk) := by
    have a := findPeak_mono fn f2 f1 _ hpk
    have b := findPeak_mono fn f1 f2 _ hpk'
    rw [Nat.add_comm f2 f1, a] at b
    simpa using b.symm
  rw [hsame] at hpk'
  obtain ⟨hc1, hc2⟩ := peak_close fn p (by linarith) hu f1 wc pk hpk
  obtain ⟨-, hv, -⟩ := C111_value fn (-1 / 2) f1 wc pk mn' hpk hs1
  obtain ⟨hv1, hv2⟩ := hv (by norm_num)
  have hmn0 : 0 ≤ mn' := nonneg_of_mul_nonneg_right hv1 hpi
  refine ⟨hmn0, by linarith, ?_⟩
  have hMr : (21 : ℝ) ≤ M := by exact_mod_cast hM
  obtain ⟨i, m, a1, a2, a3, a4, a5, a6, a7, a8, a9, a10⟩ := maxScale_pos_bin hpk' (binLoc := 2) (by norm_num) (by omega) hs2
  have hwc : 0 < wc := by linarith
  have hg : ∀ j : ℕ, sampleFreq (4 / Real.pi * wc) M j = j * (8 * wc / M) := by
    intro j
    unfold sampleFreq
    field_simp
    ring
  simp only [hg] at a6 a7 a8 a9
  have hδ : 0 < 8 * wc / M := by positivity
  -- the grid point below the peak
  set q := ⌊p / (8 * wc / M)⌋₊ with hq
  have hq1 : (q : ℝ) * (8 * wc / M) ≤ p := by
    rw [← le_div_iff₀ hδ]; exact Nat.floor_le (by positivity)
  have hq2 : p < ((q : ℝ) + 1) * (8 * wc / M) := by
    rw [← div_lt_iff₀ hδ]; exact Nat.lt_floor_add_one _
  have hqM : q ≤ M / 2 := by
    rw [Nat.le_div_iff_mul_le (by norm_num)]
    have : (q : ℝ) * 2 ≤ M := by
      have h8 : (q : ℝ) * (8 * wc) ≤ p * M := by
        have := mul_le_mul_of_nonneg_right hq1 (by positivity : (0 : ℝ) ≤ M)
        have e : (q : ℝ) * (8 * wc / M) * M = q * (8 * wc) := by field_simp
        rwa [e] at this
      have h9 : p * M ≤ 4 * wc * M := mul_le_mul_of_nonneg_right (by linarith) (by positivity)
      have h10 : (q : ℝ) * 2 * (4 * wc) ≤ M * (4 * wc) := by linarith
      exact le_of_mul_le_mul_right h10 (by positivity)
    exact_mod_cast this
  have hmq : q ≤ m := by
    by_contra hlt
    push Not at hlt
    have h3 := a7 q (by omega) hqM
    have h4 := hu.2.1 (m * (8 * wc / M)) (q * (8 * wc / M)) (by positivity) (by
      apply mul_lt_mul_of_pos_right _ hδ
      exact_mod_cast hlt) hq1
    linarith
  have him : i = m - 1 := by
    by_contra hne
    have h3 := a9 (m - 1) (by omega) (by omega)
    have h4 := a6 (m - 1) (by omega)
    linarith
  have hi : (q : ℝ) - 1 ≤ i := by
    have : q ≤ i + 1 := by omega
    have : (q : ℝ) ≤ i + 1 := by exact_mod_cast this
    linarith
  have hkey : p * M < ((q : ℝ) + 1) * (8 * wc) := by
    have := mul_lt_mul_of_pos_right hq2 (by positivity : (0 : ℝ) < M)
    have e : ((q : ℝ) + 1) * (8 * wc / M) * M = (q + 1) * (8 * wc) := by field_simp
    rwa [e] at this
  have hpM : 21 * p ≤ p * M := by nlinarith
  have hgoal : Real.pi * mn' < Real.pi * mx' := by
    have e : Real.pi * mx' = 2 * wc * i := by
      rw [a10]; push_cast; field_simp; ring
    rw [e]
    nlinarith
  exact lt_of_mul_lt_mul_left hgoal hpi.le

/-- The property for all lengths. -/
def C116_order_full : Prop := ∀ (fn : ℝ → ℝ) (wv : ScaleWavelet), Searches fn wv → ∀ p, 1 / 50 ≤ p → Unimodal fn p → ∀ (N : ℕ) (mn mx : ℝ), 1 ≤ N →
  cwtScalebounds wv N (some .maximal) none none none true = .ok (mn, mx) → mn < mx

theorem tri_unimodal : Unimodal tri 1 := by
  refine ⟨tri_nonneg, fun x y h0 h1 h2 => ?_, fun x y h1 h2 => ?_⟩
  · rw [tri_left x h0 (by linarith), tri_left y (by linarith) h2]; exact h1
  · unfold tri
    rw [abs_of_nonneg (by linarith), abs_of_nonneg (by linarith)]
    exact max_le_max le_rfl (by linarith)

/-- Every function has its searches. -/
theorem searches_exist (fn : ℝ → ℝ) : ∃ wv, Searches fn wv := by
  choose f r hr using C111_terminates fn
  have key : ∀ (N : ℕ) (b amp : ℝ), ∃ r : Py ℝ, ∀ n : ℕ, (n : ℝ) = b → ∃ fuel, findMaxScale fn N n amp fuel = some r := by
    intro N b amp
    by_cases hb : ∃ n : ℕ, (n : ℝ) = b
    · obtain ⟨n, rfl⟩ := hb
      obtain ⟨fuel, r, h⟩ := C112_terminates fn N n amp
      refine ⟨r, fun n' hn' => ?_⟩
      have : n' = n := by exact_mod_cast hn'
      subst this
      exact ⟨fuel, h⟩
    · exact ⟨.error .exception, fun n hn => absurd ⟨n, hn⟩ hb⟩
  choose g hg using key
  exact ⟨⟨r, g, fun _ _ _ => .error .exception, fun _ => []⟩, fun c => ⟨f c, hr c⟩, fun N b amp => hg N b amp b rfl⟩

theorem andThen_mono {α β : Type} {a a' : Option (Py α)} {f f' : α → Option (Py β)} {r : Py β} (h : andThen a f = some r)
    (ha : ∀ x, a = some x → a' = some x) (hf : ∀ x r, f x = some r → f' x = some r) : andThen a' f' = some r := by
  unfold andThen at h ⊢
  rcases a with _ | x
  · simp at h
  · rw [ha x rfl]
    rcases x with e | x
    · exact h
    · exact hf x r h

/-- Fuel does not matter. -/
theorem findMinScale_det {fn : ℝ → ℝ} {c : ℝ} {f f' : ℕ} {r r' : Py ℝ} (h : findMinScale fn c f = some r) (h' : findMinScale fn c f' = some r') :
    r = r' := by
  have mono : ∀ {f : ℕ} {r : Py ℝ} (j : ℕ), findMinScale fn c f = some r → findMinScale fn c (f + j) = some r := by
    intro f r j h
    unfold findMinScale at h ⊢
    refine andThen_mono h (fun x => findPeak_mono fn j f x) fun x r hx => ?_
    exact andThen_mono hx (fun y => findValue_mono fn _ _ _ j f y) fun _ _ hy => hy
  have a := mono f' h
  have b := mono f h'
  rw [Nat.add_comm f' f, a] at b
  exact Option.some.inj b

theorem findMaxScale_det {fn : ℝ → ℝ} {N b : ℕ} {amp : ℝ} {f f' : ℕ} {r r' : Py ℝ} (h : findMaxScale fn N b amp f = some r)
    (h' : findMaxScale fn N b amp f' = some r') : r = r' := by
  have mono : ∀ {f : ℕ} {r : Py ℝ} (j : ℕ), findMaxScale fn N b amp f = some r → findMaxScale fn N b amp (f + j) = some r := by
    intro f r j h
    unfold findMaxScale at h ⊢
    exact andThen_mono h (fun x => findPeak_mono fn j f x) fun _ _ hx => hx
  have a := mono f' h
  have b := mono f h'
  rw [Nat.add_comm f' f, a] at b
  exact Option.some.inj b

theorem p2up_two_pow (k : ℕ) : (p2up (2 ^ k)).1 = 2 ^ (1 + k) := by
  have h : Real.logb 2 ((2 ^ k : ℕ) : ℝ) = ((k : ℤ) : ℝ) := by
    push_cast
    rw [Real.logb_pow, Real.logb_self_eq_one (by norm_num), mul_one]
  unfold p2up
  simp only [h, rhe_intCast, Int.toNat_natCast]
  rw [if_neg (by positivity)]

/-- The bounds for the triangle and a signal of `n` samples, `p2up(n) = 8 q`. -/
theorem tri_bounds (wv : ScaleWavelet) (hs : Searches tri wv) (N q : ℕ) (hq : 1 ≤ q) (hN : (p2up N).1 = 8 * q) :
    cwtScalebounds wv N (some .maximal) none none none true = .ok (1 / 2 / Real.pi, 4 / Real.pi * (((q - 1 : ℕ) : ℝ) / 2)) := by
  obtain ⟨f1, h1⟩ := hs.1 (-1 / 2)
  obtain ⟨f2, h2⟩ := hs.2 (8 * q) 2 1
  have a := tri_min_left 500 (by norm_num) 0
  rw [show -(((500 : ℕ) : ℝ) / 1000) = -1 / 2 by norm_num, show ((500 : ℕ) : ℝ) / 1000 = 1 / 2 by norm_num] at a
  have b := tri_max q 2 (by omega) (by norm_num) (by omega) 0
  have e1 := findMinScale_det h1 a
  have e2 := findMaxScale_det h2 b
  push_cast at e2
  unfold cwtScalebounds
  simp only [scaleboundsArgs, ok_bind]
  rw [if_neg (by simp), e1, ok_bind, if_pos trivial, if_pos trivial, hN, e2]
  simp

/-- For a signal of 4 samples, padded to 8, the greater bound is zero. -/
theorem C116_order_refuted : ¬ C116_order_full := by
  intro h
  obtain ⟨wv, hs⟩ := searches_exist tri
  have := h tri wv hs 1 (by norm_num) tri_unimodal (2 ^ 2) _ _ (by norm_num) (tri_bounds wv hs (2 ^ 2) 1 le_rfl (by rw [p2up_two_pow]; norm_num))
  have hp := Real.pi_pos
  have h1 : 0 < 1 / 2 / Real.pi := by positivity
  norm_num at this
  linarith

/-- The hypotheses of `C116_order_partial` are met: the triangle and a signal of 32 samples, padded to 64. -/
example : ∃ (wv : ScaleWavelet) (mn mx : ℝ), Searches tri wv ∧ Unimodal tri 1 ∧ 21 ≤ (if true then (p2up 32).1 else 32) ∧
    cwtScalebounds wv 32 (some .maximal) none none none true = .ok (mn, mx) := by
  obtain ⟨wv, hs⟩ := searches_exist tri
  have e : (p2up 32).1 = 64 := p2up_two_pow 5
  refine ⟨wv, _, _, hs, tri_unimodal, ?_, tri_bounds wv hs 32 8 (by norm_num) (by rw [e])⟩
  rw [if_pos rfl, e]
  norm_num

end Ssq
