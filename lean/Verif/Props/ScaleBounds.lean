import Verif.Lemmas.ScaleBounds
import Mathlib.Tactic.Positivity
import Mathlib.Tactic.IntervalCases

/-!
# C111-C113: the bounds of the scales

`C111` is about `find_min_scale`, `C112` about `find_max_scale`, `C113` about `find_max_scale_alt`. The peak search itself is described
by `C64_max_result`.
-/
namespace Ssq
open Spec

namespace Spec

/-- The `j`-th non-negative frequency of a wavelet of length `N` at scale `c`: `c * 2πj/N`. -/
noncomputable def sampleFreq (c : ℝ) (N j : ℕ) : ℝ := c * (2 * Real.pi * j / N)

end Spec

theorem minScale_ok {fn : ℝ → ℝ} {cutoff : ℝ} {fuel : ℕ} {wp pk s : ℝ} (hp : findPeak fn fuel = some (.ok (wp, pk)))
    (h : findMinScale fn cutoff fuel = some (.ok s)) :
    ∃ o, findValue fn (|cutoff| * pk) (if 0 < cutoff then wp else 0) (if 0 < cutoff then 10 * wp else wp) fuel =
      some (.ok (Real.pi * s, o)) := by
  unfold findMinScale at h
  rw [hp, andThen_some] at h
  have key : ∀ a b, andThen (findValue fn (|cutoff| * pk) a b fuel) (fun x => some (.ok (x.1 / Real.pi))) = some (.ok s) →
      ∃ o, findValue fn (|cutoff| * pk) a b fuel = some (.ok (Real.pi * s, o)) := by
    intro a b h
    obtain ⟨⟨w, o⟩, h1, h2⟩ := andThen_ok h
    simp only [Option.some.injEq, Except.ok.injEq] at h2
    refine ⟨o, ?_⟩
    rw [h1, ← h2, mul_div_cancel₀ _ Real.pi_ne_zero]
  by_cases hc : 0 < cutoff
  · simp only [if_pos hc] at h ⊢
    exact key _ _ h
  · simp only [if_neg hc] at h ⊢
    exact key _ _ h

/-- **C111**: `find_min_scale` returns a scale whose greatest sampled frequency, `π` times it, lies between the peak and ten times the
peak for a positive cutoff and between zero and the peak otherwise, and at which `|fn|` is `|cutoff|` of the peak value up to what `fn`
can change in one step (`1/1000`) of the search. -/
theorem C111_value (fn : ℝ → ℝ) (cutoff : ℝ) (fuel : ℕ) (wp pk s : ℝ) (hp : findPeak fn fuel = some (.ok (wp, pk)))
    (h : findMinScale fn cutoff fuel = some (.ok s)) :
    (0 < cutoff → wp ≤ Real.pi * s ∧ Real.pi * s ≤ 10 * wp) ∧ (cutoff ≤ 0 → 0 ≤ Real.pi * s ∧ Real.pi * s ≤ wp) ∧
    (∀ K, (∀ x y, |fn x - fn y| ≤ K * |x - y|) → abs (|fn (Real.pi * s)| - |cutoff| * pk) ≤ K / 1000) ∧
    (∀ N, 0 < N → N % 2 = 0 → s * (xifn 1 N).getD (N / 2) 0 = Real.pi * s) := by
  obtain ⟨o, ho⟩ := minScale_ok hp h
  have hw := (peak_nonneg _ _ _ _ hp).1
  obtain ⟨C, k, hk, h1, h2, -, -, -, i, hi, h6⟩ := C64_occ_result _ _ _ _ _ _ _ _ _ ho
  simp only [gridPt_default] at *
  refine ⟨fun hc => ?_, fun hc => ?_, fun K hK => ?_, fun N hN he => ?_⟩
  · rw [if_pos hc, if_pos hc] at h1
    rw [h1]
    refine ⟨le_min ?_ (by linarith), min_le_right _ _⟩
    have : (0 : ℝ) ≤ ((C * 10000 + k : ℕ) : ℝ) / 1000 := by positivity
    linarith
  · rw [if_neg (not_lt.2 hc), if_neg (not_lt.2 hc)] at h1
    rw [h1]
    refine ⟨le_min ?_ hw, min_le_right _ _⟩
    have : (0 : ℝ) ≤ ((C * 10000 + k : ℕ) : ℝ) / 1000 := by positivity
    linarith
  · rw [← h2]
    refine le_trans h6 (le_trans (abs_abs_sub_abs_le_abs_sub _ _) (le_trans (hK _ _) ?_))
    have hK0 : 0 ≤ K := by
      have := hK 1 0
      simp only [sub_zero, abs_one, mul_one] at this
      exact le_trans (abs_nonneg _) this
    rw [div_eq_mul_inv]
    refine mul_le_mul_of_nonneg_left ?_ hK0
    refine le_trans (abs_min_sub_min_le_max _ _ _ _) ?_
    rw [sub_self, abs_zero, max_le_iff]
    constructor
    · push_cast
      rw [abs_le]; constructor <;> linarith
    · norm_num
  · rw [xifn_getD _ _ _ (by omega), if_pos le_rfl]
    obtain ⟨m, rfl⟩ : ∃ m, N = 2 * m := ⟨N / 2, by omega⟩
    have : (m : ℝ) ≠ 0 := by
      have : m ≠ 0 := by omega
      exact_mod_cast this
    rw [Nat.mul_div_cancel_left _ (by norm_num)]
    push_cast
    field_simp

/-- The search always ends. -/
theorem C111_terminates (fn : ℝ → ℝ) (cutoff : ℝ) : ∃ fuel r, findMinScale fn cutoff fuel = some r := by
  obtain ⟨f1, r1, h1⟩ := findPeak_ends fn
  rcases r1 with e | ⟨wp, pk⟩
  · exact ⟨f1, .error e, by unfold findMinScale; rw [h1]; rfl⟩
  · obtain ⟨f2, r2, h2⟩ := findValue_ends fn (|cutoff| * pk) (if 0 < cutoff then wp else 0) (if 0 < cutoff then 10 * wp else wp)
    refine ⟨f1 + f2, ?_⟩
    have h1' := findPeak_mono fn f2 f1 _ h1
    have h2' := findValue_mono fn _ _ _ f1 f2 _ h2
    rw [Nat.add_comm f2 f1] at h2'
    unfold findMinScale
    rw [h1', andThen_some]
    by_cases hc : 0 < cutoff
    · simp only [if_pos hc] at h2' ⊢
      rw [h2']
      rcases r2 with e | r <;> exact ⟨_, rfl⟩
    · simp only [if_neg hc] at h2' ⊢
      rw [h2']
      rcases r2 with e | r <;> exact ⟨_, rfl⟩

/-! ### A triangular wavelet with its peak at 1 -/

/-- `1 - |w - 1|`, and zero outside `[0, 2]`. -/
noncomputable def tri (w : ℝ) : ℝ := max 0 (1 - |w - 1|)

theorem tri_nonneg (w : ℝ) : 0 ≤ tri w := le_max_left _ _

theorem tri_left (w : ℝ) (h0 : 0 ≤ w) (h1 : w ≤ 1) : tri w = w := by
  unfold tri
  rw [abs_of_nonpos (by linarith), max_eq_right (by linarith)]
  ring

theorem tri_right (w : ℝ) (h0 : 1 ≤ w) (h1 : w ≤ 2) : tri w = 2 - w := by
  unfold tri
  rw [abs_of_nonneg (by linarith), max_eq_right (by linarith)]
  ring

theorem tri_zero (w : ℝ) (h : 2 ≤ w) : tri w = 0 := by
  unfold tri
  rw [abs_of_nonneg (by linarith), max_eq_left (by linarith)]

theorem tri_le (w : ℝ) : tri w ≤ 1 := by
  unfold tri
  have := abs_nonneg (w - 1)
  exact max_le (by norm_num) (by linarith)

theorem tri_eq_one (w : ℝ) (h : tri w = 1) : w = 1 := by
  unfold tri at h
  by_contra hne
  have : 0 < |w - 1| := abs_pos.2 (sub_ne_zero.2 hne)
  have : max 0 (1 - |w - 1|) < 1 := max_lt (by norm_num) (by linarith)
  linarith

theorem tri_peak (k : ℕ) : findPeak tri (k + 2) = some (.ok (1, 1)) := by
  have e : |tri ((1000 : ℕ) / 1000)| = 1 := by
    rw [abs_of_nonneg (tri_nonneg _), tri_left _ (by norm_num) (by norm_num)]; norm_num
  obtain ⟨v, hv⟩ := findPeak_ok tri 1000 (by norm_num)
    (by intro t _; rw [e, abs_of_nonneg (tri_nonneg _)]; exact tri_le _)
    (by
      intro t ht _
      have : (10000 : ℝ) ≤ t := by exact_mod_cast ht
      rw [e, abs_of_nonneg (tri_nonneg _), tri_zero _ (by linarith)]; norm_num) k
  rw [e] at hv
  have h2 := (peak_nonneg _ _ _ _ hv).2
  rw [abs_of_nonneg (tri_nonneg _)] at h2
  rw [hv, tri_eq_one v h2.symm]

/-- Left of the peak: the cutoff `-c` is attained at `w = c`. -/
theorem tri_min_left (t : ℕ) (ht : t ≤ 1000) (k : ℕ) : findMinScale tri (-((t : ℕ) / 1000)) (k + 2) = some (.ok ((t : ℕ) / 1000 / Real.pi)) := by
  have htr : (t : ℝ) ≤ 1000 := by exact_mod_cast ht
  have ht0 : (0 : ℝ) ≤ (t : ℝ) / 1000 := by positivity
  have hv : |tri (min (0 + (t : ℕ) / 1000) 1)| = |(-((t : ℝ) / 1000))| * 1 := by
    rw [zero_add, min_eq_left (by linarith), abs_of_nonneg (tri_nonneg _), tri_left _ ht0 (by linarith), abs_neg, abs_of_nonneg ht0, mul_one]
  obtain ⟨v, h⟩ := findValue_ok tri _ 0 1 t (by omega) hv (k + 1)
  obtain ⟨s, h1, h2, -⟩ := C64_occ_exact _ _ _ _ _ _ _ _ h
  rw [gridPt_default] at h1
  have hv0 : 0 ≤ v := by rw [h1]; exact le_min (by positivity) (by norm_num)
  have hv1 : v ≤ 1 := by rw [h1]; exact min_le_right _ _
  rw [abs_of_nonneg (tri_nonneg _), tri_left _ hv0 hv1, abs_neg, abs_of_nonneg ht0, mul_one] at h2
  unfold findMinScale
  rw [tri_peak, andThen_some]
  simp only [if_neg (by linarith : ¬ 0 < -((t : ℝ) / 1000))]
  rw [h, andThen_some, h2]

/-- Right of the peak: the cutoff `c` is attained at `w = 2 - c`. -/
theorem tri_min_right (t : ℕ) (ht : t < 1000) (k : ℕ) :
    findMinScale tri (1 - (t : ℕ) / 1000) (k + 2) = some (.ok ((1 + (t : ℕ) / 1000) / Real.pi)) := by
  have htr : (t : ℝ) < 1000 := by exact_mod_cast ht
  have ht0 : (0 : ℝ) ≤ (t : ℝ) / 1000 := by positivity
  have ht1 : (t : ℝ) / 1000 < 1 := by linarith
  have hv : |tri (min (1 + (t : ℕ) / 1000) 10)| = |(1 - (t : ℝ) / 1000)| * 1 := by
    rw [min_eq_left (by linarith), abs_of_nonneg (tri_nonneg _), tri_right _ (by linarith) (by linarith), abs_of_nonneg (by linarith)]
    ring
  obtain ⟨v, h⟩ := findValue_ok tri _ 1 10 t (by omega) hv (k + 1)
  obtain ⟨s, h1, h2, -⟩ := C64_occ_exact _ _ _ _ _ _ _ _ h
  rw [gridPt_default] at h1
  have hv0 : 1 ≤ v := by
    rw [h1]
    have : (0 : ℝ) ≤ (s : ℝ) / 1000 := by positivity
    exact le_min (by linarith) (by norm_num)
  have hv1 : v ≤ 2 := by
    by_contra hv
    rw [abs_of_nonneg (tri_nonneg _), tri_zero v (by linarith), abs_of_nonneg (by linarith)] at h2
    linarith
  rw [abs_of_nonneg (tri_nonneg _), tri_right _ hv0 hv1, abs_of_nonneg (by linarith), mul_one] at h2
  unfold findMinScale
  rw [tri_peak, andThen_some]
  simp only [if_pos (by linarith : 0 < 1 - (t : ℝ) / 1000)]
  rw [mul_one, mul_one] at *
  rw [h, andThen_some]
  have : v = 1 + (t : ℝ) / 1000 := by linarith
  rw [this]

/-- "If `cutoff > 0`, it lands to right of peak, else to left (i.e. peak excluded)." -/
def C111_full : Prop := ∀ (fn : ℝ → ℝ) (cutoff : ℝ) (fuel : ℕ) (wp pk s : ℝ), findPeak fn fuel = some (.ok (wp, pk)) →
  findMinScale fn cutoff fuel = some (.ok s) → cutoff ≤ 0 → Real.pi * s < wp

/-- With cutoff `-1` the peak is not excluded. -/
theorem C111_refuted : ¬ C111_full := fun h => by
  have h1 := tri_min_left 1000 le_rfl 0
  have := h tri _ 2 1 1 _ (tri_peak 0) h1 (by norm_num)
  rw [mul_div_cancel₀ _ Real.pi_ne_zero] at this
  norm_num at this

/-- The documented "Lesser `cutoff` -> lesser `min_scale`, always". -/
def C111_mono_full : Prop := ∀ (fn : ℝ → ℝ) (fuel : ℕ) (c c' s s' : ℝ), c ≤ c' →
  findMinScale fn c fuel = some (.ok s) → findMinScale fn c' fuel = some (.ok s') → s ≤ s'

/-- It is false on either side of the peak. -/
theorem C111_mono_refuted : ¬ C111_mono_full ∧
    (∃ c c' s s', c < c' ∧ c' ≤ 0 ∧ findMinScale tri c 2 = some (.ok s) ∧ findMinScale tri c' 2 = some (.ok s') ∧ s' < s) ∧
    (∃ c c' s s', c < c' ∧ 0 < c ∧ findMinScale tri c 2 = some (.ok s) ∧ findMinScale tri c' 2 = some (.ok s') ∧ s' < s) := by
  have hpi := Real.pi_pos
  have A : ∃ c c' s s', c < c' ∧ c' ≤ 0 ∧ findMinScale tri c 2 = some (.ok s) ∧ findMinScale tri c' 2 = some (.ok s') ∧ s' < s :=
    ⟨_, _, _, _, by norm_num, by norm_num, tri_min_left 900 (by norm_num) 0, tri_min_left 500 (by norm_num) 0, by
      apply div_lt_div_of_pos_right _ hpi; norm_num⟩
  have B : ∃ c c' s s', c < c' ∧ 0 < c ∧ findMinScale tri c 2 = some (.ok s) ∧ findMinScale tri c' 2 = some (.ok s') ∧ s' < s :=
    ⟨_, _, _, _, by norm_num, by norm_num, tri_min_right 500 (by norm_num) 0, tri_min_right 100 (by norm_num) 0, by
      apply div_lt_div_of_pos_right _ hpi; norm_num⟩
  refine ⟨fun h => ?_, A, B⟩
  obtain ⟨c, c', s, s', h1, -, h2, h3, h4⟩ := A
  have := h tri 2 c c' s s' h1.le h2 h3
  linarith

/-- Two searches in one block along which `|fn|` is monotone. -/
theorem block_mono (g : ℕ → ℝ) (k k' : ℕ) (v v' : ℝ) (hg : g k ≤ g k') (hv : v' ≤ v) (h1 : |g k - v| ≤ |g k' - v|)
    (h2 : |g k' - v'| < |g k - v'|) : False := by
  rcases abs_cases (g k - v) with ⟨a1, a2⟩ | ⟨a1, a2⟩ <;> rcases abs_cases (g k' - v) with ⟨b1, b2⟩ | ⟨b1, b2⟩ <;>
  rcases abs_cases (g k' - v') with ⟨c1, c2⟩ | ⟨c1, c2⟩ <;> rcases abs_cases (g k - v') with ⟨d1, d2⟩ | ⟨d1, d2⟩ <;> linarith

/-- What does hold left of the peak, if `|fn|` increases up to the peak and the peak is below `9.999`: a *greater* (less negative)
cutoff gives a lesser scale. -/
theorem C111_left_partial (fn : ℝ → ℝ) (fuel : ℕ) (wp pk c c' s s' : ℝ) (hp : findPeak fn fuel = some (.ok (wp, pk)))
    (hw : wp ≤ 9999 / 1000) (hf : ∀ x y, 0 ≤ x → x ≤ y → y ≤ wp → |fn x| ≤ |fn y|) (hc : c ≤ c') (hc' : c' ≤ 0)
    (h : findMinScale fn c fuel = some (.ok s)) (h' : findMinScale fn c' fuel = some (.ok s')) : s' ≤ s := by
  obtain ⟨o, ho⟩ := minScale_ok hp h
  obtain ⟨o', ho'⟩ := minScale_ok hp h'
  obtain ⟨hw0, hpk⟩ := peak_nonneg _ _ _ _ hp
  rw [if_neg (by linarith), if_neg (by linarith)] at ho ho'
  obtain ⟨k, hk, a1, a2, a3, -⟩ := findValue_block _ _ _ _ (by linarith) _ _ _ ho
  obtain ⟨k', hk', b1, b2, -, b4⟩ := findValue_block _ _ _ _ (by linarith) _ _ _ ho'
  have hX : ∀ i j : ℕ, i ≤ j → min (0 + (i : ℝ) / 1000) wp ≤ min (0 + (j : ℝ) / 1000) wp := by
    intro i j hij
    have : (i : ℝ) ≤ j := by exact_mod_cast hij
    exact min_le_min_right _ (by linarith)
  have hX0 : ∀ i : ℕ, 0 ≤ min (0 + (i : ℝ) / 1000) wp := fun i => le_min (by positivity) hw0
  have key : Real.pi * s' ≤ Real.pi * s := by
    by_cases hkk : k' ≤ k
    · rw [a1, b1]; exact hX _ _ hkk
    · exfalso
      push Not at hkk
      refine block_mono (fun i => |fn (min (0 + (i : ℝ) / 1000) wp)|) k k' (|c| * pk) (|c'| * pk) ?_ ?_ ?_ ?_
      · exact hf _ _ (hX0 k) (hX _ _ hkk.le) (min_le_right _ _)
      · refine mul_le_mul_of_nonneg_right ?_ (by rw [hpk]; exact abs_nonneg _)
        rw [abs_of_nonpos hc', abs_of_nonpos (le_trans hc hc')]; linarith
      · have := a3 k' hk'
        rw [a2, a1] at this
        exact this
      · have := b4 k hkk
        rw [b2, b1] at this
        exact this
  exact le_of_mul_le_mul_left key Real.pi_pos

/-- The same right of the peak, if `|fn|` decreases from the peak on and the peak is below `1.111`. -/
theorem C111_right_partial (fn : ℝ → ℝ) (fuel : ℕ) (wp pk c c' s s' : ℝ) (hp : findPeak fn fuel = some (.ok (wp, pk)))
    (hw : wp ≤ 1111 / 1000) (hf : ∀ x y, wp ≤ x → x ≤ y → y ≤ 10 * wp → |fn y| ≤ |fn x|) (hc : c ≤ c') (hc0 : 0 < c)
    (h : findMinScale fn c fuel = some (.ok s)) (h' : findMinScale fn c' fuel = some (.ok s')) : s' ≤ s := by
  obtain ⟨o, ho⟩ := minScale_ok hp h
  obtain ⟨o', ho'⟩ := minScale_ok hp h'
  obtain ⟨hw0, hpk⟩ := peak_nonneg _ _ _ _ hp
  rw [if_pos (by linarith), if_pos (by linarith)] at ho ho'
  obtain ⟨k, hk, a1, a2, a3, -⟩ := findValue_block _ _ _ _ (by linarith) _ _ _ ho
  obtain ⟨k', hk', b1, b2, -, b4⟩ := findValue_block _ _ _ _ (by linarith) _ _ _ ho'
  have hX : ∀ i j : ℕ, i ≤ j → min (wp + (i : ℝ) / 1000) (10 * wp) ≤ min (wp + (j : ℝ) / 1000) (10 * wp) := by
    intro i j hij
    have : (i : ℝ) ≤ j := by exact_mod_cast hij
    exact min_le_min_right _ (by linarith)
  have hX0 : ∀ i : ℕ, wp ≤ min (wp + (i : ℝ) / 1000) (10 * wp) := fun i => le_min (by
    have : (0 : ℝ) ≤ (i : ℝ) / 1000 := by positivity
    linarith) (by linarith)
  have key : Real.pi * s' ≤ Real.pi * s := by
    by_cases hkk : k' ≤ k
    · rw [a1, b1]; exact hX _ _ hkk
    · exfalso
      push Not at hkk
      refine block_mono (fun i => -|fn (min (wp + (i : ℝ) / 1000) (10 * wp))|) k k' (-(|c| * pk)) (-(|c'| * pk)) ?_ ?_ ?_ ?_
      · exact neg_le_neg (hf _ _ (hX0 k) (hX _ _ hkk.le) (min_le_right _ _))
      · refine neg_le_neg (mul_le_mul_of_nonneg_right ?_ (by rw [hpk]; exact abs_nonneg _))
        rw [abs_of_pos hc0, abs_of_pos (lt_of_lt_of_le hc0 hc)]; linarith
      · have := a3 k' hk'
        rw [a2, a1] at this
        simp only [neg_sub_neg]
        rw [abs_sub_comm, abs_sub_comm (|c| * pk)]
        exact this
      · have := b4 k hkk
        rw [b2, b1] at this
        simp only [neg_sub_neg]
        rw [abs_sub_comm, abs_sub_comm (|c'| * pk)]
        exact this
  exact le_of_mul_le_mul_left key Real.pi_pos

/-- The hypotheses are met by the triangle on both sides. -/
example : findPeak tri 2 = some (.ok (1, 1)) ∧ (1 : ℝ) ≤ 9999 / 1000 ∧ (∀ x y, 0 ≤ x → x ≤ y → y ≤ 1 → |tri x| ≤ |tri y|) ∧
    (∀ x y, 1 ≤ x → x ≤ y → y ≤ 10 * 1 → |tri y| ≤ |tri x|) ∧
    findMinScale tri (-((500 : ℕ) / 1000)) 2 = some (.ok ((500 : ℕ) / 1000 / Real.pi)) ∧
    findMinScale tri (1 - (500 : ℕ) / 1000) 2 = some (.ok ((1 + (500 : ℕ) / 1000) / Real.pi)) := by
  refine ⟨tri_peak 0, by norm_num, ?_, ?_, tri_min_left 500 (by norm_num) 0, tri_min_right 500 (by norm_num) 0⟩
  · intro x y h0 h1 h2
    rw [abs_of_nonneg (tri_nonneg _), abs_of_nonneg (tri_nonneg _), tri_left x h0 (by linarith), tri_left y (by linarith) h2]
    exact h1
  · intro x y h0 h1 _
    rw [abs_of_nonneg (tri_nonneg _), abs_of_nonneg (tri_nonneg _)]
    by_cases hy : y ≤ 2
    · rw [tri_right x h0 (by linarith), tri_right y (by linarith) hy]; linarith
    · rw [tri_zero y (by linarith)]; exact tri_nonneg _

end Ssq
