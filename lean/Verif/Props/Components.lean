import Verif.Model.Components
import Verif.Lemmas.PyM
import Mathlib.Data.List.GetD
import Mathlib.Algebra.BigOperators.Ring.Finset
import Mathlib.Tactic.Ring

/-!
# C43: inversion by components
-/
namespace Ssq
open Finset

namespace Spec

/-- Row `r` lies in the band of half-width `w` about curve position `c`, both band edges being clamped to
`[0, M]`; `c = -1` marks "no curve here". -/
def InBand (M : ℕ) (c w : ℤ) (r : ℕ) : Prop :=
  c ≠ -1 ∧ min (max (c - w) 0) M ≤ r ∧ r ≤ min (max (c + w) 0) (M : ℤ)

open Classical in
/-- Number of components whose band contains row `r` at time `m`. -/
noncomputable def cover (M : ℕ) (cc cw : ℕ → ℕ → ℤ) (K m r : ℕ) : ℕ :=
  ((range K).filter fun n => InBand M (cc m n) (cw m n) r).card

end Spec

theorem inSlice_iff (M : ℕ) (c w : ℤ) (r : ℕ) :
    inSlice (bandBounds M c w) r ↔ Spec.InBand M c w r := by
  unfold inSlice bandBounds Spec.InBand clip
  split <;> rename_i h
  · simp [h]; omega
  · simp only [ne_eq, h, not_false_eq_true, true_and]
    constructor <;> (rintro ⟨h1, h2⟩; exact ⟨h1, by omega⟩)

theorem maskLoop_spec (M N : ℕ) (Tx : ℕ → ℕ → ℂ) (cc cw : Curves) (K : ℕ) :
    (maskLoop M N Tx cc cw K).1 = (List.range K).map (fun n => realColSum M N fun r m =>
        if inSlice (bandBounds M (cc.v m n) (cw.v m n)) r then Tx r m else 0) ∧
    (∀ r m, (maskLoop M N Tx cc cw K).2 r m =
      if ∃ n < K, inSlice (bandBounds M (cc.v m n) (cw.v m n)) r then 0 else Tx r m) := by
  induction K with
  | zero => simp [maskLoop]
  | succ K ih =>
    obtain ⟨h1, h2⟩ := ih
    have hs : maskLoop M N Tx cc cw (K + 1) =
        ((maskLoop M N Tx cc cw K).1 ++
          [realColSum M N (maskStep M Tx (maskLoop M N Tx cc cw K).2 cc cw K).1],
         (maskStep M Tx (maskLoop M N Tx cc cw K).2 cc cw K).2) := by
      unfold maskLoop
      rw [List.range_succ, List.foldl_append]
      rfl
    rw [hs]
    constructor
    · simp only [h1, List.range_succ, List.map_append, List.map_cons, List.map_nil, maskStep]
    · intro r m
      simp only [maskStep, h2]
      by_cases hK : inSlice (bandBounds M (cc.v m K) (cw.v m K)) r
      · rw [if_pos hK, if_pos ⟨K, by omega, hK⟩]
      · rw [if_neg hK]
        by_cases hex : ∃ n < K, inSlice (bandBounds M (cc.v m n) (cw.v m n)) r
        · obtain ⟨n, hn, hb⟩ := hex
          rw [if_pos ⟨n, hn, hb⟩, if_pos ⟨n, by omega, hb⟩]
        · rw [if_neg hex, if_neg]
          rintro ⟨n, hn, hb⟩
          rcases Nat.lt_succ_iff_lt_or_eq.mp hn with h | h
          · exact hex ⟨n, h, hb⟩
          · exact hK (h ▸ hb)

theorem realColSum_getD (M N : ℕ) (A : ℕ → ℕ → ℂ) {m : ℕ} (hm : m < N) :
    (realColSum M N A).getD m 0 = ∑ r ∈ range M, (A r m).re := by
  unfold realColSum
  rw [List.getD_eq_getElem _ _ (by simpa using hm)]; simp

open Classical in
/-- **C43, contents.** For every transform, curves and widths of matching shapes, the inversion by
components returns one signal per component and a remainder. Component `n` at time `m` sums the rows in
its band, the remainder sums the rows in no band, both multiplied by `2/css`. -/
theorem C43_contents (M N : ℕ) (Tx : ℕ → ℕ → ℂ) (css : ℝ) (K : ℕ) (cc cw : ℕ → ℕ → ℤ) (hK : 0 < K) :
    ∃ xs, issqCwt M N Tx css (some (.twoD N K cc)) (some (.twoD N K cw)) = .ok (.comps xs) ∧
      xs.length = K + 1 ∧ (∀ x ∈ xs, x.length = N) ∧
      (∀ n < K, ∀ m < N, (xs.getD n []).getD m 0 =
        2 / css * ∑ r ∈ range M, if Spec.InBand M (cc m n) (cw m n) r then (Tx r m).re else 0) ∧
      (∀ m < N, (xs.getD K []).getD m 0 =
        2 / css * ∑ r ∈ range M,
          if ∃ n < K, Spec.InBand M (cc m n) (cw m n) r then 0 else (Tx r m).re) := by
  set C : Curves := ⟨N, K, cc⟩
  set W : Curves := ⟨N, K, cw⟩
  obtain ⟨h1, h2⟩ := maskLoop_spec M N Tx C W K
  have hrun : issqCwt M N Tx css (some (.twoD N K cc)) (some (.twoD N K cw)) =
      .ok (.comps (((maskLoop M N Tx C W K).1 ++ [realColSum M N (maskLoop M N Tx C W K).2]).map
        fun x => x.map (· * (2 / css)))) := by
    have : invertComponents M N Tx C W =
        .ok ((maskLoop M N Tx C W K).1 ++ [realColSum M N (maskLoop M N Tx C W K).2]) := by
      unfold invertComponents
      rw [if_neg (by simp [C]; omega), if_neg (by simp [C, W]), if_neg (by simp [C, W])]
    simp only [issqCwt, processComponentArgs, CurveArg.reshape, ok_bind, invertTx]
    change ((invertComponents M N Tx C W >>= fun xs => Except.ok (Inverse.comps xs)) >>= _) = _
    rw [this]
    rfl
  have hgd : ∀ (A : ℕ → ℕ → ℂ) (m : ℕ), m < N →
      ((realColSum M N A).map (· * (2 / css))).getD m 0 = 2 / css * ∑ r ∈ range M, (A r m).re := by
    intro A m hm
    rw [List.getD_eq_getElem _ _ (by simpa [realColSum] using hm)]
    rw [List.getElem_map, ← List.getD_eq_getElem (d := (0 : ℝ)), realColSum_getD M N A hm, mul_comm]
  refine ⟨_, hrun, by simp [h1], ?_, ?_, ?_⟩
  · intro x hx
    simp only [h1, List.map_append, List.map_map, List.mem_append, List.mem_map, List.mem_range,
      List.map_cons, List.map_nil, List.mem_singleton, Function.comp] at hx
    rcases hx with ⟨n, _, rfl⟩ | rfl <;> simp [realColSum]
  · intro n hn m hm
    have e : ((((maskLoop M N Tx C W K).1 ++ [realColSum M N (maskLoop M N Tx C W K).2]).map
        fun x => x.map (· * (2 / css))).getD n []) = (realColSum M N fun r m =>
        if inSlice (bandBounds M (C.v m n) (W.v m n)) r then Tx r m else 0).map (· * (2 / css)) := by
      simp [h1, List.getElem?_append_left, hn]
    rw [e, hgd _ m hm]
    congr 1
    refine sum_congr rfl fun r _ => ?_
    simp only [inSlice_iff, C, W]
    split <;> simp
  · intro m hm
    have e : ((((maskLoop M N Tx C W K).1 ++ [realColSum M N (maskLoop M N Tx C W K).2]).map
        fun x => x.map (· * (2 / css))).getD K []) =
        (realColSum M N (maskLoop M N Tx C W K).2).map (· * (2 / css)) := by
      simp [h1]
    rw [e, hgd _ m hm]
    congr 1
    refine sum_congr rfl fun r _ => ?_
    rw [h2]
    simp only [inSlice_iff, C, W]
    split <;> simp

open Classical in
/-- **C43, exact sum.** The components and the remainder add up to the rows of `Tx`, each counted as many
times as there are bands containing it, and once if there is none. -/
theorem C43_sum_exact (M N : ℕ) (Tx : ℕ → ℕ → ℂ) (css : ℝ) (K : ℕ) (cc cw : ℕ → ℕ → ℤ) (hK : 0 < K)
    (xs : List (List ℝ))
    (h : issqCwt M N Tx css (some (.twoD N K cc)) (some (.twoD N K cw)) = .ok (.comps xs)) :
    ∀ m < N, ∑ n ∈ range (K + 1), (xs.getD n []).getD m 0 =
      2 / css * ∑ r ∈ range M, ((max 1 (Spec.cover M cc cw K m r) : ℕ) : ℝ) * (Tx r m).re := by
  intro m hm
  obtain ⟨ys, hy, -, -, h1, h2⟩ := C43_contents M N Tx css K cc cw hK
  rw [h] at hy
  simp only [Except.ok.injEq, Inverse.comps.injEq] at hy
  subst hy
  rw [sum_range_succ, h2 m hm, sum_congr rfl fun n hn => h1 n (mem_range.1 hn) m hm, ← mul_sum,
    ← mul_add, sum_comm, ← sum_add_distrib]
  congr 1
  refine sum_congr rfl fun r _ => ?_
  have hc : ∑ n ∈ range K, (if Spec.InBand M (cc m n) (cw m n) r then (Tx r m).re else 0) =
      (Spec.cover M cc cw K m r : ℝ) * (Tx r m).re := by
    unfold Spec.cover
    rw [← sum_filter, sum_const, nsmul_eq_mul]
  rw [hc]
  by_cases hex : ∃ n < K, Spec.InBand M (cc m n) (cw m n) r
  · rw [if_pos hex, add_zero]
    obtain ⟨n, hn, hb⟩ := hex
    have : 1 ≤ Spec.cover M cc cw K m r := by
      unfold Spec.cover
      exact card_pos.mpr ⟨n, by simp [hn, hb]⟩
    rw [max_eq_right this]
  · rw [if_neg hex]
    have : Spec.cover M cc cw K m r = 0 := by
      unfold Spec.cover
      rw [card_eq_zero, filter_eq_empty_iff]
      intro n hn hb
      exact hex ⟨n, mem_range.1 hn, hb⟩
    rw [this]; simp

/-- The full inversion. -/
theorem issqCwt_full (M N : ℕ) (Tx : ℕ → ℕ → ℂ) (css : ℝ) :
    ∃ x, issqCwt M N Tx css none none = .ok (.full x) ∧ x.length = N ∧
      ∀ m < N, x.getD m 0 = 2 / css * ∑ r ∈ range M, (Tx r m).re := by
  refine ⟨_, rfl, by simp [realColSum], ?_⟩
  intro m hm
  rw [List.getD_eq_getElem _ _ (by simpa [realColSum] using hm)]
  rw [List.getElem_map, ← List.getD_eq_getElem (d := (0 : ℝ)), realColSum_getD M N _ hm, mul_comm]

/-- **C43 for disjoint bands.** If at every time no row lies in two bands, the components and the
remainder add up to the full inversion. Missing for the full property: overlapping bands, where it is
false. -/
theorem C43_split_partial (M N : ℕ) (Tx : ℕ → ℕ → ℂ) (css : ℝ) (K : ℕ) (cc cw : ℕ → ℕ → ℤ) (hK : 0 < K)
    (hdisj : ∀ m < N, ∀ r < M, ∀ n < K, ∀ n' < K, Spec.InBand M (cc m n) (cw m n) r →
      Spec.InBand M (cc m n') (cw m n') r → n = n') :
    ∃ xs x, issqCwt M N Tx css (some (.twoD N K cc)) (some (.twoD N K cw)) = .ok (.comps xs) ∧
      issqCwt M N Tx css none none = .ok (.full x) ∧ xs.length = K + 1 ∧ x.length = N ∧
      ∀ m < N, ∑ n ∈ range (K + 1), (xs.getD n []).getD m 0 = x.getD m 0 := by
  classical
  obtain ⟨xs, h, hl, -⟩ := C43_contents M N Tx css K cc cw hK
  obtain ⟨x, hx, hxl, hxv⟩ := issqCwt_full M N Tx css
  refine ⟨xs, x, h, hx, hl, hxl, fun m hm => ?_⟩
  rw [C43_sum_exact M N Tx css K cc cw hK xs h m hm, hxv m hm]
  congr 1
  refine sum_congr rfl fun r hr => ?_
  have : Spec.cover M cc cw K m r ≤ 1 := by
    unfold Spec.cover
    rw [card_le_one]
    intro a ha b hb
    simp only [mem_filter, mem_range] at ha hb
    exact hdisj m hm r (mem_range.1 hr) a ha.1 b hb.1 ha.2 hb.2
  rw [max_eq_left this]; simp

/-- One component can never overlap itself: `C43_split_partial` applies to every single curve. -/
theorem C43_single_curve (M N : ℕ) (Tx : ℕ → ℕ → ℂ) (css : ℝ) (cc cw : ℕ → ℤ) :
    ∃ c rest x, issqCwt M N Tx css (some (.oneD N cc)) (some (.oneD N cw)) = .ok (.comps [c, rest]) ∧
      issqCwt M N Tx css none none = .ok (.full x) ∧
      ∀ m < N, c.getD m 0 + rest.getD m 0 = x.getD m 0 := by
  obtain ⟨xs, x, h, hx, hl, hxl, hs⟩ := C43_split_partial M N Tx css 1 (fun m _ => cc m)
    (fun m _ => cw m) one_pos (by intro m _ r _ n hn n' hn' _ _; omega)
  match xs, hl with
  | [c, rest], _ =>
    refine ⟨c, rest, x, h, hx, fun m hm => ?_⟩
    have := hs m hm
    simpa [sum_range_succ] using this

/-- The claim of C43 for arbitrary curves and widths. -/
def C43_full : Prop :=
  ∀ (M N : ℕ) (Tx : ℕ → ℕ → ℂ) (css : ℝ) (K : ℕ) (cc cw : ℕ → ℕ → ℤ), 0 < K → css ≠ 0 →
    ∃ xs x, issqCwt M N Tx css (some (.twoD N K cc)) (some (.twoD N K cw)) = .ok (.comps xs) ∧
      issqCwt M N Tx css none none = .ok (.full x) ∧
      ∀ m < N, ∑ n ∈ range (K + 1), (xs.getD n []).getD m 0 = x.getD m 0

/-- **C43 is false for overlapping bands**: two components sharing a row count it twice (2 rows, one
column of ones, two copies of the curve at row 0). -/
theorem C43_overlap_refuted : ¬ C43_full := by
  classical
  intro hf
  obtain ⟨xs, x, h, hx, hs⟩ := hf 2 1 (fun _ _ => 1) 2 2 (fun _ _ => 0) (fun _ _ => 0) (by omega)
    (by norm_num)
  have h0 := hs 0 one_pos
  obtain ⟨y, hy, -, hyv⟩ := issqCwt_full 2 1 (fun _ _ => 1) 2
  rw [hx] at hy
  simp only [Except.ok.injEq, Inverse.full.injEq] at hy
  subst hy
  rw [C43_sum_exact 2 1 _ 2 2 _ _ (by omega) xs h 0 one_pos, hyv 0 one_pos] at h0
  have c0 : Spec.cover 2 (fun _ _ => 0) (fun _ _ => 0) 2 0 0 = 2 := by
    unfold Spec.cover
    rw [filter_true_of_mem (by intro n _; simp [Spec.InBand])]; simp
  have c1 : Spec.cover 2 (fun _ _ => 0) (fun _ _ => 0) 2 0 1 = 0 := by
    unfold Spec.cover
    rw [filter_false_of_mem (by intro n _; simp [Spec.InBand])]; simp
  simp only [sum_range_succ, range_zero, sum_empty, c0, c1] at h0
  norm_num at h0

/-- A band lying wholly below row 0 still takes row 0 (its clamped edges are both 0), unless its position
is exactly `-1`. -/
theorem C43_band_below_takes_row_zero (M : ℕ) (hM : 0 < M) :
    Spec.InBand M (-5) 1 0 ∧ ¬ Spec.InBand M (-1) 1 0 := by
  unfold Spec.InBand; constructor
  · omega
  · simp

/-- **C43**, arguments: curves without widths, or widths without curves, are refused for every transform. -/
theorem C43_one_given (M N : ℕ) (Tx : ℕ → ℕ → ℂ) (css : ℝ) (c : CurveArg) :
    issqCwt M N Tx css (some c) none = .error .attributeError ∧ issqCwt M N Tx css none (some c) = .error .attributeError := ⟨rfl, rfl⟩

/-- Non-vacuity of `C43_split_partial`: two disjoint bands, three rows. -/
example : ∀ m < 2, ∀ r < 3, ∀ n < 2, ∀ n' < 2,
    Spec.InBand 3 ((fun (_ n : ℕ) => 2 * (n : ℤ)) m n) ((fun _ _ => 0) m n) r →
    Spec.InBand 3 ((fun (_ n : ℕ) => 2 * (n : ℤ)) m n') ((fun _ _ => 0) m n') r → n = n' := by
  intro m _ r _ n _ n' _
  unfold Spec.InBand
  simp only
  omega

end Ssq
