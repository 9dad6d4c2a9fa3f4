import Verif.Props.Chirps
import Verif.Props.Search
import Mathlib.Analysis.Calculus.MeanValue

/-!
# C89: the automatic sample count avoids aliasing
-/
namespace Ssq

open Set Spec

theorem tVec_length (a b : ℝ) (n : ℕ) (e : Bool) : (tVec a b n e).length = n := by simp [tVec]

theorem tVec_getD (a b : ℝ) (n : ℕ) (e : Bool) (k : ℕ) (hk : k < n) :
    (tVec a b n e).getD k 0 = a + k * ((b - a) / ((if e then n - 1 else n : ℕ) : ℝ)) := by
  rw [List.getD_eq_getElem _ _ (by rw [tVec_length]; exact hk)]
  simp only [tVec, List.getElem_map, List.getElem_range]

/-- Sampled times lie in the interval. -/
theorem tVec_mem_Icc (a b : ℝ) (h : a ≤ b) (n : ℕ) (e : Bool) (k : ℕ) (hk : k < n) :
    (tVec a b n e).getD k 0 ∈ Icc a b := by
  rw [tVec_getD a b n e k hk]
  set d : ℕ := if e then n - 1 else n with hd
  have hkd : k ≤ d := by rw [hd]; split_ifs <;> omega
  rcases Nat.eq_zero_or_pos d with h0 | h0
  · have : k = 0 := by omega
    subst this; simp [h]
  · have hd0 : (0 : ℝ) < d := by exact_mod_cast h0
    have hk' : (k : ℝ) ≤ d := by exact_mod_cast hkd
    have h1 : 0 ≤ (k : ℝ) * ((b - a) / d) := mul_nonneg (Nat.cast_nonneg k) (div_nonneg (by linarith) hd0.le)
    have h2 : (k : ℝ) * ((b - a) / d) ≤ b - a := by
      rw [← mul_div_assoc, div_le_iff₀ hd0]; nlinarith
    constructor <;> linarith

theorem tVec_first (a b : ℝ) (n : ℕ) (e : Bool) (hn : 0 < n) : a ∈ tVec a b n e := by
  unfold tVec
  exact List.mem_map.2 ⟨0, List.mem_range.2 hn, by simp⟩

theorem tVec_last (a b : ℝ) (n : ℕ) (hn : 2 ≤ n) : b ∈ tVec a b n true := by
  unfold tVec
  refine List.mem_map.2 ⟨n - 1, List.mem_range.2 (by omega), ?_⟩
  have : ((n - 1 : ℕ) : ℝ) ≠ 0 := by
    have : 0 < n - 1 := by omega
    positivity
  simp only [if_true]
  field_simp
  ring

/-- The largest sampled frequency bounds the frequency everywhere. -/
theorem sampled_max {phi w : ℝ → ℝ} {t0 t1 f0 f1 : ℝ} (hs : Sweeps phi w t0 t1 f0 f1) (ht : t0 < t1) (h0 : 0 ≤ f0) (h1 : 0 ≤ f1)
    (n : ℕ) (hn : 2 ≤ n) : ∀ t ∈ Icc t0 t1, |w t| ≤ rowMax ((tVec t0 t1 n true).map w) := by
  have hpi := Real.pi_pos
  have m0 := tVec_first t0 t1 n true (by omega)
  have m1 := tVec_last t0 t1 n hn
  have b0 := le_rowMax _ _ (List.mem_map.2 ⟨t0, m0, rfl⟩ : w t0 ∈ (tVec t0 t1 n true).map w)
  have b1 := le_rowMax _ _ (List.mem_map.2 ⟨t1, m1, rfl⟩ : w t1 ∈ (tVec t0 t1 n true).map w)
  have p0 : 0 ≤ w t0 := by rw [hs.first]; positivity
  have p1 : 0 ≤ w t1 := by rw [hs.last]; positivity
  intro t htt
  rcases le_total f0 f1 with hf | hf
  · have u1 := hs.up hf ⟨le_rfl, ht.le⟩ htt htt.1
    have u2 := hs.up hf htt ⟨ht.le, le_rfl⟩ htt.2
    rw [abs_of_nonneg (by linarith)]; linarith
  · have u1 := hs.down hf ⟨le_rfl, ht.le⟩ htt htt.1
    have u2 := hs.down hf htt ⟨ht.le, le_rfl⟩ htt.2
    rw [abs_of_nonneg (by linarith)]; linarith

theorem nonalias_of_sweeps {phi w : ℝ → ℝ} {t0 t1 f0 f1 : ℝ} (hs : Sweeps phi w t0 t1 f0 f1) (ht : t0 < t1) (h0 : 0 ≤ f0)
    (h1 : 0 ≤ f1) (e : Bool) (k : ℕ) (hk : k + 1 < (estN w t0 t1).toNat) :
    |phi ((tVec t0 t1 (estN w t0 t1).toNat e).getD (k + 1) 0) - phi ((tVec t0 t1 (estN w t0 t1).toNat e).getD k 0)| ≤ Real.pi := by
  have hpi := Real.pi_pos
  set W := rowMax ((tVec t0 t1 50000 true).map w) with hW
  have hb := sampled_max hs ht h0 h1 50000 (by norm_num)
  rw [← hW] at hb
  clear_value W
  set N := (estN w t0 t1).toNat with hN
  have hN1 : 2 ≤ N := by omega
  have hNge : 1 + W * (t1 - t0) / Real.pi ≤ N := by
    have hE : estN w t0 t1 = ⌈1 + W * (t1 - t0) / Real.pi⌉ := by
      unfold estN pyInt
      simp only [← hW]
      split_ifs
      · exact Int.floor_intCast _
      · exact Int.ceil_intCast _
    have : (N : ℤ) = ⌈1 + W * (t1 - t0) / Real.pi⌉ := by rw [← hE]; omega
    have h2 : ((N : ℤ) : ℝ) = (⌈1 + W * (t1 - t0) / Real.pi⌉ : ℤ) := by rw [this]
    have h3 : (N : ℝ) = (⌈1 + W * (t1 - t0) / Real.pi⌉ : ℤ) := by rw [← h2]; simp
    rw [h3]; exact Int.le_ceil _
  clear_value N
  clear hN hW
  have mk := tVec_mem_Icc t0 t1 ht.le N e k (by omega)
  have mk1 := tVec_mem_Icc t0 t1 ht.le N e (k + 1) hk
  set s := (tVec t0 t1 N e).getD k 0 with hsd
  set s' := (tVec t0 t1 N e).getD (k + 1) 0 with hsd'
  have step : |s' - s| ≤ (t1 - t0) / (N - 1) := by
    rw [hsd, hsd', tVec_getD t0 t1 N e k (by omega), tVec_getD t0 t1 N e (k + 1) hk]
    have e1 : t0 + ((k + 1 : ℕ) : ℝ) * ((t1 - t0) / ((if e then N - 1 else N : ℕ) : ℝ)) - (t0 + (k : ℝ) * ((t1 - t0) / ((if e then N - 1 else N : ℕ) : ℝ))) =
        (t1 - t0) / ((if e then N - 1 else N : ℕ) : ℝ) := by push_cast; ring
    rw [e1]
    have hc : ((N - 1 : ℕ) : ℝ) = (N : ℝ) - 1 := by rw [Nat.cast_sub (by omega)]; simp
    have hp : (0 : ℝ) < (N : ℝ) - 1 := by
      have : (2 : ℝ) ≤ N := by exact_mod_cast hN1
      linarith
    have hp' : (0 : ℝ) < N := by linarith
    have hdT : 0 ≤ t1 - t0 := by linarith
    cases e
    · simp only [Bool.false_eq_true, if_false]
      rw [abs_of_nonneg (by positivity)]
      gcongr; linarith
    · simp only [if_true]
      rw [hc, abs_of_nonneg (by positivity)]
  have mv := (convex_Icc t0 t1).norm_image_sub_le_of_norm_hasDerivWithin_le (f := phi) (f' := w) (C := W)
    (fun x hx => (hs.deriv x hx).hasDerivWithinAt) (fun x hx => by rw [Real.norm_eq_abs]; exact hb x hx) mk mk1
  rw [Real.norm_eq_abs, Real.norm_eq_abs] at mv
  have hW0 : 0 ≤ W := le_trans (abs_nonneg _) (hb t0 ⟨le_rfl, ht.le⟩)
  have hp : (0 : ℝ) < (N : ℝ) - 1 := by
    have : (2 : ℝ) ≤ N := by exact_mod_cast hN1
    linarith
  calc |phi s' - phi s| ≤ W * |s' - s| := mv
    _ ≤ W * ((t1 - t0) / (N - 1)) := by gcongr
    _ ≤ Real.pi := by
      rw [← mul_div_assoc, div_le_iff₀ hp]
      have : W * (t1 - t0) / Real.pi * Real.pi = W * (t1 - t0) := by field_simp
      nlinarith

namespace Spec

/-- The phase advances by at most half a turn from each sample to the next when the number of samples is the automatic one. `fn`:
phase and angular frequency at a time. -/
def AutoNonAliased (fn : ℝ → Py (Option ChirpPt)) (t0 t1 : ℝ) : Prop :=
  ∃ w : ℝ → ℝ, (∀ t ∈ Icc t0 t1, ∃ p, fn t = .ok (some p) ∧ p.w = w t) ∧
    ∀ (e : Bool) (k : ℕ) (p p' : ChirpPt), k + 1 < (estN w t0 t1).toNat →
      fn ((tVec t0 t1 (estN w t0 t1).toNat e).getD k 0) = .ok (some p) →
      fn ((tVec t0 t1 (estN w t0 t1).toNat e).getD (k + 1) 0) = .ok (some p') → |p'.phi - p.phi| ≤ Real.pi

end Spec

theorem auto_of_sweeps {fn : ℝ → Py (Option ChirpPt)} {phi w : ℝ → ℝ} {t0 t1 f0 f1 : ℝ}
    (hfn : ∀ t ∈ Icc t0 t1, fn t = .ok (some ⟨phi t, w t⟩)) (hs : Sweeps phi w t0 t1 f0 f1) (ht : t0 < t1) (h0 : 0 ≤ f0)
    (h1 : 0 ≤ f1) : AutoNonAliased fn t0 t1 := by
  refine ⟨w, fun t htt => ⟨_, hfn t htt, rfl⟩, ?_⟩
  intro e k p p' hk hp hp'
  rw [hfn _ (tVec_mem_Icc t0 t1 ht.le _ e k (by omega))] at hp
  rw [hfn _ (tVec_mem_Icc t0 t1 ht.le _ e (k + 1) hk)] at hp'
  simp only [Except.ok.injEq, Option.some.injEq] at hp hp'
  rw [← hp, ← hp']
  exact nonalias_of_sweeps hs ht h0 h1 e k hk

/-- **C89**: the four chirps. -/
theorem C89_nonalias (tmin tmax fmin fmax : ℝ) (ht : tmin < tmax) (h0 : 0 ≤ fmin) (h1 : 0 ≤ fmax) :
    AutoNonAliased (lchirpFn tmin tmax fmin fmax) tmin tmax ∧
    AutoNonAliased (echirpPcFn tmin tmax fmin fmax) tmin tmax ∧
    (0 < fmin → 0 < fmax → fmin ≠ fmax → AutoNonAliased (hchirpFn tmin tmax fmin fmax) tmin tmax) ∧
    (0 < fmin → 0 < fmax → fmin ≠ fmax → tmax ≠ 0 → AutoNonAliased (echirpFn tmin tmax fmin fmax) tmin tmax) := by
  refine ⟨?_, ?_, ?_, ?_⟩
  · obtain ⟨phi, w, e, hs⟩ := C65_lchirp tmin tmax fmin fmax ht
    exact auto_of_sweeps (fun t _ => e t) hs ht h0 h1
  · obtain ⟨phi, w, e, hs⟩ := C65_echirp_pc tmin tmax fmin fmax ht
    exact auto_of_sweeps (fun t _ => e t) hs ht h0 h1
  · intro p0 p1 hne
    obtain ⟨phi, w, e, hs⟩ := C65_hchirp_partial tmin tmax fmin fmax ht p0 p1 hne
    exact auto_of_sweeps e hs ht h0 h1
  · intro p0 p1 hne hT
    obtain ⟨phi, w, e, hs⟩ := C65_echirp_partial tmin tmax fmin fmax ht hT p0 p1 hne
    exact auto_of_sweeps (fun t _ => e t) hs ht h0 h1

theorem tVec_max (n : ℕ) (hn : 2 ≤ n) : rowMax ((tVec 0 1 n true).map fun t => 2 * Real.pi * (10 * t)) = 2 * Real.pi * 10 := by
  have hpi := Real.pi_pos
  apply le_antisymm
  · have hne : (tVec 0 1 n true).map (fun t => 2 * Real.pi * (10 * t)) ≠ [] := by
      intro h
      have := congrArg List.length h
      rw [List.length_map, tVec_length] at this
      simp at this; omega
    obtain ⟨t, htt, e⟩ := List.mem_map.1 (rowMax_mem _ hne)
    rw [← e]
    obtain ⟨i, hi, hti⟩ := List.mem_iff_getElem.1 htt
    have hi' := hi
    rw [tVec_length] at hi'
    have := tVec_mem_Icc 0 1 zero_le_one n true i hi'
    rw [List.getD_eq_getElem _ _ hi, hti] at this
    nlinarith [this.2]
  · apply le_rowMax
    exact List.mem_map.2 ⟨1, tVec_last 0 1 n hn, by ring⟩

/-- The count is not trivial: a sweep over `[0, 1]` up to 10 Hz gets 21 samples. -/
example : estN (fun t => 2 * Real.pi * (10 * t)) 0 1 = 21 := by
  have hpi := Real.pi_pos
  unfold estN
  rw [tVec_max 50000 (by norm_num)]
  have : 1 + 2 * Real.pi * 10 * (1 - 0) / Real.pi = ((21 : ℤ) : ℝ) := by field_simp; norm_num
  simp only [this, Int.ceil_intCast]
  norm_num [pyInt]

end Ssq
