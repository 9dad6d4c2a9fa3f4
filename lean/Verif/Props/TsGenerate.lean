import Verif.Model.TsGenerate
import Verif.Props.Nonalias
import Mathlib.Analysis.Real.Pi.Bounds

/-!
# C166: the chirps and tones of `TestSignals`
-/
namespace Ssq
open Set Spec

namespace Spec

/-- Arguments for which a chirp of this kind is defined on the whole interval. -/
def ChirpDefined (k : ChirpKind) (tmin tmax fmin fmax : ℝ) : Prop :=
  tmin < tmax ∧ match k with
    | .lchirp => True
    | .echirpPc => True
    | .hchirp => 0 < fmin ∧ 0 < fmax ∧ fmin ≠ fmax
    | .echirp => 0 < fmin ∧ 0 < fmax ∧ fmin ≠ fmax ∧ tmax ≠ 0

/-- `o` holds `n` samples of the cosine of a phase that starts from 0 at `tmin` and sweeps from `fmin` to `fmax` until `tmax`, at equal steps from `tmin`; the last
sample is at `tmax` with `endpoint`, else one step before. -/
def IsSweep (o : TsSignal) (n : ℕ) (tmin tmax fmin fmax : ℝ) (endpoint : Bool) : Prop :=
  ∃ phi w : ℝ → ℝ, Sweeps phi w tmin tmax fmin fmax ∧ o.t.length = n ∧ o.phi = o.t.map (fun s => some (phi s)) ∧
    o.x = o.t.map (fun s => some (Real.cos (phi s))) ∧
    ∀ j < n, o.t.getD j 0 = tmin + j * ((tmax - tmin) / (if endpoint then (n : ℝ) - 1 else n))

/-- From each sample to the next the phase advances by at most half a turn. -/
def PhaseSteps (o : TsSignal) : Prop := ∀ j, ∀ p p' : ℝ, o.phi[j]? = some (some p) → o.phi[j + 1]? = some (some p') → |p' - p| ≤ Real.pi

end Spec

theorem chirp_sweeps {k : ChirpKind} {tmin tmax fmin fmax : ℝ} (h : Spec.ChirpDefined k tmin tmax fmin fmax) :
    ∃ phi w : ℝ → ℝ, (∀ t ∈ Icc tmin tmax, k.fn tmin tmax fmin fmax t = .ok (some ⟨phi t, w t⟩)) ∧ Sweeps phi w tmin tmax fmin fmax := by
  obtain ⟨ht, h⟩ := h
  cases k with
  | lchirp => obtain ⟨phi, w, e, hs⟩ := C65_lchirp tmin tmax fmin fmax ht; exact ⟨phi, w, fun t _ => e t, hs⟩
  | echirpPc => obtain ⟨phi, w, e, hs⟩ := C65_echirp_pc tmin tmax fmin fmax ht; exact ⟨phi, w, fun t _ => e t, hs⟩
  | hchirp => obtain ⟨phi, w, e, hs⟩ := C65_hchirp_partial tmin tmax fmin fmax ht h.1 h.2.1 h.2.2; exact ⟨phi, w, e, hs⟩
  | echirp =>
    obtain ⟨phi, w, e, hs⟩ := C65_echirp_partial tmin tmax fmin fmax ht h.2.2.2 h.1 h.2.1 h.2.2.1
    exact ⟨phi, w, fun t _ => e t, hs⟩

theorem tsMapM_ok {α β : Type} (f : α → Py β) (g : α → β) : ∀ l : List α, (∀ x ∈ l, f x = .ok (g x)) → l.mapM f = .ok (l.map g)
  | [], _ => by simp [pure_eq_ok]
  | x :: l, h => by
    rw [List.mapM_cons, h x (by simp), tsMapM_ok f g l fun y hy => h y (by simp [hy])]
    rfl

theorem tVec_mem {a b : ℝ} (h : a ≤ b) {n : ℕ} {e : Bool} {s : ℝ} (hs : s ∈ tVec a b n e) : s ∈ Icc a b := by
  obtain ⟨i, hi, rfl⟩ := List.mem_iff_getElem.1 hs
  have := tVec_mem_Icc a b h n e i (by simpa [tVec] using hi)
  rwa [List.getD_eq_getElem _ _ hi] at this

theorem chirpEstN_eq {k : ChirpKind} {tmin tmax fmin fmax : ℝ} {phi w : ℝ → ℝ} (ht : tmin < tmax)
    (hfn : ∀ t ∈ Icc tmin tmax, k.fn tmin tmax fmin fmax t = .ok (some ⟨phi t, w t⟩)) : chirpEstN k tmin tmax fmin fmax = .ok (estN w tmin tmax) := by
  unfold chirpEstN
  rw [tsMapM_ok _ w _ fun s hs => by rw [hfn s (tVec_mem ht.le hs)]; rfl]
  rfl

theorem sweep_of {k : ChirpKind} {tmin tmax fmin fmax : ℝ} (h : Spec.ChirpDefined k tmin tmax fmin fmax) (n : ℕ) (e : Bool) :
    ∃ phi w : ℝ → ℝ, (∀ t ∈ Icc tmin tmax, k.fn tmin tmax fmin fmax t = .ok (some ⟨phi t, w t⟩)) ∧ Sweeps phi w tmin tmax fmin fmax ∧
      (tVec tmin tmax n e).mapM (fun s => (k.fn tmin tmax fmin fmax s).map fun o => o.map ChirpPt.phi) =
        .ok ((tVec tmin tmax n e).map fun s => some (phi s)) ∧
      ∀ wd, Spec.IsSweep ⟨((tVec tmin tmax n e).map fun s => some (phi s)).map fun o => o.map Real.cos, tVec tmin tmax n e, (tVec tmin tmax n e).map fun s => some (phi s), wd⟩
        n tmin tmax fmin fmax e := by
  obtain ⟨phi, w, hfn, hs⟩ := chirp_sweeps h
  refine ⟨phi, w, hfn, hs, tsMapM_ok _ _ _ fun s hs' => ?_, fun wd => ⟨phi, w, hs, tVec_length _ _ _ _, rfl, ?_, fun j hj => ?_⟩⟩
  · rw [hfn s (tVec_mem h.1.le hs')]; rfl
  · simp
  · simp only
    rw [tVec_getD _ _ _ _ _ hj]
    cases e
    · simp
    · simp only [if_true]
      rw [Nat.cast_sub (by omega), Nat.cast_one]

theorem aliasWarns_ok (l : List (Option ℝ)) (h : 2 ≤ l.length) : ∃ b, aliasWarns l = .ok b := by
  unfold aliasWarns
  rw [if_neg (by omega)]
  split <;> exact ⟨_, rfl⟩

/-- The warning of a phase without NaN. -/
theorem aliasWarns_some (f : ℝ → ℝ) (t : List ℝ) (h : 2 ≤ t.length) :
    ∃ b, aliasWarns (t.map fun s => some (f s)) = .ok b ∧
      (b = true ↔ ∃ j, j + 1 < t.length ∧ Real.pi + 0.02 < f (t.getD (j + 1) 0) - f (t.getD j 0)) := by
  unfold aliasWarns
  have hp : (t.map fun s => some (f s)).map (fun x => x.getD 0) = t.map f := by simp
  have hg : ∀ j < t.length, (t.map f).getD j 0 = f (t.getD j 0) := by
    intro j hj
    rw [List.getD_eq_getElem _ _ (by simpa using hj), List.getElem_map, List.getD_eq_getElem _ _ hj]
  rw [if_neg (by simp; omega), if_neg (by simp), hp]
  refine ⟨_, rfl, ?_⟩
  simp only [decide_eq_true_eq, List.length_map]
  constructor
  · intro hw
    have hne : (List.range (t.length - 1)).map (fun i => (t.map f).getD (i + 1) 0 - (t.map f).getD i 0) ≠ [] := by
      intro e
      have := congrArg List.length e
      simp at this
      omega
    obtain ⟨j, hj, e⟩ := List.mem_map.1 (rowMax_mem _ hne)
    have hj' := List.mem_range.1 hj
    refine ⟨j, by omega, ?_⟩
    rw [← hg _ (by omega), ← hg _ (by omega), e]
    linarith
  · rintro ⟨j, hj, hlt⟩
    have := le_rowMax _ _ (List.mem_map.2 ⟨j, List.mem_range.2 (by omega), rfl⟩ :
      (t.map f).getD (j + 1) 0 - (t.map f).getD j 0 ∈ (List.range (t.length - 1)).map (fun i => (t.map f).getD (i + 1) 0 - (t.map f).getD i 0))
    rw [hg _ (by omega), hg _ (by omega)] at this
    linarith

/-- **C166, samples.** For every kind of chirp, number of samples from 2, times, frequencies for which the chirp is defined, and instance defaults: the method returns
`N` samples of a sweep from `fmin` to `fmax`, which is half of `N`, rounded down, if left out. -/
theorem C166_samples (selfN : ℕ) (dflt : TsTkw) (warn : Bool) (k : ChirpKind) (n : ℕ) (hn : 2 ≤ n) (fmin : ℝ) (fmax : Option ℝ) (a : TsTkwArg)
    (h : Spec.ChirpDefined k (a.tmin.getD dflt.tmin) (a.tmax.getD dflt.tmax) fmin (fmax.getD (n / 2 : ℕ))) :
    ∃ o, tsGenerate selfN dflt warn k (some n) fmin fmax a = .ok o ∧
      Spec.IsSweep o n (a.tmin.getD dflt.tmin) (a.tmax.getD dflt.tmax) fmin (fmax.getD (n / 2 : ℕ)) (a.endpoint.getD dflt.endpoint) := by
  obtain ⟨phi, w, hfn, hs, hm, hsw⟩ := sweep_of h n (a.endpoint.getD dflt.endpoint)
  have hcast : (((n : ℤ) / 2 : ℤ) : ℝ) = ((n / 2 : ℕ) : ℝ) := by
    rw [← Int.cast_natCast]; rfl
  unfold tsGenerate tsN
  simp only [ok_bind, TsTkwArg.fill]
  rw [if_neg (by omega), hcast, Int.toNat_natCast, hm]
  simp only [ok_bind]
  cases warn
  · exact ⟨_, rfl, hsw _⟩
  · obtain ⟨b, hb⟩ := aliasWarns_ok ((tVec (a.tmin.getD dflt.tmin) (a.tmax.getD dflt.tmax) n (a.endpoint.getD dflt.endpoint)).map fun s => some (phi s))
      (by simpa [tVec] using hn)
    rw [if_pos rfl, hb]
    exact ⟨_, rfl, hsw _⟩

/-- **C166, too short.** With fewer than two samples and the check for aliasing on (the default), every chirp that is defined raises. -/
theorem C166_short (selfN : ℕ) (dflt : TsTkw) (k : ChirpKind) (n : ℕ) (hn : n < 2) (fmin : ℝ) (fmax : Option ℝ) (a : TsTkwArg)
    (h : Spec.ChirpDefined k (a.tmin.getD dflt.tmin) (a.tmax.getD dflt.tmax) fmin (fmax.getD (n / 2 : ℕ))) :
    tsGenerate selfN dflt true k (some n) fmin fmax a = .error .valueError := by
  obtain ⟨phi, w, hfn, hs, hm, hsw⟩ := sweep_of h n (a.endpoint.getD dflt.endpoint)
  have hcast : (((n : ℤ) / 2 : ℤ) : ℝ) = ((n / 2 : ℕ) : ℝ) := by
    rw [← Int.cast_natCast]; rfl
  unfold tsGenerate tsN
  simp only [ok_bind, TsTkwArg.fill]
  rw [if_neg (by omega), hcast, Int.toNat_natCast, hm]
  simp only [ok_bind, if_true]
  unfold aliasWarns
  rw [if_pos (by simpa [tVec] using hn)]
  rfl

/-- **C166, automatic length.** Without `N`, but with `fmax`, for frequencies that are not negative, not both zero: the chirp has `N` samples such that the phase advances by at
most half a turn per sample, there is no warning, and any smaller number of samples would be too small for the highest frequency. -/
theorem C166_auto (selfN : ℕ) (dflt : TsTkw) (warn : Bool) (k : ChirpKind) (fmin fmax : ℝ) (h0 : 0 ≤ fmin) (h1 : 0 ≤ fmax) (h2 : 0 < fmin ∨ 0 < fmax) (a : TsTkwArg)
    (h : Spec.ChirpDefined k (a.tmin.getD dflt.tmin) (a.tmax.getD dflt.tmax) fmin fmax) :
    ∃ o n, tsGenerate selfN dflt warn k none fmin (some fmax) a = .ok o ∧ 2 ≤ n ∧
      Spec.IsSweep o n (a.tmin.getD dflt.tmin) (a.tmax.getD dflt.tmax) fmin fmax (a.endpoint.getD dflt.endpoint) ∧ Spec.PhaseSteps o ∧ o.warned = false ∧
      ∀ m : ℕ, 2 ≤ m → m < n → 1 / 2 < max fmin fmax * ((a.tmax.getD dflt.tmax - a.tmin.getD dflt.tmin) / (m - 1)) := by
  have hpi := Real.pi_pos
  obtain ⟨phi0, w0, hfn0, hs0⟩ := chirp_sweeps h
  have hest := chirpEstN_eq h.1 hfn0
  set tmin := a.tmin.getD dflt.tmin with htmin
  set tmax := a.tmax.getD dflt.tmax with htmax
  set e := a.endpoint.getD dflt.endpoint with he
  have ht : tmin < tmax := h.1
  set W := rowMax ((tVec tmin tmax 50000 true).map w0) with hW
  have hE : estN w0 tmin tmax = ⌈1 + W * (tmax - tmin) / Real.pi⌉ := by
    unfold estN pyInt
    simp only [← hW]
    split_ifs
    · exact Int.floor_intCast _
    · exact Int.ceil_intCast _
  have hWeq : W = 2 * Real.pi * max fmin fmax := by
    have m0 := le_rowMax _ _ (List.mem_map.2 ⟨tmin, tVec_first tmin tmax 50000 true (by norm_num), rfl⟩ : w0 tmin ∈ (tVec tmin tmax 50000 true).map w0)
    have m1 := le_rowMax _ _ (List.mem_map.2 ⟨tmax, tVec_last tmin tmax 50000 (by norm_num), rfl⟩ : w0 tmax ∈ (tVec tmin tmax 50000 true).map w0)
    have hne : (tVec tmin tmax 50000 true).map w0 ≠ [] := by
      intro e'
      have := congrArg List.length e'
      rw [List.length_map, tVec_length] at this
      simp at this
    obtain ⟨s, hs', e'⟩ := List.mem_map.1 (rowMax_mem _ hne)
    have hsI := tVec_mem ht.le hs'
    rw [← hW] at m0 m1 e'
    rw [hs0.first] at m0
    rw [hs0.last] at m1
    apply le_antisymm
    · rw [← e']
      rcases le_total fmin fmax with hf | hf
      · rw [max_eq_right hf, ← hs0.last]
        exact hs0.up hf hsI ⟨ht.le, le_rfl⟩ hsI.2
      · rw [max_eq_left hf, ← hs0.first]
        exact hs0.down hf ⟨le_rfl, ht.le⟩ hsI hsI.1
    · rcases le_total fmin fmax with hf | hf
      · rw [max_eq_right hf]; exact m1
      · rw [max_eq_left hf]; exact m0
  have hmax : 0 < max fmin fmax := by
    rcases h2 with h' | h'
    · exact lt_max_of_lt_left h'
    · exact lt_max_of_lt_right h'
  have hWT : W * (tmax - tmin) / Real.pi = 2 * max fmin fmax * (tmax - tmin) := by
    rw [hWeq]; field_simp
  have hTpos : 0 < tmax - tmin := by linarith
  have hpos : 0 < 2 * max fmin fmax * (tmax - tmin) := mul_pos (mul_pos two_pos hmax) hTpos
  have hn2 : 2 ≤ estN w0 tmin tmax := by
    rw [hE, hWT]
    have : (1 : ℤ) < ⌈1 + 2 * max fmin fmax * (tmax - tmin)⌉ := by
      rw [Int.lt_ceil]
      push_cast
      linarith
    omega
  set n := (estN w0 tmin tmax).toNat with hn
  have hnz : ((n : ℕ) : ℤ) = estN w0 tmin tmax := by omega
  have hn2' : 2 ≤ n := by omega
  obtain ⟨phi, w, hfn, hs, hm, hsw⟩ := sweep_of h n e
  have hphi : ∀ s ∈ Icc tmin tmax, phi s = phi0 s := by
    intro s hs'
    have := (hfn s hs').symm.trans (hfn0 s hs')
    simp only [Except.ok.injEq, Option.some.injEq, ChirpPt.mk.injEq] at this
    exact this.1
  have hna := fun j hj => nonalias_of_sweeps hs0 ht h0 h1 e j hj
  rw [← hn] at hna
  have hgen : ∃ wd, tsGenerate selfN dflt warn k none fmin (some fmax) a =
      .ok ⟨((tVec tmin tmax n e).map fun s => some (phi s)).map fun o => o.map Real.cos, tVec tmin tmax n e, (tVec tmin tmax n e).map fun s => some (phi s), wd⟩ ∧ wd = false := by
    unfold tsGenerate tsN
    simp only [TsTkwArg.fill, ← htmin, ← htmax, ← he, hest, ok_bind, Option.getD_some]
    rw [if_neg (by omega), ← hn, hm]
    simp only [ok_bind]
    cases warn
    · exact ⟨false, rfl, rfl⟩
    · obtain ⟨b, hb, hb'⟩ := aliasWarns_some phi (tVec tmin tmax n e) (by rw [tVec_length]; exact hn2')
      rw [if_pos rfl, hb]
      refine ⟨b, rfl, ?_⟩
      by_contra hne
      obtain ⟨j, hj, hlt⟩ := hb'.1 (by simpa using hne)
      rw [tVec_length] at hj
      have := hna j hj
      rw [hphi _ (tVec_mem_Icc _ _ ht.le _ _ _ hj), hphi _ (tVec_mem_Icc _ _ ht.le _ _ _ (by omega))] at hlt
      have := (abs_le.1 this).2
      linarith
  obtain ⟨wd, hg, rfl⟩ := hgen
  refine ⟨_, n, hg, hn2', hsw _, ?_, rfl, ?_⟩
  · intro j p p' hp hp'
    have hj1 : j + 1 < n := by
      have := (List.getElem?_eq_some_iff.1 hp').1
      simpa [tVec] using this
    simp only [List.getElem?_map, Option.map_eq_some_iff, Option.some.injEq] at hp hp'
    obtain ⟨s, hs1, rfl⟩ := hp
    obtain ⟨s', hs2, rfl⟩ := hp'
    have e1 : s = (tVec tmin tmax n e).getD j 0 := by rw [List.getD_eq_getElem?_getD, hs1]; rfl
    have e2 : s' = (tVec tmin tmax n e).getD (j + 1) 0 := by rw [List.getD_eq_getElem?_getD, hs2]; rfl
    rw [e1, e2, hphi _ (tVec_mem_Icc _ _ ht.le _ _ _ hj1), hphi _ (tVec_mem_Icc _ _ ht.le _ _ j (by omega))]
    exact hna j hj1
  · intro m hm2 hmn
    have hlt : ((n : ℤ) - 1 : ℤ) < 1 + 2 * max fmin fmax * (tmax - tmin) := by
      have hc : (n : ℤ) - 1 < ⌈1 + 2 * max fmin fmax * (tmax - tmin)⌉ := by
        rw [hnz, hE, hWT]; omega
      exact Int.lt_ceil.1 hc
    have hm' : (m : ℝ) ≤ (n : ℝ) - 1 := by
      have : m + 1 ≤ n := hmn
      have : ((m + 1 : ℕ) : ℝ) ≤ n := by exact_mod_cast this
      push_cast at this
      linarith
    push_cast at hlt
    have hm1 : (0 : ℝ) < (m : ℝ) - 1 := by
      have : (2 : ℝ) ≤ m := by exact_mod_cast hm2
      linarith
    rw [← mul_div_assoc, lt_div_iff₀ hm1]
    linarith

/-- The phase of a sweep advances by at most the highest frequency times the step. -/
theorem sweep_step {phi w : ℝ → ℝ} {t0 t1 f0 f1 : ℝ} (hs : Sweeps phi w t0 t1 f0 f1) (ht : t0 < t1) (h0 : 0 ≤ f0) (h1 : 0 ≤ f1) (n : ℕ) (e : Bool) (j : ℕ) (hj : j + 1 < n) :
    |phi ((tVec t0 t1 n e).getD (j + 1) 0) - phi ((tVec t0 t1 n e).getD j 0)| ≤
      2 * Real.pi * max f0 f1 * ((t1 - t0) / (if e then (n : ℝ) - 1 else n)) := by
  have hpi := Real.pi_pos
  have hb : ∀ t ∈ Icc t0 t1, |w t| ≤ 2 * Real.pi * max f0 f1 := by
    intro t htI
    have i0 : t0 ∈ Icc t0 t1 := ⟨le_rfl, ht.le⟩
    have i1 : t1 ∈ Icc t0 t1 := ⟨ht.le, le_rfl⟩
    rcases le_total f0 f1 with hf | hf
    · have a1 := hs.up hf i0 htI htI.1
      have a2 := hs.up hf htI i1 htI.2
      rw [hs.first] at a1
      rw [hs.last] at a2
      rw [max_eq_right hf, abs_le]
      have : 0 ≤ 2 * Real.pi * f0 := by positivity
      have : 0 ≤ 2 * Real.pi * f1 := by positivity
      constructor <;> linarith
    · have a1 := hs.down hf i0 htI htI.1
      have a2 := hs.down hf htI i1 htI.2
      rw [hs.first] at a1
      rw [hs.last] at a2
      rw [max_eq_left hf, abs_le]
      have : 0 ≤ 2 * Real.pi * f0 := by positivity
      have : 0 ≤ 2 * Real.pi * f1 := by positivity
      constructor <;> linarith
  have mv := (convex_Icc t0 t1).norm_image_sub_le_of_norm_hasDerivWithin_le (f := phi) (f' := w) (C := 2 * Real.pi * max f0 f1)
    (fun x hx => (hs.deriv x hx).hasDerivWithinAt) (fun x hx => by rw [Real.norm_eq_abs]; exact hb x hx)
    (tVec_mem_Icc t0 t1 ht.le n e j (by omega)) (tVec_mem_Icc t0 t1 ht.le n e (j + 1) hj)
  rw [Real.norm_eq_abs, Real.norm_eq_abs] at mv
  refine mv.trans (le_of_eq ?_)
  congr 1
  rw [tVec_getD t0 t1 n e j (by omega), tVec_getD t0 t1 n e (j + 1) hj]
  have hn : (2 : ℝ) ≤ n := by exact_mod_cast (by omega : 2 ≤ n)
  have hc : ((if e then n - 1 else n : ℕ) : ℝ) = if e then (n : ℝ) - 1 else n := by
    cases e
    · simp
    · simp only [if_true]
      rw [Nat.cast_sub (by omega), Nat.cast_one]
  rw [hc]
  have hd : 0 < if e then (n : ℝ) - 1 else n := by split_ifs <;> linarith
  have hT : 0 < t1 - t0 := by linarith
  rw [show t0 + ((j + 1 : ℕ) : ℝ) * ((t1 - t0) / (if e then (n : ℝ) - 1 else n)) - (t0 + (j : ℝ) * ((t1 - t0) / (if e then (n : ℝ) - 1 else n))) =
    (t1 - t0) / (if e then (n : ℝ) - 1 else n) by push_cast; ring]
  exact abs_of_pos (div_pos hT hd)

/-- The claim one would like: a chirp made with the defaults, whatever its number of samples, does not alias, or says so. -/
def C166_full : Prop :=
  ∀ (k : ChirpKind) (n : ℕ) (fmin : ℝ) (o : TsSignal), 2 ≤ n → 0 ≤ fmin → fmin ≤ (n / 2 : ℕ) → tsGenerate n {} true k (some n) fmin none {} = .ok o →
    Spec.PhaseSteps o ∨ o.warned = true

/-- The phase of the default linear chirp. -/
theorem lchirp_default (F t : ℝ) : lchirpFn 0 1 0 F t = .ok (some ⟨Real.pi * F * t ^ 2, 2 * Real.pi * F * t⟩) := by
  unfold lchirpFn
  rw [if_neg (by norm_num)]
  simp only [Except.ok.injEq, Option.some.injEq, ChirpPt.mk.injEq]
  constructor <;> ring

/-- **C166, the default aliases silently.** The default linear chirp of any even number of samples from 80 aliases at its end — its last step is over half a turn —
without a warning. -/
theorem C166_default_aliases (m : ℕ) (hm : 40 ≤ m) :
    ∃ o, tsGenerate (2 * m) {} true .lchirp (some (2 * m)) 0 none {} = .ok o ∧ ¬ Spec.PhaseSteps o ∧ o.warned = false := by
  have hpi := Real.pi_pos
  have hpi4 := Real.pi_lt_d2
  have hm' : (40 : ℝ) ≤ m := by exact_mod_cast hm
  set f : ℝ → ℝ := fun s => Real.pi * m * s ^ 2 with hf
  set T := tVec 0 1 (2 * m) true with hT
  have hTl : T.length = 2 * m := tVec_length _ _ _ _
  have hTg : ∀ j < 2 * m, T.getD j 0 = j / (2 * m - 1) := by
    intro j hj
    rw [hT, tVec_getD _ _ _ _ _ hj]
    simp only [if_true]
    rw [Nat.cast_sub (by omega)]
    push_cast
    ring
  have hd : (0 : ℝ) < 2 * m - 1 := by linarith
  have hstep : ∀ j, j + 1 < 2 * m → f (T.getD (j + 1) 0) - f (T.getD j 0) = Real.pi * m * (2 * j + 1) / (2 * m - 1) ^ 2 := by
    intro j hj
    rw [hTg _ hj, hTg _ (by omega), hf]
    push_cast
    field_simp
    ring
  have hgen : ∃ b, aliasWarns (T.map fun s => some (f s)) = .ok b ∧
      tsGenerate (2 * m) {} true .lchirp (some (2 * m)) 0 none {} = .ok ⟨(T.map fun s => some (f s)).map fun o => o.map Real.cos, T, T.map fun s => some (f s), b⟩ := by
    obtain ⟨b, hb⟩ := aliasWarns_ok (T.map fun s => some (f s)) (by rw [List.length_map, hTl]; omega)
    refine ⟨b, hb, ?_⟩
    have hcast : ((((2 * m : ℕ) : ℤ) / 2 : ℤ) : ℝ) = m := by
      rw [show ((2 * m : ℕ) : ℤ) / 2 = (m : ℤ) by omega]; simp
    unfold tsGenerate tsN
    simp only [ok_bind, TsTkwArg.fill, Option.getD_none]
    rw [if_neg (by omega), hcast, Int.toNat_natCast]
    simp only [ChirpKind.fn]
    rw [← hT, tsMapM_ok _ (fun s => some (f s)) T fun s _ => by rw [lchirp_default]; rfl]
    simp only [ok_bind, if_true, hb]
    rfl
  obtain ⟨b, hb, hg⟩ := hgen
  refine ⟨_, hg, ?_, ?_⟩
  · intro hna
    have hget : ∀ j < 2 * m, (T.map fun s => some (f s))[j]? = some (some (f (T.getD j 0))) := by
      intro j hj
      rw [List.getElem?_map, List.getElem?_eq_getElem (by omega), List.getD_eq_getElem _ _ (by omega)]
      rfl
    have := hna (2 * m - 2) _ _ (hget _ (by omega)) (hget _ (by omega))
    rw [hstep _ (by omega)] at this
    have h2 := (abs_le.1 this).2
    rw [div_le_iff₀ (by positivity), Nat.cast_sub (by omega)] at h2
    push_cast at h2
    have h3 : (m : ℝ) * (2 * (2 * m - 2) + 1) ≤ (2 * m - 1) ^ 2 := by
      have : Real.pi * (m * (2 * (2 * m - 2) + 1)) ≤ Real.pi * (2 * m - 1) ^ 2 := by linarith
      exact le_of_mul_le_mul_left this hpi
    nlinarith
  · obtain ⟨b', hb', hiff⟩ := aliasWarns_some f T (by rw [hTl]; omega)
    have : b = b' := by
      have := hb.symm.trans hb'
      simpa using this
    subst this
    by_contra hne
    obtain ⟨j, hj, hlt⟩ := hiff.1 (by simpa using hne)
    rw [hTl] at hj
    rw [hstep _ hj, lt_div_iff₀ (by positivity)] at hlt
    have hj' : (j : ℝ) + 2 ≤ 2 * m := by exact_mod_cast (by omega : j + 2 ≤ 2 * m)
    have h1 : Real.pi * m * (2 * j + 1) ≤ Real.pi * m * (4 * m - 3) := by
      apply mul_le_mul_of_nonneg_left _ (by positivity)
      linarith
    have h2 : Real.pi * (m - 1) ≤ 3.15 * (m - 1) := mul_le_mul_of_nonneg_right hpi4.le (by linarith)
    nlinarith

/-- **C166, refuted.** -/
theorem C166_refuted : ¬ C166_full := by
  intro h
  obtain ⟨o, ho, hna, hw⟩ := C166_default_aliases 40 (by norm_num)
  rcases h .lchirp (2 * 40) 0 o (by norm_num) le_rfl (by positivity) ho with h' | h'
  · exact hna h'
  · rw [hw] at h'; exact absurd h' (by simp)

/-- **C166, when it does not alias.** For every kind of chirp, if the highest frequency is at most half of the sampling rate — `n - 1` steps over the duration with the
endpoint, else `n` — the phase never advances by more than half a turn per sample, and there is no warning. (Missing: the chirps of `C166_default_aliases`.) -/
theorem C166_nonalias_partial (selfN : ℕ) (dflt : TsTkw) (warn : Bool) (k : ChirpKind) (n : ℕ) (hn : 2 ≤ n) (fmin : ℝ) (fmax : Option ℝ) (a : TsTkwArg)
    (h : Spec.ChirpDefined k (a.tmin.getD dflt.tmin) (a.tmax.getD dflt.tmax) fmin (fmax.getD (n / 2 : ℕ))) (h0 : 0 ≤ fmin) (h1 : 0 ≤ fmax.getD (n / 2 : ℕ))
    (hny : max fmin (fmax.getD (n / 2 : ℕ)) ≤ (if a.endpoint.getD dflt.endpoint then (n : ℝ) - 1 else n) / (a.tmax.getD dflt.tmax - a.tmin.getD dflt.tmin) / 2) :
    ∃ o, tsGenerate selfN dflt warn k (some n) fmin fmax a = .ok o ∧ Spec.PhaseSteps o ∧ o.warned = false := by
  have hpi := Real.pi_pos
  set tmin := a.tmin.getD dflt.tmin with htmin
  set tmax := a.tmax.getD dflt.tmax with htmax
  set e := a.endpoint.getD dflt.endpoint with he
  set F := fmax.getD ((n / 2 : ℕ) : ℝ) with hF
  have ht : tmin < tmax := h.1
  obtain ⟨phi, w, hfn, hs, hm, hsw⟩ := sweep_of h n e
  have hcast : (((n : ℤ) / 2 : ℤ) : ℝ) = ((n / 2 : ℕ) : ℝ) := by
    rw [← Int.cast_natCast]; rfl
  have hn' : (2 : ℝ) ≤ n := by exact_mod_cast hn
  have hna : ∀ j, j + 1 < n → |phi ((tVec tmin tmax n e).getD (j + 1) 0) - phi ((tVec tmin tmax n e).getD j 0)| ≤ Real.pi := by
    intro j hj
    refine (sweep_step hs ht h0 h1 n e j hj).trans ?_
    have hd : 0 < if e then (n : ℝ) - 1 else n := by split_ifs <;> linarith
    have hT : 0 < tmax - tmin := by linarith
    generalize (if e then (n : ℝ) - 1 else n) = d at hd hny
    calc 2 * Real.pi * max fmin F * ((tmax - tmin) / d) ≤ 2 * Real.pi * (d / (tmax - tmin) / 2) * ((tmax - tmin) / d) := by gcongr
      _ = Real.pi := by field_simp
  have hgen : ∃ wd, tsGenerate selfN dflt warn k (some n) fmin fmax a =
      .ok ⟨((tVec tmin tmax n e).map fun s => some (phi s)).map fun o => o.map Real.cos, tVec tmin tmax n e, (tVec tmin tmax n e).map fun s => some (phi s), wd⟩ ∧ wd = false := by
    unfold tsGenerate tsN
    simp only [TsTkwArg.fill, ← htmin, ← htmax, ← he, ok_bind]
    rw [if_neg (by omega), hcast, Int.toNat_natCast, ← hF, hm]
    simp only [ok_bind]
    cases warn
    · exact ⟨false, rfl, rfl⟩
    · obtain ⟨b, hb, hb'⟩ := aliasWarns_some phi (tVec tmin tmax n e) (by rw [tVec_length]; exact hn)
      rw [if_pos rfl, hb]
      refine ⟨b, rfl, ?_⟩
      by_contra hne
      obtain ⟨j, hj, hlt⟩ := hb'.1 (by simpa using hne)
      rw [tVec_length] at hj
      have := (abs_le.1 (hna j hj)).2
      linarith
  obtain ⟨wd, hg, rfl⟩ := hgen
  refine ⟨_, hg, ?_, rfl⟩
  intro j p p' hp hp'
  have hj1 : j + 1 < n := by
    have := (List.getElem?_eq_some_iff.1 hp').1
    simpa [tVec] using this
  simp only [List.getElem?_map, Option.map_eq_some_iff, Option.some.injEq] at hp hp'
  obtain ⟨s, hs1, rfl⟩ := hp
  obtain ⟨s', hs2, rfl⟩ := hp'
  have e1 : s = (tVec tmin tmax n e).getD j 0 := by rw [List.getD_eq_getElem?_getD, hs1]; rfl
  have e2 : s' = (tVec tmin tmax n e).getD (j + 1) 0 := by rw [List.getD_eq_getElem?_getD, hs2]; rfl
  rw [e1, e2]
  exact hna j hj1

/-- **C166, defaults of odd length.** -/
theorem C166_odd_partial (m : ℕ) (hm : 1 ≤ m) (warn : Bool) :
    ∃ o, tsGenerate (2 * m + 1) {} warn .lchirp (some (2 * m + 1)) 0 none {} = .ok o ∧ Spec.PhaseSteps o ∧ o.warned = false := by
  refine C166_nonalias_partial _ {} warn .lchirp (2 * m + 1) (by omega) 0 none {} ⟨by norm_num, trivial⟩ le_rfl (Nat.cast_nonneg _) ?_
  have : (2 * m + 1) / 2 = m := by omega
  simp only [Option.getD_none, if_true, this]
  rw [max_eq_right (by positivity)]
  push_cast
  linarith

/-- **C166, tones.** Without `endpoint`, a tone of `n` samples on `[0, 1)` is at times `j / n`: with a whole frequency it is periodic, its next sample would be its first. -/
theorem C166_tone (fn : ℝ → ℝ) (selfN : ℕ) (dflt : TsTkw) (warn : Bool) (n : ℕ) (hn : 2 ≤ n) (f phi0 : ℝ) (tmin tmax : ℝ) :
    ∃ o, tsTone fn selfN dflt warn (some n) f phi0 { tmin := some tmin, tmax := some tmax } = .ok o ∧ o.t.length = n ∧ o.x.length = n ∧
      ∀ j < n, o.t.getD j 0 = tmin + j * ((tmax - tmin) / n) ∧ o.x.getD j none = some (fn (2 * Real.pi * f * (tmin + j * ((tmax - tmin) / n)) + phi0)) := by
  have hw : ∃ b, tsTone fn selfN dflt warn (some n) f phi0 { tmin := some tmin, tmax := some tmax } =
      .ok ⟨((tVec tmin tmax n false).map fun s => some (2 * Real.pi * f * s + phi0)).map fun o => o.map fn, tVec tmin tmax n false,
        (tVec tmin tmax n false).map fun s => some (2 * Real.pi * f * s + phi0), b⟩ := by
    obtain ⟨b, hb⟩ := aliasWarns_ok ((tVec tmin tmax n false).map fun s => some (2 * Real.pi * f * s + phi0)) (by simpa [tVec] using hn)
    unfold tsTone
    simp only [TsTkwArg.fill, Option.getD_some, Option.getD_none]
    cases warn
    · exact ⟨false, rfl⟩
    · rw [if_pos rfl, hb]
      exact ⟨b, rfl⟩
  obtain ⟨b', hb'⟩ := hw
  rw [hb']
  refine ⟨_, rfl, by simp [tVec], by simp [tVec], fun j hj => ?_⟩
  have hg := tVec_getD tmin tmax n false j hj
  simp only [Bool.false_eq_true, if_false] at hg
  refine ⟨hg, ?_⟩
  have hl : j < (tVec tmin tmax n false).length := by rw [tVec_length]; exact hj
  rw [List.getD_eq_getElem _ _ hl] at hg
  simp only [List.map_map]
  rw [List.getD_eq_getElem _ _ (by simpa using hl), List.getElem_map, hg]
  rfl

/-- What the default linear chirp returns. -/
theorem lchirp_default_ok (selfN n : ℕ) (hn : 2 ≤ n) (warn : Bool) (fmax : Option ℝ) :
    ∃ o, tsGenerate selfN {} warn .lchirp (some n) 0 fmax {} = .ok o ∧ o.t = tVec 0 1 n true ∧
      o.phi = o.t.map fun s => some (Real.pi * fmax.getD (n / 2 : ℕ) * s ^ 2) := by
  have hcast : (((n : ℤ) / 2 : ℤ) : ℝ) = ((n / 2 : ℕ) : ℝ) := by
    rw [← Int.cast_natCast]; rfl
  obtain ⟨b, hb⟩ := aliasWarns_ok ((tVec 0 1 n true).map fun s => some (Real.pi * fmax.getD (n / 2 : ℕ) * s ^ 2)) (by rw [List.length_map, tVec_length]; exact hn)
  unfold tsGenerate tsN
  simp only [ok_bind, TsTkwArg.fill, Option.getD_none]
  rw [if_neg (by omega), hcast, Int.toNat_natCast]
  simp only [ChirpKind.fn]
  rw [tsMapM_ok _ (fun s => some (Real.pi * fmax.getD (n / 2 : ℕ) * s ^ 2)) _ fun s _ => by rw [lchirp_default]; rfl]
  simp only [ok_bind]
  cases warn
  · exact ⟨_, rfl, rfl, rfl⟩
  · rw [if_pos rfl, hb]
    exact ⟨_, rfl, rfl, rfl⟩

/-- The claim one would like of titles: a linear chirp from 0 on the unit interval has the phase `π F t²` of the frequency `F` in its title. -/
def C166_title_full : Prop := ∀ (selfN n : ℕ) (fmax : Option ℝ) (o : TsSignal), 2 ≤ n → tsGenerate selfN {} true .lchirp (some n) 0 fmax {} = .ok o →
  o.phi = o.t.map fun s => some (Real.pi * titleFmax n fmax * s ^ 2)

/-- **C166, title, refuted.** With three samples and no `fmax` the title says 1.5, the chirp ends at 1. -/
theorem C166_title_refuted : ¬ C166_title_full := by
  intro h
  obtain ⟨o, ho, ht, hp⟩ := lchirp_default_ok 3 3 (by norm_num) true none
  have h1 := h 3 3 none o (by norm_num) ho
  rw [hp, ht] at h1
  have hmem := tVec_last 0 1 3 (by norm_num)
  have := (List.map_inj_left.1 h1) 1 hmem
  simp only [Option.some.injEq, titleFmax, Option.getD_none] at this
  norm_num at this

/-- **C166, title.** It is right if the frequency is given, and for an even number of samples. -/
theorem C166_title_partial (selfN n : ℕ) (fmax : Option ℝ) (hf : fmax.isSome ∨ Even n) (o : TsSignal) (hn : 2 ≤ n)
    (ho : tsGenerate selfN {} true .lchirp (some n) 0 fmax {} = .ok o) : o.phi = o.t.map fun s => some (Real.pi * titleFmax n fmax * s ^ 2) := by
  obtain ⟨o', ho', ht, hp⟩ := lchirp_default_ok selfN n hn true fmax
  have : o' = o := by
    have := ho'.symm.trans ho
    simpa using this
  subst this
  rw [hp]
  have : titleFmax n fmax = fmax.getD (n / 2 : ℕ) := by
    unfold titleFmax
    cases fmax with
    | some f => rfl
    | none =>
      obtain ⟨m, rfl⟩ := hf.resolve_left (by simp)
      simp only [Option.getD_none]
      rw [show (m + m) / 2 = m by omega]
      push_cast
      ring
  rw [this]

/-- The automatic length is met: a linear chirp from 0 to 10 on the unit interval; the refutation and the partial are met by all even and odd lengths. -/
example : Spec.ChirpDefined .lchirp 0 1 0 10 ∧ Spec.ChirpDefined .echirp 0 1 1 10 ∧ Spec.ChirpDefined .hchirp 0 1 1 10 ∧ Spec.ChirpDefined .echirpPc 0 1 0 10 := by
  simp [Spec.ChirpDefined]

end Ssq
