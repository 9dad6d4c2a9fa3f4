import Verif.Model.Experimental
import Verif.Props.SsqFreqs
import Verif.Props.Search
import Mathlib.Tactic.IntervalCases

/-!
# Scales and frequencies (C68, C93)
-/
namespace Ssq

theorem minL_mem (l : List ℝ) (h : l ≠ []) : l.getD (argminL l) 0 ∈ l := by
  rw [List.getD_eq_getElem _ _ (argminL_lt l h)]; exact List.getElem_mem _

theorem minL_le (l : List ℝ) (h : l ≠ []) : ∀ y ∈ l, l.getD (argminL l) 0 ≤ y := by
  rw [List.getD_eq_getElem _ _ (argminL_lt l h)]; exact argminL_spec l h

theorem maxL_mem (l : List ℝ) (h : l ≠ []) : l.getD (argmaxL l) 0 ∈ l := by
  rw [List.getD_eq_getElem _ _ (argmaxL_lt l h)]; exact List.getElem_mem _

theorem le_maxL (l : List ℝ) (h : l ≠ []) : ∀ y ∈ l, y ≤ l.getD (argmaxL l) 0 := by
  rw [List.getD_eq_getElem _ _ (argmaxL_lt l h)]; exact argmaxL_spec l h

theorem fixPeak_range (Npad n i ix : ℕ) (h : 2 ≤ Npad) : 1 ≤ fixPeak Npad n i ix ∧ fixPeak Npad n i ix ≤ Npad / 2 := by
  unfold fixPeak
  split_ifs <;> omega

/-- What the core returns, for at least two samples. -/
theorem scaleToFreqCore_ok (psis : List (List ℝ)) (Npad : ℕ) (fs : ℝ) (hp : psis ≠ []) (hN : 2 ≤ Npad) :
    scaleToFreqCore psis Npad fs =
      .ok ((psis.zipIdx.map fun p => fixPeak Npad psis.length p.2 (argmaxL p.1)).map fun ix : ℕ => (ix : ℝ) / Npad * fs) := by
  unfold scaleToFreqCore
  have hN' : (0 : ℝ) < Npad := by exact_mod_cast (by omega : 0 < Npad)
  set idxs := psis.zipIdx.map fun p => fixPeak Npad psis.length p.2 (argmaxL p.1) with hi
  have hne : idxs.map (fun ix : ℕ => (ix : ℝ) / Npad) ≠ [] := by
    rw [hi]; simpa using hp
  have hmem : ∀ y ∈ idxs.map (fun ix : ℕ => (ix : ℝ) / Npad), 0 ≤ y ∧ y ≤ 1 / 2 := by
    intro y hy
    obtain ⟨ix, h1, rfl⟩ := List.mem_map.1 hy
    rw [hi] at h1
    obtain ⟨p, -, rfl⟩ := List.mem_map.1 h1
    obtain ⟨a, b⟩ := fixPeak_range Npad psis.length p.2 (argmaxL p.1) hN
    refine ⟨by positivity, ?_⟩
    rw [div_le_iff₀ hN']
    have : 2 * fixPeak Npad psis.length p.2 (argmaxL p.1) ≤ Npad := by omega
    have : 2 * (fixPeak Npad psis.length p.2 (argmaxL p.1) : ℝ) ≤ Npad := by exact_mod_cast this
    linarith
  dsimp only
  rw [if_neg hne, if_neg (not_not.2 (hmem _ (minL_mem _ hne)).1), if_neg (not_not.2 (hmem _ (maxL_mem _ hne)).2), List.map_map]
  rfl

/-- **C68, as claimed**: frequencies between 0 and the Nyquist frequency, for every wavelet. -/
def C68_full : Prop :=
  ∀ (psi : ℕ → ℝ → List ℝ) (scales : List ℝ) (N : ℕ) (fs : ℝ) (padded : Bool), (∀ M s, (psi M s).length = M) → scales ≠ [] → 1 ≤ N →
    0 < fs → ∃ fr, scaleToFreq psi scales N fs padded = .ok fr ∧ fr.length = scales.length ∧ ∀ f ∈ fr, 0 ≤ f ∧ f ≤ fs / 2

/-- **C68 is false of the code**: with one sample and no padding the repair yields frequency 1. -/
theorem C68_refuted : ¬ C68_full := by
  intro h
  obtain ⟨fr, h1, -⟩ := h (fun M _ => List.replicate M 0) [1, 2, 3] 1 1 false (by simp) (by simp) (by simp) one_pos
  have ha : argmaxL (List.replicate 1 (0 : ℝ)) = 0 := by
    have := argmaxL_lt (List.replicate 1 (0 : ℝ)) (by simp)
    simpa using this
  unfold scaleToFreq scaleToFreqCore at h1
  simp only [Bool.false_eq_true, if_false, List.map_cons, List.map_nil, List.zipIdx_cons, List.zipIdx_nil, List.length_cons,
    List.length_nil, ha] at h1
  norm_num [fixPeak] at h1
  have hm := le_maxL [(0 : ℝ), 0, 1] (by simp) 1 (by simp)
  have hmin := minL_mem [(0 : ℝ), 0, 1] (by simp)
  have h0 : 0 ≤ [(0 : ℝ), 0, 1].getD (argminL [(0 : ℝ), 0, 1]) 0 := by
    simp only [List.mem_cons, List.not_mem_nil, or_false] at hmin
    rcases hmin with h | h | h <;> rw [h] <;> norm_num
  simp only [List.getD_eq_getElem?_getD] at hm h0
  rw [if_neg (by simp), if_neg (not_lt.2 h0), if_pos (by linarith)] at h1
  cases h1

/-- **C68, partial**: with two samples or more (always so after padding) no assertion fires, and every frequency is positive and at most
Nyquist's. Missing: one sample, unpadded. -/
theorem C68_range_partial (psi : ℕ → ℝ → List ℝ) (scales : List ℝ) (N : ℕ) (fs : ℝ) (padded : Bool) (hs : scales ≠ []) (hN : 1 ≤ N)
    (h2 : padded = true ∨ 2 ≤ N) (hfs : 0 < fs) :
    ∃ fr, scaleToFreq psi scales N fs padded = .ok fr ∧ fr.length = scales.length ∧ ∀ f ∈ fr, 0 < f ∧ f ≤ fs / 2 := by
  have hp : 2 ≤ (if padded then (p2up N).1 else N) := by
    split_ifs with h
    · unfold p2up
      dsimp only
      rw [if_neg (by omega), pow_add, pow_one]
      have := Nat.one_le_two_pow (n := (roundHalfEven (Real.logb 2 N)).toNat)
      omega
    · rcases h2 with h2 | h2
      · exact absurd h2 h
      · exact h2
  refine ⟨_, scaleToFreqCore_ok _ _ fs (by simpa using hs) hp, by simp, ?_⟩
  intro f hf
  generalize (if padded then (p2up N).1 else N) = Npad at hp hf
  obtain ⟨ix, h1, rfl⟩ := List.mem_map.1 hf
  obtain ⟨p, -, rfl⟩ := List.mem_map.1 h1
  generalize (scales.map (psi Npad)).length = n at *
  obtain ⟨a, b⟩ := fixPeak_range Npad n p.2 (argmaxL p.1) hp
  generalize fixPeak Npad n p.2 (argmaxL p.1) = k at *
  have hN' : (0 : ℝ) < Npad := by exact_mod_cast (by omega : 0 < Npad)
  have hk : (0 : ℝ) < k := by exact_mod_cast a
  have hk2 : 2 * (k : ℝ) ≤ Npad := by exact_mod_cast (by omega : 2 * k ≤ Npad)
  refine ⟨by positivity, ?_⟩
  have : (k : ℝ) / Npad ≤ 1 / 2 := by rw [div_le_iff₀ hN']; linarith
  nlinarith

/-- **C68, peaks**: a wavelet that peaks at a positive frequency index, Nyquist's included, gets that frequency. -/
theorem C68_peak (psi : ℕ → ℝ → List ℝ) (scales : List ℝ) (N : ℕ) (fs : ℝ) (hN : 2 ≤ N) (hlen : ∀ s, (psi N s).length = N)
    (i : ℕ) (hi : i < scales.length) (k : ℕ) (h1 : 1 ≤ k) (h2 : k ≤ N / 2)
    (hmax : ∀ (j : ℕ) (_ : j < N), (psi N scales[i]).getD j 0 ≤ (psi N scales[i]).getD k 0)
    (hlt : ∀ (j : ℕ) (_ : j < k), (psi N scales[i]).getD j 0 < (psi N scales[i]).getD k 0) :
    ∃ fr, scaleToFreq psi scales N fs false = .ok fr ∧ fr[i]? = some (k / N * fs) := by
  have hs : scales ≠ [] := by rintro rfl; simp at hi
  have e := scaleToFreqCore_ok (scales.map (psi N)) N fs (by simpa using hs) hN
  refine ⟨_, e, ?_⟩
  have hkN : k < (psi N scales[i]).length := by rw [hlen]; omega
  have ha : argmaxL (psi N scales[i]) = k := by
    refine argmaxL_eq _ k hkN ?_ ?_
    · intro y hy
      obtain ⟨j, hj, rfl⟩ := List.getElem_of_mem hy
      have := hmax j (by rw [← hlen scales[i]]; exact hj)
      rwa [List.getD_eq_getElem _ _ hj, List.getD_eq_getElem _ _ hkN] at this
    · intro j hj
      have := hlt j hj
      rwa [List.getD_eq_getElem _ _ (hj.trans hkN), List.getD_eq_getElem _ _ hkN] at this
  have hf : fixPeak N (scales.map (psi N)).length i k = k := by
    unfold fixPeak
    rw [if_neg (by omega)]
  rw [List.getElem?_map, List.getElem?_map, List.getElem?_zipIdx, List.getElem?_map, List.getElem?_eq_getElem hi]
  simp only [Option.map_some, Nat.zero_add, ha, hf]

/-! ## `freq_to_scale` -/

theorem logspace_length (base a b : ℝ) (n : ℕ) : (logspace base a b n).length = n := by simp [logspace, linspace]

theorem base_pow_log {base x : ℝ} (h0 : 0 < base) (h1 : base ≠ 1) (hx : 0 < x) : base ^ (Real.log x / Real.log base) = x := by
  have hl : Real.log base ≠ 0 := Real.log_ne_zero_of_pos_of_ne_one h0 h1
  rw [Real.rpow_def_of_pos h0, mul_div_cancel₀ _ hl, Real.exp_log hx]

theorem logspace_getElem {base a b : ℝ} (h0 : 0 < base) (h1 : base ≠ 1) (ha : 0 < a) (hb : 0 < b) {n i : ℕ}
    (h : i < (logspace base a b n).length) :
    (logspace base a b n)[i] = a * (b / a) ^ ((i : ℝ) / (n - 1 : ℕ)) := by
  have hl : Real.log base ≠ 0 := Real.log_ne_zero_of_pos_of_ne_one h0 h1
  unfold logspace at h ⊢
  rw [List.getElem_map, linspace_getElem, Real.rpow_add h0, base_pow_log h0 h1 ha]
  congr 1
  rw [Real.rpow_def_of_pos h0, Real.rpow_def_of_pos (div_pos hb ha), Real.log_div hb.ne' ha.ne']
  congr 1
  field_simp

theorem logspace_pos {base a b : ℝ} (h0 : 0 < base) {n : ℕ} : ∀ s ∈ logspace base a b n, 0 < s := by
  intro s hs
  obtain ⟨e, -, rfl⟩ := List.mem_map.1 hs
  exact Real.rpow_pos_of_pos h0 e

/-- The nearest-frequency choice of a search scale. -/
theorem nearest_spec (cf : ℝ → ℝ) (search : List ℝ) (hs : search ≠ []) (f : ℝ) :
    let g := fun s => min (max (cf s) 0) Real.pi / (2 * Real.pi)
    let r := search.getD (argminL ((search.map g).map fun x => |x - f|)) 0
    r ∈ search ∧ ∀ s ∈ search, |g r - f| ≤ |g s - f| := by
  intro g r
  have hne : (search.map g).map (fun x => |x - f|) ≠ [] := by simpa using hs
  have hlt := argminL_lt _ hne
  have hlt' : argminL ((search.map g).map fun x => |x - f|) < search.length := by simpa using hlt
  have hr : r = search[argminL ((search.map g).map fun x => |x - f|)] := List.getD_eq_getElem _ _ hlt'
  refine ⟨by rw [hr]; exact List.getElem_mem _, fun s hs' => ?_⟩
  have := argminL_spec _ hne |g s - f| (List.mem_map.2 ⟨g s, List.mem_map.2 ⟨s, hs', rfl⟩, rfl⟩)
  rw [List.getElem_map, List.getElem_map, ← hr] at this
  exact this

namespace Spec

/-- Valid frequencies: not empty, at most half the sampling rate, not negative, the first the least and the last the greatest. -/
def ValidFreqs (fs : ℝ) (freqs : List ℝ) : Prop :=
  ∃ (h : freqs ≠ []), ∀ f ∈ freqs, 0 ≤ f ∧ f ≤ fs / 2 ∧ freqs.head h ≤ f ∧ f ≤ freqs.getLast h

/-- The normalised frequency of a scale, clipped to the valid range. -/
noncomputable def freqAt (cf : ℝ → ℝ) (s : ℝ) : ℝ := min (max (cf s) 0) Real.pi / (2 * Real.pi)

end Spec

theorem maxL_eq {l : List ℝ} {m : ℝ} (hm : m ∈ l) (h : ∀ y ∈ l, y ≤ m) : l.getD (argmaxL l) 0 = m := by
  have hne : l ≠ [] := List.ne_nil_of_mem hm
  exact le_antisymm (h _ (maxL_mem l hne)) (le_maxL l hne m hm)

theorem minL_eq {l : List ℝ} {m : ℝ} (hm : m ∈ l) (h : ∀ y ∈ l, m ≤ y) : l.getD (argminL l) 0 = m := by
  have hne : l ≠ [] := List.ne_nil_of_mem hm
  exact le_antisymm (minL_le l hne m hm) (h _ (minL_mem l hne))

theorem freqToScale_ok (cf : ℝ → ℝ) (bounds : ℝ × ℝ) (freqs : List ℝ) (fs : ℝ) (hfs : 0 < fs) (nSearch : Option ℕ) (base : ℝ)
    (hv : Spec.ValidFreqs fs freqs) (hn : nSearch ≠ some 0) :
    ∃ smax smin, freqToScale cf bounds freqs fs nSearch base = .ok (logspace base smax smin freqs.length) ∧
      (let search := logspace base bounds.1 bounds.2 (nSearch.getD (10 * freqs.length))
       smax ∈ search ∧ smin ∈ search ∧
       (∀ s ∈ search, |Spec.freqAt cf smax - freqs.head hv.1 / fs| ≤ |Spec.freqAt cf s - freqs.head hv.1 / fs|) ∧
       (∀ s ∈ search, |Spec.freqAt cf smin - freqs.getLast hv.1 / fs| ≤ |Spec.freqAt cf s - freqs.getLast hv.1 / fs|)) := by
  obtain ⟨hne, hv⟩ := hv
  have hfr : freqs.map (· / fs) ≠ [] := by simpa using hne
  have hmax : (freqs.map (· / fs)).getD (argmaxL (freqs.map (· / fs))) 0 = freqs.getLast hne / fs := by
    apply maxL_eq (List.mem_map_of_mem (List.getLast_mem hne))
    intro y hy
    obtain ⟨f, hf, rfl⟩ := List.mem_map.1 hy
    exact div_le_div_of_nonneg_right (hv f hf).2.2.2 hfs.le
  have hmin : (freqs.map (· / fs)).getD (argminL (freqs.map (· / fs))) 0 = freqs.head hne / fs := by
    apply minL_eq (List.mem_map_of_mem (List.head_mem hne))
    intro y hy
    obtain ⟨f, hf, rfl⟩ := List.mem_map.1 hy
    exact div_le_div_of_nonneg_right (hv f hf).2.2.1 hfs.le
  have hlast : (freqs.map (· / fs)).getD ((freqs.map (· / fs)).length - 1) 0 = freqs.getLast hne / fs := by
    have hl : 0 < freqs.length := List.length_pos_iff.2 hne
    rw [List.getD_eq_getElem _ _ (by rw [List.length_map]; omega), List.getElem_map, List.getLast_eq_getElem]
    simp only [List.length_map]
  have hfirst : (freqs.map (· / fs)).getD 0 0 = freqs.head hne / fs := by
    have hl : 0 < freqs.length := List.length_pos_iff.2 hne
    rw [List.getD_eq_getElem _ _ (by rw [List.length_map]; omega), List.getElem_map, List.head_eq_getElem]
  have hsearch : logspace base bounds.1 bounds.2 (nSearch.getD (10 * freqs.length)) ≠ [] := by
    rw [← List.length_pos_iff, logspace_length]
    have hl : 0 < freqs.length := List.length_pos_iff.2 hne
    cases nSearch with
    | none => simp only [Option.getD_none]; omega
    | some n =>
      simp only [Option.getD_some]
      exact Nat.pos_of_ne_zero fun h => hn (by rw [h])
  obtain ⟨a1, a2⟩ := nearest_spec cf _ hsearch (freqs.head hne / fs)
  obtain ⟨b1, b2⟩ := nearest_spec cf _ hsearch (freqs.getLast hne / fs)
  refine ⟨_, _, ?_, a1, b1, a2, b2⟩
  unfold freqToScale
  dsimp only
  rw [if_neg hfr, hmax, hmin, hlast, hfirst,
    if_neg (not_not.2 (div_nonneg (hv _ (List.head_mem hne)).1 hfs.le)),
    if_neg (not_not.2 (by
      rw [div_le_iff₀ hfs]
      have := (hv _ (List.getLast_mem hne)).2.1
      linarith)),
    if_neg (by simp), if_neg (by simp), List.length_map, if_neg hsearch]

/-- **C93, as claimed**: for a wavelet whose frequency is inversely proportional to the scale, and a search that reaches the first and last
frequencies exactly, the scales returned are those of the frequencies. -/
def C93_full : Prop :=
  ∀ (c fs base : ℝ) (bounds : ℝ × ℝ) (freqs : List ℝ) (nSearch : Option ℕ), 0 < c → 0 < fs → 1 < base → 0 < bounds.1 → 0 < bounds.2 →
    (∀ f ∈ freqs, 0 < f) → ∀ hv : Spec.ValidFreqs fs freqs,
    c / (2 * Real.pi * (freqs.head hv.1 / fs)) ∈ logspace base bounds.1 bounds.2 (nSearch.getD (10 * freqs.length)) →
    c / (2 * Real.pi * (freqs.getLast hv.1 / fs)) ∈ logspace base bounds.1 bounds.2 (nSearch.getD (10 * freqs.length)) →
      ∃ scales, freqToScale (fun s => c / s) bounds freqs fs nSearch base = .ok scales ∧ scales.length = freqs.length ∧
        ∀ (i : ℕ) (h : i < scales.length) (h' : i < freqs.length), c / scales[i] / (2 * Real.pi) * fs = freqs[i]

/-- A search scale of the frequency sought is found. -/
theorem nearest_exact {c : ℝ} (hc : 0 < c) {search : List ℝ} (hpos : ∀ s ∈ search, 0 < s) {f : ℝ} (hf : 0 < f) (hf2 : f ≤ 1 / 2)
    (hmem : c / (2 * Real.pi * f) ∈ search) {r : ℝ} (hr : r ∈ search)
    (h : ∀ s ∈ search, |Spec.freqAt (fun s => c / s) r - f| ≤ |Spec.freqAt (fun s => c / s) s - f|) (hlt : f < 1 / 2) :
    r = c / (2 * Real.pi * f) := by
  have hpi := Real.pi_pos
  have h0 : Spec.freqAt (fun s => c / s) (c / (2 * Real.pi * f)) = f := by
    unfold Spec.freqAt
    have e : c / (c / (2 * Real.pi * f)) = 2 * Real.pi * f := by field_simp
    dsimp only
    rw [e, max_eq_left (by positivity), min_eq_left (by nlinarith)]
    field_simp
  have h1 := h _ hmem
  rw [h0, sub_self, abs_zero] at h1
  have h2 : Spec.freqAt (fun s => c / s) r = f := by
    have := abs_nonpos_iff.1 h1
    linarith
  have hr0 := hpos r hr
  unfold Spec.freqAt at h2
  dsimp only at h2
  rw [max_eq_left (by positivity)] at h2
  rw [div_eq_iff (by positivity)] at h2
  rcases le_total (c / r) Real.pi with h3 | h3
  · rw [min_eq_left h3, div_eq_iff hr0.ne'] at h2
    rw [eq_div_iff (by positivity)]
    linarith
  · rw [min_eq_right h3] at h2
    nlinarith

/-- **C93, partial**: it holds for frequencies in geometric progression, below Nyquist's. Missing: other spacings. -/
theorem C93_geometric_partial (c fs base : ℝ) (bounds : ℝ × ℝ) (freqs : List ℝ) (nSearch : Option ℕ) (hc : 0 < c) (hfs : 0 < fs)
    (hb : 1 < base) (hpos : ∀ f ∈ freqs, 0 < f) (hlt : ∀ f ∈ freqs, f < fs / 2)
    (hv : Spec.ValidFreqs fs freqs)
    (h1 : c / (2 * Real.pi * (freqs.head hv.1 / fs)) ∈ logspace base bounds.1 bounds.2 (nSearch.getD (10 * freqs.length)))
    (h2 : c / (2 * Real.pi * (freqs.getLast hv.1 / fs)) ∈ logspace base bounds.1 bounds.2 (nSearch.getD (10 * freqs.length)))
    (q : ℝ) (hq : 0 < q) (hgeo : ∀ (i : ℕ) (h : i < freqs.length), freqs[i] = freqs.head hv.1 * q ^ i) :
    ∃ scales, freqToScale (fun s => c / s) bounds freqs fs nSearch base = .ok scales ∧ scales.length = freqs.length ∧
      ∀ (i : ℕ) (h : i < scales.length) (h' : i < freqs.length), c / scales[i] / (2 * Real.pi) * fs = freqs[i] := by
  have hpi := Real.pi_pos
  have hn : nSearch ≠ some 0 := by
    rintro rfl
    have := List.length_pos_of_mem h1
    rw [logspace_length] at this
    simp at this
  obtain ⟨smax, smin, e, m1, m2, n1, n2⟩ := freqToScale_ok (fun s => c / s) bounds freqs fs hfs nSearch base hv hn
  have hb0 : 0 < base := by linarith
  have hf0 := hpos _ (List.head_mem hv.1)
  have hl0 := hpos _ (List.getLast_mem hv.1)
  have half : ∀ f, f < fs / 2 → f / fs < 1 / 2 := fun f hf => by rw [div_lt_iff₀ hfs]; linarith
  have es := nearest_exact hc (logspace_pos hb0) (div_pos hf0 hfs) (half _ (hlt _ (List.head_mem hv.1))).le h1 m1 n1
    (half _ (hlt _ (List.head_mem hv.1)))
  have el := nearest_exact hc (logspace_pos hb0) (div_pos hl0 hfs) (half _ (hlt _ (List.getLast_mem hv.1))).le h2 m2 n2
    (half _ (hlt _ (List.getLast_mem hv.1)))
  refine ⟨_, e, logspace_length _ _ _ _, fun i h h' => ?_⟩
  have hsx : 0 < smax := logspace_pos hb0 _ m1
  have hsn : 0 < smin := logspace_pos hb0 _ m2
  rw [logspace_getElem hb0 hb.ne' hsx hsn, hgeo i h']
  have hlast : freqs.getLast hv.1 = freqs.head hv.1 * q ^ (freqs.length - 1) := by
    rw [List.getLast_eq_getElem]
    exact hgeo _ (by have := List.length_pos_iff.2 hv.1; omega)
  have hratio : smin / smax = (q ^ (freqs.length - 1))⁻¹ := by
    rw [es, el, hlast]
    field_simp
  have hpow : (smin / smax) ^ ((i : ℝ) / (freqs.length - 1 : ℕ)) = (q ^ i)⁻¹ := by
    rw [hratio, Real.inv_rpow (by positivity), ← Real.rpow_natCast q (freqs.length - 1), ← Real.rpow_mul hq.le]
    rcases Nat.eq_zero_or_pos (freqs.length - 1) with h0 | h0
    · have : i = 0 := by omega
      rw [this]; simp
    · have : ((freqs.length - 1 : ℕ) : ℝ) ≠ 0 := by exact_mod_cast h0.ne'
      rw [mul_div_cancel₀ _ this, Real.rpow_natCast]
  rw [hpow, es]
  field_simp

/-- **C93 is false of the code**: between the ends the scales are in geometric progression whatever the frequencies; for .1, .2, .3 the middle
one is of frequency √3/10. -/
theorem C93_refuted : ¬ C93_full := by
  intro h
  have hpi := Real.pi_pos
  have hs : logspace 2 (10 / 3 : ℝ) 10 2 = [10 / 3, 10] := by
    apply List.ext_getElem (by rw [logspace_length]; rfl)
    intro i h1 h2
    rw [logspace_getElem (by norm_num) (by norm_num) (by norm_num) (by norm_num)]
    have : i < 2 := by simpa using h2
    interval_cases i
    · norm_num
    · norm_num
  have hv : Spec.ValidFreqs 1 [1 / 10, 1 / 5, 3 / 10] := by
    refine ⟨by simp, ?_⟩
    intro f hf
    simp only [List.mem_cons, List.not_mem_nil, or_false] at hf
    rcases hf with rfl | rfl | rfl <;> norm_num
  have hh : [(1 / 10 : ℝ), 1 / 5, 3 / 10].head hv.1 = 1 / 10 := rfl
  have hg : [(1 / 10 : ℝ), 1 / 5, 3 / 10].getLast hv.1 = 3 / 10 := rfl
  have e1 : 2 * Real.pi / (2 * Real.pi * ([(1 / 10 : ℝ), 1 / 5, 3 / 10].head hv.1 / 1)) = 10 := by
    rw [hh]; field_simp
  have e2 : 2 * Real.pi / (2 * Real.pi * ([(1 / 10 : ℝ), 1 / 5, 3 / 10].getLast hv.1 / 1)) = 10 / 3 := by
    rw [hg]; field_simp
  have hpos : ∀ f ∈ [(1 / 10 : ℝ), 1 / 5, 3 / 10], 0 < f := by
    intro f hf
    simp only [List.mem_cons, List.not_mem_nil, or_false] at hf
    rcases hf with rfl | rfl | rfl <;> norm_num
  obtain ⟨sc, h1, h2, h3⟩ := h (2 * Real.pi) 1 2 (10 / 3, 10) [1 / 10, 1 / 5, 3 / 10] (some 2) (by positivity) one_pos (by norm_num)
    (by norm_num) (by norm_num) hpos hv (by rw [e1, Option.getD_some, hs]; simp) (by rw [e2, Option.getD_some, hs]; simp)
  obtain ⟨smax, smin, e, m1, m2, n1, n2⟩ := freqToScale_ok (fun s => 2 * Real.pi / s) (10 / 3, 10) [1 / 10, 1 / 5, 3 / 10] 1 one_pos
    (some 2) 2 hv (by simp)
  simp only [Option.getD_some, hs] at m1 m2 n1 n2
  have hp : ∀ s ∈ [(10 / 3 : ℝ), 10], 0 < s := by
    intro s hs
    simp only [List.mem_cons, List.not_mem_nil, or_false] at hs
    rcases hs with rfl | rfl <;> norm_num
  have es := nearest_exact (c := 2 * Real.pi) (by positivity) hp (by rw [hh]; norm_num) (by rw [hh]; norm_num) (by rw [e1]; simp) m1 n1
    (by rw [hh]; norm_num)
  have el := nearest_exact (c := 2 * Real.pi) (by positivity) hp (by rw [hg]; norm_num) (by rw [hg]; norm_num) (by rw [e2]; simp) m2 n2
    (by rw [hg]; norm_num)
  rw [e1] at es
  rw [e2] at el
  subst es el
  rw [e] at h1
  have h1 := Except.ok.inj h1
  subst h1
  have h4 := h3 1 (by rw [logspace_length]; simp) (by simp)
  rw [logspace_getElem (by norm_num) (by norm_num) (by norm_num) (by norm_num)] at h4
  have e5 : ((10 / 3 : ℝ) / 10) ^ (((1 : ℕ) : ℝ) / (([(1 / 10 : ℝ), 1 / 5, 3 / 10].length - 1 : ℕ) : ℝ)) = Real.sqrt (1 / 3) := by
    rw [Real.sqrt_eq_rpow]
    norm_num
  rw [e5] at h4
  have h6 : 0 < Real.sqrt (1 / 3) := Real.sqrt_pos.2 (by norm_num)
  have h7 : Real.sqrt (1 / 3) * Real.sqrt (1 / 3) = 1 / 3 := Real.mul_self_sqrt (by norm_num)
  have h8 : Real.sqrt (1 / 3) = 1 / 2 := by
    have : [(1 / 10 : ℝ), 1 / 5, 3 / 10][1] = 1 / 5 := rfl
    rw [this] at h4
    field_simp at h4
    linarith
  rw [h8] at h7
  norm_num at h7

/-- **C93, shape**: as many positive scales as frequencies; the first and the last are the search scales of frequency nearest to the first and
last frequencies, for every wavelet. -/
theorem C93_ends (cf : ℝ → ℝ) (bounds : ℝ × ℝ) (freqs : List ℝ) (fs : ℝ) (hfs : 0 < fs)
    (nSearch : Option ℕ) (hn : nSearch ≠ some 0) (base : ℝ) (hbase : 1 < base) (hv : Spec.ValidFreqs fs freqs)
    (h2 : 2 ≤ freqs.length) :
    ∃ scales, freqToScale cf bounds freqs fs nSearch base = .ok scales ∧ scales.length = freqs.length ∧ (∀ s ∈ scales, 0 < s) ∧
      ∃ (hne : scales ≠ []), let search := logspace base bounds.1 bounds.2 (nSearch.getD (10 * freqs.length))
        (scales.head hne ∈ search ∧
          ∀ s ∈ search, |Spec.freqAt cf (scales.head hne) - freqs.head hv.1 / fs| ≤ |Spec.freqAt cf s - freqs.head hv.1 / fs|) ∧
        (scales.getLast hne ∈ search ∧
          ∀ s ∈ search, |Spec.freqAt cf (scales.getLast hne) - freqs.getLast hv.1 / fs| ≤ |Spec.freqAt cf s - freqs.getLast hv.1 / fs|) := by
  obtain ⟨smax, smin, e, m1, m2, n1, n2⟩ := freqToScale_ok cf bounds freqs fs hfs nSearch base hv hn
  have hb0 : 0 < base := by linarith
  have hsx : 0 < smax := logspace_pos hb0 _ m1
  have hsn : 0 < smin := logspace_pos hb0 _ m2
  have hne : logspace base smax smin freqs.length ≠ [] := by rw [← List.length_pos_iff, logspace_length]; omega
  have hhead : (logspace base smax smin freqs.length).head hne = smax := by
    rw [List.head_eq_getElem, logspace_getElem hb0 hbase.ne' hsx hsn]; simp
  have hlast : (logspace base smax smin freqs.length).getLast hne = smin := by
    rw [List.getLast_eq_getElem, logspace_getElem hb0 hbase.ne' hsx hsn, logspace_length]
    have : ((freqs.length - 1 : ℕ) : ℝ) ≠ 0 := by exact_mod_cast (by omega : freqs.length - 1 ≠ 0)
    rw [div_self this, Real.rpow_one]
    field_simp
  exact ⟨_, e, logspace_length _ _ _ _, logspace_pos hb0, hne, by rw [hhead, hlast]; exact ⟨⟨m1, n1⟩, m2, n2⟩⟩

/-- **C93, checks**: frequencies that are not valid raise `AssertionError`; none at all, `ValueError`. -/
theorem C93_rejects (cf : ℝ → ℝ) (bounds : ℝ × ℝ) (freqs : List ℝ) (fs : ℝ) (hfs : 0 < fs) (nSearch : Option ℕ) (base : ℝ)
    (hv : ¬ Spec.ValidFreqs fs freqs) :
    freqToScale cf bounds freqs fs nSearch base = .error (if freqs = [] then .valueError else .assertionError) := by
  unfold freqToScale
  by_cases hne : freqs = []
  · subst hne; simp
  · have hfr : freqs.map (· / fs) ≠ [] := by simpa using hne
    dsimp only
    rw [if_neg hfr, if_neg hne]
    by_cases h1 : 0 ≤ (freqs.map (· / fs)).getD (argminL (freqs.map (· / fs))) 0
    swap
    · rw [if_pos h1]
    rw [if_neg (not_not.2 h1)]
    by_cases h2 : (freqs.map (· / fs)).getD (argmaxL (freqs.map (· / fs))) 0 ≤ 1 / 2
    swap
    · rw [if_pos h2]
    rw [if_neg (not_not.2 h2)]
    by_cases h3 : (freqs.map (· / fs)).getD (argmaxL (freqs.map (· / fs))) 0 = (freqs.map (· / fs)).getD ((freqs.map (· / fs)).length - 1) 0
    swap
    · rw [if_pos h3]
    rw [if_neg (not_not.2 h3)]
    by_cases h4 : (freqs.map (· / fs)).getD (argminL (freqs.map (· / fs))) 0 = (freqs.map (· / fs)).getD 0 0
    swap
    · rw [if_pos h4]
    exfalso
    apply hv
    refine ⟨hne, fun f hf => ?_⟩
    have hl : 0 < freqs.length := List.length_pos_iff.2 hne
    have hlast : (freqs.map (· / fs)).getD ((freqs.map (· / fs)).length - 1) 0 = freqs.getLast hne / fs := by
      rw [List.getD_eq_getElem _ _ (by rw [List.length_map]; omega), List.getElem_map, List.getLast_eq_getElem]
      simp only [List.length_map]
    have hfirst : (freqs.map (· / fs)).getD 0 0 = freqs.head hne / fs := by
      rw [List.getD_eq_getElem _ _ (by rw [List.length_map]; omega), List.getElem_map, List.head_eq_getElem]
    have a := minL_le _ hfr (f / fs) (List.mem_map_of_mem (f := (· / fs)) hf)
    have b := le_maxL _ hfr (f / fs) (List.mem_map_of_mem (f := (· / fs)) hf)
    have mul : ∀ {x y : ℝ}, x / fs ≤ y / fs → x ≤ y := fun h => (div_le_div_iff_of_pos_right hfs).1 h
    refine ⟨?_, ?_, ?_, ?_⟩
    · have := le_trans h1 a
      exact mul (by rw [zero_div]; exact this)
    · have := le_trans b h2
      rw [div_le_iff₀ hfs] at this
      linarith
    · exact mul (by rw [← hfirst, ← h4]; exact a)
    · exact mul (by rw [← hlast, ← h3]; exact b)

/-- Non-vacuity: octaves below Nyquist's frequency. -/
example : Spec.ValidFreqs 1 [1 / 10, 1 / 5, 2 / 5] ∧
    ∀ (i : ℕ) (h : i < [(1 / 10 : ℝ), 1 / 5, 2 / 5].length), [(1 / 10 : ℝ), 1 / 5, 2 / 5][i] = 1 / 10 * 2 ^ i := by
  refine ⟨⟨by simp, ?_⟩, ?_⟩
  · intro f hf
    simp only [List.mem_cons, List.not_mem_nil, or_false] at hf
    rcases hf with rfl | rfl | rfl <;> norm_num
  · intro i h
    have : i < 3 := by simpa using h
    interval_cases i <;> norm_num

/-- Non-vacuity: a wavelet peaking at index 1 of 4. -/
example : ∃ fr, scaleToFreq (fun _ _ => [0, 2, 1, 0]) [1] 4 8 false = .ok fr ∧ fr[0]? = some (((1 : ℕ) : ℝ) / (4 : ℕ) * 8) := by
  refine C68_peak (fun _ _ => [0, 2, 1, 0]) [1] 4 8 (by norm_num) ?_ 0 (by simp) 1 le_rfl (by norm_num) ?_ ?_
  · intro s; rfl
  · intro j hj; interval_cases j <;> norm_num
  · intro j hj; interval_cases j; norm_num

end Ssq
