import Verif.Model.Sweep
import Verif.Props.TimeRes
import Verif.Props.HigherOrder

/-!
# Sweeps of resolutions over scales (C231)
-/
namespace Ssq

theorem processArr_fst {sh : List ℕ} {dt : FDtype} {v : List ℝ} {N : ℕ} {wv : Option ScaleWavelet} {nv : Option ℚ} {b : Bool} {d : ℕ} {r : List ℝ × ScaleType × ℕ × Nv}
    (h : processScales (.arr sh dt v) N wv nv b d = .ok r) : r.1 = v := by
  unfold processScales at h
  simp only [] at h
  split at h
  · cases h
  · obtain ⟨⟨st, nvI⟩, -, h⟩ := bind_ok h
    simp only [] at h
    split at h
    · split at h
      · cases h
      · obtain ⟨m, -, h⟩ := bind_ok h
        cases h; rfl
    · cases h; rfl
    · split at h
      · cases h; rfl
      · obtain ⟨m, -, h⟩ := bind_ok h
        cases h; rfl

theorem sweepMapM_getD {g : ℝ → Py ℝ} : ∀ {v r : List ℝ}, v.mapM g = .ok r → r.length = v.length ∧ ∀ i < v.length, g (v.getD i 0) = .ok (r.getD i 0) := by
  intro v
  induction v with
  | nil => intro r h; cases h; simp
  | cons a v ih =>
    intro r h
    rw [List.mapM_cons] at h
    obtain ⟨y, hy, h⟩ := bind_ok h
    obtain ⟨ys, hys, h⟩ := bind_ok h
    cases h
    obtain ⟨i1, i2⟩ := ih hys
    refine ⟨by simp [i1], fun i hi => ?_⟩
    cases i with
    | zero => simpa using hy
    | succ i => simpa using i2 i (by simpa using hi)

/-- **C231, `sweep_std_t`.** With known options it returns, for each of the scales in order, what `time_resolution` returns at this scale with the given options
(`min_decay=1`, `nondim=False` if left out), or raises. -/
theorem C231_std_t (f : WFn) (p : ℝ) (sw : ScaleWavelet) (N : ℕ) (scales : ScalesArg) (kw : SweepTKw) (r : List ℝ) (h : sweepStdT f p sw N scales kw = .ok r) :
    kw.extra = [] ∧ ∃ v st na nv, processScales scales N (some sw) none true 4 = .ok (v, st, na, nv) ∧ r.length = v.length ∧
      ∀ i < v.length, timeResolution f p (v.getD i 0) N (kw.minDecay.getD 1) (kw.maxMult.getD 2) (kw.minMult.getD 2) (kw.forceInt.getD true) (kw.nondim.getD false) = .ok (r.getD i 0) := by
  unfold sweepStdT at h
  split at h
  · cases h
  · rename_i he
    obtain ⟨⟨v, st, na, nv⟩, h1, h2⟩ := bind_ok h
    exact ⟨not_not.1 he, v, st, na, nv, h1, sweepMapM_getD h2⟩

/-- **C231, `sweep_std_w`.** -/
theorem C231_std_w (f : WFn) (p : ℝ) (sw : ScaleWavelet) (N : ℕ) (scales : ScalesArg) (kw : SweepWKw) (r : List ℝ) (h : sweepStdW f p sw N scales kw = .ok r) :
    kw.extra = [] ∧ ∃ v st na nv, processScales scales N (some sw) none true 4 = .ok (v, st, na, nv) ∧ r.length = v.length ∧
      ∀ i < v.length, r.getD i 0 = freqResolutionFull f p (v.getD i 0) N (kw.forceInt.getD true) (kw.nondim.getD false) := by
  unfold sweepStdW at h
  split at h
  · cases h
  · rename_i he
    obtain ⟨⟨v, st, na, nv⟩, h1, h2⟩ := bind_ok h
    cases h2
    refine ⟨not_not.1 he, v, st, na, nv, h1, by simp, fun i hi => ?_⟩
    rw [List.getD_eq_getElem _ _ (by simpa using hi), List.getElem_map, List.getD_eq_getElem _ _ hi]

/-- **C231, `sweep_harea`.** It returns for each scale, in order, the two resolutions at this scale and their product. -/
theorem C231_harea (f : WFn) (p : ℝ) (sw : ScaleWavelet) (N : ℕ) (scales : ScalesArg) (kwW : Option SweepWKw) (kwT : Option SweepTKw) (as ws ts : List ℝ)
    (h : sweepHarea f p sw N scales kwW kwT = .ok (as, ws, ts)) :
    ∃ v st na nv, processScales scales N (some sw) none true 4 = .ok (v, st, na, nv) ∧ as.length = v.length ∧ ws.length = v.length ∧ ts.length = v.length ∧
      ∀ i < v.length, as.getD i 0 = ws.getD i 0 * ts.getD i 0 ∧
        ws.getD i 0 = freqResolutionFull f p (v.getD i 0) N ((kwW.getD {}).forceInt.getD true) ((kwW.getD {}).nondim.getD false) ∧
        timeResolution f p (v.getD i 0) N ((kwT.getD {}).minDecay.getD 1) ((kwT.getD {}).maxMult.getD 2) ((kwT.getD {}).minMult.getD 2) ((kwT.getD {}).forceInt.getD true)
          ((kwT.getD {}).nondim.getD false) = .ok (ts.getD i 0) := by
  unfold sweepHarea at h
  obtain ⟨⟨v, st, na, nv⟩, h1, h⟩ := bind_ok h
  obtain ⟨ws', h2, h⟩ := bind_ok h
  obtain ⟨ts', h3, h⟩ := bind_ok h
  cases h
  obtain ⟨-, v2, _, _, _, p2, l2, e2⟩ := C231_std_w _ _ _ _ _ _ _ h2
  obtain ⟨-, v3, _, _, _, p3, l3, e3⟩ := C231_std_t _ _ _ _ _ _ _ h3
  obtain rfl : v2 = v := processArr_fst p2
  obtain rfl : v3 = v2 := processArr_fst p3
  refine ⟨v3, st, na, nv, h1, by simp [l2, l3], l2, l3, fun i hi => ⟨?_, e2 i hi, e3 i hi⟩⟩
  rw [List.getD_eq_getElem _ _ (by simp [l2, l3, hi]), List.getElem_zipWith, List.getD_eq_getElem _ _ (by omega), List.getD_eq_getElem _ _ (by omega)]

/-- **C231, unknown options** are refused by name before anything is computed, whatever the scales. -/
theorem C231_unknown (f : WFn) (p : ℝ) (sw : ScaleWavelet) (N : ℕ) (scales : ScalesArg) :
    (∀ kw : SweepTKw, kw.extra ≠ [] → sweepStdT f p sw N scales kw = .error .valueError) ∧
    (∀ kw : SweepWKw, kw.extra ≠ [] → sweepStdW f p sw N scales kw = .error .valueError) ∧
    ∀ kwW kwT as, (∃ kw, kwW = some kw ∧ kw.extra ≠ []) ∨ (∃ kw, kwT = some kw ∧ kw.extra ≠ []) → sweepHarea f p sw N scales kwW kwT ≠ .ok as := by
  refine ⟨fun kw h => if_pos h, fun kw h => if_pos h, fun kwW kwT as hk h => ?_⟩
  unfold sweepHarea at h
  obtain ⟨⟨v, st, na, nv⟩, h1, h⟩ := bind_ok h
  obtain ⟨ws', h2, h⟩ := bind_ok h
  obtain ⟨ts', h3, h⟩ := bind_ok h
  rcases hk with ⟨kw, rfl, hk⟩ | ⟨kw, rfl, hk⟩
  · exact hk (C231_std_w _ _ _ _ _ _ _ h2).1
  · exact hk (C231_std_t _ _ _ _ _ _ _ h3).1

/-- **C231, units.** The areas with `nondim=True` for both resolutions are the areas without, times the peak frequency of the wavelet sampled at `N` points over the one sampled at 1024
points: the same for `N = 1024`. -/
theorem C231_units (f : WFn) (p : ℝ) (sw : ScaleWavelet) (N : ℕ) (scales : ScalesArg) (w w' : SweepWKw) (t t' : SweepTKw)
    (hw : w' = { w with nondim := some true }) (hw0 : w.nondim.getD false = false) (ht : t' = { t with nondim := some true }) (ht0 : t.nondim.getD false = false)
    {as ws ts as' ws' ts' : List ℝ} (h : sweepHarea f p sw N scales (some w) (some t) = .ok (as, ws, ts)) (h' : sweepHarea f p sw N scales (some w') (some t') = .ok (as', ws', ts')) :
    as'.length = as.length ∧ ∃ v st na nv, processScales scales N (some sw) none true 4 = .ok (v, st, na, nv) ∧
      ∀ i < as.length, as'.getD i 0 = as.getD i 0 * (peakWc f (v.getD i 0) N / peakWc f (v.getD i 0) 1024) := by
  obtain ⟨v, st, na, nv, h1, l1, l2, l3, e⟩ := C231_harea _ _ _ _ _ _ _ _ _ _ h
  obtain ⟨v', _, _, _, h1', l1', -, -, e'⟩ := C231_harea _ _ _ _ _ _ _ _ _ _ h'
  rw [h1] at h1'
  cases h1'
  refine ⟨l1'.trans l1.symm, v, st, na, nv, h1, fun i hi => ?_⟩
  obtain ⟨a1, a2, a3⟩ := e i (l1 ▸ hi)
  obtain ⟨b1, b2, b3⟩ := e' i (l1 ▸ hi)
  subst hw ht
  simp only [Option.getD_some, hw0, ht0] at a2 a3 b2 b3
  rw [a1, b1, a2, b2]
  have hW : freqResolutionFull f p (v.getD i 0) N (w.forceInt.getD true) true = freqResolutionFull f p (v.getD i 0) N (w.forceInt.getD true) false / peakWc f (v.getD i 0) 1024 := by
    unfold freqResolutionFull
    simp
  have hT : ts'.getD i 0 = ts.getD i 0 * peakWc f (v.getD i 0) N := by
    unfold timeResolution at a3 b3
    obtain ⟨k, hk, a3⟩ := bind_ok a3
    obtain ⟨k', hk', b3⟩ := bind_ok b3
    rw [hk] at hk'
    cases hk'
    simp only [if_true, Bool.false_eq_true, if_false, Except.ok.injEq] at a3 b3
    rw [← a3, ← b3]
  rw [hW, hT]
  ring

/-! ### The hypotheses are met -/

theorem onesTime_ok (s : ℝ) (nd : Bool) : ∃ v, timeResolution (.real fun _ => 1) 1 s 16 1 2 2 true nd = .ok v := by
  have h : ∃ v, timeResolution (.real fun _ => 1) 1 s 16 1 2 2 true false = .ok v := by
    refine ⟨_, (C122_value (.real fun _ => 1) 1 s 16 (by norm_num) 1 2 2 (by norm_num) (by norm_num) _).2 ⟨2, le_rfl, le_rfl, ?_, by omega, rfl⟩⟩
    have hv : ∀ j < 32, (psi2 (.real fun _ => 1) s (2 * 16)).getD j 0 = if j = 16 then (1 - 1 / (2 * (32 : ℝ))) ^ 2 else (1 / (2 * (32 : ℝ))) ^ 2 := by
      intro j hj
      rw [psi2_getD, power2_one _ (by norm_num) (by norm_num) _ _ (by omega)]
      norm_num
    have hl : (psi2 (.real fun _ => 1) s (2 * 16)).length = 32 := psi2_length _ _ _
    refine ⟨16, by omega, ?_, ?_, ?_⟩
    · intro j hj
      rw [hl] at hj
      rw [hv j hj, hv 16 (by norm_num), if_pos rfl]
      split <;> norm_num
    · rw [hv 16 (by norm_num), if_pos rfl]; norm_num
    · rw [hl]
      simp only []
      rw [hv 16 (by norm_num), if_pos rfl]
      have : ∑ j ∈ Finset.range (min (max 10 (32 / 100)) 32), (psi2 (.real fun _ => 1) s (2 * 16)).getD j 0 = 10 * (1 / (2 * (32 : ℝ))) ^ 2 := by
        rw [Finset.sum_congr rfl (g := fun _ => (1 / (2 * (32 : ℝ))) ^ 2)]
        · simp
        · intro j hj
          rw [Finset.mem_range] at hj
          norm_num at hj
          rw [hv j (by omega), if_neg (by omega)]
      rw [this]
      norm_num
  obtain ⟨v, h⟩ := h
  unfold timeResolution at h ⊢
  obtain ⟨k, hk, -⟩ := bind_ok h
  dsimp only
  rw [hk]
  exact ⟨_, rfl⟩

theorem onesSweep_ok (nd : Bool) : ∃ as ws ts, sweepHarea (.real fun _ => 1) 1 sw0 16 sc124 (some { nondim := some nd }) (some { nondim := some nd }) = .ok (as, ws, ts) := by
  obtain ⟨a, ha⟩ := onesTime_ok 1 nd
  obtain ⟨b, hb⟩ := onesTime_ok 2 nd
  obtain ⟨c, hc⟩ := onesTime_ok 4 nd
  have e : ScalesArg.arr [([1, 2, 4] : List ℝ).length, 1] .f64 [1, 2, 4] = sc124c := rfl
  have hm : ([1, 2, 4] : List ℝ).mapM (fun s => timeResolution (.real fun _ => 1) 1 s 16 1 2 2 true nd) = .ok [a, b, c] := by
    simp only [List.mapM_cons, List.mapM_nil, ha, hb, hc]
    rfl
  set ws := ([1, 2, 4] : List ℝ).map fun s => freqResolutionFull (.real fun _ => 1) 1 s 16 true nd with hws
  refine ⟨List.zipWith (· * ·) ws [a, b, c], ws, [a, b, c], ?_⟩
  unfold sweepHarea
  rw [process124]
  simp only [Except.bind]
  rw [e]
  unfold sweepStdW sweepStdT
  simp only [Option.getD_some, ne_eq, not_true_eq_false, if_false, process124c, Except.bind, Option.getD_none, hm, hws]

/-- Three scales, 16 samples: the areas with and without units are what `C231_units` says. -/
example : ∃ as ws ts as' ws' ts', sweepHarea (.real fun _ => 1) 1 sw0 16 sc124 (some { nondim := some false }) (some { nondim := some false }) = .ok (as, ws, ts) ∧
    sweepHarea (.real fun _ => 1) 1 sw0 16 sc124 (some { nondim := some true }) (some { nondim := some true }) = .ok (as', ws', ts') ∧ as'.length = as.length ∧ as.length = 3 := by
  obtain ⟨as, ws, ts, h⟩ := onesSweep_ok false
  obtain ⟨as', ws', ts', h'⟩ := onesSweep_ok true
  obtain ⟨v, st, na, nv, h1, l1, -⟩ := C231_harea _ _ _ _ _ _ _ _ _ _ h
  rw [process124] at h1
  cases h1
  exact ⟨as, ws, ts, as', ws', ts', h, h', (C231_units _ _ _ _ _ _ _ _ _ rfl rfl rfl rfl h h').1, l1⟩

end Ssq
