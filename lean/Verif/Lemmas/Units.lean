import Verif.Lemmas.Covariance

/-! Helper lemmas about changing the unit of time. -/
namespace Ssq
open Finset Complex

/-- A list in another unit. -/
def inUnit (c : ℝ) (v : List ℝ) : List ℝ := v.map fun y => c * y

@[simp] theorem inUnit_length (c : ℝ) (v : List ℝ) : (inUnit c v).length = v.length := by simp [inUnit]

theorem inUnit_getD (c : ℝ) (v : List ℝ) (i : ℕ) (d : ℝ) (hi : i < v.length) : (inUnit c v).getD i d = c * v.getD i d := by
  rw [List.getD_eq_getElem _ _ (by simpa using hi), List.getD_eq_getElem _ _ hi]; simp [inUnit]

theorem inUnit_reverse (c : ℝ) (v : List ℝ) : (inUnit c v).reverse = inUnit c v.reverse := by simp [inUnit]

theorem getD_pos {v : List ℝ} (hv : ∀ y ∈ v, 0 < y) {i : ℕ} (hi : i < v.length) (d : ℝ) : 0 < v.getD i d := by
  rw [List.getD_eq_getElem _ _ hi]; exact hv _ (List.getElem_mem hi)

theorem absDiff2Log_unit {c : ℝ} (hc : 0 < c) {v : List ℝ} (hv : ∀ y ∈ v, 0 < y) : absDiff2Log (inUnit c v) = absDiff2Log v := by
  unfold absDiff2Log
  rw [inUnit_length]
  refine List.map_congr_left fun i hi => ?_
  have hi := List.mem_range.1 hi
  rw [inUnit_getD _ _ _ _ (by omega), inUnit_getD _ _ _ _ (by omega), inUnit_getD _ _ _ _ (by omega),
    Real.log_mul hc.ne' (getD_pos hv (by omega) _).ne', Real.log_mul hc.ne' (getD_pos hv (by omega) _).ne',
    Real.log_mul hc.ne' (getD_pos hv (by omega) _).ne']
  congr 1
  ring

theorem transIdx_unit {c : ℝ} (hc : 0 < c) (th : ℝ) {v : List ℝ} (hv : ∀ y ∈ v, 0 < y) :
    logscaleTransitionIdx th (inUnit c v) = logscaleTransitionIdx th v := by
  unfold logscaleTransitionIdx
  rw [absDiff2Log_unit hc hv]

/-- The parameters of a kernel for frequencies in another unit. -/
noncomputable def BinParams.inUnit (c : ℝ) : BinParams → BinParams
  | .lin v d => .lin (c * v) (c * d)
  | .log l d => .log (Real.logb 2 c + l) d
  | .logPiecewise l0 l1 d0 d1 i => .logPiecewise (Real.logb 2 c + l0) (Real.logb 2 c + l1) d0 d1 i

theorem transIdx_len {th : ℝ} {v : List ℝ} {o : Option ℕ} (h : logscaleTransitionIdx th v = .ok o) :
    3 ≤ v.length ∧ ∀ i, o = some i → 2 ≤ i ∧ i < v.length := by
  unfold logscaleTransitionIdx at h
  simp only at h
  split at h
  · simp at h
  next hne =>
  have hl : 0 < (absDiff2Log v).length := List.length_pos_iff.2 hne
  have hl' : (absDiff2Log v).length = v.length - 2 := by simp [absDiff2Log]
  refine ⟨by omega, fun i hi => ?_⟩
  have harg : argmaxL (absDiff2Log v) < (absDiff2Log v).length := argmaxL_lt _ hne
  split at h
  · simp only [Except.ok.injEq] at h; rw [← h] at hi; simp at hi
  · split at h
    · simp only [Except.ok.injEq] at h; rw [← h] at hi; simp at hi
    · simp only [Except.ok.injEq] at h; rw [← h] at hi
      simp only [Option.some.injEq] at hi
      omega

theorem params_log_unit {c : ℝ} (hc : 0 < c) (th : ℝ) {v : List ℝ} (hv : ∀ y ∈ v, 0 < y) :
    processSsqParams th (inUnit c v) true = (processSsqParams th v true).map (BinParams.inUnit c) := by
  unfold processSsqParams
  simp only [if_true]
  unfold paramsFindClosestLog
  rw [transIdx_unit hc th hv]
  cases h : logscaleTransitionIdx th v with
  | error e => rfl
  | ok o =>
    obtain ⟨h3, hi⟩ := transIdx_len h
    have hl : ∀ i < v.length, Real.logb 2 ((inUnit c v).getD i 1) = Real.logb 2 c + Real.logb 2 (v.getD i 1) := by
      intro i hi
      rw [inUnit_getD _ _ _ _ hi, Real.logb_mul hc.ne' (getD_pos hv hi _).ne']
    simp only [ok_bind]
    cases o with
    | none =>
      simp only [pure_eq_ok, Except.map, BinParams.inUnit]
      rw [hl 0 (by omega), hl 1 (by omega), add_sub_add_left_eq_sub]
    | some i =>
      have := hi i rfl
      simp only [pure_eq_ok, Except.map, BinParams.inUnit]
      rw [hl 0 (by omega), hl 1 (by omega), hl i (by omega), hl (i - 1) (by omega), add_sub_add_left_eq_sub, add_sub_add_left_eq_sub]

theorem params_lin_unit {c : ℝ} (th : ℝ) {v : List ℝ} (h1 : eps64 ≤ v.getD 1 0 - v.getD 0 0)
    (h2 : eps64 ≤ c * (v.getD 1 0 - v.getD 0 0)) :
    processSsqParams th (inUnit c v) false = (processSsqParams th v false).map (BinParams.inUnit c) := by
  unfold processSsqParams inUnit
  simp only [Bool.false_eq_true, if_false]
  match v, h1, h2 with
  | [], _, _ => rfl
  | [a], _, _ => rfl
  | a :: b :: l, h1, h2 =>
    simp only [List.getD_cons_succ, List.getD_cons_zero] at h1 h2
    simp only [List.map_cons, Except.map, BinParams.inUnit, ← mul_sub]
    rw [ensure_of_le h1, ensure_of_le h2]

theorem log2E_unit {c : ℝ} (hc : 0 < c) (w : ℝ) :
    log2E (c * w) = match log2E w with | ⊥ => ⊥ | (x : ℝ) => ((Real.logb 2 c + x : ℝ) : WithBot ℝ) := by
  unfold log2E
  by_cases hw : w = 0
  · subst hw; simp
  · rw [if_neg (mul_ne_zero hc.ne' hw), if_neg hw, Real.logb_mul hc.ne' hw]

theorem binTP_unit (d : Device) {c : ℝ} (hc : 0 < c) (p : BinParams) (omax : ℤ) (w : ℝ) :
    binTP d (p.inUnit c) omax (c * w) = binTP d p omax w := by
  have hlin : ∀ v e : ℝ, (c * w - c * v) / (c * e) = (w - v) / e := fun v e => by
    rw [← mul_sub, mul_div_mul_left _ _ hc.ne']
  have hlog : ∀ x l e : ℝ, (Real.logb 2 c + x - (Real.logb 2 c + l)) / e = (x - l) / e := fun x l e => by
    rw [add_sub_add_left_eq_sub]
  cases d with
  | cpu =>
    show binTwoPass _ _ _ = binTwoPass _ _ _
    cases p with
    | lin v e => simp only [BinParams.inUnit, binTwoPass, hlin]
    | log l e =>
      simp only [BinParams.inUnit, binTwoPass]
      rw [log2E_unit hc]
      cases log2E w with
      | bot => rfl
      | coe x => simp only [relPos, hlog]
    | logPiecewise l0 l1 d0 d1 i =>
      simp only [BinParams.inUnit, binTwoPass]
      rw [log2E_unit hc]
      cases log2E w with
      | bot => rfl
      | coe x => simp only [hlog, add_lt_add_iff_left]
  | gpu =>
    show binGpu _ _ _ = binGpu _ _ _
    cases p with
    | lin v e => simp only [BinParams.inUnit, binGpu, hlin]
    | log l e =>
      simp only [BinParams.inUnit, binGpu]
      rw [log2E_unit hc]
      cases log2E w with
      | bot => rfl
      | coe x => simp only [hlog]
    | logPiecewise l0 l1 d0 d1 i =>
      simp only [BinParams.inUnit, binGpu]
      rw [log2E_unit hc]
      cases log2E w with
      | bot => rfl
      | coe x => simp only [hlog, add_lt_add_iff_left]

/-- A phase in another unit. -/
noncomputable def Phase.inUnit (c : ℝ) : Phase → Phase
  | .inf => .inf
  | .fin w => .fin (c * w)

theorem onfly_unit (dev : Device) (th : ℝ) (M N : ℕ) (out : ℤ → ℕ → ℂ) (W : ℕ → ℕ → ℂ) (w : ℕ → ℕ → Phase) (v : List ℝ) (const : ConstArg)
    (ls fl : Bool) {c : ℝ} (hc : 0 < c)
    (hp : processSsqParams th (inUnit c v) ls = (processSsqParams th v ls).map (BinParams.inUnit c)) :
    indexedSumOnfly dev th M N out W (fun i j => (w i j).inUnit c) (inUnit c v) const ls fl =
      indexedSumOnfly dev th M N out W w v const ls fl := by
  unfold indexedSumOnfly onflyBody
  rw [hp]
  cases constArr M const with
  | error e => rfl
  | ok cc =>
    cases processSsqParams th v ls with
    | error e => rfl
    | ok p =>
      simp only [ok_bind, Except.map, pure_eq_ok]
      congr 3
      funext i j
      unfold indexedSumBody
      beta_reduce
      cases w i j with
      | inf => rfl
      | fin y => simp only [Phase.inUnit, binTP_unit dev hc]

/-! ### Frequencies -/

theorem logFreqs_unit {c : ℝ} (hc : 0 < c) (fm fM : ℝ) (na : ℕ) : logFreqs (c * fm) (c * fM) na = inUnit c (logFreqs fm fM na) := by
  unfold logFreqs inUnit
  rw [List.map_map]
  refine List.map_congr_left fun i _ => ?_
  show _ = c * (fm * (fM / fm) ^ ((i : ℝ) / ((na : ℝ) - 1)))
  rw [mul_div_mul_left _ _ hc.ne', mul_assoc]

theorem logFreqs_pos {fm fM : ℝ} (h1 : 0 < fm) (h2 : 0 < fM) (na : ℕ) : ∀ y ∈ logFreqs fm fM na, 0 < y := by
  unfold logFreqs
  intro y hy
  obtain ⟨i, _, rfl⟩ := List.mem_map.1 hy
  exact mul_pos h1 (Real.rpow_pos_of_pos (div_pos h2 h1) _)

theorem linspace_unit (c fm fM : ℝ) (na : ℕ) : linspace (c * fm) (c * fM) na = inUnit c (linspace fm fM na) := by
  unfold linspace inUnit
  rw [List.map_map]
  refine List.map_congr_left fun i _ => ?_
  show c * fm + i * ((c * fM - c * fm) / ((na - 1 : ℕ) : ℝ)) = c * (fm + i * ((fM - fm) / ((na - 1 : ℕ) : ℝ)))
  ring

theorem expFm_pos {tmin tmax f0 f1 : ℝ} (h0 : 0 < f0) (h1 : 0 < f1) (t : ℝ) : 0 < expFm tmin tmax f0 f1 t := by
  unfold expFm
  have ha : 0 < (f0 ^ tmax / f1 ^ tmin) ^ (1 / (tmax - tmin)) :=
    Real.rpow_pos_of_pos (div_pos (Real.rpow_pos_of_pos h0 _) (Real.rpow_pos_of_pos h1 _)) _
  exact mul_pos ha (Real.rpow_pos_of_pos (mul_pos (Real.rpow_pos_of_pos h1 _) (Real.rpow_pos_of_pos (one_div_pos.2 ha) _)) _)

theorem expFm_unit {c : ℝ} (hc : 0 < c) {tmin tmax f0 f1 : ℝ} (h0 : 0 < f0) (h1 : 0 < f1) (ht : tmin ≠ tmax) (t : ℝ) :
    expFm tmin tmax (c * f0) (c * f1) t = c * expFm tmin tmax f0 f1 t := by
  unfold expFm
  have hd : tmax - tmin ≠ 0 := sub_ne_zero.2 ht.symm
  have hR : 0 < f0 ^ tmax / f1 ^ tmin := div_pos (Real.rpow_pos_of_pos h0 _) (Real.rpow_pos_of_pos h1 _)
  have ha : ((c * f0) ^ tmax / (c * f1) ^ tmin) ^ (1 / (tmax - tmin)) = c * (f0 ^ tmax / f1 ^ tmin) ^ (1 / (tmax - tmin)) := by
    rw [Real.mul_rpow hc.le h0.le, Real.mul_rpow hc.le h1.le, mul_div_mul_comm, ← Real.rpow_sub hc,
      Real.mul_rpow (Real.rpow_pos_of_pos hc _).le hR.le, ← Real.rpow_mul hc.le, mul_one_div_cancel hd, Real.rpow_one]
  simp only
  rw [ha]
  set A := (f0 ^ tmax / f1 ^ tmin) ^ (1 / (tmax - tmin)) with hA
  have hA0 : 0 < A := Real.rpow_pos_of_pos hR _
  rw [Real.mul_rpow hc.le h1.le, one_div (c * A), mul_inv, Real.mul_rpow (inv_pos.2 hc).le (inv_pos.2 hA0).le,
    Real.inv_rpow hc.le, one_div A]
  have hcp : c ^ (1 / tmax) ≠ 0 := (Real.rpow_pos_of_pos hc _).ne'
  rw [show c ^ (1 / tmax) * f1 ^ (1 / tmax) * ((c ^ (1 / tmax))⁻¹ * A⁻¹ ^ (1 / tmax)) = f1 ^ (1 / tmax) * A⁻¹ ^ (1 / tmax) by
    field_simp]
  ring

theorem piecewise_pos {f0 f1 f2 : ℝ} (h0 : 0 < f0) (h1 : 0 < f1) (h2 : 0 < f2) (na idx : ℕ) : ∀ y ∈ piecewiseFreqs f0 f1 f2 na idx, 0 < y := by
  unfold piecewiseFreqs
  intro y hy
  rcases List.mem_append.1 hy with hy | hy
  · obtain ⟨i, _, rfl⟩ := List.mem_map.1 hy
    exact expFm_pos h0 h1 _
  · obtain ⟨i, _, rfl⟩ := List.mem_map.1 hy
    exact expFm_pos h1 h2 _

theorem piecewise_unit {c : ℝ} (hc : 0 < c) {f0 f1 f2 : ℝ} (h0 : 0 < f0) (h1 : 0 < f1) (h2 : 0 < f2) {na idx : ℕ} (hi : 2 ≤ idx)
    (hn : idx < na) : piecewiseFreqs (c * f0) (c * f1) (c * f2) na idx = inUnit c (piecewiseFreqs f0 f1 f2 na idx) := by
  have hna : (0 : ℝ) < (na : ℝ) - 1 := by
    have : (3 : ℝ) ≤ na := by exact_mod_cast (show 3 ≤ na by omega)
    linarith
  unfold piecewiseFreqs inUnit
  simp only [List.map_append, List.map_map]
  congr 1
  · refine List.map_congr_left fun i hq => ?_
    have hq := List.mem_range.1 hq
    refine expFm_unit hc h0 h1 ?_ _
    intro h
    rw [div_left_inj' hna.ne'] at h
    have : 0 = na - idx - 1 := by exact_mod_cast h
    omega
  · refine List.map_congr_left fun i _ => ?_
    refine expFm_unit hc h1 h2 ?_ _
    intro h
    rw [div_left_inj' hna.ne'] at h
    have : na - idx - 1 = na - 1 := by exact_mod_cast h
    omega

end Ssq
