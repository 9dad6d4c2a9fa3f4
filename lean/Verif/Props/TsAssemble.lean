import Verif.Model.TsAssemble
import Verif.Lemmas.Configs
import Verif.Lemmas.PyM
import Mathlib.Algebra.BigOperators.Group.List.Basic
import Mathlib.Data.List.GetD
import Mathlib.Analysis.SpecialFunctions.Pow.Real

/-!
# C199: noise of the signal-to-noise ratio asked for; C200: carrier, modulator and reversal in `make_signals`
-/
namespace Ssq
open Finset

namespace Spec

/-- The mean of a list. -/
noncomputable def mean (x : List ℝ) : ℝ := (∑ i ∈ range x.length, x.getD i 0) / x.length

/-- The variance of a list. -/
noncomputable def variance (x : List ℝ) : ℝ := (∑ i ∈ range x.length, (x.getD i 0 - mean x) ^ 2) / x.length

/-- The signal-to-noise ratio in decibel. -/
noncomputable def snrDb (x noise : List ℝ) : ℝ := 10 * Real.logb 10 (variance x / variance noise)

end Spec

theorem ts_sum_range (x : List ℝ) : x.sum = ∑ i ∈ range x.length, x.getD i 0 := by
  induction x with
  | nil => simp
  | cons a x ih => rw [List.sum_cons, ih, List.length_cons, sum_range_succ']; simp [add_comm]

theorem npVar_eq (x : List ℝ) : npVar x = Spec.variance x := by
  unfold npVar Spec.variance Spec.mean
  rw [ts_sum_range (x.map _), ts_sum_range x, List.length_map]
  congr 1
  refine sum_congr rfl fun i hi => ?_
  have hi := mem_range.1 hi
  rw [List.getD_eq_getElem _ _ (by simpa using hi), List.getElem_map, List.getD_eq_getElem _ _ hi]

theorem variance_smul (c : ℝ) (r : List ℝ) : Spec.variance (r.map fun v => c * v) = c ^ 2 * Spec.variance r := by
  have hg : ∀ i, (r.map fun v => c * v).getD i 0 = c * r.getD i 0 := by
    intro i
    by_cases h : i < r.length
    · rw [List.getD_eq_getElem _ _ (by simpa using h), List.getElem_map, List.getD_eq_getElem _ _ h]
    · rw [List.getD_eq_default _ _ (by simpa using h), List.getD_eq_default _ _ (by simpa using h), mul_zero]
  have hm : Spec.mean (r.map fun v => c * v) = c * Spec.mean r := by
    unfold Spec.mean
    rw [List.length_map, sum_congr rfl fun i _ => hg i, ← mul_sum, mul_div_assoc]
  unfold Spec.variance
  rw [hm, List.length_map, sum_congr rfl fun i _ => by rw [hg i, ← mul_sub, mul_pow], ← mul_sum, mul_div_assoc]

/-- **C199, full statement**: for every SNR asked for, what is added to the signal is noise whose variance is the one asked for, up to the
variance of the random numbers drawn, and the SNR reported is that of signal and noise. -/
def C199_full : Prop := ∀ (s : ℝ) (x r : List ℝ), r.length = x.length → 0 < Spec.variance x → 0 < Spec.variance r →
  ∃ noise, noise.length = x.length ∧ (tsAddNoise (some s) r x).1 = List.zipWith (· + ·) x noise ∧
    Spec.variance noise = Spec.variance x / 10 ^ (s / 10) * Spec.variance r ∧
    (tsAddNoise (some s) r x).2 = some (Spec.snrDb x noise)

/-- **C199, refuted**: no noise is added for 0 dB. -/
theorem C199_refuted : ¬ C199_full := by
  intro h
  have hv : 0 < Spec.variance [0, 2] := by
    norm_num [Spec.variance, Spec.mean, sum_range_succ]
  obtain ⟨noise, -, -, -, h4⟩ := h 0 [0, 2] [0, 2] rfl hv hv
  simp [tsAddNoise] at h4

/-- **C199.** For every SNR but zero: the noise is the random numbers drawn times one factor, its variance is the one asked for times theirs, and
the SNR reported is that of the signal and the noise added, the one asked for minus `10 log10` of the variance of the random numbers. -/
theorem C199_noise_partial (s : ℝ) (hs : s ≠ 0) (x r : List ℝ) (hr : r.length = x.length) (hx : 0 < Spec.variance x)
    (hv : 0 < Spec.variance r) :
    ∃ (k : ℝ) (noise : List ℝ), noise = r.map (k * ·) ∧ noise.length = x.length ∧
      (tsAddNoise (some s) r x).1 = List.zipWith (· + ·) x noise ∧
      Spec.variance noise = Spec.variance x / 10 ^ (s / 10) * Spec.variance r ∧
      (tsAddNoise (some s) r x).2 = some (Spec.snrDb x noise) ∧
      Spec.snrDb x noise = s - 10 * Real.logb 10 (Spec.variance r) := by
  have h10 : (0 : ℝ) < 10 ^ (s / 10) := Real.rpow_pos_of_pos (by norm_num) _
  have hvar : Spec.variance (r.map fun v => Real.sqrt (npVar x / 10 ^ (s / 10)) * v) =
      Spec.variance x / 10 ^ (s / 10) * Spec.variance r := by
    rw [variance_smul, npVar_eq, Real.sq_sqrt (div_nonneg hx.le h10.le)]
  refine ⟨Real.sqrt (npVar x / 10 ^ (s / 10)), _, rfl, by simpa using hr, ?_, hvar, ?_, ?_⟩
  · simp [tsAddNoise, hs]
  · unfold tsAddNoise Spec.snrDb
    simp only [hs, if_false, npVar_eq]
  · unfold Spec.snrDb
    rw [hvar]
    have e : Spec.variance x / (Spec.variance x / 10 ^ (s / 10) * Spec.variance r) = 10 ^ (s / 10) / Spec.variance r := by
      field_simp
    rw [e, Real.logb_div h10.ne' hv.ne', Real.logb_rpow (by norm_num) (by norm_num)]
    ring

/-- **C199.** Without an SNR, or with 0, the signal is returned as it is and no SNR is reported; an instance made with `snr=0` has none. -/
theorem C199_none (r x : List ℝ) : tsAddNoise none r x = (x, none) ∧ tsAddNoise (some 0) r x = (x, none) ∧ tsSnrInit (some 0) = none ∧
    ∀ s, s ≠ 0 → tsSnrInit (some s) = some s := by
  refine ⟨rfl, by simp [tsAddNoise], by simp [tsSnrInit], fun s hs => by simp [tsSnrInit, hs]⟩

/-- **C199.** The noise is added last: to the signal as it is made without noise (`C200`), with one random number per sample. -/
theorem C199_last {V : Type} (carrier : PyDict V → Py (List ℝ × List ℝ)) (mod : ℕ → PyDict V → Py (List ℝ)) (rev : Bool) (snr : Option ℝ)
    (rand : ℕ → List ℝ) (fp ap : PyDict V) : tsSignal carrier mod rev snr rand fp ap = (tsSignal carrier mod rev none rand fp ap).map
      fun o => ((tsAddNoise snr (rand o.1.length) o.1).1, o.2.1, (tsAddNoise snr (rand o.1.length) o.1).2) := by
  unfold tsSignal
  cases carrier (PyDict.erase fp "snr".toList) with
  | error e => rfl
  | ok c =>
    simp only [ok_bind]
    cases tsAmKw ap (tsTkw fp ap) with
    | error e => rfl
    | ok kw =>
      simp only [ok_bind]
      cases mod c.1.length kw with
      | error e => rfl
      | ok m => rfl

example : ([0, 2] : List ℝ).length = ([5, 1] : List ℝ).length ∧ 0 < Spec.variance [5, 1] ∧ 0 < Spec.variance [0, 2] := by
  norm_num [Spec.variance, Spec.mean, sum_range_succ]

/-! ## C200 -/

variable {V : Type}

theorem tkw_fold_some (l d : PyDict V) (k : PyS) :
    ((l.foldl (fun d e => if e.1 ∈ tsTimeKeys then d.set e.1 e.2 else d) d).find k).isSome = true ↔
      (d.find k).isSome = true ∨ (k ∈ tsTimeKeys ∧ k ∈ PyDict.keys l) := by
  induction l generalizing d with
  | nil => simp [PyDict.keys]
  | cons e l ih =>
    rw [List.foldl_cons, ih]
    have hk : PyDict.keys (e :: l) = e.1 :: PyDict.keys l := rfl
    rw [hk, List.mem_cons]
    by_cases h : e.1 ∈ tsTimeKeys
    · rw [if_pos h, find_set]
      by_cases he : e.1 = k
      · subst he; simp [h]
      · rw [if_neg he]
        have : ¬ k = e.1 := fun h' => he h'.symm
        simp [this]
    · rw [if_neg h]
      constructor
      · rintro (h1 | h1)
        · exact Or.inl h1
        · exact Or.inr ⟨h1.1, Or.inr h1.2⟩
      · rintro (h1 | ⟨h1, rfl | h2⟩)
        · exact Or.inl h1
        · exact absurd h1 h
        · exact Or.inr ⟨h1, h2⟩

theorem tkw_fold_find (l d : PyDict V) (hl : (PyDict.keys l).Nodup) (k : PyS) :
    (l.foldl (fun d e => if e.1 ∈ tsTimeKeys then d.set e.1 e.2 else d) d).find k =
      if k ∈ tsTimeKeys then (PyDict.find l k).or (d.find k) else d.find k := by
  induction l generalizing d with
  | nil => simp [PyDict.find]
  | cons e l ih =>
    have hn : e.1 ∉ PyDict.keys l ∧ (PyDict.keys l).Nodup := List.nodup_cons.1 hl
    rw [List.foldl_cons, ih _ hn.2, find_cons]
    by_cases h : e.1 ∈ tsTimeKeys
    · rw [if_pos h, find_set]
      by_cases he : e.1 = k
      · subst he
        rw [(find_none_iff l e.1).2 hn.1]
        simp [h]
      · simp [he]
    · rw [if_neg h]
      by_cases hk : k ∈ tsTimeKeys
      · have he : e.1 ≠ k := fun h' => h (h' ▸ hk)
        simp [hk, he]
      · simp [hk]

theorem tkw_fold_skip (l d : PyDict V) (h : ∀ e ∈ l, e.1 ∉ tsTimeKeys) :
    l.foldl (fun d e => if e.1 ∈ tsTimeKeys then d.set e.1 e.2 else d) d = d := by
  induction l with
  | nil => rfl
  | cons e l ih =>
    rw [List.foldl_cons, if_neg (h e List.mem_cons_self), ih fun e' he => h e' (List.mem_cons_of_mem _ he)]

theorem isSome_iff_keys (d : PyDict V) (k : PyS) : (d.find k).isSome = true ↔ k ∈ d.keys := by
  have := find_none_iff d k
  rw [← Option.not_isSome_iff_eq_none] at this
  tauto

/-- The keywords of the time axis. -/
def Spec.timeKeys : List PyS := ["tmin".toList, "tmax".toList, "endpoint".toList]

theorem timeKeys_eq : Spec.timeKeys = tsTimeKeys := rfl

/-- **C200, full statement**: the modulator may be given a time axis of its own ("`aparams` take precedence"); if carrier and modulator
never fail, neither does the call. -/
def C200_full : Prop := ∀ (carrier : PyDict ℝ → List ℝ × List ℝ) (mod : ℕ → PyDict ℝ → List ℝ) (rev : Bool) (fp ap : PyDict ℝ),
  ∃ o, tsSignal (fun kw => .ok (carrier kw)) (fun n kw => .ok (mod n kw)) rev none (fun _ => []) fp ap = .ok o

/-- **C200**, what happens: any keyword of the time axis among the modulator's parameters is a `TypeError`, whatever the signal. -/
theorem C200_rejects (carrier : PyDict V → Py (List ℝ × List ℝ)) (mod : ℕ → PyDict V → Py (List ℝ)) (rev : Bool) (snr : Option ℝ)
    (rand : ℕ → List ℝ) (fp ap : PyDict V) (c : List ℝ × List ℝ) (hc : carrier (PyDict.erase fp "snr".toList) = .ok c) (k : PyS)
    (hk : k ∈ Spec.timeKeys) (h : k ∈ PyDict.keys ap) : tsSignal carrier mod rev snr rand fp ap = .error .typeError := by
  rw [timeKeys_eq] at hk
  have : tsAmKw ap (tsTkw fp ap) = .error .typeError := by
    unfold tsAmKw
    rw [if_pos]
    obtain ⟨e, he, hek⟩ := List.mem_map.1 h
    rw [List.any_eq_true]
    refine ⟨e, he, ?_⟩
    unfold tsTkw
    rw [tkw_fold_some]
    right
    have hek : e.1 = k := hek
    rw [hek]
    refine ⟨hk, ?_⟩
    unfold PyDict.keys
    rw [List.map_append, List.mem_append]
    exact Or.inr h
  unfold tsSignal
  rw [hc, ok_bind, this, error_bind]

/-- **C200, refuted**. -/
theorem C200_refuted : ¬ C200_full := by
  intro h
  obtain ⟨o, ho⟩ := h (fun _ => ([1, 2], [0, 1])) (fun _ _ => [1, 1]) false [] [("tmin".toList, 0)]
  rw [C200_rejects (V := ℝ) _ _ _ _ _ _ _ ([1, 2], [0, 1]) rfl "tmin".toList (by decide) (by simp [PyDict.keys])] at ho
  cases ho

/-- **C200.** If the modulator's parameters leave the time axis alone, it gets its own parameters and the carrier's time axis, and
every sample of the signal is that of the carrier times that of the modulator, plus, for `#` names, the same sample counted from the end. -/
theorem C200_assembled_partial (carrier : PyDict V → Py (List ℝ × List ℝ)) (mod : ℕ → PyDict V → Py (List ℝ)) (rev : Bool)
    (rand : ℕ → List ℝ) (fp ap : PyDict V) (hfp : fp.keys.Nodup) (hap : ∀ k ∈ Spec.timeKeys, k ∉ ap.keys) (c : List ℝ × List ℝ)
    (hc : carrier (PyDict.erase fp "snr".toList) = .ok c) :
    ∃ kw : PyDict V, (∀ k, kw.find k = if k ∈ Spec.timeKeys then fp.find k else ap.find k) ∧
      (∀ e, mod c.1.length kw = .error e → tsSignal carrier mod rev none rand fp ap = .error e) ∧
      ∀ m, mod c.1.length kw = .ok m → m.length = c.1.length → ∃ y, tsSignal carrier mod rev none rand fp ap = .ok (y, c.2, none) ∧
        y.length = c.1.length ∧ ∀ n < c.1.length, y.getD n 0 = c.1.getD n 0 * m.getD n 0 +
          if rev then c.1.getD (c.1.length - 1 - n) 0 * m.getD (c.1.length - 1 - n) 0 else 0 := by
  rw [timeKeys_eq] at *
  have hmem : ∀ e ∈ ap, e.1 ∉ tsTimeKeys := fun e he hk => hap e.1 hk (List.mem_map_of_mem (f := (·.1)) he)
  have hfind : ∀ k, (tsTkw fp ap).find k = if k ∈ tsTimeKeys then fp.find k else none := by
    intro k
    unfold tsTkw
    rw [List.foldl_append, tkw_fold_skip ap _ hmem, tkw_fold_find fp [] hfp]
    simp [PyDict.find]
  have hkw : tsAmKw ap (tsTkw fp ap) = .ok (ap ++ tsTkw fp ap) := by
    unfold tsAmKw
    rw [if_neg]
    rw [List.any_eq_true]
    rintro ⟨e, he, h⟩
    rw [hfind, if_neg (hmem e he)] at h
    simp at h
  refine ⟨ap ++ tsTkw fp ap, fun k => ?_, fun e he => ?_, fun m hm hl => ?_⟩
  · rw [find_append, hfind]
    by_cases hk : k ∈ tsTimeKeys
    · rw [if_pos hk, if_pos hk, (find_none_iff ap k).2 (hap k hk)]; simp
    · rw [if_neg hk, if_neg hk]; simp
  · unfold tsSignal
    rw [hc, ok_bind, hkw, ok_bind, he, error_bind]
  · have hzl : (List.zipWith (· * ·) c.1 m).length = c.1.length := by simp [hl]
    have hz : ∀ n < c.1.length, (List.zipWith (· * ·) c.1 m).getD n 0 = c.1.getD n 0 * m.getD n 0 := by
      intro n hn
      rw [List.getD_eq_getElem _ _ (by omega), List.getElem_zipWith, List.getD_eq_getElem _ _ hn, List.getD_eq_getElem _ _ (by omega)]
    refine ⟨if rev then List.zipWith (· + ·) (List.zipWith (· * ·) c.1 m) (List.zipWith (· * ·) c.1 m).reverse
      else List.zipWith (· * ·) c.1 m, ?_, ?_, ?_⟩
    · unfold tsSignal
      rw [hc, ok_bind, hkw, ok_bind, hm, ok_bind]
      rfl
    · cases rev <;> simp [hl]
    · intro n hn
      cases rev
      · simpa using hz n hn
      · simp only [if_true]
        rw [← hz n hn, ← hz (c.1.length - 1 - n) (by omega)]
        generalize List.zipWith (· * ·) c.1 m = z at *
        rw [List.getD_eq_getElem _ _ (by simp; omega), List.getElem_zipWith, List.getElem_reverse, List.getD_eq_getElem _ _ (by omega),
          List.getD_eq_getElem _ _ (by omega)]
        simp only [hzl]

/-- **C200.** Signals with `#` names are, without noise, the same forwards and backwards. -/
theorem C200_palindrome (carrier : PyDict V → Py (List ℝ × List ℝ)) (mod : ℕ → PyDict V → Py (List ℝ)) (rand : ℕ → List ℝ)
    (fp ap : PyDict V) (o : List ℝ × List ℝ × Option ℝ) (h : tsSignal carrier mod true none rand fp ap = .ok o) : o.1.reverse = o.1 := by
  unfold tsSignal at h
  obtain ⟨c, -, h⟩ := bind_ok h
  obtain ⟨kw, -, h⟩ := bind_ok h
  obtain ⟨m, -, h⟩ := bind_ok h
  simp only [if_true, tsAddNoise, Except.ok.injEq] at h
  rw [← h]
  generalize List.zipWith (· * ·) c.1 m = z
  apply List.ext_getElem
  · simp
  · intro n h1 h2
    simp only [List.getElem_reverse, List.getElem_zipWith, List.length_zipWith, List.length_reverse, min_self]
    simp only [List.length_zipWith, List.length_reverse, min_self] at h2
    rw [add_comm]
    congr 1
    congr 1
    omega

example : ∃ y, tsSignal (V := ℝ) (fun _ => .ok ([1, 2, 3], [0, 1, 2])) tsOnes true none (fun _ => []) [("tmin".toList, 0)] [] =
    .ok (y, [0, 1, 2], none) ∧ y.getD 0 0 = 1 * 1 + 3 * 1 := by
  obtain ⟨kw, -, -, h⟩ := C200_assembled_partial (V := ℝ) (fun _ => .ok ([1, 2, 3], [0, 1, 2])) tsOnes true (fun _ => []) [("tmin".toList, 0)] []
    (by simp [PyDict.keys]) (by simp [PyDict.keys]) _ rfl
  obtain ⟨y, h1, -, h2⟩ := h [1, 1, 1] rfl rfl
  exact ⟨y, h1, by have := h2 0 (by simp); simpa using this⟩

end Ssq
