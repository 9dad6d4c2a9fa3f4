import Verif.Model.Ssqueezing
import Verif.Props.SqueezeEx
import Verif.Props.Scales

/-!
# C28, C29: generated frequencies and argument checks of `ssqueeze`
-/
namespace Ssq

/-! ## C28 -/

theorem linspace_length (a b : ℝ) (n : ℕ) : (linspace a b n).length = n := by simp [linspace]

theorem linspace_getElem {a b : ℝ} {n i : ℕ} (h : i < (linspace a b n).length) :
    (linspace a b n)[i] = a + i * ((b - a) / (n - 1 : ℕ)) := by simp [linspace]

theorem logFreqs_length (a b : ℝ) (n : ℕ) : (logFreqs a b n).length = n := by simp [logFreqs]

theorem logFreqs_getElem {a b : ℝ} {n i : ℕ} (h : i < (logFreqs a b n).length) :
    (logFreqs a b n)[i] = a * (b / a) ^ ((i : ℝ) / ((n : ℝ) - 1)) := by simp [logFreqs]

theorem logFreqs_logb {a b : ℝ} (ha : 0 < a) (hb : 0 < b) {n i : ℕ}
    (h : i < (logFreqs a b n).length) :
    0 < (logFreqs a b n)[i] ∧ Real.logb 2 (logFreqs a b n)[i] =
      Real.logb 2 a + i * ((Real.logb 2 b - Real.logb 2 a) / ((n : ℝ) - 1)) := by
  have hq : 0 < b / a := div_pos hb ha
  have hp : 0 < (b / a) ^ ((i : ℝ) / ((n : ℝ) - 1)) := Real.rpow_pos_of_pos hq _
  rw [logFreqs_getElem]
  refine ⟨mul_pos ha hp, ?_⟩
  rw [Real.logb_mul ha.ne' hp.ne', Real.logb_rpow_eq_mul_logb_of_pos hq,
    Real.logb_div hb.ne' ha.ne']
  ring

theorem computeFreqs_eq {th : ℝ} {sc : List ℝ} {N : ℕ} {wv : Option SsqWavelet} {st : SsqType}
    {mr : MapRange} {wp : Bool} {dt : ℝ} {tr : Transform} {fm fM : ℝ}
    (hr : ssqFreqrange mr dt N wv (some sc) wp = .ok (fm, fM)) (h2 : 2 ≤ sc.length) :
    (st = .known .log → computeFreqs th (some sc) N wv st mr wp dt tr =
      .ok (logFreqs fm fM sc.length)) ∧
    (st = .known .linear → tr = .cwt → computeFreqs th (some sc) N wv st mr wp dt tr =
      .ok (linspace fm fM sc.length)) ∧
    (st = .known .linear → tr = .stft → computeFreqs th (some sc) N wv st mr wp dt tr =
      .ok ((linspace 0 (1 / 2) sc.length).map (· / dt))) := by
  have hn : ¬ sc.length < 2 := by omega
  refine ⟨?_, ?_, ?_⟩
  · rintro rfl
    unfold computeFreqs
    simp only [hr, ok_bind, if_neg hn]
  · rintro rfl rfl
    unfold computeFreqs
    simp only [hr, ok_bind, if_neg hn]
  · rintro rfl rfl
    unfold computeFreqs
    simp only [hr, ok_bind, if_neg hn]

/-- **C28, log scheme.** One frequency per scale, from the minimum to the maximum of the range, strictly
increasing and geometric. -/
theorem C28_log (th : ℝ) (sc : List ℝ) (N : ℕ) (wv : Option SsqWavelet) (mr : MapRange)
    (wp : Bool) (dt : ℝ) (tr : Transform) (fm fM : ℝ)
    (hr : ssqFreqrange mr dt N wv (some sc) wp = .ok (fm, fM)) (h0 : 0 < fm) (hlt : fm < fM)
    (h2 : 2 ≤ sc.length) :
    ∃ fr, computeFreqs th (some sc) N wv (.known .log) mr wp dt tr = .ok fr ∧
      fr.length = sc.length ∧ fr[0]? = some fm ∧ fr[sc.length - 1]? = some fM ∧
      fr.Pairwise (· < ·) ∧
      ∃ s, 0 < s ∧ Spec.Geometric fr (Real.logb 2 fm) s := by
  have hM : 0 < fM := h0.trans hlt
  have hn1 : (0 : ℝ) < (sc.length : ℝ) - 1 := by
    have : (2 : ℝ) ≤ sc.length := by exact_mod_cast h2
    linarith
  have hl := logFreqs_length fm fM sc.length
  refine ⟨_, (computeFreqs_eq hr h2).1 rfl, hl, ?_, ?_, ?_, ?_⟩
  · rw [List.getElem?_eq_getElem (by omega), logFreqs_getElem]; simp
  · rw [List.getElem?_eq_getElem (by omega), logFreqs_getElem]
    rw [Nat.cast_sub (by omega), Nat.cast_one, div_self hn1.ne', Real.rpow_one,
      mul_div_cancel₀ _ h0.ne']
  · rw [List.pairwise_iff_getElem]
    intro i j hi hj hij
    rw [logFreqs_getElem, logFreqs_getElem]
    apply mul_lt_mul_of_pos_left _ h0
    apply Real.rpow_lt_rpow_of_exponent_lt ((one_lt_div h0).mpr hlt)
    apply div_lt_div_of_pos_right _ hn1
    exact_mod_cast hij
  · refine ⟨_, ?_, fun i hi => logFreqs_logb h0 hM hi⟩
    exact div_pos (sub_pos.mpr (Real.logb_lt_logb (by norm_num) h0 hlt)) hn1

/-- **C28, linear scheme.** One frequency per scale, from the minimum to the maximum of the range,
strictly increasing and uniform; for the STFT from 0 to the Nyquist frequency `1/(2 dt)` whatever
the range. -/
theorem C28_linear (th : ℝ) (sc : List ℝ) (N : ℕ) (wv : Option SsqWavelet) (mr : MapRange)
    (wp : Bool) (dt : ℝ) (tr : Transform) (htr : tr ≠ .other) (hdt : 0 < dt) (fm fM : ℝ)
    (hr : ssqFreqrange mr dt N wv (some sc) wp = .ok (fm, fM)) (hlt : fm < fM)
    (h2 : 2 ≤ sc.length) :
    ∃ fr lo hi, computeFreqs th (some sc) N wv (.known .linear) mr wp dt tr = .ok fr ∧
      (tr = .cwt → lo = fm ∧ hi = fM) ∧ (tr = .stft → lo = 0 ∧ hi = 1 / (2 * dt)) ∧
      fr.length = sc.length ∧ fr[0]? = some lo ∧ fr[sc.length - 1]? = some hi ∧
      fr.Pairwise (· < ·) ∧
      ∃ s, 0 < s ∧ Spec.Uniform fr lo s := by
  have key : ∀ (fr : List ℝ) (lo hi s : ℝ), fr.length = sc.length → 0 < s →
      Spec.Uniform fr lo s → lo + ((sc.length - 1 : ℕ) : ℝ) * s = hi →
      fr.length = sc.length ∧ fr[0]? = some lo ∧ fr[sc.length - 1]? = some hi ∧
      fr.Pairwise (· < ·) ∧ ∃ s, 0 < s ∧ Spec.Uniform fr lo s := by
    intro fr lo hi s hl hs hu he
    refine ⟨hl, ?_, ?_, ?_, s, hs, hu⟩
    · rw [List.getElem?_eq_getElem (by omega), hu]; simp
    · rw [List.getElem?_eq_getElem (by omega), hu, he]
    · rw [List.pairwise_iff_getElem]
      intro i j hi hj hij
      rw [hu, hu]
      have : (i : ℝ) < j := by exact_mod_cast hij
      nlinarith
  have hn1 : (0 : ℝ) < ((sc.length - 1 : ℕ) : ℝ) := by exact_mod_cast (by omega : 0 < sc.length - 1)
  cases tr with
  | other => exact absurd rfl htr
  | cwt =>
    refine ⟨_, fm, fM, (computeFreqs_eq hr h2).2.1 rfl rfl, fun _ => ⟨rfl, rfl⟩,
      fun h => by simp at h, ?_⟩
    refine key _ fm fM ((fM - fm) / (sc.length - 1 : ℕ)) (linspace_length _ _ _)
      (div_pos (by linarith) hn1) (fun i hi => linspace_getElem hi) ?_
    field_simp; ring
  | stft =>
    refine ⟨_, 0, 1 / (2 * dt), (computeFreqs_eq hr h2).2.2 rfl rfl, fun h => by simp at h,
      fun _ => ⟨rfl, rfl⟩, ?_⟩
    refine key _ 0 (1 / (2 * dt)) (1 / 2 / (sc.length - 1 : ℕ) / dt)
      (by rw [List.length_map, linspace_length]) (by positivity) (fun i hi => ?_) ?_
    · rw [List.getElem_map, linspace_getElem]; ring
    · field_simp; ring

/-- **C28, the default range.** For three or more samples `maprange='maximal'` gives a positive,
non-degenerate range: from the fundamental `1/(N dt)` to the Nyquist frequency `1/(2 dt)`. -/
theorem C28_maximal (dt : ℝ) (hdt : 0 < dt) (N : ℕ) (hN : 3 ≤ N) (wv : Option SsqWavelet)
    (sc : Option (List ℝ)) (wp : Bool) :
    ∃ fm fM, ssqFreqrange .maximal dt N wv sc wp = .ok (fm, fM) ∧ 0 < fm ∧ fm < fM ∧
      fm = 1 / (N * dt) ∧ fM = 1 / (2 * dt) := by
  have hN' : (3 : ℝ) ≤ N := by exact_mod_cast hN
  refine ⟨_, _, rfl, by positivity, ?_, by rw [mul_comm], rfl⟩
  apply one_div_lt_one_div_of_lt (by positivity)
  nlinarith

theorem logb_expFm {tmin tmax f0 f1 t : ℝ} (h0 : 0 < f0) (h1 : 0 < f1) (hm : tmax ≠ 0)
    (hne : tmax - tmin ≠ 0) :
    0 < expFm tmin tmax f0 f1 t ∧ Real.logb 2 (expFm tmin tmax f0 f1 t) =
      Real.logb 2 f0 + (t - tmin) * ((Real.logb 2 f1 - Real.logb 2 f0) / (tmax - tmin)) := by
  set a := (f0 ^ tmax / f1 ^ tmin) ^ (1 / (tmax - tmin)) with ha
  have p0 : 0 < f0 ^ tmax := Real.rpow_pos_of_pos h0 _
  have p1 : 0 < f1 ^ tmin := Real.rpow_pos_of_pos h1 _
  have pa : 0 < a := Real.rpow_pos_of_pos (div_pos p0 p1) _
  have pb1 : 0 < f1 ^ (1 / tmax) := Real.rpow_pos_of_pos h1 _
  have pb2 : 0 < (1 / a) ^ (1 / tmax) := Real.rpow_pos_of_pos (by positivity) _
  have pbt : 0 < (f1 ^ (1 / tmax) * (1 / a) ^ (1 / tmax)) ^ t := Real.rpow_pos_of_pos (by positivity) _
  have e : expFm tmin tmax f0 f1 t = a * (f1 ^ (1 / tmax) * (1 / a) ^ (1 / tmax)) ^ t := rfl
  rw [e]
  refine ⟨mul_pos pa pbt, ?_⟩
  have la : Real.logb 2 a = (tmax * Real.logb 2 f0 - tmin * Real.logb 2 f1) / (tmax - tmin) := by
    rw [ha, Real.logb_rpow_eq_mul_logb_of_pos (div_pos p0 p1), Real.logb_div p0.ne' p1.ne',
      Real.logb_rpow_eq_mul_logb_of_pos h0, Real.logb_rpow_eq_mul_logb_of_pos h1]
    ring
  rw [Real.logb_mul pa.ne' pbt.ne', Real.logb_rpow_eq_mul_logb_of_pos (mul_pos pb1 pb2),
    Real.logb_mul pb1.ne' pb2.ne', Real.logb_rpow_eq_mul_logb_of_pos h1,
    Real.logb_rpow_eq_mul_logb_of_pos (one_div_pos.mpr pa), Real.logb_div one_ne_zero pa.ne',
    Real.logb_one, la]
  field_simp
  ring

/-- **C28, piecewise scheme.** If the scales have a transition at `idx` with at least one scale on each
side of it, and the centre frequency of scale `idx` is strictly inside the range, the generated
frequencies have two geometric segments meeting at that frequency, in the mirrored position; unless
the two slopes coincide, the library's own consistency assertion holds and they are returned. -/
theorem C28_piecewise (th : ℝ) (hth : 0 < th) (sc : List ℝ) (N : ℕ) (wv : SsqWavelet)
    (mr : MapRange) (kind : CfKind) (hmr : mr = .peak ∧ kind = .peak ∨ mr = .energy ∧ kind = .energy) (wp : Bool) (dt : ℝ) (tr : Transform)
    (fm f1 fM : ℝ) (hr : ssqFreqrange mr dt N (some wv) (some sc) wp = .ok (fm, fM))
    (idx : ℕ) (htr : logscaleTransitionIdx th sc = .ok (some idx))
    (h1 : getCenterFrequency wv N kind dt (sc.getD idx 0) wp = .ok f1)
    (hidx1 : 1 ≤ idx) (hidx2 : idx + 2 ≤ sc.length) (h0 : 0 < fm) (hl1 : fm < f1) (hl2 : f1 < fM)
    (hslope : (Real.logb 2 f1 - Real.logb 2 fm) * idx ≠
      (Real.logb 2 fM - Real.logb 2 f1) * ((sc.length : ℝ) - idx - 1)) :
    ∃ fr, computeFreqs th (some sc) N (some wv) (.known .logPiecewise) mr wp dt tr = .ok fr ∧
      fr.length = sc.length ∧ fr[0]? = some fm ∧ fr[sc.length - idx - 1]? = some f1 ∧
      fr[sc.length - 1]? = some fM ∧
      ∃ d0 d1, 0 < d0 ∧ 0 < d1 ∧
        Spec.TwoSegment fr (sc.length - idx - 1) (Real.logb 2 fm) d0 d1 := by
  have hk : mr.kind = some kind := by rcases hmr with ⟨rfl, rfl⟩ | ⟨rfl, rfl⟩ <;> rfl
  set na := sc.length with hna
  set q := na - idx - 1 with hq
  have hf1 : 0 < f1 := h0.trans hl1
  have hfM : 0 < fM := hf1.trans hl2
  have hn1 : (0 : ℝ) < (na : ℝ) - 1 := by
    have : (3 : ℝ) ≤ na := by exact_mod_cast (by omega)
    linarith
  have hq1 : 1 ≤ q := by omega
  have hqR : (0 : ℝ) < q := by exact_mod_cast hq1
  have hidR : (0 : ℝ) < idx := by exact_mod_cast hidx1
  have hqe : (q : ℝ) = (na : ℝ) - idx - 1 := by
    have : q + idx + 1 = na := by omega
    have : (q : ℝ) + idx + 1 = na := by exact_mod_cast this
    linarith
  set L0 := Real.logb 2 fm
  set L1 := Real.logb 2 f1
  set L2 := Real.logb 2 fM
  have hL1 : L0 < L1 := Real.logb_lt_logb (by norm_num) h0 hl1
  have hL2 : L1 < L2 := Real.logb_lt_logb (by norm_num) hf1 hl2
  have hlen : (piecewiseFreqs fm f1 fM na idx).length = na := by
    simp only [piecewiseFreqs, List.length_append, List.length_map, List.length_range]; omega
  have hA : ∀ i, ∀ hi : i < q, ∀ h : i < (piecewiseFreqs fm f1 fM na idx).length,
      0 < (piecewiseFreqs fm f1 fM na idx)[i] ∧
      Real.logb 2 (piecewiseFreqs fm f1 fM na idx)[i] = L0 + i * ((L1 - L0) / q) := by
    intro i hi h
    simp only [piecewiseFreqs]
    rw [List.getElem_append_left (by simpa using hi), List.getElem_map, List.getElem_range]
    have hm : (q : ℝ) / ((na : ℝ) - 1) ≠ 0 := (div_pos hqR hn1).ne'
    obtain ⟨hp, he⟩ := logb_expFm (tmin := ((0 : ℕ) : ℝ) / ((na : ℝ) - 1))
      (tmax := (q : ℝ) / ((na : ℝ) - 1)) (t := (i : ℝ) / ((na : ℝ) - 1)) h0 hf1 hm
      (by simpa using hm)
    refine ⟨hp, ?_⟩
    rw [he]
    change L0 + _ * ((L1 - L0) / _) = _
    simp only [Nat.cast_zero, zero_div, sub_zero]
    field_simp
  have hB : ∀ k, ∀ hk : q + k < na, ∀ h : q + k < (piecewiseFreqs fm f1 fM na idx).length,
      0 < (piecewiseFreqs fm f1 fM na idx)[q + k] ∧
      Real.logb 2 (piecewiseFreqs fm f1 fM na idx)[q + k] = L1 + k * ((L2 - L1) / idx) := by
    intro k hk h
    simp only [piecewiseFreqs]
    rw [List.getElem_append_right (by simp [← hq]), List.getElem_map, List.getElem_range]
    have e1 : ((na - 1 : ℕ) : ℝ) = (na : ℝ) - 1 := by rw [Nat.cast_sub (by omega)]; simp
    have hd : (na : ℝ) - 1 - q = idx := by rw [hqe]; ring
    obtain ⟨hp, he⟩ := logb_expFm (tmin := (q : ℝ) / ((na : ℝ) - 1))
      (tmax := ((na - 1 : ℕ) : ℝ) / ((na : ℝ) - 1)) (t := ((q + k : ℕ) : ℝ) / ((na : ℝ) - 1)) hf1 hfM
      (by rw [e1, div_self hn1.ne']; norm_num) (by
        rw [e1, ← sub_div, hd]; exact (div_pos hidR hn1).ne')
    have e2 : q + k - ((List.range (na - idx - 1)).map
        fun i : ℕ => expFm (((0:ℕ):ℝ) / ((na : ℝ) - 1)) (((na - idx - 1 : ℕ) : ℝ) / ((na : ℝ) - 1)) fm f1
          ((i : ℝ) / ((na : ℝ) - 1))).length = k := by
      simp [← hq]
    rw [e2]
    refine ⟨hp, ?_⟩
    rw [he, e1, ← sub_div, ← sub_div, hd]
    change L1 + _ * ((L2 - L1) / _) = _
    push_cast
    field_simp
    ring
  have hseg : Spec.TwoSegment (piecewiseFreqs fm f1 fM na idx) q L0 ((L1 - L0) / q)
      ((L2 - L1) / idx) := by
    refine ⟨hq1, by omega, fun i hi => ?_⟩
    by_cases hiq : i < q
    · rw [if_pos hiq.le]; exact hA i hiq hi
    · obtain ⟨k, rfl⟩ : ∃ k, i = q + k := ⟨i - q, by omega⟩
      obtain ⟨hp, he⟩ := hB k (by omega) hi
      refine ⟨hp, ?_⟩
      rw [he]
      have hc : (q : ℝ) * ((L1 - L0) / q) = L1 - L0 := by field_simp
      split
      · next hle =>
        have : k = 0 := by omega
        subst this
        push_cast
        rw [add_zero, hc]; ring
      · push_cast
        rw [hc]; ring
  have hnes : (L1 - L0) / q ≠ (L2 - L1) / idx := by
    intro e
    rw [div_eq_div_iff hqR.ne' hidR.ne', hqe] at e
    exact hslope e
  have htr2 : logscaleTransitionIdx th (piecewiseFreqs fm f1 fM na idx) = .ok (some (q + 1)) :=
    transition_two hth hseg hnes
  refine ⟨piecewiseFreqs fm f1 fM na idx, ?_, hlen, ?_, ?_, ?_, _, _,
    div_pos (by linarith) hqR, div_pos (by linarith) hidR, hseg⟩
  · unfold computeFreqs
    simp only [hr, ok_bind, ← hna]
    rw [if_neg (by omega)]
    simp only [htr, ok_bind, hk, h1, htr2]
    rw [if_pos (by omega)]
  · rw [List.getElem?_eq_getElem (by omega)]
    obtain ⟨hp, he⟩ := hA 0 (by omega) (by omega)
    have : Real.logb 2 (piecewiseFreqs fm f1 fM na idx)[0] = L0 := by rw [he]; simp
    rw [Real.logb_injOn_pos (by norm_num) hp h0 this]
  · rw [List.getElem?_eq_getElem (by omega)]
    obtain ⟨hp, he⟩ := hB 0 (by omega) (by omega)
    have : Real.logb 2 (piecewiseFreqs fm f1 fM na idx)[q] = L1 := by
      simp only [add_zero] at he; rw [he]; simp
    have hp' : 0 < (piecewiseFreqs fm f1 fM na idx)[q] := by simpa using hp
    rw [Real.logb_injOn_pos (by norm_num) hp' hf1 this]
  · rw [List.getElem?_eq_getElem (by omega)]
    have hqi : q + idx = na - 1 := by omega
    obtain ⟨hp, he⟩ := hB idx (by omega) (by omega)
    simp only [hqi] at hp he
    have : Real.logb 2 (piecewiseFreqs fm f1 fM na idx)[na - 1] = L2 := by
      rw [he]; field_simp; ring
    rw [Real.logb_injOn_pos (by norm_num) hp hfM this]

/-- Non-vacuity: the log scheme over the tuple range (1, 8) for three scales. -/
example : ssqFreqrange (.tuple [.num 1, .num 8]) 1 100 none (some [1, 2, 4]) true = .ok (1, 8) := rfl

/-! ## C29 -/

namespace Spec

/-- Documented values of `squeezing`. -/
def SqueezingOk (sq : Squeezing) : Prop :=
  sq = .sum ∨ sq = .lebesgue ∨ sq = .abs ∨ ∃ f, sq = .fn f

/-- Documented values of `maprange`: absent, a sequence of numbers, `'maximal'`, or `'peak'`/`'energy'`
with a wavelet (for the CWT). -/
def MaprangeOk (tr : Transform) (hasWavelet : Bool) (mr : MapRange) : Prop :=
  mr = .none ∨ (∃ l : List ℝ, mr = .tuple (l.map .num) ∨ mr = .list (l.map .num)) ∨ mr = .maximal ∨
    ((mr = .peak ∨ mr = .energy) ∧ (tr = .cwt → hasWavelet))

/-- Documented values of `difftype`: absent, `'trig'`, or `'phase'`/`'numeric'` off the GPU with
`get_w=True`. -/
def DifftypeOk (gpu getW : Bool) (d : Option DiffType) : Prop :=
  d = none ∨ d = some .trig ∨ ((d = some .phase ∨ d = some .numeric) ∧ gpu = false ∧ getW = true)

/-- The order in effect: for `'numeric'` 1, 2 or 4, with 4 as the default; otherwise as given. -/
def DifforderOk (d : Option DiffType) (o r : Option ℤ) : Prop :=
  if d = some .numeric then (o = none ∧ r = some 4) ∨ (o = r ∧ (r = some 1 ∨ r = some 2 ∨ r = some 4))
  else r = o

end Spec

theorem all_isNum_iff (l : List MapEl) : l.all MapEl.isNum = true ↔ ∃ r : List ℝ, l = r.map .num := by
  induction l with
  | nil => simp
  | cons a l ih =>
    rw [List.all_cons, Bool.and_eq_true, ih]
    constructor
    · rintro ⟨h, r, rfl⟩
      cases a with
      | num x => exact ⟨x :: r, rfl⟩
      | other => simp [MapEl.isNum] at h
    · rintro ⟨r, h⟩
      cases r with
      | nil => simp at h
      | cons x r =>
        simp only [List.map_cons, List.cons.injEq] at h
        exact ⟨by rw [h.1]; rfl, r, h.2⟩

theorem checkMaprange_iff (tr : Transform) (hw : Bool) (mr : MapRange) :
    checkMaprange tr hw mr = .ok () ↔ Spec.MaprangeOk tr hw mr := by
  unfold Spec.MaprangeOk
  cases mr with
  | none => simp [checkMaprange]
  | tuple l =>
    simp only [checkMaprange, MapRange.tuple.injEq, reduceCtorEq, false_or, or_false, false_and]
    rw [← all_isNum_iff]
    split <;> simp_all
  | list l =>
    simp only [checkMaprange, MapRange.list.injEq, reduceCtorEq, false_or, or_false, false_and]
    rw [← all_isNum_iff]
    split <;> simp_all
  | maximal => simp [checkMaprange]
  | peak => cases tr <;> cases hw <;> simp [checkMaprange]
  | energy => cases tr <;> cases hw <;> simp [checkMaprange]
  | otherStr => simp [checkMaprange]
  | other => simp [checkMaprange]

theorem unit_exists {p : Unit → Prop} : (∃ x, p x) ↔ p () :=
  ⟨fun ⟨_, h⟩ => h, fun h => ⟨(), h⟩⟩

/-- **C29, the checker.** `_check_ssqueezing_args` accepts exactly the documented values, and returns the
documented difference order. -/
theorem C29_check_iff (gpu : Bool) (sq : Squeezing) (mr : MapRange) (hasWavelet : Bool)
    (difftype : Option DiffType) (difforder : Option ℤ) (getW : Bool) (tr : Transform)
    (r : Option ℤ) :
    checkSsqueezingArgs gpu sq mr hasWavelet difftype difforder getW tr = .ok r ↔
      (tr = .cwt ∨ tr = .stft) ∧ Spec.SqueezingOk sq ∧ Spec.MaprangeOk tr hasWavelet mr ∧
      Spec.DifftypeOk gpu getW difftype ∧ Spec.DifforderOk difftype difforder r := by
  have h1 : checkTransform tr = .ok () ↔ (tr = .cwt ∨ tr = .stft) := by
    cases tr <;> simp [checkTransform]
  have h2 : checkSqueezing sq = .ok () ↔ Spec.SqueezingOk sq := by
    unfold Spec.SqueezingOk
    cases sq <;> simp [checkSqueezing]
  have h4 : checkDifftype gpu getW difftype = .ok () ↔ Spec.DifftypeOk gpu getW difftype := by
    unfold Spec.DifftypeOk
    rcases difftype with _ | d
    · simp [checkDifftype]
    · cases d <;> cases gpu <;> cases getW <;> simp [checkDifftype]
  have h5 : checkDifforder difftype difforder = .ok r ↔
      Spec.DifforderOk difftype difforder r := by
    unfold Spec.DifforderOk
    rcases difforder with _ | o
    · by_cases hd : difftype = some .numeric
      · simp only [checkDifforder, hd, if_true, true_and]
        constructor
        · intro h; simp only [Except.ok.injEq] at h; exact Or.inl h.symm
        · rintro (h | ⟨h, h'⟩)
          · rw [h]
          · rw [← h] at h'; simp at h'
      · simp only [checkDifforder, hd, if_false, Except.ok.injEq, eq_comm]
    · by_cases hd : difftype = some .numeric
      · simp only [checkDifforder, hd, ne_eq, not_true_eq_false, if_false, if_true, reduceCtorEq,
          false_and, false_or]
        split
        · next ho =>
          simp only [Except.ok.injEq]
          constructor
          · rintro rfl; exact ⟨rfl, by simpa using ho⟩
          · rintro ⟨h, _⟩; exact h
        · next ho =>
          simp only [reduceCtorEq, false_iff, not_and]
          rintro rfl
          simpa using ho
      · simp only [checkDifforder, hd, ne_eq, not_false_eq_true, if_true, if_false, Except.ok.injEq,
          eq_comm]
  unfold checkSsqueezingArgs
  simp only [bind_eq_ok, exists_and_left, unit_exists, h1, h2, checkMaprange_iff, h4, h5]

/-- Every rejection is a `ValueError` or a `TypeError`. -/
theorem C29_errors (gpu : Bool) (sq : Squeezing) (mr : MapRange) (hasWavelet : Bool)
    (difftype : Option DiffType) (difforder : Option ℤ) (getW : Bool) (tr : Transform) (e : PyErr)
    (h : checkSsqueezingArgs gpu sq mr hasWavelet difftype difforder getW tr = .error e) :
    e = .valueError ∨ e = .typeError := by
  have aux : ∀ {α : Type} (x : Py Unit) (f : Unit → Py α), x >>= f = .error e →
      (∀ e', x = .error e' → e' = .valueError ∨ e' = .typeError) →
      (f () = .error e → e = .valueError ∨ e = .typeError) → e = .valueError ∨ e = .typeError := by
    intro α x f h hx hf
    cases x with
    | error e' =>
      rw [error_bind, Except.error.injEq] at h
      rw [← h]; exact hx e' rfl
    | ok u => rw [ok_bind] at h; exact hf h
  unfold checkSsqueezingArgs at h
  refine aux _ _ h (fun e' h => ?_) fun h => aux _ _ h (fun e' h => ?_) fun h =>
    aux _ _ h (fun e' h => ?_) fun h => aux _ _ h (fun e' h => ?_) fun h => ?_
  · cases tr <;> simp [checkTransform] at h; exact Or.inl h.symm
  · cases sq <;> simp [checkSqueezing] at h <;> simp [← h]
  · cases mr <;> simp [checkMaprange] at h <;> (try split at h) <;> simp_all
  · rcases difftype with _ | d
    · simp [checkDifftype] at h
    · cases d <;> cases gpu <;> cases getW <;> simp [checkDifftype] at h <;> simp [← h]
  · rcases difforder with _ | o
    · simp only [checkDifforder] at h; split at h <;> simp at h
    · simp only [checkDifforder] at h
      split at h
      · simp at h
      · split at h <;> simp at h; exact Or.inl h.symm

/-- The full statement of **C29** about what happens next: whatever `maprange` the checker accepts, the
range computation returns a range (given a wavelet whose centre frequencies can be computed and at
least one scale). -/
def C29_downstream_full : Prop :=
  ∀ (mr : MapRange) (dt : ℝ) (N : ℕ) (wv : SsqWavelet) (sc : List ℝ) (wp : Bool),
    checkSsqueezingArgs false .sum mr true none none false .cwt = .ok none → mr ≠ .none → sc ≠ [] →
    (∀ n k s, ∃ f, wv.centerFreq n k s = .ok f) →
    ∃ r, ssqFreqrange mr dt N (some wv) (some sc) wp = .ok r

/-- **C29 refuted downstream.** A list is accepted by the checker and then leaves the range unassigned
(`UnboundLocalError`). -/
theorem C29_downstream_refuted : ¬ C29_downstream_full := by
  intro H
  obtain ⟨r, hr⟩ := H (.list [.num 1, .num 2]) 1 10 ⟨fun _ _ _ => .ok 1⟩ [1] true
    (by rw [C29_check_iff]
        exact ⟨Or.inl rfl, Or.inl rfl, Or.inr (Or.inl ⟨[1, 2], Or.inr rfl⟩), Or.inl rfl, rfl⟩)
    (by simp) (by simp) (fun _ _ _ => ⟨1, rfl⟩)
  simp [ssqFreqrange] at hr

/-- A tuple of three numbers is accepted by the checker and then fails to unpack. -/
theorem C29_triple_refuted (dt : ℝ) (N : ℕ) (wv : Option SsqWavelet) (sc : Option (List ℝ))
    (wp : Bool) :
    checkSsqueezingArgs false .sum (.tuple [.num 1, .num 2, .num 3]) false none none false .cwt =
      .ok none ∧
    ssqFreqrange (.tuple [.num 1, .num 2, .num 3]) dt N wv sc wp = .error .valueError := by
  constructor
  · rw [C29_check_iff]
    exact ⟨Or.inl rfl, Or.inl rfl, Or.inr (Or.inl ⟨[1, 2, 3], Or.inl rfl⟩), Or.inl rfl, rfl⟩
  · rfl

/-- **C29 downstream (partial).** The accepted values that are handled: `'maximal'`, a tuple of two
numbers, and `'peak'`/`'energy'`. Missing: lists and tuples of another length, which fail. -/
theorem C29_downstream_partial (dt : ℝ) (N : ℕ) (wv : SsqWavelet) (sc : List ℝ) (wp : Bool)
    (hsc : sc ≠ []) (hcf : ∀ n k s, ∃ f, wv.centerFreq n k s = .ok f) (mr : MapRange)
    (hmr : mr = .maximal ∨ (∃ a b, mr = .tuple [.num a, .num b]) ∨ mr = .peak ∨ mr = .energy) :
    ∃ r, ssqFreqrange mr dt N (some wv) (some sc) wp = .ok r := by
  have hc : ∀ k, ∃ r, centerRange (some wv) N k dt (some sc) wp = .ok r := by
    intro k
    cases sc with
    | nil => exact absurd rfl hsc
    | cons s rest =>
      obtain ⟨f, hf⟩ := hcf (if wp then (p2up N).1 else N) k ((s :: rest).getLastD 0)
      obtain ⟨g, hg⟩ := hcf (if wp then (p2up N).1 else N) k s
      refine ⟨(f / (2 * Real.pi) / dt, g / (2 * Real.pi) / dt), ?_⟩
      unfold centerRange getCenterFrequency
      simp only [hf, hg, ok_bind, pure_eq_ok]
  rcases hmr with rfl | ⟨a, b, rfl⟩ | rfl | rfl
  · exact ⟨_, rfl⟩
  · exact ⟨_, rfl⟩
  · exact hc .peak
  · exact hc .energy

end Ssq
