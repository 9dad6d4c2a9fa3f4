import Verif.Lemmas.Scales
import Verif.Lemmas.Near

/-!
# C44–C48: scales, inferred scale type, `scales` argument, sampling rate
-/
namespace Ssq

/-! ## C48 -/

/-- The full statement of **C48**. -/
def C48_full : Prop :=
  ∀ (fs : Option ℝ) (t : Option (List ℝ)) (N : ℕ) (r : Rate), processFsT fs t N = .ok r →
    (∃ f dt, r = .fin f dt ∧ 0 < f ∧ dt * f = 1) ∧
    (∀ t', t = some t' → t'.length = N ∧
      ∃ a d, ∀ i, ∀ h : i < t'.length, t'[i] = a + i * d)

/-- **C48 refuted.** A constant time vector is accepted and gives an infinite sampling rate. -/
theorem C48_refuted : ¬ C48_full := by
  intro H
  have h : processFsT none (some [0, 0, 0]) 3 = .ok .infinite := by
    unfold processFsT
    simp only [List.length_cons, List.length_nil]
    norm_num [meanAbsDiff2, List.range_succ]
  obtain ⟨⟨f, dt, hr, _⟩, _⟩ := H none _ 3 _ h
  simp at hr

/-- A decreasing time vector is accepted and gives a negative sampling rate. -/
theorem C48_negative_refuted :
    ∃ t : List ℝ, ∃ f dt, processFsT none (some t) t.length = .ok (.fin f dt) ∧ f < 0 := by
  refine ⟨[2, 1, 0], -1, -1, ?_, by norm_num⟩
  unfold processFsT
  simp only [List.length_cons, List.length_nil]
  norm_num [meanAbsDiff2, List.range_succ]

/-- The uniformity test has an absolute tolerance: a time vector at nanosecond scale whose second step
is twice its first is accepted. -/
theorem C48_nonuniform_refuted :
    ∃ t : List ℝ, ∃ r, processFsT none (some t) t.length = .ok r ∧
      ¬ ∃ a d, ∀ i, ∀ h : i < t.length, t[i] = a + i * d := by
  refine ⟨[0, 1 / 10 ^ 9, 3 / 10 ^ 9], .fin (10 ^ 9) (1 / 10 ^ 9), ?_, ?_⟩
  · unfold processFsT
    simp only [List.length_cons, List.length_nil]
    norm_num [meanAbsDiff2, List.range_succ]
  · rintro ⟨a, d, h⟩
    have h0 := h 0 (by simp)
    have h1 := h 1 (by simp)
    have h2 := h 2 (by simp)
    simp at h0 h1 h2
    rw [← h0] at h1 h2
    norm_num at h1 h2
    linarith

/-- **C48 (partial).** Without a time vector: `fs` defaults to 1, a non-positive one is a `ValueError`,
and `dt * fs = 1`. With one: it overrides `fs` altogether; wrong length is an error; an accepted one
has the right length and a mean second difference under `1e-7`; an exactly uniform non-constant one
of three or more samples is accepted with `fs` its inverse step; and `dt * fs = 1` whenever `fs` is
finite. Missing: positivity and finiteness of `fs`, which fail. -/
theorem C48_fs_t_partial (fs : Option ℝ) (N : ℕ) :
    -- no time vector
    (processFsT none none N = .ok (.fin 1 1)) ∧
    (∀ f, f ≤ 0 → processFsT (some f) none N = .error .valueError) ∧
    (∀ f, 0 < f → processFsT (some f) none N = .ok (.fin f (1 / f))) ∧
    -- a time vector
    (∀ t, processFsT fs (some t) N = processFsT none (some t) N) ∧
    (∀ t, t.length ≠ N → processFsT fs (some t) N = .error .exception) ∧
    (∀ t r, processFsT fs (some t) N = .ok r →
      t.length = N ∧ 3 ≤ N ∧ meanAbsDiff2 t < 1 / 10 ^ 7) ∧
    (∀ (t : List ℝ) (a d : ℝ), (∀ i, ∀ h : i < t.length, t[i] = a + i * d) → t.length = N → 3 ≤ N → d ≠ 0 →
      processFsT fs (some t) N = .ok (.fin (1 / d) d)) ∧
    (∀ t f dt, processFsT fs t N = .ok (.fin f dt) → dt * f = 1) := by
  refine ⟨by simp [processFsT], fun f hf => by simp [processFsT, hf], fun f hf => by
    simp [processFsT, hf], fun t => rfl, fun t ht => by simp [processFsT, ht], ?_, ?_, ?_⟩
  · intro t r h
    unfold processFsT at h
    simp only at h
    split_ifs at h with h1 h2 h3 h4 <;> exact ⟨by omega, by omega, h3⟩
  · intro t a d hu hl h3 hd
    unfold processFsT
    simp only
    rw [if_neg (by omega), if_neg (by omega), if_neg]
    · rw [List.getD_eq_getElem _ _ (by omega : 1 < t.length),
        List.getD_eq_getElem _ _ (by omega : 0 < t.length), hu, hu]
      have e : a + ((1 : ℕ) : ℝ) * d - (a + ((0 : ℕ) : ℝ) * d) = d := by push_cast; ring
      rw [e, if_neg hd, one_div_one_div]
    · rw [not_not, meanAbsDiff2_zero hu]; norm_num
  · intro t f dt h
    unfold processFsT at h
    split at h
    · simp only at h
      split_ifs at h with h1 h2 h3 h4
      · simp at h
      injection h with h
      injection h with ha hb
      rw [← ha, ← hb, one_div_mul_cancel]
      exact one_div_ne_zero h4
    · split at h
      · simp only [Except.ok.injEq, Rate.fin.injEq] at h
        obtain ⟨rfl, rfl⟩ := h; norm_num
      · split_ifs at h with h1
        simp only [Except.ok.injEq, Rate.fin.injEq] at h
        obtain ⟨rfl, rfl⟩ := h
        rw [one_div_mul_cancel (by linarith)]

/-- Non-vacuity: a uniform time vector. -/
example : ∀ i, ∀ h : i < ([1, 3, 5] : List ℝ).length, ([1, 3, 5] : List ℝ)[i] = 1 + i * 2 := by
  intro i h
  match i, h with
  | 0, _ => norm_num
  | 1, _ => norm_num
  | 2, _ => norm_num

/-! ## C44 -/

/-- The full statement of **C44**. -/
def C44_full : Prop :=
  ∀ (N nv : ℕ) (mn mx : ℝ) (wv : Option ScaleWavelet) (d : ℕ), 1 ≤ nv → 0 < mn → mn < mx →
    ∃ l, makeScales N (some mn) (some mx) nv (.known .log) wv d = .ok l ∧
      l.Pairwise (· < ·) ∧ (∃ a, Spec.Geometric l a (1 / nv)) ∧
      ∃ h : 0 < l.length, l[0] ≤ mn ∧ mx ≤ l[l.length - 1]

theorem makeScales_log (N nv : ℕ) {mn mx : ℝ} (wv : Option ScaleWavelet) (d : ℕ) (h0 : 0 < mn)
    (hx : 0 < mx) : makeScales N (some mn) (some mx) nv (.known .log) wv d =
      .ok (logScales nv (scalePows nv mn mx).1 (scalePows nv mn mx).2) := by
  unfold makeScales
  simp only [Bool.false_and, Bool.false_eq_true, if_false, h0.ne', hx.ne', pure_eq_ok, ok_bind]

/-- **C44 refuted.** The largest scale made is always below `max_scale`: from 1 to 2 with one voice per
octave only the scale 1 is made. -/
theorem C44_refuted : ¬ C44_full := by
  intro H
  obtain ⟨l, hl, -, -, h0, -, h2⟩ := H 0 1 1 2 none 1 le_rfl one_pos (by norm_num)
  rw [makeScales_log _ _ _ _ one_pos two_pos] at hl
  simp only [Except.ok.injEq] at hl
  subst hl
  have e : scalePows 1 1 2 = (1, 0) := by
    unfold scalePows
    simp
  simp [e, logScales] at h2

/-- **C44 (partial).** The log scales are strictly increasing and geometric with ratio `2^(1/nv)`, their
number is `⌈nv·log2(max/min)⌉`; the smallest is within one voice at or below `min_scale`, and the
largest is strictly below `max_scale`, by at most two voices. Missing: covering `max_scale`,
which is false. -/
theorem C44_log_partial (N nv : ℕ) (mn mx : ℝ) (wv : Option ScaleWavelet) (d : ℕ) (hnv : 1 ≤ nv)
    (h0 : 0 < mn) (hlt : mn < mx) :
    ∃ l, makeScales N (some mn) (some mx) nv (.known .log) wv d = .ok l ∧
      (l.length : ℤ) = ⌈(nv : ℝ) * Real.logb 2 (mx / mn)⌉ ∧
      l.Pairwise (· < ·) ∧ (∃ a, Spec.Geometric l a (1 / nv)) ∧
      ∃ h : 0 < l.length,
        l[0] ≤ mn ∧ mn < l[0] * 2 ^ ((1 : ℝ) / nv) ∧
        l[l.length - 1] < mx ∧ mx < l[l.length - 1] * 2 ^ ((2 : ℝ) / nv) := by
  have hmx : 0 < mx := h0.trans hlt
  have hnv' : (0 : ℝ) < nv := by exact_mod_cast hnv
  have hpos : 0 < (nv : ℝ) * Real.logb 2 (mx / mn) :=
    mul_pos hnv' (Real.logb_pos (by norm_num) ((one_lt_div h0).mpr hlt))
  set na := ⌈(nv : ℝ) * Real.logb 2 (mx / mn)⌉ with hna
  set p := ⌊(nv : ℝ) * Real.logb 2 mn⌋ with hp
  have hna0 : 0 < na := Int.ceil_pos.mpr hpos
  have hc1 : (nv : ℝ) * Real.logb 2 (mx / mn) ≤ na := Int.le_ceil _
  have hc2 : (na : ℝ) < (nv : ℝ) * Real.logb 2 (mx / mn) + 1 := Int.ceil_lt_add_one _
  have hf1 : (p : ℝ) ≤ (nv : ℝ) * Real.logb 2 mn := Int.floor_le _
  have hf2 : (nv : ℝ) * Real.logb 2 mn < p + 1 := Int.lt_floor_add_one _
  have hdiv : Real.logb 2 (mx / mn) = Real.logb 2 mx - Real.logb 2 mn :=
    Real.logb_div hmx.ne' h0.ne'
  rw [hdiv, mul_sub] at hc1 hc2
  have hlen : (logScales nv na p).length = na.toNat := logScales_length _ _ _
  have h2pos : ∀ x : ℝ, (0 : ℝ) < 2 ^ x := fun x => by positivity
  have key1 : ∀ {x y : ℝ}, 0 < y → x ≤ nv * Real.logb 2 y → (2 : ℝ) ^ (x / nv) ≤ y := by
    intro x y hy h
    rw [← Real.le_logb_iff_rpow_le (by norm_num) hy, div_le_iff₀ hnv']; linarith
  have key2 : ∀ {x y : ℝ}, 0 < y → x < nv * Real.logb 2 y → (2 : ℝ) ^ (x / nv) < y := by
    intro x y hy h
    rw [← Real.lt_logb_iff_rpow_lt (by norm_num) hy, div_lt_iff₀ hnv']; linarith
  have key3 : ∀ {x y : ℝ}, 0 < y → nv * Real.logb 2 y < x → y < (2 : ℝ) ^ (x / nv) := by
    intro x y hy h
    rw [← Real.logb_lt_iff_lt_rpow (by norm_num) hy, lt_div_iff₀ hnv']; linarith
  refine ⟨logScales nv na p, ?_, ?_, logScales_lt hnv, ⟨_, logScales_geometric nv na p⟩, ?_⟩
  · exact makeScales_log N nv wv d h0 hmx
  · rw [hlen]; omega
  · refine ⟨by omega, ?_, ?_, ?_, ?_⟩
    · rw [logScales_getElem]
      exact key1 h0 (by push_cast; linarith)
    · rw [logScales_getElem, ← Real.rpow_add (by norm_num), ← add_div]
      exact key3 h0 (by push_cast; linarith)
    · rw [logScales_getElem]
      have e : ((p + ((logScales nv na p).length - 1 : ℕ) : ℤ) : ℝ) = p + na - 1 := by
        have : ((logScales nv na p).length - 1 : ℕ) = na.toNat - 1 := by rw [hlen]
        rw [this]
        have : p + ((na.toNat - 1 : ℕ) : ℤ) = p + na - 1 := by omega
        rw [this]; push_cast; ring
      rw [e]
      exact key2 hmx (by linarith)
    · rw [logScales_getElem, ← Real.rpow_add (by norm_num), ← add_div]
      have e : ((p + ((logScales nv na p).length - 1 : ℕ) : ℤ) : ℝ) = p + na - 1 := by
        have : ((logScales nv na p).length - 1 : ℕ) = na.toNat - 1 := by rw [hlen]
        rw [this]
        have : p + ((na.toNat - 1 : ℕ) : ℤ) = p + na - 1 := by omega
        rw [this]; push_cast; ring
      rw [e]
      exact key3 hmx (by linarith)

/-! ## C45 -/

/-- The full statement of **C45**. -/
def C45_full : Prop :=
  ∀ (N nv : ℕ) (mn mx : ℝ) (l : List ℝ) (dt : FDtype), 1 ≤ nv → 0 < mn → mn < mx → dt ≠ .other →
    makeScales N (some mn) (some mx) nv (.known .log) none 1 = .ok l →
    inferScaletype dt l = .ok (.log, .int nv)

/-- **C45 refuted.** Fewer than three scales cannot be classified: `ValueError`. -/
theorem C45_refuted : ¬ C45_full := by
  intro H
  have h := H 0 1 1 2 _ .f64 le_rfl one_pos (by norm_num) (by decide)
    (makeScales_log 0 1 none 1 one_pos two_pos)
  have e : scalePows 1 1 2 = (1, 0) := by unfold scalePows; simp
  simp [e, logScales, inferScaletype] at h

/-- **C45 (partial).** Every log grid of at least three scales that `make_scales` makes is recognised
as `log`, with the number of voices it was made with. Missing: grids of one or two scales, which
are rejected. -/
theorem C45_infer_partial (N nv : ℕ) (mn mx : ℝ) (wv : Option ScaleWavelet) (d : ℕ) (l : List ℝ)
    (dt : FDtype) (hdt : dt ≠ .other) (hnv : 1 ≤ nv) (h0 : 0 < mn) (hx : 0 < mx)
    (h : makeScales N (some mn) (some mx) nv (.known .log) wv d = .ok l) (h3 : 3 ≤ l.length) :
    inferScaletype dt l = .ok (.log, .int nv) := by
  rw [makeScales_log N nv wv d h0 hx] at h
  simp only [Except.ok.injEq] at h
  subst h
  have hnv' : (0 : ℝ) < nv := by exact_mod_cast hnv
  rw [infer_geometric hdt (logScales_geometric nv _ _) h3 (one_div_ne_zero hnv'.ne')]
  rw [one_div_one_div]
  have : roundHalfEven ((nv : ℕ) : ℝ) = (nv : ℤ) := by exact_mod_cast rhe_intCast (K := ℝ) (nv : ℤ)
  rw [this]

/-- **C45, round trip through `process_scales`.** Passing such an array back as `scales` (column shape)
is accepted, unchanged, with the same number of voices, and with a matching `nv` argument or
none; a different `nv` is an error. -/
theorem C45_process_partial (N N' nv : ℕ) (mn mx : ℝ) (wv wv' : Option ScaleWavelet) (d d' : ℕ)
    (l : List ℝ) (dt : FDtype) (hdt : dt ≠ .other) (hnv : 1 ≤ nv) (h0 : 0 < mn) (hx : 0 < mx)
    (h : makeScales N (some mn) (some mx) nv (.known .log) wv d = .ok l) (h3 : 3 ≤ l.length)
    (up : Bool) (q : Option ℚ) :
    processScales (.arr [l.length, 1] dt l) N' wv' q up d' =
      if q = none ∨ q = some (nv : ℚ) then .ok (l, .log, l.length, .int nv)
      else .error .exception := by
  have hi := C45_infer_partial N nv mn mx wv d l dt hdt hnv h0 hx h h3
  have hsh : ((([l.length, 1] : List ℕ).filter (· ≠ 1)).length ≠ 1) = False := by
    have : l.length ≠ 1 := by omega
    simp [this]
  have hpi : positiveInteger (((nv : ℤ) : ℚ)) = .ok nv := by
    unfold positiveInteger
    rw [if_pos ⟨by exact_mod_cast hnv, by simp⟩]; simp
  unfold processScales
  simp only [hsh, if_false, hi, ok_bind]
  rcases q with _ | q
  · simp [pure_eq_ok, ok_bind] at hpi ⊢
    simp [hpi]
  · by_cases hq : q = nv
    · subst hq
      simp [pure_eq_ok, ok_bind] at hpi ⊢
      simp [hpi]
    · simp [hq]

/-- Non-vacuity: 16 scales over 4 octaves with 4 voices. -/
example : ∃ l, makeScales 0 (some 1) (some 16) 4 (.known .log) none 1 = .ok l ∧ l.length = 16 := by
  refine ⟨_, makeScales_log 0 4 none 1 one_pos (by norm_num), ?_⟩
  rw [logScales_length]
  have : Real.logb 2 (16 / 1) = 4 := by
    rw [show (16 / 1 : ℝ) = 2 ^ (4 : ℝ) by norm_num, Real.logb_rpow (by norm_num) (by norm_num)]
  simp only [scalePows, this]
  norm_num
  rfl

/-! ## C46 -/

/-- **C46.** Whatever the wavelet, if `make_scales` with `'log-piecewise'` succeeds then the log grid
over the same range also exists, and the result is either that grid or: its first `idx` scales
followed by every `d`-th scale from `idx + d - 1` on, to the end. In every case it is strictly
increasing and a subsequence of the log grid, at least 7 scales lie past the transition, and (for
the strides `d ≤ 7`, e.g. the default 4) the second part is not empty. -/
theorem C46_piecewise (N nv : ℕ) (mn mx : ℝ) (wv : ScaleWavelet) (d : ℕ) (hnv : 1 ≤ nv)
    (h0 : 0 < mn) (hx : 0 < mx) (l : List ℝ)
    (h : makeScales N (some mn) (some mx) nv (.known .logPiecewise) (some wv) d = .ok l) :
    ∃ s, makeScales N (some mn) (some mx) nv (.known .log) (some wv) d = .ok s ∧
      l.Pairwise (· < ·) ∧ (∀ x ∈ l, x ∈ s) ∧
      (l = s ∨ ∃ idx, 1 ≤ d ∧ idx + 7 < s.length ∧ idx ≤ l.length ∧ (d ≤ 7 → idx < l.length) ∧
        (∀ i, ∀ (hi : i < idx) (h1 : i < l.length) (h2 : i < s.length), l[i] = s[i]) ∧
        (∀ j, ∀ h1 : idx + j < l.length, ∃ h2 : idx + d - 1 + j * d < s.length,
          l[idx + j] = s[idx + d - 1 + j * d]) ∧
        s.length ≤ idx + d - 1 + (l.length - idx) * d) := by
  refine ⟨_, makeScales_log N nv (some wv) d h0 hx, ?_⟩
  set s := logScales nv (scalePows nv mn mx).1 (scalePows nv mn mx).2 with hs
  have hlt : s.Pairwise (· < ·) := logScales_lt hnv
  have hmono : ∀ i j, ∀ (hi : i < s.length) (hj : j < s.length), i < j → s[i] < s[j] :=
    fun i j hi hj hij => List.pairwise_iff_getElem.mp hlt i j hi hj hij
  unfold makeScales at h
  simp only [Option.isNone_some, Bool.and_false, Bool.false_eq_true, if_false, h0.ne', hx.ne',
    pure_eq_ok, ok_bind, ← hs] at h
  rw [bind_eq_ok] at h
  obtain ⟨o, ho, h⟩ := h
  rcases o with _ | idx
  · simp only [Except.ok.injEq] at h
    subst h
    exact ⟨hlt, fun _ hx => hx, Or.inl rfl⟩
  · have hidx := findDownsampling_lt ho
    simp only at h
    split at h
    · simp [throw_eq_error] at h
    · next hd =>
      have hd : 1 ≤ d := by omega
      simp only [ok_bind, Except.ok.injEq] at h
      subst h
      have hl1 : (s.take idx).length = idx := by rw [List.length_take]; omega
      have hA : ∀ i, ∀ (hi : i < idx) (h1 : i < (s.take idx ++ everyNth s (idx + d - 1) d).length)
          (h2 : i < s.length), (s.take idx ++ everyNth s (idx + d - 1) d)[i] = s[i] := by
        intro i hi h1 h2
        rw [List.getElem_append_left (by omega), List.getElem_take]
      have hB : ∀ j, ∀ h1 : idx + j < (s.take idx ++ everyNth s (idx + d - 1) d).length,
          ∃ h2 : idx + d - 1 + j * d < s.length,
          (s.take idx ++ everyNth s (idx + d - 1) d)[idx + j] = s[idx + d - 1 + j * d] := by
        intro j h1
        have hj : j < (everyNth s (idx + d - 1) d).length := by
          rw [List.length_append, hl1] at h1; omega
        refine ⟨everyNth_lt _ _ _ hd hj, ?_⟩
        rw [List.getElem_append_right (by omega)]
        simp only [hl1, Nat.add_sub_cancel_left]
        exact everyNth_getElem _ _ _ hd hj
      refine ⟨?_, ?_, Or.inr ⟨idx, hd, hidx, by rw [List.length_append]; omega, ?_, hA, hB, ?_⟩⟩
      · rw [List.pairwise_iff_getElem]
        intro i j hi hj hij
        by_cases hi' : i < idx
        · rw [hA i hi' hi (by omega)]
          by_cases hj' : j < idx
          · rw [hA j hj' hj (by omega)]
            exact hmono _ _ _ _ hij
          · obtain ⟨k, rfl⟩ : ∃ k, j = idx + k := ⟨j - idx, by omega⟩
            obtain ⟨h2, e⟩ := hB k hj
            rw [e]
            exact hmono _ _ _ _ (by omega)
        · obtain ⟨k, rfl⟩ : ∃ k, i = idx + k := ⟨i - idx, by omega⟩
          obtain ⟨m, rfl⟩ : ∃ m, j = idx + m := ⟨j - idx, by omega⟩
          obtain ⟨h2, e⟩ := hB k hi
          obtain ⟨h3, e'⟩ := hB m hj
          rw [e, e']
          apply hmono
          have : k * d < m * d := Nat.mul_lt_mul_of_pos_right (by omega) hd
          omega
      · intro x hx
        obtain ⟨i, hi, rfl⟩ := List.getElem_of_mem hx
        by_cases hi' : i < idx
        · rw [hA i hi' hi (by omega)]; exact List.getElem_mem _
        · obtain ⟨k, rfl⟩ : ∃ k, i = idx + k := ⟨i - idx, by omega⟩
          obtain ⟨h2, e⟩ := hB k hi
          rw [e]; exact List.getElem_mem _
      · intro hd7
        rw [List.length_append, hl1, everyNth_length _ _ _ hd]
        have : 1 ≤ (s.length - (idx + d - 1) + d - 1) / d := by
          rw [Nat.le_div_iff_mul_le hd]; omega
        omega
      · have := everyNth_last s (idx + d - 1) d hd
        rw [List.length_append, hl1, Nat.add_sub_cancel_left]
        exact this

/-- **C46, consistency with the squeezing kernels.** If the transition lies at an index `idx ≥ 2` and
`2 ≤ d ≤ 7`, the piecewise grid has two geometric segments, of steps `1/nv` and `d/nv` octaves, and the
library's own transition detector finds exactly `idx`. -/
theorem C46_transition (N nv : ℕ) (mn mx : ℝ) (wv : ScaleWavelet) (d : ℕ) (hnv : 1 ≤ nv)
    (hd : 2 ≤ d) (hd7 : d ≤ 7) (h0 : 0 < mn) (hx : 0 < mx) (l s : List ℝ)
    (h : makeScales N (some mn) (some mx) nv (.known .logPiecewise) (some wv) d = .ok l)
    (hs : makeScales N (some mn) (some mx) nv (.known .log) (some wv) d = .ok s) (hne : l ≠ s)
    (dt : FDtype) :
    ∃ idx, (∀ i, ∀ (hi : i < idx) (h1 : i < l.length) (h2 : i < s.length), l[i] = s[i]) ∧
      (2 ≤ idx → (∃ a, Spec.TwoSegment l (idx - 1) a (1 / nv) (d / nv)) ∧
        logscaleTransitionIdx (thTr dt) l = .ok (some idx)) := by
  obtain ⟨s', hs', -, -, hor⟩ := C46_piecewise N nv mn mx wv d hnv h0 hx l h
  rw [hs] at hs'
  simp only [Except.ok.injEq] at hs'
  subst hs'
  rcases hor with e | ⟨idx, hd1, hidx, hle, hne2, hA, hB, hlast⟩
  · exact absurd e hne
  refine ⟨idx, hA, fun h2 => ?_⟩
  rw [makeScales_log N nv (some wv) d h0 hx] at hs
  simp only [Except.ok.injEq] at hs
  have hgeo : Spec.Geometric s (((scalePows nv mn mx).2 : ℝ) / nv) (1 / nv) := by
    rw [← hs]; exact logScales_geometric _ _ _
  set a := ((scalePows nv mn mx).2 : ℝ) / nv with ha
  have hnv' : (0 : ℝ) < nv := by exact_mod_cast hnv
  have hseg : Spec.TwoSegment l (idx - 1) a (1 / nv) (d / nv) := by
    refine ⟨by omega, by have := hne2 hd7; omega, fun i hi => ?_⟩
    by_cases hi' : i < idx
    · rw [hA i hi' hi (by omega), if_pos (by omega)]
      exact hgeo i (by omega)
    · obtain ⟨k, rfl⟩ : ∃ k, i = idx + k := ⟨i - idx, by omega⟩
      obtain ⟨hk, e⟩ := hB k hi
      rw [e, if_neg (by omega)]
      refine ⟨(hgeo _ hk).1, ?_⟩
      rw [(hgeo _ hk).2]
      have e1 : ((idx + d - 1 + k * d : ℕ) : ℝ) = (idx : ℝ) - 1 + (k + 1) * d := by
        have : idx + d - 1 + k * d = (idx - 1) + (k + 1) * d := by ring_nf; omega
        rw [this]; push_cast [Nat.cast_sub (by omega : 1 ≤ idx)]; ring
      have e2 : ((idx - 1 : ℕ) : ℝ) = (idx : ℝ) - 1 := by
        push_cast [Nat.cast_sub (by omega : 1 ≤ idx)]; ring
      rw [e1, e2]
      push_cast
      ring
  refine ⟨⟨a, hseg⟩, ?_⟩
  have hne' : (1 : ℝ) / nv ≠ d / nv := by
    intro e
    rw [div_left_inj' hnv'.ne'] at e
    have : (1 : ℕ) = d := by exact_mod_cast e
    omega
  rw [transition_two (thTr_pos dt) hseg hne']
  congr 2; omega

/-- With too few scales for one group of wavelets (six or fewer) the downsampling search reads a loop
variable that was never assigned. -/
theorem C46_few_scales_refuted (wv : ScaleWavelet) (s : List ℝ) (hs : s.length ≤ 6)
    (hl : (wv.psih s).length = s.length) :
    findDownsampling wv s = .error .unboundLocalError := by
  unfold findDownsampling
  simp only [hl, ne_eq, not_true_eq_false, if_false]
  unfold findDownsamplingScale
  have : (((wv.psih s).map fun r => r.take (r.length / 2)).length - 5 - 1) = 0 := by
    rw [List.length_map]; omega
  rw [this]
  simp [densityLoop]

/-- A row maximum. -/
theorem rowMax_eq {l : List ℝ} {m : ℝ} (hm : m ∈ l) (h : ∀ y ∈ l, y ≤ m) : rowMax l = m := by
  have hne : l ≠ [] := List.ne_nil_of_mem hm
  have hlt := argmaxL_lt l hne
  unfold rowMax
  rw [List.getD_eq_getElem _ _ hlt]
  exact le_antisymm (h _ (List.getElem_mem hlt)) (argmaxL_spec l hne _ hm)

/-- A wavelet whose first two sampled rows are wide and the others single peaks. -/
noncomputable def exWavelet : ScaleWavelet where
  minScale _ := .ok 1
  maxScale _ _ _ := .ok 16
  maxScaleAlt _ _ _ := .ok 16
  psih s := (List.range s.length).map fun i : ℕ =>
    if i < 2 then List.replicate 40 1 else 1 :: List.replicate 39 0

theorem exWide : rowMax (List.replicate 20 1) = 1 :=
  rowMax_eq (by simp) (by intro y hy; rw [List.eq_of_mem_replicate hy])

theorem exPeak : rowMax (1 :: List.replicate 19 0) = 1 := by
  apply rowMax_eq (by simp)
  intro y hy
  rcases List.mem_cons.mp hy with rfl | hy
  · exact le_rfl
  · rw [List.eq_of_mem_replicate hy]; norm_num

/-- The example wavelet makes the search stop at index 2 of a 16-scale grid. -/
theorem ex_downsampling (s : List ℝ) (hs : s.length = 16) :
    findDownsampling exWavelet s = .ok (some 2) := by
  have e1 : (List.replicate 20 (1:ℝ)).countP (fun x => decide (1/50 * (1:ℝ) < x)) = 20 := by
    rw [List.countP_replicate]; norm_num
  have e2 : ((1:ℝ) :: List.replicate 19 0).countP (fun x => decide (1/50 * (1:ℝ) < x)) = 1 := by
    rw [List.countP_cons, List.countP_replicate]; norm_num
  have g0 : groupTooDense 5 [List.replicate 20 1, List.replicate 20 1, 1 :: List.replicate 19 0,
      1 :: List.replicate 19 0, 1 :: List.replicate 19 0] = false := by
    unfold groupTooDense
    simp only [List.map_cons, List.map_nil, exWide, exPeak, e1, e2]
    rw [if_pos (by norm_num)]
  have g1 : groupTooDense 5 [List.replicate 20 1, 1 :: List.replicate 19 0,
      1 :: List.replicate 19 0, 1 :: List.replicate 19 0, 1 :: List.replicate 19 0] = false := by
    unfold groupTooDense
    simp only [List.map_cons, List.map_nil, exWide, exPeak, e1, e2]
    rw [if_pos (by norm_num)]
  have g2 : groupTooDense 5 [1 :: List.replicate 19 0, 1 :: List.replicate 19 0,
      1 :: List.replicate 19 0, 1 :: List.replicate 19 0, 1 :: List.replicate 19 0] = true := by
    unfold groupTooDense
    simp only [List.map_cons, List.map_nil, exPeak, e2]
    rw [if_neg (by norm_num)]
    have hr : ∀ c : ℕ, ((1:ℝ) :: List.replicate 19 0).getD c 0 = if c = 0 then 1 else 0 := by
      intro c
      rcases c with _ | c
      · simp
      · simp only [List.getD_cons_succ, Nat.add_eq_zero_iff, one_ne_zero, and_false, if_false]
        by_cases hc : c < 19
        · rw [List.getD_eq_getElem _ _ (by simpa using hc), List.getElem_replicate]
        · rw [List.getD_eq_default]; simp; omega
    have hlen : ((1:ℝ) :: List.replicate 19 0).length = 20 := by simp
    have hpk : (List.range 20).filter (fun c => decide ((if c = 0 then (1:ℝ) else 0) = 1)) = [0] := by
      have : (fun c : ℕ => decide ((if c = 0 then (1:ℝ) else 0) = 1)) = fun c => decide (c = 0) := by
        funext c; by_cases hc : c = 0 <;> simp [hc]
      rw [this]; rfl
    have hj : argmaxL ((List.range 20).map fun c : ℕ => if c = 0 then (1:ℝ) else 0) = 0 := by
      apply argmaxL_eq _ _ (by simp)
      · intro y hy
        obtain ⟨c, _, rfl⟩ := List.mem_map.mp hy
        simp only [List.getElem_map, List.getElem_range, if_true]
        split <;> norm_num
      · intro i h; omega
    have hprod : (fun c : ℕ => ([if c = 0 then (1:ℝ) else 0, if c = 0 then 1 else 0,
        if c = 0 then 1 else 0, if c = 0 then 1 else 0, if c = 0 then 1 else 0] : List ℝ).prod) =
        fun c : ℕ => if c = 0 then (1:ℝ) else 0 := by
      funext c; by_cases hc : c = 0 <;> simp [hc]
    simp only [List.flatMap_cons, List.flatMap_nil, exPeak, hr, hlen, hpk, List.head?_cons,
      Option.getD_some, hprod, hj]
    decide
  have hpsih : (exWavelet.psih s).map (fun r => r.take (r.length / 2)) =
      List.replicate 2 (List.replicate 20 1) ++
        List.replicate 14 ((1:ℝ) :: List.replicate 19 0) := by
    simp only [exWavelet, hs, List.map_map]
    rfl
  unfold findDownsampling
  simp only [hpsih]
  rw [if_neg (by simp [exWavelet])]
  unfold findDownsamplingScale
  have hloop : densityLoop (fun i => groupTooDense 5 (((List.replicate 2 (List.replicate 20 1) ++
        List.replicate 14 ((1:ℝ) :: List.replicate 19 0)).drop i).take 5)) 10 = some 2 := by
    unfold densityLoop
    rw [if_neg (by norm_num)]
    have : (List.range 10).findIdx (fun i => groupTooDense 5 (((List.replicate 2
        (List.replicate 20 (1:ℝ)) ++ List.replicate 14 ((1:ℝ) :: List.replicate 19 0)).drop
          i).take 5)) = 2 := by
      rw [List.findIdx_eq (by simp)]
      refine ⟨g2, fun j hj => ?_⟩
      simp only [List.getElem_range]
      match j, hj with
      | 0, _ => exact g0
      | 1, _ => exact g1
    rw [this]; rfl
  simp only [List.length_append, List.length_replicate]
  norm_num only
  rw [hloop]
  simp

/-- Non-vacuity of C46: the example wavelet downsamples a 16-scale grid from index 2 on with stride 4. -/
example : ∃ l s, makeScales 0 (some 1) (some 16) 4 (.known .logPiecewise) (some exWavelet) 4 = .ok l ∧
    makeScales 0 (some 1) (some 16) 4 (.known .log) (some exWavelet) 4 = .ok s ∧ l ≠ s ∧
    l.length = 5 ∧ s.length = 16 := by
  have hlog : Real.logb 2 (16 / 1) = 4 := by
    rw [show (16 / 1 : ℝ) = 2 ^ (4 : ℝ) by norm_num, Real.logb_rpow (by norm_num) (by norm_num)]
  have hp : scalePows 4 1 16 = (16, 0) := by
    simp only [scalePows, hlog]; norm_num
  have hl : (logScales 4 16 0).length = 16 := by rw [logScales_length]; rfl
  refine ⟨(logScales 4 16 0).take 2 ++ everyNth (logScales 4 16 0) 5 4, logScales 4 16 0, ?_, ?_, ?_, ?_, hl⟩
  · unfold makeScales
    simp [hp, ex_downsampling _ hl, ok_bind, pure_eq_ok]
  · rw [makeScales_log _ _ _ _ one_pos (by norm_num), hp]
  · intro e
    have := congrArg List.length e
    rw [List.length_append, everyNth_length _ _ _ (by norm_num), List.length_take, hl] at this
    norm_num at this
  · rw [List.length_append, everyNth_length _ _ _ (by norm_num), List.length_take, hl]
    norm_num

end Ssq
