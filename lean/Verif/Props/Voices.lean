import Verif.Props.Rows
import Verif.Props.ScalesArg
import Verif.Props.HigherOrder

/-!
# C222: more voices per octave
-/
namespace Ssq

/-- The bounds of logarithmic scales do not depend on the number of voices. -/
theorem makeScales_log_same {N nv nv' : ℕ} {mn mx : Option ℝ} {wv : Option ScaleWavelet} {ds ds' : ℕ} {l l' : List ℝ}
    (h : makeScales N mn mx nv (.known .log) wv ds = .ok l) (h' : makeScales N mn mx nv' (.known .log) wv ds' = .ok l') :
    ∃ m M : ℝ, (∀ m0, mn = some m0 → m0 ≠ 0 → m = m0) ∧
      l = logScales nv (scalePows nv m M).1 (scalePows nv m M).2 ∧
      l' = logScales nv' (scalePows nv' m M).1 (scalePows nv' m M).2 := by
  unfold makeScales at h h'
  simp only [Bool.false_and, Bool.false_eq_true, if_false, pure_eq_ok, ok_bind] at h h'
  split at h
  · obtain ⟨⟨m, M⟩, hb, h⟩ := bind_ok h
    simp only [hb, ok_bind, Except.ok.injEq] at h h'
    exact ⟨m, M, by simp, h.symm, h'.symm⟩
  · next hne =>
    split at h'
    · exact absurd rfl (hne _ rfl rfl)
    · simp only [Except.ok.injEq] at h h'
      refine ⟨_, _, ?_, h.symm, h'.symm⟩
      rintro m0 rfl h0
      simp [h0]

theorem logScales_getD {nv : ℕ} {na p : ℤ} {i : ℕ} (hi : i < (logScales nv na p).length) :
    (logScales nv na p).getD i 0 = (2 : ℝ) ^ (((p + (i : ℤ) : ℤ) : ℝ) / nv) := by
  rw [List.getD_eq_getElem _ _ hi]
  simp [logScales]

/-- Which exponents are multiples of the coarser ones. -/
theorem pows_nest (L U : ℝ) {d : ℕ} (hd : 1 ≤ d) :
    ∃ o : ℕ, o < d ∧ ⌊(d : ℝ) * L⌋ = d * ⌊L⌋ + o ∧ ∀ n : ℤ, n < ⌈U⌉ → d * n - o < ⌈(d : ℝ) * U⌉ := by
  have hd0 : (0 : ℝ) < d := by exact_mod_cast hd
  have h1 : (d : ℤ) * ⌊L⌋ ≤ ⌊(d : ℝ) * L⌋ := by
    rw [Int.le_floor]
    push_cast
    exact mul_le_mul_of_nonneg_left (Int.floor_le L) hd0.le
  have h2 : ⌊(d : ℝ) * L⌋ < d * ⌊L⌋ + d := by
    rw [Int.floor_lt]
    push_cast
    have := mul_lt_mul_of_pos_left (Int.lt_floor_add_one L) hd0
    linarith
  refine ⟨(⌊(d : ℝ) * L⌋ - d * ⌊L⌋).toNat, by omega, by omega, fun n hn => ?_⟩
  have h3 : (d : ℤ) * n < ⌈(d : ℝ) * U⌉ := by
    rw [Int.lt_ceil] at hn ⊢
    push_cast
    exact mul_lt_mul_of_pos_left hn hd0
  omega

/-- **C222, scales.** With `d` times as many voices per octave `make_scales` makes, for every `i ≥ 1`, the `i`-th of the
former scales again, as every `d`-th of the new ones; the first of the former scales too if it is not below the minimum
asked for. Missing: a first scale below the minimum (`C222_refuted`). -/
theorem C222_scales_partial {N nv d : ℕ} (hnv : 1 ≤ nv) (hd : 1 ≤ d) {mn mx : Option ℝ} {wv : Option ScaleWavelet} {ds ds' : ℕ}
    {l l' : List ℝ} (h : makeScales N mn mx nv (.known .log) wv ds = .ok l)
    (h' : makeScales N mn mx (d * nv) (.known .log) wv ds' = .ok l') :
    ∃ o < d, (∀ m0, mn = some m0 → 0 < m0 → m0 ≤ l.getD 0 0 → o = 0) ∧
      ∀ i < l.length, (0 < i ∨ o = 0) → d * i - o < l'.length ∧ l'.getD (d * i - o) 0 = l.getD i 0 := by
  obtain ⟨m, M, hm, rfl, rfl⟩ := makeScales_log_same h h'
  have hd0 : (0 : ℝ) < d := by exact_mod_cast hd
  have hn0 : (0 : ℝ) < nv := by exact_mod_cast hnv
  obtain ⟨o, ho, hp, hlt⟩ := pows_nest ((nv : ℝ) * Real.logb 2 m) ((nv : ℝ) * Real.logb 2 (M / m)) hd
  have e1 : (scalePows (d * nv) m M).1 = ⌈(d : ℝ) * ((nv : ℝ) * Real.logb 2 (M / m))⌉ := by
    unfold scalePows; push_cast; rw [mul_assoc]
  have e2 : (scalePows (d * nv) m M).2 = ⌊(d : ℝ) * ((nv : ℝ) * Real.logb 2 m)⌋ := by
    unfold scalePows; push_cast; rw [mul_assoc]
  have e3 : (scalePows nv m M).1 = ⌈(nv : ℝ) * Real.logb 2 (M / m)⌉ := rfl
  have e4 : (scalePows nv m M).2 = ⌊(nv : ℝ) * Real.logb 2 m⌋ := rfl
  rw [e1, e2, e3, e4, hp]
  set P := ⌊(nv : ℝ) * Real.logb 2 m⌋ with hP
  set na := ⌈(nv : ℝ) * Real.logb 2 (M / m)⌉ with hna
  have len : ∀ (v : ℕ) (a p : ℤ), (logScales v a p).length = a.toNat := by intro v a p; simp [logScales]
  have main : ∀ i < (logScales nv na P).length, (0 < i ∨ o = 0) →
      d * i - o < (logScales (d * nv) ⌈(d : ℝ) * ((nv : ℝ) * Real.logb 2 (M / m))⌉ (d * P + o)).length ∧
      (logScales (d * nv) ⌈(d : ℝ) * ((nv : ℝ) * Real.logb 2 (M / m))⌉ (d * P + o)).getD (d * i - o) 0 =
        (logScales nv na P).getD i 0 := by
    intro i hi hio
    have hoi : o ≤ d * i := by
      rcases hio with h | h
      · nlinarith
      · omega
    have hi' := hi
    rw [len] at hi'
    have h1 : d * i - o < (logScales (d * nv) ⌈(d : ℝ) * ((nv : ℝ) * Real.logb 2 (M / m))⌉ (d * P + o)).length := by
      rw [len]
      have := hlt i (by omega)
      zify [hoi] at *
      omega
    refine ⟨h1, ?_⟩
    rw [logScales_getD h1, logScales_getD hi]
    congr 1
    push_cast [Nat.cast_sub hoi]
    field_simp
    ring
  refine ⟨o, ho, ?_, main⟩
  intro m0 h0 hpos hle
  obtain rfl := hm m0 h0 hpos.ne'
  by_cases hl : 0 < (logScales nv na P).length
  · rw [logScales_getD hl] at hle
    have := Real.logb_le_logb_of_le (b := 2) (by norm_num) hpos hle
    rw [Real.logb_rpow (by norm_num) (by norm_num), le_div_iff₀ hn0] at this
    have hfl : ((P : ℤ) : ℝ) = nv * Real.logb 2 m :=
      le_antisymm (Int.floor_le _) (by push_cast at this; linarith)
    rw [← hfl] at hp
    have : ⌊(d : ℝ) * (P : ℝ)⌋ = d * P := by
      rw [show (d : ℝ) * (P : ℝ) = ((d * P : ℤ) : ℝ) by push_cast; rfl, Int.floor_intCast]
    omega
  · exfalso
    rw [List.getD_eq_default _ _ (by omega)] at hle
    linarith

/-- A string specifies one type and one preset. -/
theorem scaleSpec_unique {s : List Char} {st st' : ScaleType} {p p' : Option Preset} (h : Spec.ScaleSpec s st p)
    (h' : Spec.ScaleSpec s st' p') : st = st' ∧ p = p' := by
  obtain ⟨c, e, k⟩ := (parse_spec _ _ _).2 h
  obtain ⟨c', e', k'⟩ := (parse_spec _ _ _).2 h'
  rw [e] at e'
  simp only [Except.ok.injEq, Prod.mk.injEq] at e'
  obtain ⟨rfl, rfl⟩ := e'
  refine ⟨rfl, ?_⟩
  rcases k with ⟨rfl, rfl⟩ | ⟨a, q, rfl, ha, rfl⟩
  · rcases k' with ⟨-, rfl⟩ | ⟨a, q, hc, -⟩
    · rfl
    · simp at hc
  · rcases k' with ⟨hc, -⟩ | ⟨b, r, hc, hb, rfl⟩
    · simp at hc
    · simp only [Option.some.injEq] at hc
      subst hc
      rw [ha] at hb
      exact hb

/-- **C222, transform.** The CWT over named logarithmic scales with `d` times as many voices has all rows of the one with
fewer voices, except perhaps the first, as every `d`-th of its rows: same scale, same values, same derivative. -/
theorem C222_rows_partial (x : List ℝ) (hx : 0 < x.length) (a : CwtArgs) (t : Option PadType) (ht : a.padtype = t.map padName)
    (s : List Char) (p : Option Preset) (hs : a.scales = .str s) (hlog : Spec.ScaleSpec s .log p) {nv d : ℕ} (hd : 1 ≤ d)
    (hnv : a.nv.getD 32 = nv) (hreal : a.wavelet.fn.isCplx = false ∨ a.vectorized = false)
    {W V dW dV : List (List ℂ)} {sc sc' : List ℝ} (h : cwt x a = .ok (W, sc, dW))
    (h' : cwt x { a with nv := some ((d * nv : ℕ) : ℚ) } = .ok (V, sc', dV)) :
    ∃ o < d, ∀ i, 0 < i → i < sc.length → d * i - o < sc'.length ∧ sc'.getD (d * i - o) 0 = sc.getD i 0 ∧
      V.getD (d * i - o) [] = W.getD i [] ∧ dV.getD (d * i - o) [] = dW.getD i [] := by
  have hrow := fun {i i' : ℕ} => C181_rows_partial x a { a with nv := some ((d * nv : ℕ) : ℚ) } t ht hx rfl rfl rfl rfl rfl
    (by rcases hreal with h | h
        · exact Or.inl h
        · exact Or.inr ⟨h, h⟩) h h' (i := i) (i' := i')
  obtain ⟨r, q, c, -, -, -, k, rfl, -⟩ := (cwt_ok_iff _ _ _ _ _).1 h
  obtain ⟨r', q', c', -, -, -, k', rfl, -⟩ := (cwt_ok_iff _ _ _ _ _).1 h'
  have n1 : cwtNv a = a.nv := by unfold cwtNv; rw [hs]
  have n2 : cwtNv { a with nv := some ((d * nv : ℕ) : ℚ) } = some ((d * nv : ℕ) : ℚ) := by
    unfold cwtNv; simp only [hs]
  rw [n1] at k
  rw [n2] at k'
  simp only [hs] at k k'
  obtain ⟨w, st, p1, n, mn, mx, l, hw, hsp, hn1, hn, hb, hm, rfl⟩ := (C47_string _ _ _ _ _ _ _).1 k
  obtain ⟨w', st', p1', n', mn', mx', l', hw', hsp', hn1', hn', hb', hm', rfl⟩ := (C47_string _ _ _ _ _ _ _).1 k'
  obtain ⟨rfl, rfl⟩ := scaleSpec_unique hlog hsp
  obtain ⟨rfl, rfl⟩ := scaleSpec_unique hlog hsp'
  obtain rfl : w = w' := by rw [hw] at hw'; exact Option.some.inj hw'
  rw [hb] at hb'
  simp only [Except.ok.injEq, Prod.mk.injEq] at hb'
  obtain ⟨rfl, rfl⟩ := hb'
  obtain rfl : nv = n := by exact_mod_cast hnv.symm.trans hn
  obtain rfl : d * nv = n' := by
    rw [Option.getD_some] at hn'
    exact_mod_cast hn'
  obtain ⟨o, ho, -, hi⟩ := C222_scales_partial hn1 hd hm hm'
  refine ⟨o, ho, fun i h0 hl => ?_⟩
  obtain ⟨h1, h2⟩ := hi i hl (Or.inl h0)
  exact ⟨h1, h2, (hrow hl h1 h2).1 rfl⟩

/-- The full statement of **C222**: with `d` times as many voices, all former scales are made again. -/
def C222_full : Prop :=
  ∀ (N nv d : ℕ) (mn mx : ℝ) (wv : Option ScaleWavelet) (ds : ℕ) (l l' : List ℝ), 1 ≤ nv → 1 ≤ d → 0 < mn → mn < mx →
    makeScales N (some mn) (some mx) nv (.known .log) wv ds = .ok l →
    makeScales N (some mn) (some mx) (d * nv) (.known .log) wv ds = .ok l' → ∀ s ∈ l, s ∈ l'

/-- **C222 refuted.** From `√2` to `4√2`: with one voice the scales are 1 and 2; with two voices all are at least `√2`. -/
theorem C222_refuted : ¬ C222_full := by
  intro H
  have hm : (0 : ℝ) < (2 : ℝ) ^ (1 / 2 : ℝ) := by positivity
  have hM : (0 : ℝ) < (2 : ℝ) ^ (5 / 2 : ℝ) := by positivity
  have e := H 8 1 2 _ _ none 1 _ _ le_rfl (by norm_num) hm
    (Real.rpow_lt_rpow_of_exponent_lt (by norm_num) (by norm_num : (1 / 2 : ℝ) < 5 / 2))
    (makeScales_log 8 1 none 1 hm hM) (makeScales_log 8 (2 * 1) none 1 hm hM) 1
  have l1 : Real.logb 2 ((2 : ℝ) ^ (1 / 2 : ℝ)) = 1 / 2 := Real.logb_rpow (by norm_num) (by norm_num)
  have l2 : Real.logb 2 ((2 : ℝ) ^ (5 / 2 : ℝ) / (2 : ℝ) ^ (1 / 2 : ℝ)) = 2 := by
    rw [← Real.rpow_sub (by norm_num), Real.logb_rpow (by norm_num) (by norm_num)]
    norm_num
  have f1 : ⌊(1 / 2 : ℝ)⌋ = 0 := by rw [Int.floor_eq_iff]; norm_num
  simp only [scalePows, l1, l2] at e
  norm_num [f1] at e
  have hin : (1 : ℝ) ∈ logScales 1 2 0 := by
    unfold logScales
    simp only [List.mem_map, List.mem_range]
    exact ⟨0, by norm_num, by norm_num⟩
  have h2 := e hin
  unfold logScales at h2
  simp only [List.mem_map, List.mem_range] at h2
  obtain ⟨i, -, hi⟩ := h2
  have : (1 : ℝ) < (2 : ℝ) ^ (((1 + (i : ℤ) : ℤ) : ℝ) / ((2 : ℕ) : ℝ)) :=
    Real.one_lt_rpow (by norm_num) (by push_cast; positivity)
  linarith

/-! ### Concrete calls -/

theorem naive8_two (wv : ScaleWavelet) (d : ℕ) :
    ∃ sc, processScales (.str "log:naive".toList) 8 (some wv) (some 2) true d = .ok (sc, .log, sc.length, .int 2) := by
  have hp : parseScalesStr "log:naive".toList = .ok (.log, some "naive".toList) := by decide
  have hi : positiveInteger 2 = .ok 2 := by decide
  have hc : checkPreset (some "naive".toList) = .ok (some .naive) := by decide
  have hb : cwtScalebounds wv 8 (some .naive) none none none true = .ok (1, ((8 : ℕ) : ℝ)) := by
    simp [cwtScalebounds, scaleboundsArgs, bind, Except.bind, pure, Except.pure]
  have hm := makeScales_log 8 2 (some wv) d (mn := 1) (mx := ((8 : ℕ) : ℝ)) one_pos (by norm_num)
  refine ⟨logScales 2 (scalePows 2 1 ((8 : ℕ) : ℝ)).1 (scalePows 2 1 ((8 : ℕ) : ℝ)).2, ?_⟩
  simp only [processScales, hp, ok_bind, Option.getD_some, hi, hc, hb, hm, pure_eq_ok]
  rfl

/-- The hypotheses of `C222_rows_partial` are met: eight samples, scales 1, 2, 4, one voice and two. -/
example : ∃ W V dW dV sc', cwt [3, 1, 4, 1, 5, 9, 2, 6] { argsR none with scales := .str "log:naive".toList, nv := some 1 } =
      .ok (W, [1, 2, 4], dW) ∧
    cwt [3, 1, 4, 1, 5, 9, 2, 6] { argsR none with scales := .str "log:naive".toList, nv := some ((2 * 1 : ℕ) : ℚ) } = .ok (V, sc', dV) ∧
    ∃ o < 2, V.getD (2 - o) [] = W.getD 1 [] ∧ V.getD (4 - o) [] = W.getD 2 [] := by
  obtain ⟨W, dW, h⟩ := C37_succeeds [3, 1, 4, 1, 5, 9, 2, 6]
    { argsR none with scales := .str "log:naive".toList, nv := some 1 } none rfl (by simp) 2 (1 / 2)
    (by simp [processFsT, argsR]) (by simp [argsR]) [1, 2, 4] .log 3 (.int 1) (some 1) (fun _ => rfl) (by simp) (naive8 _ _)
  obtain ⟨sc', hs⟩ := naive8_two (argsR none).wavelet.sw 4
  obtain ⟨V, dV, h'⟩ := C37_succeeds [3, 1, 4, 1, 5, 9, 2, 6]
    { argsR none with scales := .str "log:naive".toList, nv := some ((2 * 1 : ℕ) : ℚ) } none rfl (by simp) 2 (1 / 2)
    (by simp [processFsT, argsR]) (by simp [argsR]) sc' .log sc'.length (.int 2) (some ((2 * 1 : ℕ) : ℚ)) (fun _ => rfl) (by simp)
    (by rw [show ((2 * 1 : ℕ) : ℚ) = 2 by norm_num]; exact hs)
  obtain ⟨o, ho, hr⟩ := C222_rows_partial [3, 1, 4, 1, 5, 9, 2, 6] (by simp)
    { argsR none with scales := .str "log:naive".toList, nv := some 1 } none rfl "log:naive".toList (some .naive) rfl
    (Spec.ScaleSpec.preset .log .naive) (nv := 1) (d := 2) (by norm_num) (by simp) (Or.inl rfl) h h'
  exact ⟨W, V, dW, dV, sc', h, h', o, ho, (hr 1 (by norm_num) (by simp)).2.2.1, (hr 2 (by norm_num) (by simp)).2.2.1⟩

end Ssq
