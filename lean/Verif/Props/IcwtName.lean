import Verif.Props.IssqCwt
import Verif.Props.ScalesArg

/-!
# C72: inverting with the name of the scales or with the array of scales

`icwt` accepts either the array `cwt` returned or the name of the scale distribution. The two are expected to
give the same signal.
-/
namespace Ssq
open Complex

/-- The full statement of **C72**: if a name (with the number of voices used) makes the scales `v`, then inverting
with the name and inverting with the array `v` give the same signal. -/
def C72_full : Prop := ∀ (n : ℕ) (W : List (List ℂ)) (s : List Char) (a : IcwtArgs) (v : List ℝ) (st : ScaleType)
  (na : ℕ) (nv : Nv) (x : List ℝ), 3 ≤ v.length →
  processScales (.str s) (icwtArr.orElseN a.xLen n) (some a.wavelet.sw) (some (a.nv.getD 32)) true a.downsample =
    .ok (v, st, na, nv) →
  icwt n W (.str s) a = .ok x → icwt n W (.arr [v.length, 1] .f64 v) { a with nv := none } = .ok x

/-- Log scales are a geometric grid whatever the bounds. -/
theorem makeScales_log_any {N nv : ℕ} {mn mx : ℝ} {wv : Option ScaleWavelet} {d : ℕ} {l : List ℝ}
    (h : makeScales N (some mn) (some mx) nv (.known .log) wv d = .ok l) :
    ∃ na p : ℤ, l = logScales nv na p := by
  unfold makeScales at h
  simp only [Bool.false_and, Bool.false_eq_true, if_false, pure_eq_ok, ok_bind, Except.ok.injEq] at h
  exact ⟨_, _, h.symm⟩

/-- The call with a name, opened. -/
theorem icwt_str {n : ℕ} {W : List (List ℂ)} {s : List Char} {a : IcwtArgs} {x : List ℝ}
    (h : icwt n W (.str s) a = .ok x) {r : List ℝ × ScaleType × ℕ × Nv}
    (hr : processScales (.str s) (icwtArr.orElseN a.xLen n) (some a.wavelet.sw) (some (a.nv.getD 32)) true
      a.downsample = .ok r) :
    checkGmw a.wavelet.gmw a.l1Norm = .ok () ∧ icwt.icwtTop a n W r = .ok x := by
  unfold icwt at h
  obtain ⟨_, hg, h'⟩ := bind_ok h
  simp only [hr, ok_bind] at h'
  exact ⟨hg, h'⟩

theorem shape_col {n : ℕ} (h : 3 ≤ n) : ((([n, 1] : List ℕ)).filter (· ≠ 1)).length = 1 := by
  rw [List.filter_cons_of_pos (by simp; omega)]; simp

/-- The array path does not look at the outer `nv`. -/
theorem icwtArr_nv (a : IcwtArgs) (q : Option ℚ) (n : ℕ) : ∀ (v : List ℝ) (W : List (List ℂ)),
    icwtArr { a with nv := q } n W v = icwtArr a n W v := by
  intro v
  induction hk : v.length using Nat.strong_induction_on generalizing v with
  | _ k ih =>
    intro W
    rw [icwtArr, icwtArr]
    simp only
    split
    · rfl
    · split
      · rfl
      · split
        · split
          · rfl
          · rfl
          · split
            · rename_i idx _ h
              rw [ih _ (by simp; omega) (v.take idx) rfl, ih _ (by simp; omega) (v.drop idx) rfl]
            · rfl
        · rfl

/-- **C72 (partial).** The name and the array give the same signal for `log` scales (three or more) with no further
condition; for `linear` scales as soon as the array is recognised as linear; for `log-piecewise` scales as soon as
the array is recognised as such. Missing: `log-piecewise` scales with no transition, for which it is false. -/
theorem C72_same_partial (n : ℕ) (W : List (List ℂ)) (s : List Char) (a : IcwtArgs) (v : List ℝ) (st : ScaleType)
    (na : ℕ) (nv : Nv) (x : List ℝ) (h3 : 3 ≤ v.length)
    (hp : processScales (.str s) (icwtArr.orElseN a.xLen n) (some a.wavelet.sw) (some (a.nv.getD 32)) true
      a.downsample = .ok (v, st, na, nv))
    (h : icwt n W (.str s) a = .ok x)
    (hrec : st = .log ∨ ∃ m, inferScaletype .f64 v = .ok (st, m)) :
    icwt n W (.arr [v.length, 1] .f64 v) { a with nv := none } = .ok x := by
  obtain ⟨hg, ht⟩ := icwt_str h hp
  obtain ⟨w, st', p, k, mn, mx, sc, hw, hspec, hk, hnv, hb, hm, e⟩ := (C47_string _ _ _ _ _ _ _).1 hp
  simp only [Prod.mk.injEq] at e
  obtain ⟨rfl, rfl, rfl, rfl⟩ := e
  have hlog : st = .log → processScales (.arr [v.length, 1] .f64 v) (icwtArr.orElseN a.xLen n) (some a.wavelet.sw)
      none true a.downsample = .ok (v, .log, v.length, .int k) := by
    rintro rfl
    obtain ⟨na, q, rfl⟩ := makeScales_log_any hm
    exact process_geometric (by decide) hk (logScales_geometric _ _ _) h3 (shape_col h3) _ _ _ _
  unfold icwt
  simp only [hg, ok_bind]
  rcases hrec with rfl | ⟨m, hi⟩
  · rw [hlog rfl, ok_bind]
    exact ht
  · rcases infer_kind hi with ⟨rfl, _⟩ | ⟨rfl, rfl⟩ | ⟨rfl, l, rfl⟩
    · rw [hlog rfl, ok_bind]
      exact ht
    · have hpr : processScales (.arr [v.length, 1] .f64 v) (icwtArr.orElseN a.xLen n) (some a.wavelet.sw)
          none true a.downsample = .ok (v, .linear, v.length, .none) := by
        unfold processScales
        simp only [shape_col h3, ne_eq, not_true_eq_false, if_false, hi, ok_bind, pure_eq_ok]
      rw [hpr, ok_bind]
      exact ht
    · have hpr : processScales (.arr [v.length, 1] .f64 v) (icwtArr.orElseN a.xLen n) (some a.wavelet.sw)
          none true a.downsample = .ok (v, .logPiecewise, v.length, .arr l) := by
        unfold processScales
        simp only [shape_col h3, ne_eq, not_true_eq_false, if_false, hi, ok_bind, pure_eq_ok]
      rw [hpr, ok_bind]
      unfold icwt.icwtTop at ht ⊢
      simp only [icwtArr_nv]
      exact ht

/-- **C72, the failing case.** When the name `log-piecewise` made scales with no transition (three or more, geometric),
inverting with the name returns exactly twice the signal inverting with the array returns. -/
theorem C72_doubled (n : ℕ) (W : List (List ℂ)) (s : List Char) (a : IcwtArgs) (v : List ℝ)
    (na : ℕ) (nv : Nv) (x : List ℝ) (h3 : 3 ≤ v.length)
    (hp : processScales (.str s) (icwtArr.orElseN a.xLen n) (some a.wavelet.sw) (some (a.nv.getD 32)) true
      a.downsample = .ok (v, .logPiecewise, na, nv))
    (h : icwt n W (.str s) a = .ok x) (k : ℕ) (hk : 1 ≤ k) (b : ℝ) (hgeo : Spec.Geometric v b (1 / (k : ℝ))) :
    ∃ y, icwt n W (.arr [v.length, 1] .f64 v) { a with nv := none } = .ok y ∧ x = y.map (fun u => 2 * u) := by
  obtain ⟨hg, ht⟩ := icwt_str h hp
  unfold icwt.icwtTop at ht
  simp only [if_true, transition_geometric hgeo h3, ok_bind] at ht
  split at ht
  · simp at ht
  · rename_i hlen
    have hlen := not_not.1 hlen
    rw [icwtArr_geometric a n W hk hgeo h3 hlen] at ht
    simp only [ok_bind, Except.ok.injEq] at ht
    refine ⟨icwtLeaf a n W v .log (.int k), ?_, ?_⟩
    · unfold icwt
      simp only [hg, ok_bind, process_geometric (dt := .f64) (by decide) hk hgeo h3 (shape_col h3), icwt.icwtTop]
      rw [if_neg (not_not.2 hlen), if_neg (by simp)]
      rfl
    · rw [← ht, List.zipWith_self]
      apply List.map_congr_left
      intro u _
      ring

/-! ### A concrete call -/

/-- Bounds 1 and 128, and one sample per scale. -/
noncomputable def sw7 : ScaleWavelet :=
  ⟨fun _ => .ok 1, fun _ _ _ => .ok 128, fun _ _ _ => .ok 128, fun s => s.map fun _ => [1]⟩

/-- Arguments of the call: one voice per octave. -/
noncomputable def exName : IcwtArgs := { wavelet := ⟨.real fnR, sw7, none⟩, admSsq := 2, nv := some 1 }

theorem pows7 : scalePows 1 1 128 = (7, 0) := by
  unfold scalePows
  have : Real.logb 2 128 = 7 := by
    rw [show (128 : ℝ) = 2 ^ (7 : ℝ) by norm_num]
    exact Real.logb_rpow (by norm_num) (by norm_num)
  simp [this]

theorem process7 (st : ScaleType) (hst : st ≠ .linear) (n : ℕ) :
    processScales (.str (Spec.scaleName st)) (icwtArr.orElseN exName.xLen n) (some exName.wavelet.sw)
      (some (exName.nv.getD 32)) true exName.downsample =
      .ok (logScales 1 7 0, st, 7, .int (1 : ℕ)) := by
  have hlen : (logScales 1 7 0).length = 7 := by simp [logScales]
  have hfd : findDownsampling sw7 (logScales 1 7 0) = .ok none := by
    unfold findDownsampling
    simp only [sw7, List.length_map, ne_eq, not_true_eq_false, if_false, hlen]
    unfold findDownsamplingScale densityLoop
    simp
  rw [C47_string]
  cases st with
  | linear => exact absurd rfl hst
  | log =>
    refine ⟨sw7, .log, none, 1, 1, 128, logScales 1 7 0, rfl, .plain _ (by simp), le_rfl, by simp [exName], rfl, ?_, ?_⟩
    · rw [makeScales_log _ _ _ _ one_pos (by norm_num), pows7]
    · rw [hlen]
  | logPiecewise =>
    refine ⟨sw7, .logPiecewise, some .maximal, 1, 1, 128, logScales 1 7 0, rfl, .piecewise, le_rfl, by simp [exName],
      rfl, ?_, ?_⟩
    · unfold makeScales
      simp only [Option.isNone_some, Bool.and_false, Bool.false_eq_true, if_false, pure_eq_ok, ok_bind, one_ne_zero,
        show (128 : ℝ) ≠ 0 by norm_num, pows7, hfd]
    · rw [hlen]

/-- The concrete call succeeds with either name. -/
theorem exName_ok (st : ScaleType) (hst : st ≠ .linear) (n : ℕ) (W : List (List ℂ)) (hW : W.length = 7) :
    ∃ x, icwt n W (.str (Spec.scaleName st)) exName = .ok x := by
  have hlen : (logScales 1 7 0).length = 7 := by simp [logScales]
  have hg : Spec.Geometric (logScales 1 7 0) (((0 : ℤ) : ℝ) / (1 : ℕ)) (1 / (1 : ℕ)) := logScales_geometric 1 7 0
  unfold icwt
  rw [show checkGmw exName.wavelet.gmw exName.l1Norm = .ok () from rfl, ok_bind]
  simp only [process7 st hst n, ok_bind, icwt.icwtTop]
  rw [if_neg (by rw [hlen, hW]; simp)]
  cases st with
  | linear => exact absurd rfl hst
  | log => exact ⟨_, rfl⟩
  | logPiecewise =>
    rw [if_pos rfl, transition_geometric hg (by rw [hlen]; norm_num), ok_bind]
    simp only [icwtArr_geometric exName n W le_rfl hg (by rw [hlen]; norm_num) (by rw [hlen, hW]), ok_bind]
    exact ⟨_, rfl⟩

/-- **C72 is false.** Seven octave-spaced scales named `log-piecewise`, a transform with one nonzero entry:
inverting with the name returns twice the value. -/
theorem C72_refuted : ¬ C72_full := by
  intro h
  set W : List (List ℂ) := [1] :: List.replicate 6 [0] with hW
  have hlen : (logScales 1 7 0).length = 7 := by simp [logScales]
  have hg : Spec.Geometric (logScales 1 7 0) (((0 : ℤ) : ℝ) / (1 : ℕ)) (1 / (1 : ℕ)) := logScales_geometric 1 7 0
  obtain ⟨x, hx⟩ := exName_ok .logPiecewise (by simp) 1 W (by simp [hW])
  have e := h 1 W _ exName _ _ _ _ x (by rw [hlen]; norm_num) (process7 .logPiecewise (by simp) 1) hx
  obtain ⟨y, hy, hd⟩ := C72_doubled 1 W _ exName _ _ _ x (by rw [hlen]; norm_num)
    (process7 .logPiecewise (by simp) 1) hx 1 le_rfl _ hg
  rw [e] at hy
  simp only [Except.ok.injEq] at hy
  subst hy
  have hi : inferScaletype .f64 (logScales 1 7 0) = .ok (.log, .int (1 : ℕ)) := by
    have := infer_geometric (dt := .f64) (by decide) hg (by rw [hlen]; norm_num) (by norm_num)
    rw [this]
    have h1 : roundHalfEven (1 : ℝ) = 1 := by exact_mod_cast rhe_intCast (K := ℝ) (1 : ℤ)
    norm_num [h1]
  obtain ⟨-, hl, hv⟩ := icwt_value _ _ _ _ _ _ _ e .log (.int (1 : ℕ)) 1 ⟨hi, Or.inl ⟨by simp, rfl⟩⟩ (by
    intro s hs
    obtain ⟨i, hi, rfl⟩ := List.getElem_of_mem hs
    exact logScales_pos hi)
  have h0 := hv 0 (by norm_num)
  have hx0 : x.getD 0 0 = 0 := by
    have hlt : 0 < x.length := by rw [hl]; norm_num
    have h2 : (x[0] : ℝ) = (2 : ℝ) * x[0] := by
      have : x[0]? = (x.map fun u => 2 * u)[0]? := by rw [← hd]
      rw [List.getElem?_map, List.getElem?_eq_getElem hlt] at this
      simpa using this
    rw [List.getD_eq_getElem _ _ hlt]
    linarith
  rw [hx0, hlen] at h0
  simp only [Finset.sum_range_succ, Finset.sum_range_zero, hW, ent, Spec.icwtWeight, exName] at h0
  have hlog : 0 < Real.log 2 := Real.log_pos (by norm_num)
  norm_num at h0
  linarith

/-- The hypotheses of `C72_same_partial` (with the name `log`) and of `C72_doubled` hold for every transform of seven
rows. -/
example (n : ℕ) (W : List (List ℂ)) (hW : W.length = 7) :
    (∃ x, icwt n W (.str (Spec.scaleName .log)) exName = .ok x ∧
      icwt n W (.arr [7, 1] .f64 (logScales 1 7 0)) { exName with nv := none } = .ok x) ∧
    (∃ x y, icwt n W (.str (Spec.scaleName .logPiecewise)) exName = .ok x ∧
      icwt n W (.arr [7, 1] .f64 (logScales 1 7 0)) { exName with nv := none } = .ok y ∧
      x = y.map (fun u => 2 * u)) := by
  have hlen : (logScales 1 7 0).length = 7 := by simp [logScales]
  have hg : Spec.Geometric (logScales 1 7 0) (((0 : ℤ) : ℝ) / (1 : ℕ)) (1 / (1 : ℕ)) := logScales_geometric 1 7 0
  constructor
  · obtain ⟨x, hx⟩ := exName_ok .log (by simp) n W hW
    have := C72_same_partial n W _ exName _ _ _ _ x (by rw [hlen]; norm_num) (process7 .log (by simp) n) hx (Or.inl rfl)
    rw [hlen] at this
    exact ⟨x, hx, this⟩
  · obtain ⟨x, hx⟩ := exName_ok .logPiecewise (by simp) n W hW
    obtain ⟨y, hy, hd⟩ := C72_doubled n W _ exName _ _ _ x (by rw [hlen]; norm_num)
      (process7 .logPiecewise (by simp) n) hx 1 le_rfl _ hg
    rw [hlen] at hy
    exact ⟨x, y, hx, hy, hd⟩

end Ssq
