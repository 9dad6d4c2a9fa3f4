import Verif.Model.SsqStft
import Verif.Props.Stft
import Verif.Props.Ssqueeze
import Verif.Props.Components

/-!
# C14, C15: the synchrosqueezed STFT and its inverse
-/
namespace Ssq
open Finset Complex

/-! ## C15 -/

/-- **C15, rejection.** Whatever the other arguments, `modulated=False` or a hop other than 1 is a
`ValueError`. -/
theorem C15_rejects (lib : WinLib) (tiny : ℝ) (M N : ℕ) (Tx : ℕ → ℕ → ℂ) (a : IssqStftArgs)
    (h : a.modulated = false ∨ a.hop ≠ 1) :
    issqStft lib tiny M N Tx a = .error .valueError := by
  have : issqStftProcess lib tiny M a = .error .valueError := by
    unfold issqStftProcess
    split
    · rfl
    · next hm =>
      rw [if_pos (h.resolve_left hm)]
  unfold issqStft
  rw [this]
  rfl

/-- Component curves the inverse understands: none at all, or as many widths as positions, with one entry
per column. -/
def Spec.CurvesOk (N : ℕ) : Option CurveArg → Option CurveArg → Prop
  | none, none => True
  | some (.oneD n _), some (.oneD n' _) => n = N ∧ n' = N
  | some (.twoD r c _), some (.twoD r' c' _) => r = N ∧ r' = N ∧ 0 < c ∧ c ≤ c'
  | _, _ => False

theorem invertTx_ok (M N : ℕ) (Tx : ℕ → ℕ → ℂ) (cc cw : Curves) (h1 : 0 < cc.cols)
    (h2 : cc.cols ≤ cw.cols) (h3 : cc.rows = N) (h4 : cw.rows = N) :
    ∃ x, invertTx M N Tx (some (cc, cw)) = .ok x := by
  simp only [invertTx, invertComponents]
  rw [if_neg (by omega), if_neg (by omega), if_neg (by simp [h3, h4])]
  exact ⟨_, rfl⟩

/-- **C15, acceptance.** With `modulated=True` and hop 1, and a window that can be prepared, the inverse
is computed: these two arguments cause no other rejection. -/
theorem C15_accepts (lib : WinLib) (tiny : ℝ) (M N : ℕ) (Tx : ℕ → ℕ → ℂ) (a : IssqStftArgs)
    (hm : a.modulated = true) (hh : a.hop = 1) (hc : Spec.CurvesOk N a.cc a.cw) (w : List ℝ)
    (hw : getWindow lib tiny a.window (orElse a.winLen (orElse a.nFft ((M - 1) * 2)))
      (some (orElse a.nFft ((M - 1) * 2))) = .ok w) (hne : w ≠ []) :
    ∃ r, issqStft lib tiny M N Tx a = .ok r := by
  have hnola : checkNOLA w 1 = .ok () := by
    unfold checkNOLA
    split <;> simp
  have hproc : ∀ c, processComponentArgs a.cc a.cw = .ok c →
      issqStftProcess lib tiny M a = .ok (c, w) := by
    intro c hcc
    unfold issqStftProcess
    rw [if_neg (by simp [hm]), if_neg (by simp [hh])]
    simp only [hcc, ok_bind, hw, hh, Int.toNat_one, hnola, hne, if_false]
  have hinv : ∃ c x, processComponentArgs a.cc a.cw = .ok c ∧ invertTx M N Tx c = .ok x := by
    unfold Spec.CurvesOk at hc
    split at hc
    · next h1 h2 => exact ⟨none, _, by rw [h1, h2]; rfl, rfl⟩
    · next n v n' v' h1 h2 =>
      rw [h1, h2]
      obtain ⟨y, hy⟩ := invertTx_ok M N Tx ⟨n, 1, fun t _ => v t⟩ ⟨n', 1, fun t _ => v' t⟩ one_pos
        le_rfl hc.1 hc.2
      exact ⟨_, y, rfl, hy⟩
    · next r c v r' c' v' h1 h2 =>
      rw [h1, h2]
      obtain ⟨y, hy⟩ := invertTx_ok M N Tx ⟨r, c, v⟩ ⟨r', c', v'⟩ hc.2.2.1 hc.2.2.2 hc.1 hc.2.1
      exact ⟨_, y, rfl, hy⟩
    · exact hc.elim
  obtain ⟨c, x, h1, h2⟩ := hinv
  refine ⟨x.scale (2 / w.getD (w.length / 2) 0), ?_⟩
  unfold issqStft
  simp only [hproc c h1, ok_bind, h2]

/-- Non-vacuity: an explicit three-tap window. -/
example : ∃ r, issqStft onesLib 0 3 2 (fun _ _ => 1) { window := .arr [1, 2, 1], nFft := some 3 } = .ok r :=
  C15_accepts _ _ _ _ _ _ rfl rfl trivial [1, 2, 1]
    (by simp [getWindow, getWindowRaw, orElse, zeroDenormals]) (by simp)

/-! ## C14 -/

/-- Sum of the non-negative-frequency bins of one modulated frame. -/
theorem half_spectrum (m : ℕ) (hm : 0 < m) (w : ℕ → ℝ) (E : ℤ → ℝ) (j : ℕ) :
    2 * ∑ k ∈ range (m / 2 + 1), (Spec.stft m 1 w E true k j).re =
      m * (w (m / 2) * E j) + (Spec.stft m 1 w E true 0 j).re +
        (if m % 2 = 0 then (Spec.stft m 1 w E true (m / 2) j).re else 0) := by
  have hm0 : m ≠ 0 := by omega
  set c := m / 2 with hc
  set f : ℕ → ℝ := fun r => w r * E ((j : ℤ) * (1 : ℕ) + r - (m / 2 : ℕ)) with hf
  have hS : ∀ k : ℕ, Spec.stft m 1 w E true k j = ∑ r ∈ range m, (f r : ℂ) * tw m (-((k : ℤ) * ((r : ℤ) - c))) := by
    intro k
    unfold Spec.stft
    refine sum_congr rfl fun r _ => ?_
    congr 1
    unfold tw
    congr 1
    simp only [if_true]
    push_cast
    ring
  have hsym : ∀ k, k ≤ m → Spec.stft m 1 w E true (m - k) j =
      (starRingEnd ℂ) (Spec.stft m 1 w E true k j) := by
    intro k hk
    rw [hS, hS, map_sum]
    refine sum_congr rfl fun r _ => ?_
    rw [map_mul, conj_ofReal, tw_conj, neg_neg]
    congr 1
    have : (-(((m - k : ℕ) : ℤ) * ((r : ℤ) - c))) = (m : ℤ) * (-((r : ℤ) - c)) + (k : ℤ) * ((r : ℤ) - c) := by
      push_cast [Nat.cast_sub hk]; ring
    rw [this, tw_add, tw_mul_n hm0, one_mul]
  have htot : ∑ k ∈ range m, Spec.stft m 1 w E true k j = (m : ℂ) * (f c : ℂ) := by
    have h1 : ∀ k ∈ range m, Spec.stft m 1 w E true k j =
        ∑ r ∈ range m, (f r : ℂ) * tw m ((k : ℤ) * ((c : ℤ) - r)) := by
      intro k _
      rw [hS]
      refine sum_congr rfl fun r _ => ?_
      congr 2; ring
    rw [sum_congr rfl h1, sum_comm, sum_eq_single c]
    · rw [← mul_sum, sum_tw hm0, if_pos (by simp), mul_comm]
    · intro r hr hrc
      rw [← mul_sum, sum_tw hm0, if_neg, mul_zero]
      rw [dvd_sub_iff (by omega) (mem_range.1 hr)]
      omega
    · intro h; exact absurd (mem_range.2 (by omega)) h
  have hfc : f c = w c * E j := by
    simp only [hf, ← hc]
    congr 2
    push_cast; ring
  rw [sum_pairs _ hm] at htot
  have hre := congrArg Complex.re htot
  rw [hfc] at hre
  have hpair : ∀ k ∈ Icc 1 ((m - 1) / 2), (Spec.stft m 1 w E true k j + Spec.stft m 1 w E true (m - k) j).re
      = 2 * (Spec.stft m 1 w E true k j).re := by
    intro k hk
    rw [hsym k (by have := mem_Icc.1 hk; omega)]
    simp; ring
  simp only [add_re, re_sum] at hre
  simp only [add_re] at hpair
  rw [sum_congr rfl hpair, ← mul_sum] at hre
  have hre2 : ((m : ℂ) * ((w c * E j : ℝ) : ℂ)).re = m * (w c * E j) := by
    rw [← ofReal_natCast, ← ofReal_mul, ofReal_re]
  rw [hre2] at hre
  have hsplit : ∑ k ∈ range (c + 1), (Spec.stft m 1 w E true k j).re =
      (Spec.stft m 1 w E true 0 j).re + ∑ k ∈ Icc 1 ((m - 1) / 2), (Spec.stft m 1 w E true k j).re +
        (if m % 2 = 0 then (Spec.stft m 1 w E true (m / 2) j).re else 0) := by
    by_cases he : m % 2 = 0
    · rw [if_pos he, ← hc, sum_range_succ]
      congr 1
      have : range c = insert 0 (Icc 1 ((m - 1) / 2)) := by
        ext a; simp only [mem_range, mem_insert, mem_Icc]; omega
      rw [this, sum_insert (by simp)]
    · rw [if_neg he, add_zero]
      have : range (c + 1) = insert 0 (Icc 1 ((m - 1) / 2)) := by
        ext a; simp only [mem_range, mem_insert, mem_Icc]; omega
      rw [this, sum_insert (by simp)]
  rw [hsplit, ← hre]
  split
  · ring
  · rw [zero_re]; ring

/-- The squeezing step of `ssq_stft` succeeds and conserves every column, up to the constant spacing of
the frequencies. -/
theorem ssqStftCall_sum (a : SsqStftArgs) (fs : ℝ) (rows : ℕ) (S dS : List (List ℂ)) (hrows : 2 ≤ rows)
    (hsq : a.squeezing = .sum) (hfr : a.ssqFreqs = none) (hth : 0 < a.th)
    (hgam : ∀ i < rows, ∀ j < S.length,
      (S.getD j []).getD i 0 = 0 ∨ a.gamma.getD (10 * a.eps) < ‖(S.getD j []).getD i 0‖) :
    ∃ Tx f, ssqueeze (ssqStftCall a fs rows S dS) = .ok (Tx, f) ∧
      f = (if a.flipud then (makeSfs rows fs).reverse else makeSfs rows fs) ∧
      ∀ j < S.length, ∑ r ∈ range rows, Tx r j =
        (∑ i ∈ range rows, (S.getD j []).getD i 0) * ((fs / (2 * (rows - 1 : ℕ)) : ℝ) : ℂ) := by
  set b := ssqStftCall a fs rows S dS with hb
  set v := makeSfs rows fs with hv
  have hvl : v.length = rows := by simp [hv, makeSfs, linspace_length]
  obtain ⟨v0, v1, tl, hvv⟩ : ∃ v0 v1 tl, v = v0 :: v1 :: tl := by
    match v, hvl with
    | [], h => simp at h; omega
    | [_], h => simp at h; omega
    | v0 :: v1 :: tl, _ => exact ⟨v0, v1, tl, rfl⟩
  have hdiff : v1 - v0 = fs / (2 * (rows - 1 : ℕ)) := by
    have h0 : v[0]'(by omega) = v0 := by simp [hvv]
    have h1 : v[1]'(by omega) = v1 := by simp [hvv]
    have e0 : v[0]'(by omega) = 0 + (0 : ℕ) * ((1 / 2 * fs - 0) / (rows - 1 : ℕ)) :=
      linspace_getElem (by rw [linspace_length]; omega)
    have e1 : v[1]'(by omega) = 0 + (1 : ℕ) * ((1 / 2 * fs - 0) / (rows - 1 : ℕ)) :=
      linspace_getElem (by rw [linspace_length]; omega)
    rw [← h0, ← h1, e0, e1]
    simp only [Nat.cast_zero, Nat.cast_one]
    rw [div_mul_eq_div_div]; ring
  have hproc : ssqProcessArgs b = .ok (1 / 1) := by
    unfold ssqProcessArgs
    rw [if_neg, if_neg]
    · simp [hb, ssqStftCall, hsq, checkSsqueezingArgs, checkTransform, checkSqueezing, checkMaprange,
        checkDifftype, checkDifforder, processFsT, pure_eq_ok, ok_bind]
    · rintro ⟨w, hw, i, _, j, _, z, hz, hneg⟩
      simp only [hb, ssqStftCall] at hw
      split at hw
      · simp only [Option.some.injEq] at hw
        rw [← hw] at hz
        unfold phaseStft at hz
        split at hz
        · simp at hz
        · simp only [Phase.fin.injEq] at hz
          rw [← hz] at hneg
          exact absurd (stftFreq_nonneg _ _ _) (not_le.mpr hneg)
      · simp at hw
    · simp only [hb, ssqStftCall]
      cases a.getW <;> simp
  have hsc : ssqScales b = .ok (none, none) := rfl
  have hfq : ssqFreqsOf b (1 / 1) none none = .ok (v, .known .linear) := by
    simp [ssqFreqsOf, hb, ssqStftCall, hfr, hv]
  have hcst : ssqConst .stft none none v = .ok (.scalar (v1 - v0)) := by
    rw [hvv]; rfl
  have hW : applySqueezing b.squeezing b.M b.Wx = b.Wx := by
    simp [hb, ssqStftCall, hsq, applySqueezing]
  have hk := kernel_eq b b.Wx v (.scalar (v1 - v0)) false (Or.inr (Or.inr rfl))
  have hcarr : constArr b.M (.scalar (v1 - v0)) = .ok (List.replicate rows (v1 - v0)) := by
    simp only [constArr]
    rw [if_neg (by simp [hb, ssqStftCall]; omega)]
    rfl
  have hpar : processSsqParams b.th v false = .ok (.lin v0 (ensureNonzeroNonneg (v1 - v0))) := by
    simp [processSsqParams, hvv]
  obtain ⟨Tx, hTx⟩ : ∃ Tx, indexedSumOnfly b.dev b.th b.M b.N (fun _ _ => 0) b.Wx
      (Spec.usedPhase b b.Wx) v (.scalar (v1 - v0)) false b.flipud = .ok Tx := by
    unfold indexedSumOnfly onflyBody
    simp only [hcarr, hpar, ok_bind, pure_eq_ok]
    exact ⟨_, rfl⟩
  refine ⟨Tx, if ssqReverses b.transform b.flipud then v.reverse else v, ?_, ?_, ?_⟩
  · unfold ssqueeze
    simp only [hproc, ok_bind, hsc, hfq]
    rw [show ssqConst b.transform none none v = .ok (.scalar (v1 - v0)) from hcst]
    simp only [ok_bind, SsqType.isLog, hW, hk, hTx, pure_eq_ok]
  · simp [ssqReverses, hb, ssqStftCall]
  · intro j hj
    obtain ⟨c, hc, hsum⟩ := C16_two_pass b.dev b.th hth b.M b.N b.Wx (Spec.usedPhase b b.Wx) v
      (.scalar (v1 - v0)) false b.flipud (Or.inl rfl) Tx hTx
    rw [hcarr] at hc
    simp only [Except.ok.injEq] at hc
    subst hc
    rw [show rows = b.M from rfl, hsum j hj, sum_mul]
    refine sum_congr rfl fun i hi => ?_
    have hi : i < rows := mem_range.1 hi
    have hci : (List.replicate rows (v1 - v0)).getD i 0 = fs / (2 * (rows - 1 : ℕ)) := by
      rw [List.getD_eq_getElem _ _ (by simpa using hi), List.getElem_replicate, hdiff]
    rw [hci]
    change (match Spec.usedPhase b b.Wx i j with
      | .inf => 0
      | .fin _ => (S.getD j []).getD i 0 * _) = _
    have hcase := hgam i hi j hj
    cases hph : Spec.usedPhase b b.Wx i j with
    | fin z => rfl
    | inf =>
      simp only
      rcases hcase with h0 | h0
      · rw [h0, zero_mul]
      · exfalso
        unfold Spec.usedPhase at hph
        simp only [hb, ssqStftCall] at hph
        cases hg : a.getW
        · simp only [hg, Bool.false_eq_true, if_false, Option.getD_some] at hph
          rw [if_pos h0] at hph
          simp at hph
        · simp only [hg, if_true] at hph
          unfold phaseStft at hph
          rw [if_neg (not_lt.mpr h0.le)] at hph
          simp at hph

theorem getWindow_of_D {lib : WinLib} {tiny : ℝ} {win : WindowArg} {n : ℕ} {m : Option ℕ} {w dw : List ℝ}
    (h : getWindowD lib tiny win n m = .ok (w, dw)) : getWindow lib tiny win n m = .ok w := by
  unfold getWindowD at h
  obtain ⟨r, h1, hz⟩ := bind_ok h
  simp only [pure_eq_ok, Except.ok.injEq, Prod.mk.injEq] at hz
  unfold getWindow
  simp only [h1, ok_bind, pure_eq_ok, hz.1]

/-- A call of `ssq_stft` to which C14 applies: a valid modulated STFT with hop 1 (`m` the FFT length, `w`
the prepared window, nonzero at its centre), plain summation onto the default frequencies, sampling
frequency `fs`, and no cell removed by the threshold. -/
structure C14Valid (lib : WinLib) (tiny : ℝ) (x : List ℝ) (a : SsqStftArgs) (fs : ℝ) (m : ℕ)
    (w dw : List ℝ) (t : PadType) : Prop where
  stft : StftValid lib tiny x { a.stft with fs := fs } m w dw t
  hm : 2 ≤ m
  hmod : a.stft.modulated = true
  hhop : a.stft.hop = 1
  hrate : ∃ dt, processFsT a.fs a.t x.length = .ok (.fin fs dt)
  hsq : a.squeezing = .sum
  hfr : a.ssqFreqs = none
  hth : 0 < a.th
  hwl : 0 < stftWinLen m a.stft
  hc : w.getD (m / 2) 0 ≠ 0
  hgam : ∀ S dS, Ssq.stft lib tiny x { a.stft with fs := fs } = .ok (m, S, dS) →
    ∀ k < m / 2 + 1, ∀ j < S.length,
      (S.getD j []).getD k 0 = 0 ∨ a.gamma.getD (10 * a.eps) < ‖(S.getD j []).getD k 0‖

/-- The matching inverse: same window, FFT length and window length. -/
def inverseArgs (a : SsqStftArgs) (m : ℕ) : IssqStftArgs :=
  { window := a.stft.window, nFft := some m, winLen := some (stftWinLen m a.stft) }

/-- **C14, exact result.** For every signal, window, FFT length, pad type, gamma, `get_w`, `flipud`,
device and sampling frequency, `issq_stft(ssq_stft(x))` at sample `j` is
`fs / (2·(n_fft//2)) · (n_fft·x[j] + (Re S₀ + Re S_{n/2}) / w_c)`, the Nyquist term only for even
`n_fft`. For even `n_fft` that is `fs·(x[j] + endpoint terms)`. Missing for the full property: it is not
independent of the sampling frequency (refuted below), and for odd `n_fft` also `x[j]` is scaled
by `n/(n-1)`. -/
theorem C14_inverse_partial {lib : WinLib} {tiny : ℝ} {x : List ℝ} {a : SsqStftArgs} {fs : ℝ} {m : ℕ}
    {w dw : List ℝ} {t : PadType} (h : C14Valid lib tiny x a fs m w dw t) :
    ∃ Tx S f Sfs xh, ssqStft lib tiny x a = .ok (Tx, S, f, Sfs) ∧
      issqStft lib tiny (m / 2 + 1) x.length (fun r j => Tx r j) (inverseArgs a m) = .ok (.full xh) ∧
      (∃ dS, Ssq.stft lib tiny x { a.stft with fs := fs } = .ok (m, S, dS)) ∧
      xh.length = x.length ∧
      ∀ j (hj : j < x.length), xh.getD j 0 = fs / (2 * (m / 2 : ℕ)) * (m * x[j] +
        (((S.getD j []).getD 0 0).re + if m % 2 = 0 then ((S.getD j []).getD (m / 2) 0).re else 0) /
          w.getD (m / 2) 0) := by
  obtain ⟨E, hE⟩ := Ssq.exists_extension t x h.stft.hx
  obtain ⟨S, dS, hst, hSl, -, hSe, -⟩ := C07_stft_entries h.stft E hE
  have hm := h.hm
  obtain ⟨dt, hrate⟩ := h.hrate
  have hx := h.stft.hx
  have hlen : S.length = x.length := by
    rw [hSl]
    change (x.length - 1) / a.stft.hop + 1 = _
    rw [h.hhop, Nat.div_one]; omega
  have hcell : ∀ j < S.length, ∀ k < m / 2 + 1, (S.getD j []).getD k 0 =
      Spec.stft m 1 (fun r => w.getD r 0) E true k j := by
    intro j hj k hk
    rw [List.getD_eq_getElem _ _ hj, (hSe j hj).2 k hk]
    simp only [h.hmod, h.hhop]
  obtain ⟨Tx, f, hrun, hf, hsum⟩ := ssqStftCall_sum a fs (m / 2 + 1) S dS (by omega) h.hsq h.hfr h.hth
    (fun i hi j hj => h.hgam S dS hst i hi j hj)
  have hwin := getWindow_of_D h.stft.hwin
  have hwm := h.stft.hw
  have hproc : issqStftProcess lib tiny (m / 2 + 1) (inverseArgs a m) = .ok (none, w) := by
    have o1 : orElse (some m) ((m / 2 + 1 - 1) * 2) = m := by
      match m, hm with
      | k + 1, _ => rfl
    have o2 : orElse (some (stftWinLen m a.stft)) m = stftWinLen m a.stft := by
      have := h.hwl
      generalize stftWinLen m a.stft = z at *
      match z, this with
      | k + 1, _ => rfl
    have hw1 : getWindow lib tiny a.stft.window (stftWinLen m a.stft) (some m) = .ok w := hwin
    have hnola : checkNOLA w 1 = .ok () := by
      unfold checkNOLA; split <;> simp
    have hne : w ≠ [] := by
      intro h0; rw [h0] at hwm; simp at hwm; omega
    unfold issqStftProcess
    rw [if_neg (by simp [inverseArgs]), if_neg (by simp [inverseArgs])]
    simp only [inverseArgs, processComponentArgs, ok_bind, o1, o2, hw1, Int.toNat_one, hnola, hne,
      if_false]
  refine ⟨Tx, S, f, makeSfs (m / 2 + 1) fs,
    (realColSum (m / 2 + 1) x.length fun r j => Tx r j).map (· * (2 / w.getD (m / 2) 0)), ?_, ?_, ⟨dS, hst⟩, ?_, ?_⟩
  · unfold ssqStft
    simp only [hrate, ok_bind, h.hsq, h.hfr, checkSsqueezingArgs, checkTransform, checkSqueezing,
      checkMaprange, checkDifftype, checkDifforder, checkLinearFreqs, hst, hrun]
    rfl
  · unfold issqStft
    simp only [hproc, ok_bind, invertTx, Inverse.scale, hwm]
  · simp [realColSum]
  · intro j hj
    have hjS : j < S.length := by omega
    rw [List.getD_eq_getElem _ _ (by simpa [realColSum] using hj), List.getElem_map,
      ← List.getD_eq_getElem (d := (0 : ℝ)), realColSum_getD _ _ _ hj, ← re_sum, hsum j hjS,
      re_mul_ofReal, re_sum]
    rw [sum_congr rfl fun k hk => by rw [hcell j hjS k (mem_range.1 hk)]]
    rw [hcell j hjS 0 (by omega), hcell j hjS (m / 2) (by omega)]
    have hhalf := half_spectrum m (by omega) (fun r => w.getD r 0) E j
    have hEj : E j = x[j] := hE.1 j hj
    rw [hEj] at hhalf
    have hc := h.hc
    have hh : ((m / 2 + 1 - 1 : ℕ) : ℝ) = ((m / 2 : ℕ) : ℝ) := by simp
    have hh0 : ((m / 2 : ℕ) : ℝ) ≠ 0 := by
      have : 0 < m / 2 := by omega
      positivity
    rw [hh]
    set A := ∑ k ∈ range (m / 2 + 1), (Spec.stft m 1 (fun r => w.getD r 0) E true k j).re
    set S0 := (Spec.stft m 1 (fun r => w.getD r 0) E true 0 j).re
    set Sn := (if m % 2 = 0 then (Spec.stft m 1 (fun r => w.getD r 0) E true (m / 2) j).re else 0)
    have hA : A = (m * (w.getD (m / 2) 0 * x[j]) + S0 + Sn) / 2 := by linarith
    rw [hA]
    field_simp
    ring

/-- **C14, sampling frequency 1 and even FFT length**: the inverse returns the signal plus the
contribution of the zero and Nyquist bins. -/
theorem C14_unit_rate {lib : WinLib} {tiny : ℝ} {x : List ℝ} {a : SsqStftArgs} {m : ℕ}
    {w dw : List ℝ} {t : PadType} (h : C14Valid lib tiny x a 1 m w dw t) (he : m % 2 = 0) :
    ∃ Tx S f Sfs xh, ssqStft lib tiny x a = .ok (Tx, S, f, Sfs) ∧
      issqStft lib tiny (m / 2 + 1) x.length (fun r j => Tx r j) (inverseArgs a m) = .ok (.full xh) ∧
      xh.length = x.length ∧
      ∀ j (hj : j < x.length), xh.getD j 0 = x[j] +
        (((S.getD j []).getD 0 0).re + ((S.getD j []).getD (m / 2) 0).re) / (m * w.getD (m / 2) 0) := by
  obtain ⟨Tx, S, f, Sfs, xh, h1, h2, -, h3, h4⟩ := C14_inverse_partial h
  refine ⟨Tx, S, f, Sfs, xh, h1, h2, h3, fun j hj => ?_⟩
  rw [h4 j hj, if_pos he]
  have hm : (2 : ℝ) * ((m / 2 : ℕ) : ℝ) = m := by
    have : 2 * (m / 2) = m := by omega
    exact_mod_cast this
  have hm0 : (m : ℝ) ≠ 0 := by
    have := h.hm
    have : 0 < m := by omega
    positivity
  have hc := h.hc
  rw [hm]
  field_simp

/-- The claim of C14: the result does not depend on the sampling frequency (even FFT length). -/
def C14_full : Prop :=
  ∀ (lib : WinLib) (tiny : ℝ) (x : List ℝ) (a : SsqStftArgs) (fs : ℝ) (m : ℕ) (w dw : List ℝ)
    (t : PadType), C14Valid lib tiny x a fs m w dw t → m % 2 = 0 →
    ∃ Tx S f Sfs xh, ssqStft lib tiny x a = .ok (Tx, S, f, Sfs) ∧
      issqStft lib tiny (m / 2 + 1) x.length (fun r j => Tx r j) (inverseArgs a m) = .ok (.full xh) ∧
      ∀ j (hj : j < x.length), xh.getD j 0 = x[j] +
        (((S.getD j []).getD 0 0).re + ((S.getD j []).getD (m / 2) 0).re) / (m * w.getD (m / 2) 0)

/-- A concrete call: two samples `[1, 1]`, window `[0, 1]`, `n_fft = 2`, `gamma = 0`, sampling frequency
`fs`. -/
noncomputable def ex14 (fs : ℝ) : SsqStftArgs :=
  { stft := { window := .arr [0, 1], nFft := some 2 }, fs := some fs, gamma := some 0, th := 1, eps := 1 }

theorem ex14_valid (fs : ℝ) (hfs : 0 < fs) : C14Valid onesLib 0 [1, 1] (ex14 fs) fs 2 [0, 1]
    (zeroDenormals 0 (diffWindow [0, 1])) .reflect where
  stft :=
    { hx := by simp
      hhop := by simp [ex14]
      hm := by simp
      hnfft := rfl
      hwin := by
        unfold getWindowD getWindowRaw
        simp [ex14, stftWinLen]
        simp [zeroDenormals]
      hw := rfl
      hpad := rfl
      hsym := by simp }
  hm := le_rfl
  hmod := rfl
  hhop := rfl
  hrate := ⟨1 / fs, by simp [ex14, processFsT, not_le.mpr hfs]⟩
  hsq := rfl
  hfr := rfl
  hth := by simp [ex14]
  hwl := by simp [ex14, stftWinLen]
  hc := by simp
  hgam := by
    intro S dS _ k _ j _
    simp only [ex14, Option.getD_some]
    by_cases h0 : (S.getD j []).getD k 0 = 0
    · exact Or.inl h0
    · exact Or.inr (norm_pos_iff.mpr h0)

/-- Non-vacuity of `C14_inverse_partial` and `C14_unit_rate`. -/
example : C14Valid onesLib 0 [1, 1] (ex14 1) 1 2 [0, 1] (zeroDenormals 0 (diffWindow [0, 1])) .reflect :=
  ex14_valid 1 one_pos

/-- **C14 is false**: with sampling frequency 2 the inverse of the squeezed STFT is twice what it should
be (here 4 instead of 2). -/
theorem C14_rate_refuted : ¬ C14_full := by
  intro hf
  have hv := ex14_valid 2 (by norm_num)
  obtain ⟨Tx, S, f, Sfs, xh, h1, h2, h3⟩ := hf _ _ _ _ _ _ _ _ _ hv rfl
  obtain ⟨Tx', S', f', Sfs', xh', k1, k2, ⟨dS, hst⟩, -, k3⟩ := C14_inverse_partial hv
  rw [h1] at k1
  simp only [Except.ok.injEq, Prod.mk.injEq] at k1
  obtain ⟨rfl, rfl, rfl, rfl⟩ := k1
  rw [h2] at k2
  simp only [Except.ok.injEq, Inverse.full.injEq] at k2
  subst k2
  have e1 := h3 0 (by simp)
  have e2 := k3 0 (by simp)
  obtain ⟨E, hE⟩ := Ssq.exists_extension .reflect ([1, 1] : List ℝ) (by simp)
  obtain ⟨S2, dS2, hst2, hl, -, hc, -⟩ := C07_stft_entries hv.stft E hE
  rw [hst] at hst2
  simp only [Except.ok.injEq, Prod.mk.injEq, true_and] at hst2
  obtain ⟨rfl, rfl⟩ := hst2
  have hl0 : 0 < S.length := by rw [hl]; simp
  have hE0 : E 0 = 1 := by have := hE.1 0 (by simp); simpa using this
  have c0 : (S.getD 0 []).getD 0 0 = 1 := by
    rw [List.getD_eq_getElem _ _ hl0, (hc 0 hl0).2 0 (by norm_num)]
    simp [Spec.stft, sum_range_succ, hE0]
  have c1 : (S.getD 0 []).getD (2 / 2) 0 = 1 := by
    rw [List.getD_eq_getElem _ _ hl0, (hc 0 hl0).2 (2 / 2) (by norm_num)]
    simp [Spec.stft, sum_range_succ, hE0, ex14]
  rw [e1, c0, c1] at e2
  norm_num at e2

end Ssq
