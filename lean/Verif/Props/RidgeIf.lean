import Verif.Props.RidgeFollow
import Verif.Props.RidgeTones
import Verif.Props.LocalTone
import Verif.Props.LocalStft

/-!
# C205: ridges of synchrosqueezed transforms follow the instantaneous frequency
(ssqueezepy/_ssq_cwt.py:19-305, ssqueezepy/_ssq_stft.py:12-132, ssqueezepy/ridge_extraction.py:11-232)

Column by column the signal resembles a tone, whose frequency may change from column to column (C164, C167); the ridge of
the squeezed transform is then the sequence of rows nearest to these frequencies.
-/
namespace Ssq
open Finset

namespace Spec

/-- Row `r` is the only row nearest to any of the frequencies within `E` of `y`. -/
def OnlyNearest (freqs : List ℝ) (y E : ℝ) (r : ℕ) : Prop := ∀ w, |w - y| ≤ E → ∀ i, Nearest freqs w i → i = r

/-- The same on a logarithmic axis. -/
def OnlyNearestLog (freqs : List ℝ) (y E : ℝ) (r : ℕ) : Prop := ∀ w, |w - y| ≤ E → ∀ i, NearestLog freqs w i → i = r

/-- The ridge arguments are for the `M × N` transform `Tx`, ask for one or more ridges, and penalize the jumps of the row sequence `p` by less than half of the log of the
tolerance. -/
structure RidgeSuits (b : RidgeArgs) (s : RidgeSched) (M N : ℕ) (Tx : ℤ → ℕ → ℂ) (p : ℕ → ℕ) (J : ℝ) : Prop where
  sched : ValidSched b s
  rows : b.nF = M
  cols : b.nT = N
  vals : ∀ r j : ℕ, b.Tf r j = Tx r j
  wide : M ≤ N
  eps0 : 0 < b.eps
  pen : 0 ≤ b.penalty
  one : 0 < b.nRidges
  J0 : 0 ≤ J
  jumps : ∀ t, t + 1 < N → jump b (p (t + 1)) (p t) ≤ J
  small : 2 * J + N * b.eps < Real.log ((1 + b.eps) / b.eps)

end Spec

/-- A transform with one row per column that is not zero has its first ridge there. -/
theorem ridge_one_row {b : RidgeArgs} {s : RidgeSched} {M N : ℕ} {Tx : ℤ → ℕ → ℂ} {p : ℕ → ℕ} {J : ℝ} (hb : Spec.RidgeSuits b s M N Tx p J)
    (hne : ∀ j < N, ∃ r : ℕ, r < M ∧ Tx r j ≠ 0) (hp : ∀ j < N, ∀ r : ℕ, r < M → Tx r j ≠ 0 → r = p j)
    (out : List Ridge) (h : extractRidges b s = .ok out) (h0 : 0 < out.length) :
    ∀ j < N, (out[0]).idx j = p j ∧ (out[0]).f j = b.scales (p j) ∧ (out[0]).e j = ‖Tx (p j) j‖ ^ 2 := by
  have hrem : Spec.remaining b out 0 = fun (f : ℕ) (t : ℕ) => ‖Tx (f : ℤ) t‖ ^ 2 := by
    funext f t
    unfold Spec.remaining
    rw [if_neg, hb.vals]
    rintro ⟨j, hj, hj0, -⟩
    omega
  have key := C201_follows b s out hb.sched hb.eps0 hb.pen (by rw [hb.rows, hb.cols]; exact hb.wide) h 0 h0 p (ρ := 0) (J := J) le_rfl zero_le_one (by
    intro t ht
    rw [hb.cols] at ht
    obtain ⟨r, hr, hr0⟩ := hne t ht
    have e := hp t ht r hr hr0
    rw [hrem, hb.rows]
    refine ⟨by omega, by rw [← e]; have := norm_pos_iff.2 hr0; positivity, fun f hf hfne => ?_⟩
    rw [zero_mul]
    by_cases hz : Tx f t = 0
    · simp only []; rw [hz]; simp
    · exact absurd (hp t ht f hf hz) hfne) hb.J0 (fun t ht => hb.jumps t (by rw [← hb.cols]; exact ht)) (by rw [zero_add, hb.cols]; exact hb.small)
  intro j hj
  have e := key j (by rw [hb.cols]; exact hj)
  refine ⟨e, ?_, ?_⟩
  · rw [((extract_spec h).2.2 0 h0).2.1, e]
  · rw [((extract_spec h).2.2 0 h0).2.2, e, hrem]

/-- **C205, `ssq_cwt`, linear frequencies.** For every signal, padding, analytic wavelet, threshold, device and `get_w`: suppose that around each time `j` the signal differs from
some tone of `y j` Hz by at most `E j` times the threshold, as seen by the wavelets of all scales, that row `p j` is the only one nearest to the frequencies within `E j` of `y j`,
and that no column of `Tx` is empty. Then the first ridge of `Tx`, for every order of the parallel iterations, is `p`, with the energies of `Tx` along it. -/
theorem C205_cwt_linear (x : List ℝ) (hx : 0 < x.length) (a : SsqCwtArgs) (t : Option PadType) (ht : a.padtype = t.map padName) (han : Spec.Analytic a.wavelet.fn.eval)
    (hre : ∀ w, (a.wavelet.fn.eval w).im = 0) (hg : 0 < a.gamma.getD (10 * a.eps)) (hsq : a.squeezing = .sum) (hfl : a.flipud = true)
    (hlay : Spec.CwtLinearFreqs x.length a) (o : SsqCwtOut) (h : ssqCwt x a = .ok o) (hpos : ∀ s ∈ o.scales, 0 < s)
    (f0 d : ℝ) (hgrid : Spec.Uniform o.freqs.reverse f0 d) (hd : eps64 ≤ d) (hlen : o.freqs.length = o.scales.length) :
    ∃ xp, ∃ n1 : ℕ, ∃ fs dt : ℝ, Spec.Padded t x xp n1 ∧ processFsT a.fs a.t x.length = .ok (.fin fs dt) ∧
      ∀ (k : ℕ → ℕ) (A φ E : ℕ → ℝ) (p : ℕ → ℕ) (J : ℝ),
        (∀ j < x.length, 2 * k j < xp.length ∧ (∀ i < o.scales.length,
          Spec.localDist a.wavelet.fn.eval xp.length (o.scales.getD i 0) fs (k j * fs / xp.length) (fun q => xp.getD q 0)
            (fun q => (Spec.tone xp.length (k j) (A j) (φ j)).getD q 0) (n1 + j) ≤ E j * a.gamma.getD (10 * a.eps)) ∧
          Spec.OnlyNearest o.freqs (k j * fs / xp.length) (E j) (p j) ∧ ∃ r : ℕ, r < o.scales.length ∧ o.Tx r j ≠ 0) →
        ∀ (b : RidgeArgs) (s : RidgeSched), Spec.RidgeSuits b s o.scales.length x.length o.Tx p J →
          ∀ (out : List Ridge), extractRidges b s = .ok out → ∀ h0 : 0 < out.length, ∀ j < x.length,
            (out[0]).idx j = p j ∧ (out[0]).f j = b.scales (p j) ∧ (out[0]).e j = ‖o.Tx (p j) j‖ ^ 2 := by
  obtain ⟨xp, n1, fs, dt, h1, h2, h3⟩ := C164_rows_linear x hx a t ht han hre hg hsq hfl hlay o h hpos f0 d hgrid hd hlen
  refine ⟨xp, n1, fs, dt, h1, h2, fun k A φ E p J hj b s hb out ho h0 => ?_⟩
  refine ridge_one_row hb (fun j hjx => (hj j hjx).2.2.2) (fun j hjx r hr hne => ?_) out ho h0
  obtain ⟨j1, j2, j3, -⟩ := hj j hjx
  obtain ⟨w, hw, hn⟩ := h3 j hjx (k j) (A j) (φ j) j1 (E j) j2 r hr hne
  exact j3 w hw r hn

/-- **C205, `ssq_cwt`, logarithmic frequencies.** The same with the nearest frequency in log-frequency, for `E j` less than the frequency of the tone. -/
theorem C205_cwt_log (x : List ℝ) (hx : 0 < x.length) (a : SsqCwtArgs) (t : Option PadType) (ht : a.padtype = t.map padName) (han : Spec.Analytic a.wavelet.fn.eval)
    (hre : ∀ w, (a.wavelet.fn.eval w).im = 0) (hg : 0 < a.gamma.getD (10 * a.eps)) (hsq : a.squeezing = .sum) (hfl : a.flipud = true) (hth : 0 < a.th)
    (hlay : Spec.CwtLogFreqs x.length a) (o : SsqCwtOut) (h : ssqCwt x a = .ok o) (hpos : ∀ s ∈ o.scales, 0 < s)
    (hgrid : Spec.LogGrid o.freqs.reverse) (hlen : o.freqs.length = o.scales.length) :
    ∃ xp, ∃ n1 : ℕ, ∃ fs dt : ℝ, Spec.Padded t x xp n1 ∧ processFsT a.fs a.t x.length = .ok (.fin fs dt) ∧
      ∀ (k : ℕ → ℕ) (A φ E : ℕ → ℝ) (p : ℕ → ℕ) (J : ℝ),
        (∀ j < x.length, 2 * k j < xp.length ∧ E j < k j * fs / xp.length ∧ (∀ i < o.scales.length,
          Spec.localDist a.wavelet.fn.eval xp.length (o.scales.getD i 0) fs (k j * fs / xp.length) (fun q => xp.getD q 0)
            (fun q => (Spec.tone xp.length (k j) (A j) (φ j)).getD q 0) (n1 + j) ≤ E j * a.gamma.getD (10 * a.eps)) ∧
          Spec.OnlyNearestLog o.freqs (k j * fs / xp.length) (E j) (p j) ∧ ∃ r : ℕ, r < o.scales.length ∧ o.Tx r j ≠ 0) →
        ∀ (b : RidgeArgs) (s : RidgeSched), Spec.RidgeSuits b s o.scales.length x.length o.Tx p J →
          ∀ (out : List Ridge), extractRidges b s = .ok out → ∀ h0 : 0 < out.length, ∀ j < x.length,
            (out[0]).idx j = p j ∧ (out[0]).f j = b.scales (p j) ∧ (out[0]).e j = ‖o.Tx (p j) j‖ ^ 2 := by
  obtain ⟨xp, n1, fs, dt, h1, h2, h3⟩ := C164_rows_log x hx a t ht han hre hg hsq hfl hth hlay o h hpos hgrid hlen
  refine ⟨xp, n1, fs, dt, h1, h2, fun k A φ E p J hj b s hb out ho h0 => ?_⟩
  refine ridge_one_row hb (fun j hjx => (hj j hjx).2.2.2.2) (fun j hjx r hr hne => ?_) out ho h0
  obtain ⟨j1, j2, j3, j4, -⟩ := hj j hjx
  obtain ⟨w, hw, hn⟩ := h3 j hjx (k j) (A j) (φ j) j1 (E j) j2 j3 r hr hne
  exact j4 w hw r hn

/-- **C205, `ssq_stft`.** The same for frames: each frame differs from a tone of its own by at most `D j` times the threshold. -/
theorem C205_stft {lib : WinLib} {tiny : ℝ} {x : List ℝ} {a : SsqStftArgs} {m : ℕ} {w dw : List ℝ} {t : PadType} {B : ℕ}
    (hv : StftValid lib tiny x a.stft m w dw t) (hmod : a.stft.modulated = true) (hdw : dw = diffWindow w) (hb : Spec.WinBand m (fun r => w.getD r 0) B)
    (hsq : a.squeezing = .sum) (hfr : a.ssqFreqs = none) {fs dt : ℝ} (hrate : processFsT a.fs a.t x.length = .ok (.fin fs dt)) (hfs : 2 * (m / 2 : ℕ) * eps64 ≤ fs)
    (hg : 0 < a.gamma.getD (10 * a.eps)) (E : ℤ → ℝ) (hE : Spec.IsExtension t x E)
    {Tx : ℤ → ℕ → ℂ} {S : List (List ℂ)} {f Sfs : List ℝ} (h : ssqStft lib tiny x a = .ok (Tx, S, f, Sfs)) :
    S.length = (x.length - 1) / a.stft.hop + 1 ∧ ∀ (k : ℕ → ℕ) (A φ D : ℕ → ℝ) (p : ℕ → ℕ) (J : ℝ),
      (∀ j < S.length, B < k j ∧ 2 * (k j + B) < m ∧
        (∀ i < m / 2 + 1, Spec.frameDist m fs (fun r => w.getD r 0) (fun r => dw.getD r 0) E (Spec.toneAt m (k j) (A j) (φ j)) i (k j) (j * a.stft.hop) ≤
          D j * a.gamma.getD (10 * a.eps)) ∧
        Spec.OnlyNearest f (k j * (fs / m)) (D j + (m / 2 : ℕ) * (fs / (2 * (m / 2 : ℕ)) - fs / m)) (p j) ∧ ∃ r : ℕ, r < m / 2 + 1 ∧ Tx r j ≠ 0) →
      ∀ (b : RidgeArgs) (s : RidgeSched), Spec.RidgeSuits b s (m / 2 + 1) S.length Tx p J →
        ∀ (out : List Ridge), extractRidges b s = .ok out → ∀ h0 : 0 < out.length, ∀ j < S.length,
          (out[0]).idx j = p j ∧ (out[0]).f j = b.scales (p j) ∧ (out[0]).e j = ‖Tx (p j) j‖ ^ 2 := by
  obtain ⟨h1, h2⟩ := C167_rows hv hmod hdw hb hsq hfr hrate hfs hg E hE h
  refine ⟨h1, fun k A φ D p J hj b s hb' out ho h0 => ?_⟩
  refine ridge_one_row hb' (fun j hjx => (hj j hjx).2.2.2.2) (fun j hjx r hr hne => ?_) out ho h0
  obtain ⟨j1, j2, j3, j4, -⟩ := hj j hjx
  obtain ⟨y, hy, hn⟩ := h2 j hjx (k j) (A j) (φ j) j1 j2 (D j) j3 r hr hne
  exact j4 y hy r hn

/-- On a uniform axis, row `r` is the only nearest one if the frequencies are within half a row of its own. -/
theorem onlyNearest_uniform {freqs : List ℝ} {f0 d : ℝ} (hu : Spec.Uniform freqs.reverse f0 d) {y E : ℝ} {r : ℕ} (hr : r < freqs.length)
    (hy : |y - freqs[r]| + E < d / 2) : Spec.OnlyNearest freqs y E r := by
  intro w hw i ⟨hi, hmin⟩
  have hrev : ∀ j, ∀ hj : j < freqs.length, freqs[j] = f0 + ((freqs.length - 1 - j : ℕ) : ℝ) * d := by
    intro j hj
    have := hu (freqs.length - 1 - j) (by rw [List.length_reverse]; omega)
    rw [List.getElem_reverse] at this
    simpa [show freqs.length - 1 - (freqs.length - 1 - j) = j by omega] using this
  by_contra hne
  have h1 := hmin r hr
  have h2 : |w - freqs[r]| < d / 2 := by
    have := abs_sub_le w y freqs[r]
    linarith
  have hd : 0 < d := by have := abs_nonneg (w - freqs[r]); linarith
  have h3 : d ≤ |freqs[r] - freqs[i]| := by
    rw [hrev r hr, hrev i hi, show f0 + ((freqs.length - 1 - r : ℕ) : ℝ) * d - (f0 + ((freqs.length - 1 - i : ℕ) : ℝ) * d) =
      (((freqs.length - 1 - r : ℕ) : ℤ) - ((freqs.length - 1 - i : ℕ) : ℤ) : ℤ) * d by push_cast; ring, abs_mul, abs_of_pos hd]
    have : (1 : ℝ) ≤ |((((freqs.length - 1 - r : ℕ) : ℤ) - ((freqs.length - 1 - i : ℕ) : ℤ) : ℤ) : ℝ)| := by
      have : 1 ≤ |(((freqs.length - 1 - r : ℕ) : ℤ) - ((freqs.length - 1 - i : ℕ) : ℤ) : ℤ)| := Int.one_le_abs (by omega)
      exact_mod_cast this
    nlinarith
  have h4 := abs_sub_le freqs[r] w freqs[i]
  rw [abs_sub_comm freqs[r] w] at h4
  linarith

/-! ### A concrete call -/

/-- The hypotheses of `C205_cwt_linear` are met by a tone of 1 Hz: the ridge of its squeezed transform, passing the frequencies as scales, is 1 Hz throughout. -/
example : ∃ o, ssqCwt (Spec.mix 8 1 fun _ => Spec.tone 8 1 8 0) exBand = .ok o ∧ o.freqs = [3, 2, 1] ∧
    ∀ b : RidgeArgs, b = ⟨3, 8, fun r j => o.Tx r j, fun r => o.freqs.getD r 0, 2, 1, 1, false, 1 / 2 ^ 52⟩ →
    ∃ out, extractRidges b (serialSched 3) = .ok out ∧ ∃ h0 : 0 < out.length, ∀ j < 8, (out[0]).idx j = 2 ∧ (out[0]).f j = 1 := by
  set x : List ℝ := Spec.mix 8 1 fun _ => Spec.tone 8 1 8 0 with hxdef
  have hl : x.length = 8 := by rw [hxdef, mix_length]
  obtain ⟨o, h, hsc, hf⟩ := exBand_ok x (by omega)
  refine ⟨o, h, hf, ?_⟩
  have hgrid : Spec.Uniform o.freqs.reverse 1 1 := by
    rw [hf]
    intro i hi
    simp only [List.reverse_cons, List.reverse_nil, List.nil_append, List.cons_append, List.length_cons, List.length_nil] at hi
    interval_cases i <;> norm_num
  have heps : eps64 ≤ (1 : ℝ) := by norm_num [eps64]
  have hlen : o.freqs.length = o.scales.length := by rw [hf, hsc]; rfl
  have hpos : ∀ s ∈ o.scales, 0 < s := by rw [hsc]; simp
  have hgam : 0 < exBand.gamma.getD (10 * exBand.eps) := by simp [exBand, exSsqL, exSsq]
  obtain ⟨xp, n1, fs, dt, h1, h2, h3⟩ := C205_cwt_linear x (by omega) exBand none rfl (exBand_band.analytic (by norm_num))
    (fun w => by simp [exBand, WFn.eval]) hgam rfl rfl ⟨.none, infer123⟩ o h hpos 1 1 hgrid heps hlen
  obtain ⟨rfl, rfl⟩ := h1
  have hfs : fs = 8 := by
    simp only [exBand, exSsqL, exSsq, processFsT] at h2
    rw [if_neg (by norm_num)] at h2
    simp only [Except.ok.injEq, Rate.fin.injEq] at h2
    exact h2.1.symm
  subst hfs
  obtain ⟨fs', dt', st, nv, i1, i2, rs, hn, hT⟩ := C154_tones_linear 8 1 (by norm_num) (fun _ => 1) (fun _ => 8) (fun _ => 0)
    (fun c _ => by omega) (fun c hc => by omega) exBand rfl 2 6 (by norm_num) exBand_band (fun w => by simp [exBand, WFn.eval])
    (fun c hc d hd hcd => by omega) hgam rfl rfl ⟨.none, infer123⟩ o h hpos 1 1 hgrid heps hlen
  have hfs' : fs' = 8 := by
    simp only [exBand, exSsqL, exSsq, processFsT] at i1
    rw [if_neg (by norm_num)] at i1
    simp only [Except.ok.injEq, Rate.fin.injEq] at i1
    exact i1.1.symm
  subst hfs'
  have honly : Spec.OnlyNearest o.freqs 1 0 2 := by
    refine onlyNearest_uniform hgrid (by rw [hf]; simp) ?_
    simp [hf]
  have hrs : rs 0 = 2 := honly 1 (by simp) _ (by simpa using hn 0 (by norm_num))
  rw [hsc] at i2
  have i2' : inferScaletype exBand.dtype [1, 2, 4] = .ok (.log, .int 1) := infer124
  rw [i2] at i2'
  simp only [Except.ok.injEq, Prod.mk.injEq] at i2'
  obtain ⟨rfl, rfl⟩ := i2'
  have hpi := Real.pi_gt_three
  have hpi' := Real.pi_lt_d2
  have hin : ∀ w : ℝ, 2 < w → w < 6 → exBand.wavelet.fn.eval w = ((1 : ℝ) : ℂ) := by
    intro w h h'
    simp only [exBand, WFn.eval, if_pos (And.intro h h')]
  have hout : ∀ w : ℝ, (w < 2 ∨ 6 < w) → exBand.wavelet.fn.eval w = ((0 : ℝ) : ℂ) := by
    intro w h
    simp only [exBand, WFn.eval]
    rw [if_neg (by rintro ⟨h1, h2⟩; rcases h with h | h <;> linarith)]
  have hkept : ∀ z : ℝ, Spec.KeptMag exBand z ↔ 1 / 100 < z := fun z => by
    simp [Spec.KeptMag, exBand, exSsqL, exSsq]
  have g0 : Spec.toneGain exBand 8 o.scales .log (.int 1) 1 8 = Real.log 2 := by
    simp only [hsc, Spec.toneGain, List.length_cons, List.length_nil, sum_range_succ, sum_range_zero, Spec.scaleMeasure, List.getD_cons_zero, List.getD_cons_succ,
      hkept]
    rw [hout _ (Or.inl (by push_cast; linarith)), hout _ (Or.inl (by push_cast; linarith)), hin _ (by push_cast; linarith) (by push_cast; linarith)]
    simp only [Complex.ofReal_re]
    norm_num
  have hTx : ∀ j < 8, o.Tx (2 : ℕ) j ≠ 0 := by
    intro j hj
    rw [hT.1 2 (by rw [hsc]; simp) j hj, sum_range_one, hrs, if_pos rfl, g0]
    refine mul_ne_zero ?_ (mul_ne_zero ?_ (Complex.exp_ne_zero _))
    · exact_mod_cast (Real.log_pos (by norm_num)).ne'
    · norm_num
  rintro b rfl
  have hx8 : ∀ q < 8, x.getD q 0 = (Spec.tone 8 1 8 0).getD q 0 := by
    intro q hq
    rw [hxdef, Spec.mix, getD_map_range _ _ hq, sum_range_one]
  have hex : ∃ out, extractRidges ⟨3, 8, fun r j => o.Tx r j, fun r => o.freqs.getD r 0, 2, 1, 1, false, 1 / 2 ^ 52⟩ (serialSched 3) = .ok out := by
    unfold extractRidges
    rw [if_neg (by norm_num), if_neg (by norm_num), if_neg (by norm_num)]
    exact ⟨_, rfl⟩
  obtain ⟨out, ho⟩ := hex
  have hol : out.length = 1 := (extract_spec ho).1
  refine ⟨out, ho, by omega, fun j hj => ?_⟩
  rw [hl] at h3
  have key := h3 (fun _ => 1) (fun _ => 8) (fun _ => 0) (fun _ => 0) (fun _ => 2) 0 (fun j hj => ⟨by norm_num, fun i _ => ?_, ?_, 2, by rw [hsc]; simp, hTx j hj⟩)
    _ (serialSched 3) ⟨serial_valid _, by rw [hsc]; rfl, rfl, fun _ _ => rfl, by rw [hsc]; simp, by norm_num, by norm_num, by norm_num, le_rfl, fun t _ => ?_, ?_⟩ out ho
    (by omega) j hj
  · refine ⟨key.1, ?_⟩
    rw [key.2.1]
    simp [hf]
  · rw [zero_mul]
    refine le_of_eq ?_
    unfold Spec.localDist
    refine sum_eq_zero fun q hq => ?_
    simp only []
    rw [hx8 q (mem_range.1 hq), sub_self, abs_zero, zero_mul]
  · have : ((1 : ℕ) : ℝ) * 8 / ((8 : ℕ) : ℝ) = 1 := by norm_num
    rw [this]
    exact honly
  · unfold Spec.jump
    simp
  · have : Real.log 2 ≤ Real.log ((1 + 1 / 2 ^ 52) / (1 / 2 ^ 52)) := Real.log_le_log (by norm_num) (by norm_num)
    have l2 := Real.log_two_gt_d9
    norm_num at *
    linarith

end Ssq
