import Verif.Props.StftTone
import Verif.Props.RidgeTones

/-!
# C168: ridges of the synchrosqueezed STFT of resolved tones, and the tones recovered along them
-/
namespace Ssq
open Finset Complex

/-- `issq_stft` along curves is `issq_cwt` along them, over the window's centre tap. -/
theorem issqStft_eq_cwt {lib : WinLib} {tiny : ℝ} {x : List ℝ} {N : ℕ} {a : SsqStftArgs} {m : ℕ} {w dw : List ℝ} {t : PadType}
    (hv : StftValid lib tiny x a.stft m w dw t) (hwl : 0 < stftWinLen m a.stft) (Tx : ℕ → ℕ → ℂ) (cc cw : Option CurveArg) :
    issqStft lib tiny (m / 2 + 1) N Tx { inverseArgs a m with cc := cc, cw := cw } = issqCwt (m / 2 + 1) N Tx (w.getD (m / 2) 0) cc cw := by
  have hwm := hv.hw
  have hm := hv.hm
  have hwin := getWindow_of_D hv.hwin
  have hproc : issqStftProcess lib tiny (m / 2 + 1) { inverseArgs a m with cc := cc, cw := cw } = (processComponentArgs cc cw).bind fun c => .ok (c, w) := by
    have o1 : orElse (some m) ((m / 2 + 1 - 1) * 2) = m := by
      match m, hm with
      | k + 1, _ => rfl
    have o2 : orElse (some (stftWinLen m a.stft)) m = stftWinLen m a.stft := by
      generalize stftWinLen m a.stft = z at *
      match z, hwl with
      | k + 1, _ => rfl
    have hw1 : getWindow lib tiny a.stft.window (stftWinLen m a.stft) (some m) = .ok w := hwin
    have hnola : checkNOLA w 1 = .ok () := by
      unfold checkNOLA; split <;> simp
    have hne : w ≠ [] := by
      intro h0; rw [h0] at hwm; simp at hwm; omega
    unfold issqStftProcess
    rw [if_neg (by simp [inverseArgs]), if_neg (by simp [inverseArgs])]
    simp only [inverseArgs, o1, o2, hw1, ok_bind, Int.toNat_one, hnola, hne, if_false]
    rfl
  unfold issqStft issqCwt
  rw [hproc]
  cases processComponentArgs cc cw with
  | error e => rfl
  | ok c =>
    simp only [Except.bind, ok_bind, hwm]

/-- **C168.** For every number of tones that the window can tell apart (as in `C160_recovered`), in descending order of amplitude and in rows further apart than the ridges' half-width: `ssq_stft`,
then `extract_ridges` of its `Tx` with one ridge per tone, then `issq_stft` along the extracted ridges. For every jump penalty that is not negative and every order of the parallel iterations, ridge
`c` is the row of tone `c` in every column, and the inverse returns the tones times the sampling rate (times `n/(n-1)` if the FFT length `n` is odd), and an empty remainder. -/
theorem C168_ridges {lib : WinLib} {tiny : ℝ} {N C : ℕ} {k : ℕ → ℕ} {A φ : ℕ → ℝ} {a : SsqStftArgs} {m : ℕ} {w dw : List ℝ} {B : ℕ} (hC : 0 < C)
    (hv : StftValid lib tiny (Spec.mix N C fun c => Spec.stftTone N m (k c) (A c) (φ c)) a.stft m w dw .wrap) (hmod : a.stft.modulated = true) (hdw : dw = diffWindow w)
    (hb : Spec.WinBand m (fun r => w.getD r 0) B) (hres : Spec.Resolved N C m B k)
    (hsq : a.squeezing = .sum) (hfr : a.ssqFreqs = none) {fs dt : ℝ} (hrate : processFsT a.fs a.t N = .ok (.fin fs dt)) (hfs : 2 * (m / 2 : ℕ) * eps64 ≤ fs)
    (hhop : a.stft.hop = 1) (hwl : 0 < stftWinLen m a.stft) (hcen : w.getD (m / 2) 0 ≠ 0) (hMN : m / 2 + 1 ≤ N)
    (hkeep : ∀ c < C, ∀ i < m / 2 + 1, Spec.winHat m (fun r => w.getD r 0) ((i : ℤ) - k c) = 0 ∨
      Spec.KeptCell a (|A c| / 2 * ‖Spec.winHat m (fun r => w.getD r 0) ((i : ℤ) - k c)‖))
    {Tx : ℤ → ℕ → ℂ} {S : List (List ℂ)} {f Sfs : List ℝ} (h : ssqStft lib tiny (Spec.mix N C fun c => Spec.stftTone N m (k c) (A c) (φ c)) a = .ok (Tx, S, f, Sfs))
    (b : RidgeArgs) (s : RidgeSched) (hs : Spec.ValidSched b s) (heps : 0 < b.eps) (he : b.eps < 1 / 2) (hp : 0 ≤ b.penalty) (hbw : 0 < b.bw)
    (hbF : b.nF = m / 2 + 1) (hbT : b.nT = N) (hbX : ∀ r j : ℕ, b.Tf r j = Tx r j) (hbC : b.nRidges = C)
    (hr : Spec.RankedTones b.eps b.bw (m / 2 + 1) C A (fun _ => 1) fun c => Spec.flip a.flipud (m / 2 + 1) (k c)) :
    ∃ out, extractRidges b s = .ok out ∧ out.length = C ∧
      (∀ c, ∀ hc : c < out.length, ∀ t < N, (out[c]).idx t = Spec.flip a.flipud (m / 2 + 1) (k c) ∧ (out[c]).f t = b.scales (Spec.flip a.flipud (m / 2 + 1) (k c))) ∧
      ∃ xs, issqStft lib tiny (m / 2 + 1) N (fun r j => Tx r j) { inverseArgs a m with
          cc := some (.twoD N C fun j c => (((out[c]?).map fun q => q.idx j).getD 0 : ℕ)), cw := some (.twoD N C fun _ _ => 0) } = .ok (.comps xs) ∧
        xs.length = C + 1 ∧ (∀ x ∈ xs, x.length = N) ∧
        (∀ c < C, ∀ j < N, (xs.getD c []).getD j 0 = fs * (m / (2 * (m / 2 : ℕ))) * (A c * Real.cos (2 * Real.pi * k c * j / m + φ c))) ∧
        ∀ j < N, (xs.getD C []).getD j 0 = 0 := by
  obtain ⟨hlen, hT⟩ := C160_rows hv hmod hdw hb hres hsq hfr hrate hfs h
  have hN : 0 < N := by have := hv.hx; rwa [mix_length] at this
  have hlen : S.length = N := by rw [hlen, hhop, Nat.div_one]; omega
  rw [hlen] at hT
  have hm0 := hres.high 0 hC
  have hk0 := hres.low 0 hC
  have hmR : (0 : ℝ) < m := by
    have : 0 < m := by omega
    exact_mod_cast this
  have hm2 : (0 : ℝ) < ((m / 2 : ℕ) : ℝ) := by
    have : 0 < m / 2 := by omega
    exact_mod_cast this
  have hNR : (0 : ℝ) < N := by exact_mod_cast hN
  have hfs0 : 0 < fs := lt_of_lt_of_le (by have : (0 : ℝ) < eps64 := by norm_num [eps64]
                                           positivity) hfs
  set G : ℝ := fs / (2 * (m / 2 : ℕ)) * (m * w.getD (m / 2) 0) with hG
  have hG0 : G ≠ 0 := mul_ne_zero (by positivity) (mul_ne_zero hmR.ne' hcen)
  -- the same tones, counted in cycles per signal
  have hcyc : ∀ c < C, ∀ j : ℕ, (2 * Real.pi * (k c * N / m : ℕ) * j / N + φ c : ℝ) = 2 * Real.pi * k c * j / m + φ c := by
    intro c hc j
    have e : ((k c * N / m : ℕ) : ℝ) = (k c : ℝ) * N / m := by
      rw [Nat.cast_div (hres.whole c hc) hmR.ne', Nat.cast_mul]
    rw [e]
    field_simp
  have hrows : ∀ r : ℕ, r < m / 2 + 1 → ∀ j < N, Tx r j = ∑ c ∈ range C, if r = Spec.flip a.flipud (m / 2 + 1) (k c) then
      ((G : ℝ) : ℂ) * ((A c / 2 : ℝ) * exp ((2 * Real.pi * (k c * N / m : ℕ) * j / N + φ c : ℝ) * I)) else 0 := by
    intro r hr j hj
    rw [hT r hr j hj]
    refine sum_congr rfl fun c hc => ?_
    have hc := mem_range.1 hc
    rw [stftGain_all hb (hres.low c hc) (hres.high c hc) (hkeep c hc), hhop, mul_one, hcyc c hc]
    rfl
  have hflip : ∀ c < C, Spec.flip a.flipud (m / 2 + 1) (k c) < m / 2 + 1 := fun c hc => (hr.1 c hc).1
  have hTones : Spec.TonesInRows N C (m / 2 + 1) (fun c => k c * N / m) A φ (fun _ => G) (fun c => Spec.flip a.flipud (m / 2 + 1) (k c)) Tx :=
    ⟨hrows, fun css => rows_inverted hC (fun c => k c * N / m) A φ (fun _ => G) (fun c => Spec.flip a.flipud (m / 2 + 1) (k c)) hflip (fun r j => Tx r j) hrows css⟩
  have hG2 : 0 < G ^ 2 := by positivity
  obtain ⟨out, o1, o2, o3, o4⟩ := C165_tones N C (m / 2 + 1) hC (by omega) hMN (fun c => k c * N / m) A φ (fun _ => G) _ Tx hTones b s hs heps he hp hbw hbF hbT hbX hbC
    ⟨fun c hc => ⟨hflip c hc, mul_ne_zero hG0 (by have := (hr.1 c hc).2.1; rwa [one_mul] at this), (hr.1 c hc).2.2⟩, fun c hc d hd => ⟨(hr.2 c hc d hd).1, by
      have := (hr.2 c hc d hd).2
      simp only [one_mul] at this
      rw [mul_pow, mul_pow]
      have := mul_lt_mul_of_pos_left this hG2
      linarith⟩⟩
  refine ⟨out, o1, o2, fun c hc t ht => ⟨(o3 c hc t ht).1, (o3 c hc t ht).2.1⟩, ?_⟩
  obtain ⟨xs, x1, x2, x3, x4, x5⟩ := o4 (w.getD (m / 2) 0)
  refine ⟨xs, (issqStft_eq_cwt hv hwl _ _ _).trans x1, x2, x3, fun c hc j hj => ?_, x5⟩
  rw [x4 c hc j hj, hcyc c hc, hG]
  field_simp

/-! ## Non-vacuity -/

/-- The hypotheses of `C168_ridges` are met by two tones of one and two cycles in six samples, of amplitudes 2 and 1, with half-width 1 and penalty 2: the ridges are rows 1 and 2, and inversion along
them returns the tones. -/
example : ∃ Tx S f Sfs, ssqStft onesLib 0 (Spec.mix 6 2 fun c => Spec.stftTone 6 6 (c + 1) (2 - c) 0) ex160 = .ok (Tx, S, f, Sfs) ∧
    ∀ b : RidgeArgs, b = ⟨4, 6, fun r j => Tx r j, fun r => (r : ℝ) + 1, 2, 2, 1, false, 1 / 2 ^ 52⟩ →
    ∃ out, extractRidges b (serialSched 4) = .ok out ∧ (∃ h0 : 1 < out.length, ∀ j < 6, (out[0]).idx j = 1 ∧ (out[1]).idx j = 2) ∧
      ∃ xs, issqStft onesLib 0 4 6 (fun r j => Tx r j) { inverseArgs ex160 6 with
          cc := some (.twoD 6 2 fun j c => (((out[c]?).map fun q => q.idx j).getD 0 : ℕ)), cw := some (.twoD 6 2 fun _ _ => 0) } = .ok (.comps xs) ∧
        ∀ c < 2, ∀ j < 6, (xs.getD c []).getD j 0 = (2 - c) * Real.cos (2 * Real.pi * (c + 1) * j / 6) := by
  have hx : 0 < (Spec.mix 6 2 fun c => Spec.stftTone 6 6 (c + 1) (2 - c) 0).length := by rw [mix_length]; norm_num
  obtain ⟨Tx, S, f, Sfs, h⟩ := ex160_run _ hx
  have hrate : processFsT ex160.fs ex160.t 6 = .ok (.fin 1 (1 / 1)) := by simp [ex160, processFsT]
  refine ⟨Tx, S, f, Sfs, h, ?_⟩
  rintro b rfl
  obtain ⟨out, o1, o2, o3, xs, x1, -, -, x4, -⟩ := C168_ridges (k := fun c => c + 1) (A := fun c => 2 - c) (φ := fun _ => 0) (by norm_num) (ex160_valid _ hx) rfl rfl
    (C160_windows ex160_band)
    ⟨fun c hc => by omega, fun c hc => by omega, fun c _ => Dvd.intro_left _ rfl, fun c hc d hd hcd => by omega⟩ rfl rfl hrate (by norm_num [eps64]) rfl
    (by norm_num [stftWinLen, ex160]) (by simp) (by norm_num)
    (fun c hc i hi => by
      by_cases h0 : Spec.winHat 6 (fun r => ([1, 1, 1, 1, 1, 1] : List ℝ).getD r 0) ((i : ℤ) - (c + 1 : ℕ)) = 0
      · exact Or.inl h0
      · refine Or.inr ?_
        have : Spec.KeptCell ex160 = fun z => 0 < z := by
          funext z
          simp [Spec.KeptCell, ex160]
        rw [this]
        have := norm_pos_iff.2 h0
        have h2 : (0 : ℝ) < |2 - (c : ℝ)| := abs_pos.2 (by
          have : (c : ℝ) < 2 := by exact_mod_cast hc
          linarith)
        positivity) h
    ⟨4, 6, fun r j => Tx r j, fun r => (r : ℝ) + 1, 2, 2, 1, false, 1 / 2 ^ 52⟩ (serialSched 4) (serial_valid _) (by norm_num) (by norm_num) (by norm_num) (by norm_num)
    rfl rfl (fun _ _ => rfl) rfl (by
      constructor
      · intro c hc
        interval_cases c <;> refine ⟨by norm_num [Spec.flip, ex160], by norm_num, by norm_num [Spec.flip, ex160]⟩
      · intro c hc d hd
        have : c = 1 ∧ d = 0 := by omega
        obtain ⟨rfl, rfl⟩ := this
        refine ⟨Or.inr (by norm_num [Spec.flip, ex160]), by norm_num⟩)
  refine ⟨out, o1, ⟨by omega, fun j hj => ⟨(o3 0 (by omega) j hj).1, (o3 1 (by omega) j hj).1⟩⟩, xs, x1, fun c hc j hj => ?_⟩
  rw [x4 c hc j hj]
  push_cast
  norm_num

end Ssq
