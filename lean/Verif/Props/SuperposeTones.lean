import Verif.Props.Superpose
import Verif.Props.SsqCwtEx
import Verif.Props.Components
import Verif.Props.Gmw
import Mathlib.Analysis.Real.Pi.Bounds

/-!
# C154: separated tones are squeezed into rows of their own and recovered
-/
namespace Ssq
open Finset Complex

namespace Spec

/-- The wavelet responds only to frequencies strictly between `lo` and `hi`. -/
def Passband (f : ℝ → ℂ) (lo hi : ℝ) : Prop := ∀ w, f w ≠ 0 → lo < w ∧ w < hi

/-- Tones of `k 0, …, k (C-1)` cycles, so far apart that a wavelet with the band `lo..hi` cannot respond to two of them at one scale. -/
def Separated (C : ℕ) (k : ℕ → ℕ) (lo hi : ℝ) : Prop := ∀ c < C, ∀ d < C, c ≠ d → hi * k c ≤ lo * k d ∨ hi * k d ≤ lo * k c

/-- Whether a cell of magnitude `z` survives the threshold. -/
def KeptMag (a : SsqCwtArgs) (z : ℝ) : Prop :=
  if a.getW then a.gamma.getD (10 * a.eps) ≤ z else a.gamma.getD (10 * a.eps) < z

open Classical in
/-- What the transform multiplies a tone of `k` cycles and amplitude `A` with: the wavelet's response to it at every scale, where the response to this amplitude survives
the threshold, weighted by the measure of the scale. -/
noncomputable def toneGain (a : SsqCwtArgs) (N : ℕ) (sc : List ℝ) (st : ScaleType) (nv : Nv) (k : ℕ) (A : ℝ) : ℝ :=
  ∑ i ∈ range sc.length,
    if KeptMag a (|(a.wavelet.fn.eval (sc.getD i 0 * (2 * Real.pi * k / N))).re| * (|A| / 2)) then
      (a.wavelet.fn.eval (sc.getD i 0 * (2 * Real.pi * k / N))).re * scaleMeasure st nv sc i else 0

end Spec

theorem Spec.Passband.analytic {f : ℝ → ℂ} {lo hi : ℝ} (h : Spec.Passband f lo hi) (hlo : 0 < lo) : Spec.Analytic f := by
  intro w hw
  by_contra hne
  linarith [(h w hne).1]

/-- The bump wavelet has a band, and is real-valued with `om = 0`. -/
theorem bump_band (μ s : ℝ) (hs : 0 < s) :
    Spec.Passband (bumpFn μ s 0) (μ - 0.999 * s) (μ + 0.999 * s) ∧ ∀ w, (bumpFn μ s 0 w).im = 0 := by
  constructor
  · intro w hw
    have h := not_le.1 (mt (C51_bump μ s 0 w hs).1.2 hw)
    rw [abs_lt] at h
    constructor <;> linarith
  · intro w
    by_cases h : |w - μ| < 0.999 * s
    · exact ((C51_bump μ s 0 w hs).2.1 h).2
    · rw [(C51_bump μ s 0 w hs).1.2 (not_lt.1 h)]
      rfl

/-- The transform of one tone, for a real-valued wavelet. -/
theorem tone_cell (N k : ℕ) (A φ : ℝ) (hk0 : 0 < k) (hk : 2 * k < N) (a : SsqCwtArgs) (hp : a.padtype = none) (han : Spec.Analytic a.wavelet.fn.eval)
    (hre : ∀ w, (a.wavelet.fn.eval w).im = 0) (o : SsqCwtOut) (h : ssqCwt (Spec.tone N k A φ) a = .ok o) (hpos : ∀ s ∈ o.scales, 0 < s) :
    ∀ i < o.scales.length, ∀ j < N,
      ent o.Wx i j = (((a.wavelet.fn.eval (o.scales.getD i 0 * (2 * Real.pi * k / N))).re : ℝ) : ℂ) *
        ((A / 2 : ℝ) * exp ((2 * Real.pi * k * j / N + φ : ℝ) * I)) ∧
      (ent o.Wx i j = 0 → ent o.dWx i j = 0) := by
  obtain ⟨fs, dt, st, na, nv, h1, h2, h3, h4⟩ := ssqCwt_ok h
  obtain ⟨fs', dt', -, -, -, -, hall⟩ := cwt_tone N k A φ hk (a.cwtArgs fs o.scales) hp han _ _ _ h3 hpos
  intro i hi j hj
  obtain ⟨ψ, hψ, -, -, hc⟩ := hall i hi
  obtain ⟨c1, c2⟩ := hc j hj
  refine ⟨?_, fun hz => by rw [c2, hz, mul_zero]⟩
  have hψ' : ψ = (((a.wavelet.fn.eval (o.scales.getD i 0 * (2 * Real.pi * k / N))).re : ℝ) : ℂ) := by
    rw [List.getD_eq_getElem _ _ hi]
    rcases hψ with h' | h'
    · rw [h']
      exact Complex.ext (by simp [SsqCwtArgs.cwtArgs]) (by simpa [SsqCwtArgs.cwtArgs] using hre _)
    · rw [h']; rfl
  rw [c1, if_neg (by omega), hψ']
  have hn : (a.cwtArgs fs o.scales).norm o.scales[i] = 1 := rfl
  rw [hn]
  have he : exp ((2 * Real.pi * k * j / N + φ : ℝ) * I) = exp (I * φ) * tw N ((j : ℤ) * k) := by
    unfold tw
    rw [← Complex.exp_add]
    congr 1
    push_cast
    ring
  rw [he]
  push_cast
  ring

/-- The scales common to the tones' transforms are not seen by two tones. -/
theorem tones_disjoint {N C : ℕ} {k : ℕ → ℕ} {A φ : ℕ → ℝ} (hk0 : ∀ c < C, 0 < k c) (hk : ∀ c < C, 2 * k c < N) {a : SsqCwtArgs} (hp : a.padtype = none)
    {lo hi : ℝ} (hlo : 0 < lo) (hb : Spec.Passband a.wavelet.fn.eval lo hi) (hre : ∀ w, (a.wavelet.fn.eval w).im = 0) (hs : Spec.Separated C k lo hi)
    {o : SsqCwtOut} {p : ℕ → SsqCwtOut} (hpos : ∀ s ∈ o.scales, 0 < s)
    (h : ∀ c < C, ssqCwt (Spec.tone N (k c) (A c) (φ c)) a = .ok (p c) ∧ (p c).scales = o.scales ∧ (p c).freqs = o.freqs) (j : ℕ) (hj : j < N) :
    Spec.DisjointAt C o.scales.length p j := by
  intro i hi c hc d hd hcd
  have hcell : ∀ c < C, (ent (p c).Wx i j = 0 ∧ ent (p c).dWx i j = 0) ∨ a.wavelet.fn.eval (o.scales.getD i 0 * (2 * Real.pi * k c / N)) ≠ 0 := by
    intro c hc
    obtain ⟨e1, e2, -⟩ := h c hc
    obtain ⟨t1, t2⟩ := tone_cell N (k c) (A c) (φ c) (hk0 c hc) (hk c hc) a hp (hb.analytic hlo) hre (p c) e1 (by rw [e2]; exact hpos) i (by rw [e2]; exact hi) j hj
    rw [e2] at t1
    by_cases hz : a.wavelet.fn.eval (o.scales.getD i 0 * (2 * Real.pi * k c / N)) = 0
    · have : ent (p c).Wx i j = 0 := by rw [t1, hz]; simp
      exact Or.inl ⟨this, t2 this⟩
    · exact Or.inr hz
  rcases hcell c hc with h1 | h1
  · exact Or.inl h1
  rcases hcell d hd with h2 | h2
  · exact Or.inr h2
  exfalso
  obtain ⟨a1, a2⟩ := hb _ h1
  obtain ⟨b1, b2⟩ := hb _ h2
  have hN : (0 : ℝ) < N := by exact_mod_cast (show 0 < N by omega)
  have kc : (0 : ℝ) < k c := by exact_mod_cast hk0 c hc
  have kd : (0 : ℝ) < k d := by exact_mod_cast hk0 d hd
  set q := o.scales.getD i 0 * (2 * Real.pi / N) with hq
  have e1 : o.scales.getD i 0 * (2 * Real.pi * k c / N) = q * k c := by rw [hq]; ring
  have e2 : o.scales.getD i 0 * (2 * Real.pi * k d / N) = q * k d := by rw [hq]; ring
  rw [e1] at a1 a2
  rw [e2] at b1 b2
  rcases hs c hc d hd hcd with h' | h'
  · nlinarith
  · nlinarith

open Classical in
/-- The kept cells of one tone, weighted and summed. -/
theorem tone_sum (N k : ℕ) (A φ : ℝ) (hk0 : 0 < k) (hk : 2 * k < N) (a : SsqCwtArgs) (hp : a.padtype = none) (han : Spec.Analytic a.wavelet.fn.eval)
    (hre : ∀ w, (a.wavelet.fn.eval w).im = 0) (o : SsqCwtOut) (h : ssqCwt (Spec.tone N k A φ) a = .ok o) (hpos : ∀ s ∈ o.scales, 0 < s) (st : ScaleType) (nv : Nv)
    (j : ℕ) (hj : j < N) :
    (∑ i ∈ range o.scales.length, if Spec.Kept a (ent o.Wx i j) then ent o.Wx i j * ((Spec.scaleMeasure st nv o.scales i : ℝ) : ℂ) else 0) =
      ((Spec.toneGain a N o.scales st nv k A : ℝ) : ℂ) * ((A / 2 : ℝ) * exp ((2 * Real.pi * k * j / N + φ : ℝ) * I)) := by
  unfold Spec.toneGain
  push_cast
  rw [sum_mul]
  refine sum_congr rfl fun i hi => ?_
  have hc := (tone_cell N k A φ hk0 hk a hp han hre o h hpos i (mem_range.1 hi) j hj).1
  have hn : ‖ent o.Wx i j‖ = |(a.wavelet.fn.eval (o.scales.getD i 0 * (2 * Real.pi * k / N))).re| * (|A| / 2) := by
    rw [hc, norm_mul, norm_mul, Complex.norm_exp_ofReal_mul_I, mul_one, Complex.norm_real, Complex.norm_real, Real.norm_eq_abs, Real.norm_eq_abs, abs_div, abs_two]
  have hk : Spec.Kept a (ent o.Wx i j) ↔
      Spec.KeptMag a (|(a.wavelet.fn.eval (o.scales.getD i 0 * (2 * Real.pi * k / N))).re| * (|A| / 2)) := by
    unfold Spec.Kept Spec.KeptMag
    rw [hn]
  by_cases hkk : Spec.Kept a (ent o.Wx i j)
  · rw [if_pos hkk, if_pos (hk.1 hkk), hc]
    push_cast
    ring
  · rw [if_neg hkk, if_neg (mt hk.2 hkk)]
    simp

theorem inBand_zero {M r r' : ℕ} (hr : r < M) : Spec.InBand M (r : ℤ) 0 r' ↔ r' = r := by
  unfold Spec.InBand
  omega

open Classical in
/-- Inversion of a transform that consists of tones in single rows. -/
theorem rows_inverted {M N C : ℕ} (hC : 0 < C) (k : ℕ → ℕ) (A φ g : ℕ → ℝ) (rs : ℕ → ℕ) (hrs : ∀ c < C, rs c < M) (Tx : ℕ → ℕ → ℂ)
    (hT : ∀ r < M, ∀ j < N, Tx r j = ∑ c ∈ range C, if r = rs c then ((g c : ℝ) : ℂ) * ((A c / 2 : ℝ) * exp ((2 * Real.pi * k c * j / N + φ c : ℝ) * I)) else 0)
    (css : ℝ) :
    ∃ xs, issqCwt M N Tx css (some (.twoD N C fun _ c => (rs c : ℤ))) (some (.twoD N C fun _ _ => 0)) = .ok (.comps xs) ∧ xs.length = C + 1 ∧
      (∀ x ∈ xs, x.length = N) ∧
      (∀ c < C, ∀ m < N, (xs.getD c []).getD m 0 = ∑ d ∈ range C, if rs d = rs c then g d / css * (A d * Real.cos (2 * Real.pi * k d * m / N + φ d)) else 0) ∧
      ∀ m < N, (xs.getD C []).getD m 0 = 0 := by
  obtain ⟨xs, h1, h2, h2', h3, h4⟩ := C43_contents M N Tx css C (fun _ c => (rs c : ℤ)) (fun _ _ => 0) hC
  have hre : ∀ (d m : ℕ), (((g d : ℝ) : ℂ) * ((A d / 2 : ℝ) * exp ((2 * Real.pi * k d * m / N + φ d : ℝ) * I))).re =
      g d * (A d / 2 * Real.cos (2 * Real.pi * k d * m / N + φ d)) := by
    intro d m
    rw [Complex.re_ofReal_mul, Complex.re_ofReal_mul, Complex.exp_ofReal_mul_I_re]
  refine ⟨xs, h1, h2, h2', fun c hc m hm => ?_, fun m hm => ?_⟩
  · rw [h3 c hc m hm, sum_eq_single_of_mem (rs c) (mem_range.2 (hrs c hc)) fun r _ hr => if_neg (mt (inBand_zero (hrs c hc)).1 hr),
      if_pos ((inBand_zero (hrs c hc)).2 rfl), hT _ (hrs c hc) m hm, Complex.re_sum, mul_sum]
    refine sum_congr rfl fun d _ => ?_
    by_cases hd : rs c = rs d
    · rw [if_pos hd, if_pos hd.symm, hre]
      ring
    · rw [if_neg hd, if_neg (fun e => hd e.symm)]
      simp
  · rw [h4 m hm]
    rw [sum_eq_zero, mul_zero]
    intro r hr
    split
    · rfl
    · rename_i hne
      rw [hT r (mem_range.1 hr) m hm, sum_eq_zero]
      · simp
      · intro c hc
        rw [if_neg]
        intro e
        exact hne ⟨c, mem_range.1 hc, (inBand_zero (hrs c (mem_range.1 hc))).2 e⟩

namespace Spec
open Classical in
/-- Tones of `k c` cycles, amplitudes `A c` and phases `φ c` in rows `rs c`: `Tx` is zero elsewhere, and holds in each row the analytic signals of the tones with that row,
times their gains; `issq_cwt` with one curve per tone in its row and no width returns the tones of the row, times gain over `css`, and an empty remainder. -/
def TonesInRows (N C M : ℕ) (k : ℕ → ℕ) (A φ g : ℕ → ℝ) (rs : ℕ → ℕ) (Tx : ℤ → ℕ → ℂ) : Prop :=
  (∀ r : ℕ, r < M → ∀ j < N, Tx r j =
    ∑ c ∈ range C, if r = rs c then ((g c : ℝ) : ℂ) * ((A c / 2 : ℝ) * exp ((2 * Real.pi * k c * j / N + φ c : ℝ) * I)) else 0) ∧
  ∀ css : ℝ, ∃ xs, issqCwt M N (fun r j => Tx r j) css (some (.twoD N C fun _ c => (rs c : ℤ))) (some (.twoD N C fun _ _ => 0)) = .ok (.comps xs) ∧
    xs.length = C + 1 ∧ (∀ x ∈ xs, x.length = N) ∧
    (∀ c < C, ∀ m < N, (xs.getD c []).getD m 0 =
      ∑ d ∈ range C, if rs d = rs c then g d / css * (A d * Real.cos (2 * Real.pi * k d * m / N + φ d)) else 0) ∧
    ∀ m < N, (xs.getD C []).getD m 0 = 0
end Spec

open Classical in
theorem tones_rows {N C : ℕ} (hC : 0 < C) {k : ℕ → ℕ} {A φ : ℕ → ℝ} (hk0 : ∀ c < C, 0 < k c) (hk : ∀ c < C, 2 * k c < N) {a : SsqCwtArgs}
    (hp : a.padtype = none) {lo hi : ℝ} (hlo : 0 < lo) (hb : Spec.Passband a.wavelet.fn.eval lo hi) (hre : ∀ w, (a.wavelet.fn.eval w).im = 0)
    (hs : Spec.Separated C k lo hi) (hg : 0 < a.gamma.getD (10 * a.eps)) (hsq : a.squeezing = .sum) {o : SsqCwtOut}
    (h : ssqCwt (Spec.mix N C fun c => Spec.tone N (k c) (A c) (φ c)) a = .ok o) (hpos : ∀ s ∈ o.scales, 0 < s)
    (R : ℝ → ℕ → Prop) (hR : ∀ w r, R w r → r < o.scales.length)
    (hone : ∀ c < C, ∀ p, ssqCwt (Spec.tone N (k c) (A c) (φ c)) a = .ok p → p.scales = o.scales → p.freqs = o.freqs →
      ∃ fs dt st nv, processFsT a.fs a.t N = .ok (.fin fs dt) ∧ inferScaletype a.dtype o.scales = .ok (st, nv) ∧
      ∃ rs, R (k c * fs / N) rs ∧ ∀ r < o.scales.length, ∀ j < N, p.Tx r j =
          if r = rs then ∑ i ∈ range o.scales.length,
            (if Spec.Kept a (ent p.Wx i j) then ent p.Wx i j * ((Spec.scaleMeasure st nv o.scales i : ℝ) : ℂ) else 0)
          else 0) :
    ∃ fs dt st nv, processFsT a.fs a.t N = .ok (.fin fs dt) ∧ inferScaletype a.dtype o.scales = .ok (st, nv) ∧
      ∃ rs : ℕ → ℕ, (∀ c < C, R (k c * fs / N) (rs c)) ∧
        Spec.TonesInRows N C o.scales.length k A φ (fun c => Spec.toneGain a N o.scales st nv (k c) (A c)) rs o.Tx := by
  have hN : 0 < N := by have := hk 0 hC; omega
  obtain ⟨p, hp1, -, hp3⟩ := C153_superposition N C hN (fun c => Spec.tone N (k c) (A c) (φ c)) (fun c _ => by simp [Spec.tone]) a none (by simpa using hp)
    (Or.inl hsq) o h
  obtain ⟨fs, dt, st, nv, h1, h2, -⟩ := hone 0 hC (p 0) (hp1 0 hC).1 (hp1 0 hC).2.1 (hp1 0 hC).2.2
  refine ⟨fs, dt, st, nv, h1, h2, ?_⟩
  have hex : ∀ c, ∃ r, c < C → R (k c * fs / N) r ∧ ∀ r' < o.scales.length, ∀ j < N, (p c).Tx r' j =
      if r' = r then ((Spec.toneGain a N o.scales st nv (k c) (A c) : ℝ) : ℂ) * ((A c / 2 : ℝ) * exp ((2 * Real.pi * k c * j / N + φ c : ℝ) * I)) else 0 := by
    intro c
    by_cases hc : c < C
    · obtain ⟨q1, q2, q3⟩ := hp1 c hc
      obtain ⟨fs', dt', st', nv', e1, e2, rs, e3, e4⟩ := hone c hc (p c) q1 q2 q3
      rw [h1] at e1
      rw [h2] at e2
      simp only [Except.ok.injEq, Rate.fin.injEq, Prod.mk.injEq] at e1 e2
      obtain ⟨rfl, rfl⟩ := e1
      obtain ⟨rfl, rfl⟩ := e2
      refine ⟨rs, fun _ => ⟨e3, fun r' hr' j hj => ?_⟩⟩
      rw [e4 r' hr' j hj]
      have := tone_sum N (k c) (A c) (φ c) (hk0 c hc) (hk c hc) a hp (hb.analytic hlo) hre (p c) q1 (by rw [q2]; exact hpos) st nv j hj
      rw [q2] at this
      rw [this]
    · exact ⟨0, fun h => absurd h hc⟩
  choose rs hrs using hex
  have hT : ∀ r : ℕ, r < o.scales.length → ∀ j < N, o.Tx r j =
      ∑ c ∈ range C, if r = rs c then ((Spec.toneGain a N o.scales st nv (k c) (A c) : ℝ) : ℂ) * ((A c / 2 : ℝ) * exp ((2 * Real.pi * k c * j / N + φ c : ℝ) * I))
        else 0 := by
    intro r hr j hj
    rw [hp3 j hj (tones_disjoint hk0 hk hp hlo hb hre hs hpos hp1 j hj) r]
    exact sum_congr rfl fun c hc => (hrs c (mem_range.1 hc)).2 r hr j hj
  refine ⟨rs, fun c hc => (hrs c hc).1, hT, fun css => ?_⟩
  exact rows_inverted hC k A φ _ rs (fun c hc => hR _ _ (hrs c hc).1) (fun r j => o.Tx r j) hT css

/-- **C154, logarithmic frequencies.** For every number of tones with whole numbers of cycles between 0 and Nyquist, amplitudes and phases; every real-valued wavelet whose
response lies within a band `lo..hi` of positive frequencies, the tones being separated by that band's ratio; positive scales, sampling rate, threshold, code path,
device, `get_w`; no padding, `flipud=True`, squeezing 'sum': if `ssq_cwt` succeeds on the sum of the tones and its frequencies are a descending logarithmic grid with one
frequency per scale, then every tone is in the row whose frequency is nearest (in log-frequency) to the tone's own, `Tx` vanishes in all other rows, and
`issq_cwt` along these rows returns the tones up to their gains. -/
theorem C154_tones_log (N C : ℕ) (hC : 0 < C) (k : ℕ → ℕ) (A φ : ℕ → ℝ) (hk0 : ∀ c < C, 0 < k c) (hk : ∀ c < C, 2 * k c < N) (a : SsqCwtArgs)
    (hp : a.padtype = none) (lo hi : ℝ) (hlo : 0 < lo) (hb : Spec.Passband a.wavelet.fn.eval lo hi) (hre : ∀ w, (a.wavelet.fn.eval w).im = 0)
    (hs : Spec.Separated C k lo hi) (hg : 0 < a.gamma.getD (10 * a.eps)) (hsq : a.squeezing = .sum) (hfl : a.flipud = true) (hth : 0 < a.th)
    (hlay : Spec.CwtLogFreqs N a) (o : SsqCwtOut) (h : ssqCwt (Spec.mix N C fun c => Spec.tone N (k c) (A c) (φ c)) a = .ok o) (hpos : ∀ s ∈ o.scales, 0 < s)
    (hgrid : Spec.LogGrid o.freqs.reverse) (hlen : o.freqs.length = o.scales.length) :
    ∃ fs dt st nv, processFsT a.fs a.t N = .ok (.fin fs dt) ∧ inferScaletype a.dtype o.scales = .ok (st, nv) ∧
      ∃ rs : ℕ → ℕ, (∀ c < C, Spec.NearestLog o.freqs (k c * fs / N) (rs c)) ∧
        Spec.TonesInRows N C o.scales.length k A φ (fun c => Spec.toneGain a N o.scales st nv (k c) (A c)) rs o.Tx := by
  refine tones_rows hC hk0 hk hp hlo hb hre hs hg hsq h hpos (Spec.NearestLog o.freqs) (fun w r hr => hlen ▸ hr.1) fun c hc p h1 h2 h3 => ?_
  have := C39_one_row_log N (k c) (A c) (φ c) (hk0 c hc) (hk c hc) a hp (hb.analytic hlo) hg hsq hfl hth hlay p h1 (by rw [h2]; exact hpos)
    (by rw [h3]; exact hgrid) (by rw [h3, h2]; exact hlen)
  rwa [h2, h3] at this

/-- **C154, linear frequencies.** As `C154_tones_log`, for a descending uniform grid of frequencies and the plain nearest frequency. -/
theorem C154_tones_linear (N C : ℕ) (hC : 0 < C) (k : ℕ → ℕ) (A φ : ℕ → ℝ) (hk0 : ∀ c < C, 0 < k c) (hk : ∀ c < C, 2 * k c < N) (a : SsqCwtArgs)
    (hp : a.padtype = none) (lo hi : ℝ) (hlo : 0 < lo) (hb : Spec.Passband a.wavelet.fn.eval lo hi) (hre : ∀ w, (a.wavelet.fn.eval w).im = 0)
    (hs : Spec.Separated C k lo hi) (hg : 0 < a.gamma.getD (10 * a.eps)) (hsq : a.squeezing = .sum) (hfl : a.flipud = true)
    (hlay : Spec.CwtLinearFreqs N a) (o : SsqCwtOut) (h : ssqCwt (Spec.mix N C fun c => Spec.tone N (k c) (A c) (φ c)) a = .ok o) (hpos : ∀ s ∈ o.scales, 0 < s)
    (f0 d : ℝ) (hgrid : Spec.Uniform o.freqs.reverse f0 d) (hd : eps64 ≤ d) (hlen : o.freqs.length = o.scales.length) :
    ∃ fs dt st nv, processFsT a.fs a.t N = .ok (.fin fs dt) ∧ inferScaletype a.dtype o.scales = .ok (st, nv) ∧
      ∃ rs : ℕ → ℕ, (∀ c < C, Spec.Nearest o.freqs (k c * fs / N) (rs c)) ∧
        Spec.TonesInRows N C o.scales.length k A φ (fun c => Spec.toneGain a N o.scales st nv (k c) (A c)) rs o.Tx := by
  refine tones_rows hC hk0 hk hp hlo hb hre hs hg hsq h hpos (Spec.Nearest o.freqs) (fun w r hr => hlen ▸ hr.1) fun c hc p h1 h2 h3 => ?_
  have := C39_one_row_linear N (k c) (A c) (φ c) (hk c hc) a hp (hb.analytic hlo) hg hsq hfl hlay p h1 (by rw [h2]; exact hpos) f0 d
    (by rw [h3]; exact hgrid) hd (by rw [h3, h2]; exact hlen)
  rwa [h2, h3] at this

/-! ### A concrete call -/

open Classical in
/-- A wavelet that responds with 1 to the frequencies between 2 and 6, scales 1, 2, 4, frequencies 3, 2, 1, rate 8. -/
noncomputable def exBand : SsqCwtArgs := { exSsqL none with wavelet := ⟨.real fun w => if 2 < w ∧ w < 6 then 1 else 0, sw0, none⟩ }

theorem exBand_ok (x : List ℝ) (hx : 0 < x.length) : ∃ o, ssqCwt x exBand = .ok o ∧ o.scales = [1, 2, 4] ∧ o.freqs = [3, 2, 1] := by
  have hr : processFsT (some 8) none x.length = .ok (.fin 8 (1 / 8)) := by
    simp only [processFsT]; rw [if_neg (by norm_num)]
  have hd : cwtDt exBand.fs exBand.t x.length = .ok (8, 1 / 8) := by
    simp only [cwtDt, exBand, exSsqL, exSsq, hr, ok_bind]
  have hs : ∀ N, processScales exBand.scales N (some exBand.wavelet.sw) (ssqCwtNv exBand) true
      exBand.downsample = .ok ([1, 2, 4], .log, 3, .int 1) := fun N => process124 _ _ _ _
  have hs' : processScales (exBand.cwtArgs 8 [1, 2, 4]).scales x.length
      (some (exBand.cwtArgs 8 [1, 2, 4]).wavelet.sw) none true (exBand.cwtArgs 8 [1, 2, 4]).downsample =
      .ok ([1, 2, 4], .log, 3, .int 1) := by
    have hp : positiveInteger ((1 : ℤ) : ℚ) = .ok 1 := by rfl
    simp only [SsqCwtArgs.cwtArgs, ScalesArg.dtype, exBand, exSsqL, exSsq, sc124, processScales, infer124, ok_bind, pure_eq_ok,
      ne_eq, not_true_eq_false, false_and, if_false, hp]
    rfl
  obtain ⟨W, dW, hW⟩ := C37_succeeds x (exBand.cwtArgs 8 [1, 2, 4]) none rfl hx 8 (1 / 8) hr
    (by simp [SsqCwtArgs.cwtArgs, exBand, exSsqL, exSsq]) [1, 2, 4] .log 3 (.int 1) none
    (by simp [SsqCwtArgs.cwtArgs]) (fun _ => rfl) hs'
  obtain ⟨Tx, hT⟩ := ssqueeze_exSsqL none x.length W dW
  have hT : ssqueeze (exBand.ssqArgs 8 .log [1, 2, 4] x.length W dW) = .ok (Tx, [3, 2, 1]) := hT
  refine ⟨⟨Tx, W, [3, 2, 1], [1, 2, 4], dW⟩, ?_, rfl, rfl⟩
  have hc : checkSsqueezingArgs false exBand.squeezing exBand.maprange true (some .trig)
      exBand.difforder exBand.getW .cwt = .ok none := rfl
  unfold ssqCwt
  simp only [hc, hd, hs, hW, hT, ok_bind]

theorem exBand_band : Spec.Passband exBand.wavelet.fn.eval 2 6 := by
  intro w hw
  simp only [exBand, WFn.eval] at hw
  by_contra hne
  rw [if_neg hne] at hw
  simp at hw

/-- Two tones of 1 and 3 cycles in 8 samples, amplitudes 2 and 4. -/
noncomputable def exTones : List ℝ := Spec.mix 8 2 fun c => Spec.tone 8 (1 + 2 * c) (2 + 2 * c) 0

/-- The hypotheses of `C153_superposition` and `C154_tones_linear` are met by two tones of 1 and 3 Hz: they are in rows 2 and 0, whose frequencies are 1 and 3, with gains
that are not zero, and the row between is empty. -/
example : ∃ o, ssqCwt exTones exBand = .ok o ∧ o.freqs = [3, 2, 1] ∧ ∃ g : ℕ → ℝ, g 0 = Real.log 2 ∧ g 1 = Real.log 2 + Real.log 2 ∧
    ∀ j < 8, o.Tx (1 : ℕ) j = 0 ∧ o.Tx (2 : ℕ) j = (g 0 : ℂ) * ((2 / 2 : ℝ) * exp ((2 * Real.pi * (1 : ℕ) * j / (8 : ℕ) + 0 : ℝ) * I)) ∧
      o.Tx (0 : ℕ) j = (g 1 : ℂ) * ((4 / 2 : ℝ) * exp ((2 * Real.pi * (3 : ℕ) * j / (8 : ℕ) + 0 : ℝ) * I)) := by
  obtain ⟨o, h, hsc, hf⟩ := exBand_ok exTones (by simp [exTones, mix_length])
  refine ⟨o, h, hf, ?_⟩
  obtain ⟨fs, dt, st, nv, h1, h2, rs, hn, hT, -⟩ := C154_tones_linear 8 2 (by norm_num) (fun c => 1 + 2 * c) (fun c => 2 + 2 * c) (fun _ => 0)
    (fun c _ => by omega) (fun c hc => by omega) exBand rfl 2 6 (by norm_num) exBand_band (fun w => by simp [exBand, WFn.eval])
    (by
      intro c hc d hd hcd
      have : (c = 0 ∧ d = 1) ∨ (c = 1 ∧ d = 0) := by omega
      rcases this with ⟨rfl, rfl⟩ | ⟨rfl, rfl⟩
      · left; norm_num
      · right; norm_num)
    (by simp [exBand, exSsqL, exSsq]) rfl rfl ⟨.none, infer123⟩ o h
    (by rw [hsc]; simp) 1 1 (by
      rw [hf]
      intro i hi
      simp only [List.reverse_cons, List.reverse_nil, List.nil_append, List.cons_append, List.length_cons,
        List.length_nil] at hi
      interval_cases i <;> norm_num) (by norm_num [eps64]) (by rw [hf, hsc]; rfl)
  have hfs : fs = 8 := by
    simp only [exBand, exSsqL, exSsq, processFsT] at h1
    rw [if_neg (by norm_num)] at h1
    simp only [Except.ok.injEq, Rate.fin.injEq] at h1
    exact h1.1.symm
  rw [hfs, hf] at hn
  have h0 : rs 0 = 2 := by
    obtain ⟨hlt, hmin⟩ := hn 0 (by norm_num)
    have h0 := hmin 2 (by simp)
    simp only [List.length_cons, List.length_nil] at hlt
    norm_num at h0
    generalize rs 0 = r at *
    interval_cases r
    · exfalso; norm_num at h0
    · exfalso; norm_num at h0
    · rfl
  have h3 : rs 1 = 0 := by
    obtain ⟨hlt, hmin⟩ := hn 1 (by norm_num)
    have h0 := hmin 0 (by simp)
    simp only [List.length_cons, List.length_nil] at hlt
    norm_num at h0
    generalize rs 1 = r at *
    interval_cases r
    · rfl
    · exfalso; norm_num at h0
    · exfalso; norm_num at h0
  rw [hsc] at h2
  have h2' : inferScaletype exBand.dtype [1, 2, 4] = .ok (.log, .int 1) := infer124
  rw [h2] at h2'
  simp only [Except.ok.injEq, Prod.mk.injEq] at h2'
  obtain ⟨rfl, rfl⟩ := h2'
  have hpi := Real.pi_gt_three
  have hpi' := Real.pi_lt_d2
  have hin : ∀ w : ℝ, 2 < w → w < 6 → exBand.wavelet.fn.eval w = ((1 : ℝ) : ℂ) := by
    intro w h h'
    simp only [exBand, WFn.eval, if_pos (And.intro h h')]
  have hout : ∀ w : ℝ, (w < 2 ∨ 6 < w) → exBand.wavelet.fn.eval w = ((0 : ℝ) : ℂ) := by
    intro w h
    simp only [exBand, WFn.eval]
    rw [if_neg (by rintro ⟨h1, h2⟩; rcases h with h | h <;> linarith)]
  have hkept : ∀ z : ℝ, Spec.KeptMag exBand z ↔ 1 / 100 < z := fun z => by
    simp [Spec.KeptMag, exBand, exSsqL, exSsq]
  refine ⟨fun c => Spec.toneGain exBand 8 o.scales .log (.int 1) (1 + 2 * c) (2 + 2 * c), ?_, ?_, fun j hj => ?_⟩
  · simp only [hsc, Spec.toneGain, List.length_cons, List.length_nil, sum_range_succ, sum_range_zero, Spec.scaleMeasure, List.getD_cons_zero, List.getD_cons_succ,
      hkept]
    rw [hout _ (Or.inl (by push_cast; linarith)), hout _ (Or.inl (by push_cast; linarith)), hin _ (by push_cast; linarith) (by push_cast; linarith)]
    simp only [Complex.ofReal_re]
    norm_num
  · simp only [hsc, Spec.toneGain, List.length_cons, List.length_nil, sum_range_succ, sum_range_zero, Spec.scaleMeasure, List.getD_cons_zero, List.getD_cons_succ,
      hkept]
    rw [hin _ (by push_cast; linarith) (by push_cast; linarith), hin _ (by push_cast; linarith) (by push_cast; linarith), hout _ (Or.inr (by push_cast; linarith))]
    simp only [Complex.ofReal_re]
    norm_num
  · rw [hT 1 (by rw [hsc]; simp) j hj, hT 2 (by rw [hsc]; simp) j hj, hT 0 (by rw [hsc]; simp) j hj]
    simp only [sum_range_succ, sum_range_zero, h0, h3]
    norm_num

end Ssq
