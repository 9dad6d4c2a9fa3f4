import Verif.Props.Tile
import Verif.Props.IcwtAny
import Verif.Props.HigherOrder
import Verif.Props.Ssqueeze
import Verif.Lemmas.Superpose

/-!
# C202: the sampling rate does not matter, as long as it is high enough
-/
namespace Ssq
open Complex Finset

namespace Spec

/-- `y` is every `d`-th sample of `x`: `y = x[::d]`, `len(x) = d * len(y)`. -/
def EveryNth (d : ℕ) (x y : List ℝ) : Prop := x.length = d * y.length ∧ ∀ n < y.length, y.getD n 0 = x.getD (d * n) 0

/-- The spectrum of `x` vanishes at and above `1 / (2 d)` cycles per sample, the Nyquist frequency of `x[::d]`. -/
def BandLimited (d : ℕ) (x : List ℝ) : Prop := ∀ k < x.length, x.length ≤ 2 * d * k → x.length ≤ 2 * d * (x.length - k) →
  dft x.length (fun q => ((x.getD q 0 : ℝ) : ℂ)) k = 0

end Spec

/-- The spectrum of every `d`-th sample is the spectrum, folded. -/
theorem dft_decim {d M : ℕ} (hd : d ≠ 0) (hM : M ≠ 0) (f : ℕ → ℂ) {k : ℕ} (hk : k < M) :
    dft M (fun n => f (d * n)) k = (∑ r ∈ range d, dft (d * M) f (k + r * M)) / d := by
  have hdC : (d : ℂ) ≠ 0 := by exact_mod_cast hd
  have hMC : (M : ℂ) ≠ 0 := by exact_mod_cast hM
  have h1 : ∀ n < M, f (d * n) = idft M (fun k => (∑ r ∈ range d, dft (d * M) f (k + r * M)) / d) n := by
    intro n hn
    rw [← idft_dft (n := d * M) f (j := d * n) (Nat.mul_lt_mul_of_pos_left hn (Nat.pos_of_ne_zero hd))]
    unfold idft
    rw [sum_blocks]
    push_cast
    rw [sum_div, sum_div]
    refine sum_congr rfl fun q hq => ?_
    rw [sum_div, sum_div, sum_mul, sum_div]
    refine sum_congr rfl fun r _ => ?_
    have e : ((d : ℤ) * n * ((q : ℤ) + r * M)) = d * (n * q + M * (n * r)) := by ring
    rw [e, tw_mul_cancel hd, tw_add, tw_mul_n hM]
    field_simp
  rw [dft_congr h1, dft_idft _ hk]

theorem idft_decim {d M : ℕ} (hd : d ≠ 0) (hM : M ≠ 0) (f G G' : ℕ → ℂ)
    (h : ∀ k < M, ∀ r < d, dft (d * M) f (k + r * M) = 0 ∨ G (k + r * M) = G' k) (n : ℕ) :
    idft M (fun k => G' k * dft M (fun n => f (d * n)) k) n = idft (d * M) (fun k => G k * dft (d * M) f k) (d * n) := by
  have hdC : (d : ℂ) ≠ 0 := by exact_mod_cast hd
  have hMC : (M : ℂ) ≠ 0 := by exact_mod_cast hM
  unfold idft
  rw [sum_blocks]
  push_cast
  rw [sum_div, sum_div]
  refine sum_congr rfl fun q hq => ?_
  have hq := mem_range.1 hq
  rw [dft_decim hd hM f hq, ← mul_div_assoc, mul_sum, sum_div, sum_mul, sum_div, sum_div]
  refine sum_congr rfl fun r hr => ?_
  have e : ((d : ℤ) * n * ((q : ℤ) + r * M)) = d * (n * q + M * (n * r)) := by ring
  rw [e, tw_mul_cancel hd, tw_add, tw_mul_n hM]
  rcases h q hq r (mem_range.1 hr) with h0 | h0
  · rw [h0]; simp
  · rw [h0]; field_simp

/-- A bin below the Nyquist frequency of the decimated signal. -/
theorem bin_decim {d M k r : ℕ} (hd : 0 < d) (hk : k < M) (hr : r < d)
    (hb : ¬ (d * M ≤ 2 * d * (k + r * M) ∧ d * M ≤ 2 * d * (d * M - (k + r * M)))) :
    (r = 0 ∧ 2 * k < M) ∨ (r + 1 = d ∧ M < 2 * k) := by
  have e1 : d * M ≤ 2 * d * (k + r * M) ↔ M ≤ 2 * (k + r * M) := by
    rw [show 2 * d * (k + r * M) = d * (2 * (k + r * M)) by ring]
    exact Nat.mul_le_mul_left_iff hd
  have e2 : d * M ≤ 2 * d * (d * M - (k + r * M)) ↔ M ≤ 2 * (d * M - (k + r * M)) := by
    rw [show 2 * d * (d * M - (k + r * M)) = d * (2 * (d * M - (k + r * M))) by ring]
    exact Nat.mul_le_mul_left_iff hd
  rw [e1, e2] at hb
  rcases Nat.eq_zero_or_pos r with h0 | h0
  · subst h0
    by_cases h1 : d = 1
    · subst h1; simp at hb ⊢; omega
    · left
      have : 2 * M ≤ d * M := Nat.mul_le_mul_right _ (by omega)
      refine ⟨rfl, ?_⟩
      omega
  · right
    have h1 : M ≤ r * M := Nat.le_mul_of_pos_left _ h0
    obtain ⟨c, rfl⟩ := Nat.exists_eq_add_of_lt hr
    have h2 : (r + c + 1) * M = r * M + c * M + M := by ring
    rw [h2] at hb
    rcases Nat.eq_zero_or_pos c with h3 | h3
    · subst h3; simp at hb ⊢; omega
    · have h4 : M ≤ c * M := Nat.le_mul_of_pos_left _ h3
      omega

theorem xi_decim {d M k r : ℕ} (hd : 0 < d) (hk : k < M) (hr : r < d)
    (hb : (r = 0 ∧ 2 * k < M) ∨ (r + 1 = d ∧ M < 2 * k)) :
    Spec.xi M k = d * Spec.xi (d * M) (k + r * M) ∧ 2 * k ≠ M ∧ 2 * (k + r * M) ≠ d * M := by
  have hdR : (d : ℝ) ≠ 0 := by exact_mod_cast hd.ne'
  have hMR : (M : ℝ) ≠ 0 := by have : M ≠ 0 := by omega
                               exact_mod_cast this
  have hMd : M ≤ d * M := Nat.le_mul_of_pos_left _ hd
  rcases hb with ⟨rfl, h2⟩ | ⟨h1, h2⟩
  · refine ⟨?_, by omega, by omega⟩
    unfold Spec.xi
    rw [if_pos (by omega), if_pos (by omega)]
    push_cast
    field_simp
    ring
  · subst h1
    have h3 : (r + 1) * M = r * M + M := by ring
    refine ⟨?_, by omega, by omega⟩
    unfold Spec.xi
    rw [if_neg (by omega), if_neg (by omega)]
    push_cast at hdR ⊢
    field_simp
    ring

/-- Rows of the transform of a band-limited signal and of its `d`-th samples. -/
theorem cwt_rows_decim {d : ℕ} (hd : 0 < d) {x y : List ℝ} (hxy : Spec.EveryNth d x y) (hb : Spec.BandLimited d x) (f : ℝ → ℂ) (s dt : ℝ) (n : ℕ) :
    idft y.length (fun k => Spec.wavSample f y.length s k * dft y.length (fun q => ((y.getD q 0 : ℝ) : ℂ)) k) n =
      idft x.length (fun k => Spec.wavSample f x.length (d * s) k * dft x.length (fun q => ((x.getD q 0 : ℝ) : ℂ)) k) (d * n) ∧
    idft y.length (fun k => I * ((Spec.xi y.length k : ℝ) : ℂ) / ((d * dt : ℝ) : ℂ) * Spec.wavSample f y.length s k * dft y.length (fun q => ((y.getD q 0 : ℝ) : ℂ)) k) n =
      idft x.length (fun k => I * ((Spec.xi x.length k : ℝ) : ℂ) / (dt : ℂ) * Spec.wavSample f x.length (d * s) k * dft x.length (fun q => ((x.getD q 0 : ℝ) : ℂ)) k) (d * n) := by
  obtain ⟨hl, hv⟩ := hxy
  unfold Spec.BandLimited at hb
  rw [hl] at hb ⊢
  rcases Nat.eq_zero_or_pos y.length with h0 | hM
  · simp [h0, idft]
  set M := y.length
  set X : ℕ → ℂ := fun q => ((x.getD q 0 : ℝ) : ℂ) with hX
  have hy : ∀ k, dft M (fun q => ((y.getD q 0 : ℝ) : ℂ)) k = dft M (fun n => X (d * n)) k :=
    fun k => dft_congr (fun q hq => by rw [hv q hq]) k
  have hcase : ∀ k < M, ∀ r < d, dft (d * M) X (k + r * M) = 0 ∨ ((r = 0 ∧ 2 * k < M) ∨ (r + 1 = d ∧ M < 2 * k)) := by
    intro k hk r hr
    by_cases hc : d * M ≤ 2 * d * (k + r * M) ∧ d * M ≤ 2 * d * (d * M - (k + r * M))
    · left
      refine hb _ ?_ hc.1 hc.2
      have : (r + 1) * M ≤ d * M := Nat.mul_le_mul_right _ hr
      have : (r + 1) * M = r * M + M := by ring
      omega
    · exact Or.inr (bin_decim hd hk hr hc)
  have hdC : (d : ℂ) ≠ 0 := by exact_mod_cast hd.ne'
  constructor
  · simp only [hy]
    refine idft_decim hd.ne' hM.ne' X _ _ (fun k hk r hr => ?_) n
    rcases hcase k hk r hr with h | h
    · exact Or.inl h
    · right
      obtain ⟨e1, e2, e3⟩ := xi_decim hd hk hr h
      unfold Spec.wavSample
      rw [if_neg e2, if_neg e3, e1]
      congr 1
      ring
  · simp only [hy]
    refine idft_decim hd.ne' hM.ne' X _ _ (fun k hk r hr => ?_) n
    rcases hcase k hk r hr with h | h
    · exact Or.inl h
    · right
      obtain ⟨e1, e2, e3⟩ := xi_decim hd hk hr h
      unfold Spec.wavSample
      rw [if_neg e2, if_neg e3, e1]
      rw [show (d : ℝ) * s * Spec.xi (d * M) (k + r * M) = s * (d * Spec.xi (d * M) (k + r * M)) by ring]
      push_cast
      congr 1
      rcases eq_or_ne dt 0 with hz | hz
      · simp [hz]
      · have : (dt : ℂ) ≠ 0 := by exact_mod_cast hz
        field_simp

/-- The transforms at the samples kept. -/
theorem cwtRun_decim {d : ℕ} (hd : 0 < d) {x y : List ℝ} (hxy : Spec.EveryNth d x y) (hb : Spec.BandLimited d x) (a b : CwtArgs) (hpa : a.padtype = none)
    (hpb : b.padtype = none) (hw : b.wavelet.fn = a.wavelet.fn) (hl : b.l1Norm = a.l1Norm) (hre : ∀ w, (a.wavelet.fn.eval w).im = 0) (dt : ℝ) (s : List ℝ)
    (i : ℕ) (hi : i < s.length) (n : ℕ) (hn : n < y.length) :
    ent (cwtRun b dt (s.map ((d : ℝ) * ·)) x.length x 0).1 i (d * n) = (if a.l1Norm then 1 else ((Real.sqrt d : ℝ) : ℂ)) * ent (cwtRun a (d * dt) s y.length y 0).1 i n ∧
    ent (cwtRun b dt (s.map ((d : ℝ) * ·)) x.length x 0).2 i (d * n) = (if a.l1Norm then 1 else ((Real.sqrt d : ℝ) : ℂ)) * ent (cwtRun a (d * dt) s y.length y 0).2 i n := by
  have hdn : d * n < x.length := by rw [hxy.1]; exact Nat.mul_lt_mul_of_pos_left hn hd
  rw [cwtRun_unpadded_real a hpa hre, cwtRun_unpadded_real b hpb (by rw [hw]; exact hre), hw]
  obtain ⟨e1, e2⟩ := cwt_rows_decim hd hxy hb a.wavelet.fn.eval (s.getD i 0) dt n
  have hnorm : ((b.norm (d * s.getD i 0) : ℝ) : ℂ) = (if a.l1Norm then 1 else ((Real.sqrt d : ℝ) : ℂ)) * ((a.norm (s.getD i 0) : ℝ) : ℂ) := by
    unfold CwtArgs.norm
    rw [hl]
    split
    · simp
    · rw [Real.sqrt_mul (by positivity)]; push_cast; ring
  have hget : ∀ F : ℝ → List ℂ, ((s.map ((d : ℝ) * ·)).map F).getD i [] = F (d * s.getD i 0) := by
    intro F
    rw [List.getD_eq_getElem _ _ (by simpa using hi), List.getD_eq_getElem _ _ hi]
    simp
  have hget' : ∀ F : ℝ → List ℂ, (s.map F).getD i [] = F (s.getD i 0) := by
    intro F
    rw [List.getD_eq_getElem _ _ (by simpa using hi), List.getD_eq_getElem _ _ hi]
    simp
  unfold ent
  simp only [hget, hget', getD_map_range _ _ hdn, getD_map_range _ _ hn]
  rw [← e1, hnorm, mul_assoc]
  refine ⟨rfl, ?_⟩
  rw [← e2, mul_assoc]

/-- **C202.** Sampling a signal whose spectrum ends below the Nyquist frequency of `x[::d]` `d` times more densely multiplies the scales by `d` and gives, at the samples both
have, the same transform (times `√d` with the L2 norm) and the same derivative. -/
theorem C202_cwt {d : ℕ} (hd : 0 < d) (x y : List ℝ) (hxy : Spec.EveryNth d x y) (hb : Spec.BandLimited d x) (a : CwtArgs) (ha : a.padtype = none) (ht : a.t = none)
    (hre : ∀ w, (a.wavelet.fn.eval w).im = 0) (fs : ℝ) (sc : ScalesArg) (s : List ℝ) (V W dV dW : List (List ℂ))
    (h : cwt y { a with fs := some (fs / d) } = .ok (V, s, dV)) (h' : cwt x { a with fs := some fs, scales := sc } = .ok (W, s.map ((d : ℝ) * ·), dW)) :
    ∀ i < s.length, ∀ n < y.length, (W.getD i []).getD (d * n) 0 = (if a.l1Norm then 1 else ((Real.sqrt d : ℝ) : ℂ)) * (V.getD i []).getD n 0 ∧
      (dW.getD i []).getD (d * n) 0 = (if a.l1Norm then 1 else ((Real.sqrt d : ℝ) : ℂ)) * (dV.getD i []).getD n 0 := by
  intro i hi n hn
  have hdR : (d : ℝ) ≠ 0 := by exact_mod_cast hd.ne'
  rw [cwt_unpadded y { a with fs := some (fs / d) } ha] at h
  rw [cwt_unpadded x { a with fs := some fs, scales := sc } ha] at h'
  simp only [ht] at h h'
  obtain ⟨r, hr, h⟩ := bind_ok h
  obtain ⟨u, -, h⟩ := bind_ok h
  obtain ⟨q, hq, h⟩ := bind_ok h
  obtain ⟨r', hr', h'⟩ := bind_ok h'
  obtain ⟨u', -, h'⟩ := bind_ok h'
  obtain ⟨q', hq', h'⟩ := bind_ok h'
  simp only [Except.ok.injEq, Prod.mk.injEq] at h h'
  obtain ⟨h1, h2, h3⟩ := h
  obtain ⟨h1', h2', h3'⟩ := h'
  have hdt : r.2 = d * r'.2 := by
    unfold cwtDt processFsT at hr hr'
    simp only at hr hr'
    split at hr
    · simp [bind, Except.bind] at hr
    split at hr'
    · simp [bind, Except.bind] at hr'
    simp only [ok_bind, Except.ok.injEq] at hr hr'
    rw [← hr, ← hr']
    field_simp
  rw [h2] at h1 h3
  rw [h2'] at h1' h3'
  rw [hdt] at h1 h3
  have e := cwtRun_decim hd hxy hb { a with fs := some (fs / d) } { a with fs := some fs, scales := sc } ha ha rfl rfl hre r'.2 s i hi n hn
  simp only [ent, ht] at e
  rw [h1, h3, h1', h3'] at e
  exact e

/-- `process_scales` of a multiple of an array that is recognized alike. -/
theorem processScales_mul {sh : List ℕ} {dt : FDtype} {v : List ℝ} {N N' : ℕ} {wv : Option ScaleWavelet} {nv : Option ℚ} {u : Bool} {ds d : ℕ}
    (hi : inferScaletype dt (v.map ((d : ℝ) * ·)) = inferScaletype dt v) {r : List ℝ × ScaleType × ℕ × Nv}
    (h : processScales (.arr sh dt v) N wv nv u ds = .ok r) :
    processScales (.arr sh dt (v.map ((d : ℝ) * ·))) N' wv nv u ds = .ok (r.1.map ((d : ℝ) * ·), r.2) := by
  unfold processScales at h ⊢
  dsimp only at h ⊢
  rw [hi]
  split at h
  · simp at h
  next hsh =>
  rw [if_neg hsh]
  obtain ⟨⟨st, nvI⟩, e, h⟩ := bind_ok h
  rw [e, ok_bind]
  simp only at h ⊢
  split at h
  · split at h
    · simp at h
    next hnv =>
    rw [if_neg hnv]
    obtain ⟨m, hm, h⟩ := bind_ok h
    rw [hm, ok_bind]
    simp only [pure_eq_ok, Except.ok.injEq] at h ⊢
    rw [← h]; simp
  · simp only [pure_eq_ok, Except.ok.injEq] at h ⊢
    rw [← h]; simp
  · next h1 h2 =>
    split at h
    · simp only [pure_eq_ok, Except.ok.injEq] at h
      rw [← h]; simp
    · obtain ⟨m, hm, h⟩ := bind_ok h
      rw [hm, ok_bind]
      simp only [pure_eq_ok, Except.ok.injEq] at h ⊢
      rw [← h]; simp

/-- The weights of the cells do not depend on the unit of the scales. -/
theorem ssqConst_mul {d : ℕ} (hd : 0 < d) (v : List ℝ) (cst : Option (ScaleType × Nv)) (f : List ℝ) :
    ssqConst .cwt (some (v.map ((d : ℝ) * ·))) cst f = ssqConst .cwt (some v) cst f := by
  have hdR : (d : ℝ) ≠ 0 := by exact_mod_cast hd.ne'
  have hg : ∀ k, (v.map ((d : ℝ) * ·)).getD k 0 = d * v.getD k 0 := by
    intro k
    have := List.getD_map (f := ((d : ℝ) * ·)) (l := v) (d := 0) (n := k)
    simpa using this
  unfold ssqConst
  rcases cst with _ | ⟨st, nv⟩
  · rfl
  · cases st
    case linear =>
      simp only [hg, List.map_map]
      congr 2
      refine List.map_congr_left fun s _ => ?_
      simp only [Function.comp]
      rw [← mul_sub, mul_div_mul_left _ _ hdR]
    all_goals (cases nv <;> rfl)

/-- `ssqueeze` of two transforms over scales that differ by a factor: cells that agree go to the same rows. -/
theorem ssqueeze_decim {A B : SsqArgs} (hA : A.transform = .cwt) (hB : B.transform = .cwt) (hM : B.M = A.M) (hdev : B.dev = A.dev) (hth : B.th = A.th)
    (hfl : B.flipud = A.flipud) (hSA : A.Sfs = none) (hSB : B.Sfs = none) {fd : FDtype} {fv : List ℝ} (hfA : A.ssqFreqs = .arr fd fv) (hfB : B.ssqFreqs = .arr fd fv)
    {T : ℤ → ℕ → ℂ} {f : List ℝ} (h : ssqueeze A = .ok (T, f)) {dt' : ℝ} (hp : ssqProcessArgs B = .ok dt') {d : ℕ} (hd : 0 < d)
    (hs : ∀ v cst, ssqScales A = .ok (v, cst) → ∃ u, v = some u ∧ ssqScales B = .ok (some (u.map ((d : ℝ) * ·)), cst)) :
    ∃ T', ssqueeze B = .ok (T', f) ∧ ∀ r, ∀ j < A.N, ∀ j' < B.N, (∀ i < A.M,
      applySqueezing A.squeezing A.M A.Wx i j = applySqueezing B.squeezing B.M B.Wx i j' ∧
      Spec.usedPhase A (applySqueezing A.squeezing A.M A.Wx) i j = Spec.usedPhase B (applySqueezing B.squeezing B.M B.Wx) i j') → T' r j' = T r j := by
  unfold ssqueeze at h
  obtain ⟨dt, hdt, h⟩ := bind_ok h
  obtain ⟨⟨v, cst⟩, hsc, h⟩ := bind_ok h
  obtain ⟨fr, hfr, h⟩ := bind_ok h
  obtain ⟨c, hc, h⟩ := bind_ok h
  obtain ⟨ls, hls, h⟩ := bind_ok h
  obtain ⟨Tx, hT, h⟩ := bind_ok h
  simp only [pure_eq_ok, Except.ok.injEq, Prod.mk.injEq] at h
  obtain ⟨rfl, rfl⟩ := h
  obtain ⟨u, rfl, hs'⟩ := hs v cst hsc
  have hfr' : ssqFreqsOf B dt' (some (u.map ((d : ℝ) * ·))) cst = .ok fr := by
    unfold ssqFreqsOf at hfr ⊢
    simp only [hfA, hfB, hA, hB] at hfr ⊢
    exact hfr
  have hc' : ssqConst B.transform (some (u.map ((d : ℝ) * ·))) cst fr.1 = .ok c := by
    rw [hB, ssqConst_mul hd, ← hA]; exact hc
  rw [kernel_eq _ _ _ _ _ (Or.inr (Or.inl hSA))] at hT
  unfold indexedSumOnfly onflyBody at hT
  obtain ⟨body, hb, hT⟩ := bind_ok hT
  obtain ⟨ca, hca, hb⟩ := bind_ok hb
  obtain ⟨p, hpp, hb⟩ := bind_ok hb
  simp only [pure_eq_ok, Except.ok.injEq] at hb hT
  subst hb
  have hk : ∃ T', ssqKernel B (applySqueezing B.squeezing B.M B.Wx) fr.1 c ls = .ok T' ∧ ∀ r, ∀ j < A.N, ∀ j' < B.N, (∀ i < A.M,
      applySqueezing A.squeezing A.M A.Wx i j = applySqueezing B.squeezing B.M B.Wx i j' ∧
      Spec.usedPhase A (applySqueezing A.squeezing A.M A.Wx) i j = Spec.usedPhase B (applySqueezing B.squeezing B.M B.Wx) i j') → T' r j' = Tx r j := by
    rw [kernel_eq _ _ _ _ _ (Or.inr (Or.inl hSB))]
    unfold indexedSumOnfly onflyBody
    rw [hM, hth, hca, ok_bind, hpp, ok_bind]
    refine ⟨_, rfl, fun r j hj j' hj' hcell => ?_⟩
    rw [← hT, runOps_serial _ (indexedSumBody_cols _ _ _ _ _ _ _) _ _ _ hj, runOps_serial _ (indexedSumBody_cols _ _ _ _ _ _ _) _ _ _ hj', hdev, hfl]
    congr 1
    refine sum_congr rfl fun i hi => ?_
    obtain ⟨e1, e2⟩ := hcell i (mem_range.1 hi)
    unfold indexedSumBody
    rw [← e2, ← e1]
    cases Spec.usedPhase A (applySqueezing A.squeezing A.M A.Wx) i j <;> simp [contrib]
  obtain ⟨T', hT', hval⟩ := hk
  refine ⟨T', ?_, hval⟩
  unfold ssqueeze
  rw [hp, ok_bind, hs', ok_bind, hfr', ok_bind, hc', ok_bind, hls, ok_bind, hT', ok_bind]
  simp only [pure_eq_ok, hA, hB, hfl]

theorem applySqueezing_cell {sq : Squeezing} (hsq : ∀ g, sq ≠ .fn g) (M : ℕ) {W W' : ℕ → ℕ → ℂ} {i j j' : ℕ} (h : W' i j' = W i j) :
    applySqueezing sq M W i j = applySqueezing sq M W' i j' := by
  cases sq with
  | fn g => exact absurd rfl (hsq g)
  | abs => simp only [applySqueezing, h]
  | _ => simp only [applySqueezing, h]

theorem usedPhase_cwt (b : SsqCwtArgs) (fs : ℝ) (st : ScaleType) (sc : List ℝ) (N : ℕ) (W dW : List (List ℂ)) (V : ℕ → ℕ → ℂ) (i j : ℕ) :
    Spec.usedPhase (b.ssqArgs fs st sc N W dW) V i j = cwtCellPhase b (ent W i j) (ent dW i j) (V i j) := by
  unfold Spec.usedPhase cwtCellPhase
  cases hg : b.getW
  · simp [SsqCwtArgs.ssqArgs, hg, ent]
  · simp [SsqCwtArgs.ssqArgs, hg, ent, phaseCwt]

/-- **C202, synchrosqueezing.** With arrays of scales and frequencies and a measure computed cell by cell: if `ssq_cwt(x[::d])` at rate `fs/d` succeeds, `ssq_cwt(x)` at rate `fs`
with `d` times the scales succeeds if these are recognized alike, returns the same frequencies and, at the samples both have, the same `Tx`, `Wx` and `dWx`. -/
theorem C202_ssq {d : ℕ} (hd : 0 < d) (x y : List ℝ) (hy : 0 < y.length) (hxy : Spec.EveryNth d x y) (hb : Spec.BandLimited d x) (a : SsqCwtArgs) (ha : a.padtype = none)
    (ht : a.t = none) (hre : ∀ w, (a.wavelet.fn.eval w).im = 0) (hsq : ∀ g, a.squeezing ≠ .fn g) (fs : ℝ) (sh : List ℕ) (dty : FDtype) (v : List ℝ)
    (hsc : a.scales = .arr sh dty v) (fd : FDtype) (fv : List ℝ) (hfr : a.ssqFreqs = .arr fd fv)
    (hi1 : inferScaletype dty (v.map ((d : ℝ) * ·)) = inferScaletype dty v) (hi2 : inferScaletype a.dtype (v.map ((d : ℝ) * ·)) = inferScaletype a.dtype v)
    (o : SsqCwtOut) (h : ssqCwt y { a with fs := some (fs / d) } = .ok o) :
    ∃ p, ssqCwt x { a with fs := some fs, scales := .arr sh dty (v.map ((d : ℝ) * ·)) } = .ok p ∧ p.scales = o.scales.map ((d : ℝ) * ·) ∧ p.freqs = o.freqs ∧
      ∀ n < y.length, (∀ r, p.Tx r (d * n) = o.Tx r n) ∧
        ∀ i < o.scales.length, ent p.Wx i (d * n) = ent o.Wx i n ∧ ent p.dWx i (d * n) = ent o.dWx i n := by
  have hdR : (0 : ℝ) < d := by exact_mod_cast hd
  set A : SsqCwtArgs := { a with fs := some (fs / d) } with hA
  set B : SsqCwtArgs := { a with fs := some fs, scales := .arr sh dty (v.map ((d : ℝ) * ·)) } with hB
  have hx : 0 < x.length := by rw [hxy.1]; exact Nat.mul_pos hd hy
  unfold ssqCwt at h
  obtain ⟨c, hc, h⟩ := bind_ok h
  obtain ⟨r, hr, h⟩ := bind_ok h
  obtain ⟨sc, hscp, h⟩ := bind_ok h
  obtain ⟨⟨W, s, dW⟩, hW, h⟩ := bind_ok h
  obtain ⟨⟨T, f⟩, hT, h⟩ := bind_ok h
  simp only [Except.ok.injEq] at h
  subst h
  simp only at hT
  have hfs : 0 < fs := by
    unfold cwtDt processFsT at hr
    simp only [hA, ht] at hr
    split at hr
    · simp [bind, Except.bind] at hr
    next h0 =>
      have := not_le.1 h0
      rw [lt_div_iff₀ hdR] at this
      linarith
  have hr1 : r = (fs / d, 1 / (fs / d)) := by
    unfold cwtDt processFsT at hr
    simp only [hA, ht] at hr
    rw [if_neg (not_le.2 (div_pos hfs hdR))] at hr
    simp only [ok_bind, Except.ok.injEq] at hr
    exact hr.symm
  subst hr1
  have hrB : ∀ N, processFsT (some fs) none N = .ok (.fin fs (1 / fs)) := by
    intro N; unfold processFsT; simp only; rw [if_neg (not_le.2 hfs)]
  have hnv : ∀ b : SsqCwtArgs, b.nv = a.nv → (∃ sh d v, b.scales = .arr sh d v) → ssqCwtNv b = a.nv := by
    rintro b h1 ⟨sh, d, v, h2⟩
    unfold ssqCwtNv
    rw [h1, h2]
    cases a.nv <;> rfl
  have hnA : ssqCwtNv A = a.nv := hnv A rfl ⟨sh, dty, v, hsc⟩
  have hnB : ssqCwtNv B = a.nv := hnv B rfl ⟨sh, dty, _, rfl⟩
  have hAs : A.scales = .arr sh dty v := hsc
  have hscA : processScales (.arr sh dty v) y.length (some a.wavelet.sw) a.nv true a.downsample = .ok sc := by
    rw [hnA, hAs] at hscp; exact hscp
  have hscB := processScales_mul (N' := x.length) hi1 hscA
  have hv : sc.1 = v := processScales_arr_fst hscA
  -- the call of cwt on the processed scales
  obtain ⟨r2, p2, sc2, k1, k2, k3, k4, k5, k6⟩ := (cwt_ok_iff _ _ _ _ _).1 hW
  have hAd : A.scales.dtype = dty := by rw [hAs]; rfl
  have k4' : processScales (.arr [sc.1.length, 1] dty sc.1) y.length (some a.wavelet.sw) (cwtNv (A.cwtArgs (fs / d) sc.1)) true a.downsample = .ok sc2 := by
    have : (A.cwtArgs (fs / d) sc.1).scales = .arr [sc.1.length, 1] dty sc.1 := by
      simp only [SsqCwtArgs.cwtArgs, hAd]
    rw [this] at k4
    exact k4
  have k7 := processScales_mul (N' := x.length) (d := d) (by rw [hv]; exact hi1) k4'
  have hs : s = v := by rw [← k5, processScales_arr_fst k4', hv]
  have hcN : cwtNv (B.cwtArgs fs (sc.1.map ((d : ℝ) * ·))) = cwtNv (A.cwtArgs (fs / d) sc.1) := by
    unfold cwtNv
    simp only [SsqCwtArgs.cwtArgs]
  have hWB : ∃ W' dW', cwt x (B.cwtArgs fs (sc.1.map ((d : ℝ) * ·))) = .ok (W', s.map ((d : ℝ) * ·), dW') := by
    rw [cwt_unpadded x _ (by exact ha)]
    have e1 : cwtDt (B.cwtArgs fs (sc.1.map ((d : ℝ) * ·))).fs (B.cwtArgs fs (sc.1.map ((d : ℝ) * ·))).t x.length = .ok (fs, 1 / fs) := by
      simp only [SsqCwtArgs.cwtArgs, cwtDt, hrB, ok_bind]
    have e2 : checkGmw (B.cwtArgs fs (sc.1.map ((d : ℝ) * ·))).wavelet.gmw (B.cwtArgs fs (sc.1.map ((d : ℝ) * ·))).l1Norm = .ok () := k2
    have e3 : processScales (B.cwtArgs fs (sc.1.map ((d : ℝ) * ·))).scales x.length (some (B.cwtArgs fs (sc.1.map ((d : ℝ) * ·))).wavelet.sw)
        (cwtNv (B.cwtArgs fs (sc.1.map ((d : ℝ) * ·)))) true (B.cwtArgs fs (sc.1.map ((d : ℝ) * ·))).downsample = .ok (sc2.1.map ((d : ℝ) * ·), sc2.2) := by
      rw [hcN, ← k7]
      have : (B.cwtArgs fs (sc.1.map ((d : ℝ) * ·))).scales = .arr [sc.1.length, 1] dty (sc.1.map ((d : ℝ) * ·)) := by
        simp [SsqCwtArgs.cwtArgs, hB, ScalesArg.dtype]
      rw [this]
      rfl
    rw [e1, e2, e3]
    simp only [Except.bind, k5]
    exact ⟨_, _, rfl⟩
  obtain ⟨W', dW', hW'⟩ := hWB
  have hcells : ∀ i < s.length, ∀ n < y.length, ent W' i (d * n) = ent W i n ∧ ent dW' i (d * n) = ent dW i n := by
    intro i hi n hn
    set a0 : CwtArgs := A.cwtArgs (fs / d) sc.1 with ha0
    have e1 : cwt y { a0 with fs := some (fs / d) } = .ok (W, s, dW) := hW
    have e2 : cwt x { a0 with fs := some fs, scales := (B.cwtArgs fs (sc.1.map ((d : ℝ) * ·))).scales } = .ok (W', s.map ((d : ℝ) * ·), dW') := by
      rw [← hW']
      have hnn : (B.cwtArgs fs (sc.1.map ((d : ℝ) * ·))).nv = a0.nv := by
        simp only [SsqCwtArgs.cwtArgs, ha0, hnA, hnB]
      congr 1
      simp only [SsqCwtArgs.cwtArgs, ha0] at hnn ⊢
      rw [hnn]
    have := C202_cwt hd x y hxy hb a0 ha rfl hre fs _ s W W' dW dW' e1 e2 i hi n hn
    simpa [ha0, SsqCwtArgs.cwtArgs, ent] using this
  -- the call of ssqueeze
  have hpB : ssqProcessArgs (B.ssqArgs fs sc.2.1 (s.map ((d : ℝ) * ·)) x.length W' dW') = .ok (1 / fs) := by
    unfold ssqueeze at hT
    obtain ⟨dt, hdt, -⟩ := bind_ok hT
    unfold ssqProcessArgs at hdt ⊢
    split at hdt
    · simp at hdt
    next h1 =>
    rw [if_neg (by
      intro h'
      refine h1 ?_
      simp only [SsqCwtArgs.ssqArgs, hA, hB] at h' ⊢
      refine ⟨?_, ?_⟩
      · have := h'.1; split at this <;> simp_all
      · have := h'.2; split at this <;> simp_all)]
    rw [if_neg (by
      rintro ⟨w, hw, i, hi, j, hj, z, hz, hneg⟩
      simp only [SsqCwtArgs.ssqArgs] at hw
      split at hw
      · simp only [Option.some.injEq] at hw
        rw [← hw] at hz
        unfold phaseCwt at hz
        split at hz
        · simp at hz
        · simp only [Phase.fin.injEq] at hz
          rw [← hz] at hneg
          exact absurd (cwtFreq_nonneg _ _) (not_le.2 hneg)
      · simp at hw)]
    split at hdt
    · simp at hdt
    obtain ⟨u, hu, -⟩ := bind_ok hdt
    have hu' : checkSsqueezingArgs false (B.ssqArgs fs sc.2.1 (s.map ((d : ℝ) * ·)) x.length W' dW').squeezing (B.ssqArgs fs sc.2.1 (s.map ((d : ℝ) * ·)) x.length W' dW').maprange
        (B.ssqArgs fs sc.2.1 (s.map ((d : ℝ) * ·)) x.length W' dW').wavelet.isSome none none false (B.ssqArgs fs sc.2.1 (s.map ((d : ℝ) * ·)) x.length W' dW').transform = .ok u := hu
    rw [hu', ok_bind, if_neg (by simp [SsqCwtArgs.ssqArgs])]
    simp only [SsqCwtArgs.ssqArgs, hrB, ok_bind]
  have hfA : ∀ b : SsqCwtArgs, b.ssqFreqs = .arr fd fv → ∀ fs st sc N W dW, (b.ssqArgs fs st sc N W dW).ssqFreqs = .arr fd fv := by
    intro b hb fs st sc N W dW
    simp only [SsqCwtArgs.ssqArgs, hb]
  obtain ⟨T', hT', hval⟩ := ssqueeze_decim (A := A.ssqArgs (fs / d) sc.2.1 s y.length W dW) (B := B.ssqArgs fs sc.2.1 (s.map ((d : ℝ) * ·)) x.length W' dW')
    rfl rfl (by simp [SsqCwtArgs.ssqArgs]) rfl rfl rfl rfl rfl (hfA A hfr _ _ _ _ _ _) (hfA B hfr _ _ _ _ _ _) hT hpB hd (by
      intro u cst hu
      unfold ssqScales at hu ⊢
      simp only [SsqCwtArgs.ssqArgs] at hu ⊢
      obtain ⟨q, hq, hu⟩ := bind_ok hu
      have := processScales_mul (N' := x.length) (d := d) (by rw [hs]; exact hi2) hq
      simp only [pure_eq_ok, Except.ok.injEq, Prod.mk.injEq] at hu
      refine ⟨q.1, hu.1.symm, ?_⟩
      rw [List.length_map]
      have hdt : B.dtype = A.dtype := rfl
      rw [hdt, this, ok_bind, ← hu.2]
      rfl)
  refine ⟨⟨T', W', f, s.map ((d : ℝ) * ·), dW'⟩, ?_, rfl, rfl, fun n hn => ⟨fun r => ?_, fun i hi => hcells i hi n hn⟩⟩
  · unfold ssqCwt
    have e1 : checkSsqueezingArgs false B.squeezing B.maprange true (some .trig) B.difforder B.getW .cwt = .ok c := hc
    have e2 : cwtDt B.fs B.t x.length = .ok (fs, 1 / fs) := by
      simp only [hB, ht, cwtDt, hrB, ok_bind]
    have e3 : processScales B.scales x.length (some B.wavelet.sw) (ssqCwtNv B) true B.downsample = .ok (sc.1.map ((d : ℝ) * ·), sc.2) := by
      rw [hnB]; exact hscB
    rw [e1, ok_bind, e2, ok_bind, e3, ok_bind, hW', ok_bind, hT', ok_bind]
  · refine hval r n hn (d * n) (by simp only [SsqCwtArgs.ssqArgs]; rw [hxy.1]; exact Nat.mul_lt_mul_of_pos_left hn hd) fun i hi => ?_
    obtain ⟨c1, c2⟩ := hcells i hi n hn
    have hsqz : applySqueezing a.squeezing s.length (ent W) i n = applySqueezing a.squeezing (s.map ((d : ℝ) * ·)).length (ent W') i (d * n) := by
      rw [List.length_map]
      exact applySqueezing_cell hsq _ c1
    refine ⟨hsqz, ?_⟩
    rw [usedPhase_cwt, usedPhase_cwt, c1, c2]
    have e1 : applySqueezing (A.ssqArgs (fs / d) sc.2.1 s y.length W dW).squeezing (A.ssqArgs (fs / d) sc.2.1 s y.length W dW).M (A.ssqArgs (fs / d) sc.2.1 s y.length W dW).Wx i n =
      applySqueezing (B.ssqArgs fs sc.2.1 (s.map ((d : ℝ) * ·)) x.length W' dW').squeezing (B.ssqArgs fs sc.2.1 (s.map ((d : ℝ) * ·)) x.length W' dW').M
        (B.ssqArgs fs sc.2.1 (s.map ((d : ℝ) * ·)) x.length W' dW').Wx i (d * n) := hsqz
    rw [e1]
    rfl

theorem infer248 : inferScaletype .f64 [2, 4, 8] = .ok (.log, .int 1) := by
  have hg : Spec.Geometric [2, 4, 8] 1 1 := by
    intro i hi
    have h4 : Real.logb 2 4 = 2 := by
      rw [show (4 : ℝ) = 2 ^ (2 : ℝ) by norm_num, Real.logb_rpow (by norm_num) (by norm_num)]
    have h8 : Real.logb 2 8 = 3 := by
      rw [show (8 : ℝ) = 2 ^ (3 : ℝ) by norm_num, Real.logb_rpow (by norm_num) (by norm_num)]
    simp only [List.length_cons, List.length_nil] at hi
    match i, hi with
    | 0, _ => simp
    | 1, _ => norm_num [h4]
    | 2, _ => norm_num [h8]
  rw [infer_geometric (by simp) hg (by simp) one_ne_zero]
  have : roundHalfEven ((1 : ℝ) / 1) = 1 := by
    have := rhe_intCast (K := ℝ) 1
    simpa using this
  rw [this]

theorem tone_everyNth : Spec.EveryNth 2 (Spec.tone 8 1 1 0) (Spec.tone 4 1 1 0) ∧ Spec.BandLimited 2 (Spec.tone 8 1 1 0) := by
  have l8 : (Spec.tone 8 1 1 0).length = 8 := by simp [Spec.tone]
  have l4 : (Spec.tone 4 1 1 0).length = 4 := by simp [Spec.tone]
  refine ⟨⟨by rw [l8, l4], fun n hn => ?_⟩, fun k hk h1 h2 => ?_⟩
  · rw [l4] at hn
    unfold Spec.tone
    rw [getD_map_range _ _ hn, getD_map_range _ _ (by omega)]
    congr 2
    push_cast
    ring
  · rw [l8] at hk h1 h2 ⊢
    rw [tone_dft 8 1 (by norm_num) (by norm_num) 1 0 k hk, if_neg (by omega), if_neg (by omega), add_zero]

/-- A tone of one cycle in eight samples, and every second sample of it, at rates 16 and 8 with scales 2, 4, 8 and 1, 2, 4. -/
example : ∃ o p, ssqCwt (Spec.tone 4 1 1 0) { exSsq none with fs := some (16 / ((2 : ℕ) : ℝ)) } = .ok o ∧
    ssqCwt (Spec.tone 8 1 1 0) { exSsq none with fs := some 16, scales := .arr [3] .f64 [2, 4, 8] } = .ok p ∧ p.freqs = [4, 2, 1] ∧
    ∀ n < 4, ∀ r, p.Tx r (2 * n) = o.Tx r n := by
  obtain ⟨o, ho, hos, hof⟩ := exSsq_ok none (Spec.tone 4 1 1 0) (by simp [Spec.tone])
  have e : ({ exSsq none with fs := some (16 / ((2 : ℕ) : ℝ)) } : SsqCwtArgs) = exSsq none := by
    unfold exSsq; norm_num
  have e2 : ([1, 2, 4] : List ℝ).map (((2 : ℕ) : ℝ) * ·) = [2, 4, 8] := by norm_num
  obtain ⟨p, hp, -, hf, hT⟩ := C202_ssq (d := 2) (by norm_num) (Spec.tone 8 1 1 0) (Spec.tone 4 1 1 0) (by simp [Spec.tone]) tone_everyNth.1 tone_everyNth.2 (exSsq none) rfl rfl
    (fun w => by simp [exSsq, WFn.eval]) (by simp [exSsq]) 16 [3] .f64 [1, 2, 4] rfl .f64 [1, 2, 4] rfl (by rw [e2, infer248, infer124])
    (by show inferScaletype .f64 _ = inferScaletype .f64 _; rw [e2, infer248, infer124]) o (by rw [e]; exact ho)
  rw [e2] at hp
  exact ⟨o, p, by rw [e]; exact ho, hp, by rw [hf, hof], fun n hn r => (hT n (by simpa [Spec.tone] using hn)).1 r⟩

end Ssq
