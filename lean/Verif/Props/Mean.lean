import Verif.Props.IcwtAny
import Verif.Props.Gmw
import Verif.Props.SsqCwt
import Verif.Props.IssqCwt
import Verif.Props.Stft
import Verif.Props.ScaleOrder

/-!
# Adding a constant to the signal (C173)
-/
namespace Ssq
open Finset
open Spec (IsExtension)

/-- A constant, extended. -/
theorem extension_const {t : PadType} (ht : t ≠ .zero) (n : ℕ) (c : ℝ) : IsExtension t (List.replicate n c) fun _ => c := by
  refine ⟨fun i h => by simp, ?_⟩
  cases t <;> simp at ht ⊢

theorem extension_add {t : PadType} (ht : t ≠ .zero) {x : List ℝ} {E : ℤ → ℝ} (hE : IsExtension t x E) (c : ℝ) : IsExtension t (x.map (· + c)) fun i => E i + c := by
  refine ⟨fun i h => ?_, ?_⟩
  · beta_reduce
    rw [List.getElem_map, hE.1 i (by simpa using h)]
  · have h2 := hE.2
    cases t with
    | zero => exact absurd rfl ht
    | wrap => simp only [List.length_map] at h2 ⊢; intro i; rw [h2 i]
    | replicate =>
      simp only [List.length_map] at h2 ⊢
      exact ⟨fun i hi => by rw [h2.1 i hi], fun i hi => by rw [h2.2 i hi]⟩
    | reflect =>
      simp only [List.length_map] at h2 ⊢
      exact ⟨fun i => by rw [h2.1 i], fun i => by rw [h2.2.1 i], fun h i => by rw [h2.2.2 h i]⟩
    | symmetric =>
      simp only [List.length_map] at h2 ⊢
      exact ⟨fun i => by rw [h2.1 i], fun i => by rw [h2.2 i]⟩

theorem dft_const {n : ℕ} (hn : 0 < n) (c : ℂ) {k : ℕ} (hk : k < n) : dft n (fun _ => c) k = if k = 0 then n * c else 0 := by
  unfold dft
  rw [← mul_sum]
  have h : ∑ j ∈ range n, tw n (-(j * k)) = ∑ j ∈ range n, tw n (j * (-k : ℤ)) := sum_congr rfl fun j _ => by congr 1; ring
  rw [h, sum_tw (by omega)]
  split <;> rename_i h1
  · have : k = 0 := by
      rw [Int.dvd_neg] at h1
      have := Int.natCast_dvd_natCast.1 h1
      exact Nat.eq_zero_of_dvd_of_lt this hk
    rw [if_pos this, mul_comm]
  · have : k ≠ 0 := by rintro rfl; simp at h1
    rw [if_neg this, mul_zero]

/-- The CWT of a constant. -/
theorem cwt_const (n : ℕ) (hn : 0 < n) (c : ℝ) (a : CwtArgs) (t : Option PadType) (ht : a.padtype = t.map padName) (hz : t ≠ some .zero) (h0 : a.wavelet.fn.eval 0 = 0)
    {V dV : List (List ℂ)} {scales : List ℝ} (h : cwt (List.replicate n c) a = .ok (V, scales, dV)) : (∀ r ∈ V, ∀ z ∈ r, z = 0) ∧ ∀ r ∈ dV, ∀ z ∈ r, z = 0 := by
  obtain ⟨xp, n1, fs, dt, hp, -, -, h1, h2, h3⟩ := C37_rows_any _ a t ht (by simpa using hn) V scales dV h
  have hxp : ∀ q < xp.length, xp.getD q 0 = c := by
    intro q hq
    cases t with
    | none =>
      rw [hp.1] at hq ⊢
      rw [List.getD_eq_getElem _ _ hq, List.getElem_replicate]
    | some t =>
      rw [List.getD_eq_getElem _ _ hq, hp.2.2.2 _ (extension_const (fun e => hz (by rw [e])) n c) q hq]
  have hlen : 0 < xp.length := by
    cases t with
    | none => rw [hp.1]; simpa using hn
    | some t =>
      have := hp.2.2.1
      rw [List.length_replicate] at this
      omega
  have hd : ∀ k < xp.length, k ≠ 0 → dft xp.length (fun q => ((xp.getD q 0 : ℝ) : ℂ)) k = 0 := by
    intro k hk hk0
    have : dft xp.length (fun q => ((xp.getD q 0 : ℝ) : ℂ)) k = dft xp.length (fun _ => (c : ℂ)) k :=
      sum_congr rfl fun q hq => by simp only [hxp q (mem_range.1 hq)]
    rw [this, dft_const hlen _ hk, if_neg hk0]
  have hs : ∀ (D : Prop) (s : ℝ), Spec.usedSample a.wavelet.fn.eval xp.length D s 0 = 0 := by
    intro D s
    have : Spec.wavSample a.wavelet.fn.eval xp.length s 0 = 0 := by
      unfold Spec.wavSample Spec.xi
      simp [h0]
    unfold Spec.usedSample
    rw [this]
    simp
  have hz : ∀ (D : Prop) (s : ℝ) (g : ℕ → ℂ) (j : ℕ), idft xp.length (fun k => g k * (Spec.usedSample a.wavelet.fn.eval xp.length D s k * dft xp.length (fun q => ((xp.getD q 0 : ℝ) : ℂ)) k)) j = 0 := by
    intro D s g j
    unfold idft
    rw [sum_eq_zero, zero_div]
    intro k hk
    rcases Nat.eq_zero_or_pos k with rfl | h
    · beta_reduce; rw [hs]; ring
    · beta_reduce; rw [hd k (mem_range.1 hk) (by omega)]; ring
  have hz1 : ∀ (D : Prop) (s : ℝ) (j : ℕ), idft xp.length (fun k => Spec.usedSample a.wavelet.fn.eval xp.length D s k * dft xp.length (fun q => ((xp.getD q 0 : ℝ) : ℂ)) k) j = 0 := by
    intro D s j
    have := hz D s (fun _ => 1) j
    simpa using this
  have key : ∀ (Z : List (List ℂ)), Z.length = scales.length → (∀ i < scales.length, (Z.getD i []).length = (if a.rpadded = false ∧ t.isSome then (List.replicate n c).length else xp.length) ∧
      ∀ j < (if a.rpadded = false ∧ t.isSome then (List.replicate n c).length else xp.length), ent Z i j = 0) → ∀ r ∈ Z, ∀ z ∈ r, z = 0 := by
    intro Z hZ hall r hr z hzz
    obtain ⟨i, hi, rfl⟩ := List.mem_iff_getElem.1 hr
    obtain ⟨j, hj, rfl⟩ := List.mem_iff_getElem.1 hzz
    obtain ⟨l1, l2⟩ := hall i (by omega)
    rw [List.getD_eq_getElem _ _ hi] at l1
    have := l2 j (by omega)
    unfold ent at this
    rwa [List.getD_eq_getElem Z _ hi, List.getD_eq_getElem _ _ hj] at this
  refine ⟨key V h1 fun i hi => ⟨(h3 i hi).1, fun j hj => ?_⟩, key dV h2 fun i hi => ⟨(h3 i hi).2.1, fun j hj => ?_⟩⟩
  · rw [((h3 i hi).2.2 j hj).1, hz1, mul_zero]
  · rw [((h3 i hi).2.2 j hj).2, hz, mul_zero]

/-- The lengths of the rows. -/
theorem cwt_row_length {x : List ℝ} (hx : 0 < x.length) {a : CwtArgs} {t : Option PadType} (ht : a.padtype = t.map padName) {W dW : List (List ℂ)} {scales : List ℝ}
    (h : cwt x a = .ok (W, scales, dW)) : W.length = scales.length ∧ dW.length = scales.length ∧ ∀ i < scales.length,
      (W.getD i []).length = (if a.rpadded = true ∧ t.isSome then (p2up x.length).1 else x.length) ∧
      (dW.getD i []).length = (if a.rpadded = true ∧ t.isSome then (p2up x.length).1 else x.length) := by
  obtain ⟨xp, n1, fs, dt, hp, -, -, h1, h2, h3⟩ := C37_rows_any _ a t ht hx W scales dW h
  have hl : (if a.rpadded = false ∧ t.isSome then x.length else xp.length) = (if a.rpadded = true ∧ t.isSome then (p2up x.length).1 else x.length) := by
    cases t with
    | none => simp [hp.1]
    | some t => cases a.rpadded <;> simp [hp.1]
  exact ⟨h1, h2, fun i hi => ⟨by rw [(h3 i hi).1, hl], by rw [(h3 i hi).2.1, hl]⟩⟩

theorem zipWith_zeros {W V : List (List ℂ)} {n L : ℕ} (hW : W.length = n) (hV : V.length = n) (hWl : ∀ i < n, (W.getD i []).length = L) (hVl : ∀ i < n, (V.getD i []).length = L)
    (hz : ∀ r ∈ V, ∀ z ∈ r, z = 0) : List.zipWith (List.zipWith fun u v : ℂ => ((1 : ℝ) : ℂ) * u + ((1 : ℝ) : ℂ) * v) W V = W := by
  refine List.ext_getElem (by simp [hW, hV]) fun i h1 h2 => ?_
  have hi : i < n := by omega
  have e1 := hWl i hi
  have e2 := hVl i hi
  rw [List.getD_eq_getElem _ _ (by omega)] at e1 e2
  rw [List.getElem_zipWith]
  refine List.ext_getElem (by simp [e1, e2]) fun j h3 h4 => ?_
  rw [List.getElem_zipWith, hz _ (List.getElem_mem (by omega)) _ (List.getElem_mem (by omega))]
  simp

/-- **C173, `cwt`.** A constant added to the signal does not change the CWT nor its derivative, whatever the wavelet (if it vanishes at zero frequency), the scales and the padding (not zeros). -/
theorem C173_cwt_partial (x : List ℝ) (c : ℝ) (a : CwtArgs) (t : Option PadType) (ht : a.padtype = t.map padName) (hz : t ≠ some .zero) (h0 : a.wavelet.fn.eval 0 = 0)
    (W : List (List ℂ)) (scales : List ℝ) (dW : List (List ℂ)) : cwt (x.map (· + c)) a = .ok (W, scales, dW) ↔ cwt x a = .ok (W, scales, dW) := by
  have key : ∀ (x : List ℝ) (c : ℝ) (W : List (List ℂ)) (scales : List ℝ) (dW : List (List ℂ)), cwt x a = .ok (W, scales, dW) → cwt (x.map (· + c)) a = .ok (W, scales, dW) := by
    intro x c W scales dW h
    rcases Nat.eq_zero_or_pos x.length with hx | hx
    · rw [List.length_eq_zero_iff.1 hx] at h ⊢
      exact h
    obtain ⟨V, dV, h1, h2⟩ := C36_linear x (List.replicate x.length c) (by simp) hx 1 1 a t ht W scales dW h
    obtain ⟨z1, z2⟩ := cwt_const x.length hx c a t ht hz h0 h1
    obtain ⟨l1, l2, l3⟩ := cwt_row_length hx ht h
    obtain ⟨m1, m2, m3⟩ := cwt_row_length (x := List.replicate x.length c) (by simpa using hx) ht h1
    rw [List.length_replicate] at m3
    rw [zipWith_zeros l1 m1 (fun i hi => (l3 i hi).1) (fun i hi => (m3 i hi).1) z1, zipWith_zeros l2 m2 (fun i hi => (l3 i hi).2) (fun i hi => (m3 i hi).2) z2] at h2
    rw [← h2]
    congr 1
    refine List.ext_getElem (by simp) fun i h1 h2 => ?_
    simp
  refine ⟨fun h => ?_, key x c W scales dW⟩
  have := key _ (-c) _ _ _ h
  rw [List.map_map] at this
  simpa [Function.comp_def] using this

/-- **C173, `ssq_cwt`.** Nor does it change anything `ssq_cwt` returns. -/
theorem C173_ssq_cwt_partial (x : List ℝ) (c : ℝ) (a : SsqCwtArgs) (t : Option PadType) (ht : a.padtype = t.map padName) (hz : t ≠ some .zero) (h0 : a.wavelet.fn.eval 0 = 0)
    (o : SsqCwtOut) : ssqCwt (x.map (· + c)) a = .ok o ↔ ssqCwt x a = .ok o := by
  have key : ∀ (x : List ℝ) (c : ℝ), ssqCwt x a = .ok o → ssqCwt (x.map (· + c)) a = .ok o := by
    intro x c h
    unfold ssqCwt at h ⊢
    rw [List.length_map]
    obtain ⟨u, h1, h⟩ := bind_ok h
    obtain ⟨r, h2, h⟩ := bind_ok h
    obtain ⟨sc, h3, h⟩ := bind_ok h
    obtain ⟨W, h4, h⟩ := bind_ok h
    rw [h1, ok_bind, h2, ok_bind, h3, ok_bind, (C173_cwt_partial x c (a.cwtArgs r.1 sc.1) t ht hz h0 W.1 W.2.1 W.2.2).2 h4, ok_bind]
    exact h
  refine ⟨fun h => ?_, key x c⟩
  have := key _ (-c) h
  rw [List.map_map] at this
  simpa [Function.comp_def] using this

/-- **C173, wavelets.** All wavelets of the package vanish at zero frequency: `gmw` for all its arguments, `morlet` for positive `mu`, `bump` if `mu ≥ .999 s`, `cmhat` and `hhhat` if `mu ≥ 0`. -/
theorem C173_wavelets :
    (∀ (γ β : Option ℝ) (norm : NormArg) (order : OrderArg) (c : Option Bool) (f32 : Bool) (f : ℝ → ℝ), gmw γ β norm order c f32 = .ok f → (WFn.real f).eval 0 = 0) ∧
    (∀ μ : ℝ, 0 < μ → (WFn.real (morletFn μ)).eval 0 = 0) ∧
    (∀ μ s om : ℝ, 0 < s → 0.999 * s ≤ μ → (WFn.cplx (bumpFn μ s om)).eval 0 = 0) ∧
    (∀ μ s : ℝ, 0 < s → 0 ≤ μ → (WFn.real (cmhatFn μ s)).eval 0 = 0) ∧
    (∀ μ : ℝ, 0 ≤ μ → (WFn.real (hhhatFn μ)).eval 0 = 0) := by
  refine ⟨fun γ β n o c f32 f h => ?_, fun μ hμ => ?_, fun μ s om hs hμ => (C51_bump μ s om 0 hs).2.2 hμ le_rfl, fun μ s hs hμ => ?_, fun μ hμ => ?_⟩
  · simp [WFn.eval, C51_gmw h 0 le_rfl]
  · simp [WFn.eval, (C51_morlet μ 0 hμ).2.1]
  · simp [WFn.eval, (C51_cmhat μ s 0 hs).1 hμ]
  · simp [WFn.eval, (C51_hhhat μ 0).1 hμ]

/-- The full claim for `cwt`: for every padding. -/
def C173_full : Prop :=
  ∀ (x : List ℝ) (c : ℝ) (a : CwtArgs) (t : Option PadType), a.padtype = t.map padName → a.wavelet.fn.eval 0 = 0 →
    ∀ (W : List (List ℂ)) (scales : List ℝ) (dW : List (List ℂ)), cwt (x.map (· + c)) a = .ok (W, scales, dW) ↔ cwt x a = .ok (W, scales, dW)

/-- **C173 is false with zero padding**: the edges of the constant show. One sample. -/
theorem C173_refuted : ¬ C173_full := by
  intro H
  obtain ⟨W, dW, h⟩ := argsR_ok [0] (by simp) (some .zero)
  have h' := (H [0] 1 (argsR (some .zero)) (some .zero) rfl (by simp [argsR, WFn.eval, fnR]) W [1, 2, 4] dW).2 h
  simp only [List.map_cons, List.map_nil, zero_add] at h'
  have hp2 : (p2up 1).1 = 2 := by simpa using p2up_two_pow 0
  have key : ∀ v : ℝ, cwt [v] (argsR (some .zero)) = .ok (W, [1, 2, 4], dW) → ent W 0 0 = (Real.pi / 4 * v : ℝ) := by
    intro v hv
    obtain ⟨xp, n1, fs, dt, hp, -, -, h1, h2, h3⟩ := C37_rows_any _ _ (some .zero) rfl (by simp) _ _ _ hv
    obtain ⟨q1, q2, q3, q4⟩ := hp
    simp only [List.length_cons, List.length_nil, zero_add] at q1 q2 q3
    rw [hp2] at q1
    have hE : IsExtension .zero [v] fun i => if i = 0 then v else 0 := by
      refine ⟨fun i hi => ?_, fun i hi => ?_⟩
      · have : i = 0 := by simpa using hi
        subst this; simp
      · simp only [List.length_cons, List.length_nil] at hi
        exact if_neg (by omega)
    have hx := q4 _ hE
    have := ((h3 0 (by simp)).2.2 0 (by simp [argsR])).1
    rw [this]
    have hcount : (if (argsR (some .zero)).rpadded = false ∧ (some PadType.zero).isSome = true then n1 + 0 else 0) = n1 := by simp [argsR]
    rw [hcount, q1]
    have ht1 : tw 2 1 = -1 := by
      unfold tw
      rw [← Complex.exp_pi_mul_I]
      congr 1
      push_cast
      ring
    have ht2 : tw 2 (-1) = -1 := by
      unfold tw
      rw [← Complex.exp_neg_pi_mul_I]
      congr 1
      push_cast
      ring
    have hw : ∀ D, Spec.usedSample (argsR (some .zero)).wavelet.fn.eval 2 D 1 1 = ((Real.pi / 2 : ℝ) : ℂ) := by
      intro D
      have : Spec.wavSample (argsR (some .zero)).wavelet.fn.eval 2 1 1 = ((Real.pi / 2 : ℝ) : ℂ) := by
        simp [Spec.wavSample, Spec.xi, argsR, WFn.eval, fnR, Real.pi_pos.le]
      unfold Spec.usedSample
      rw [this]
      simp
    have hw0 : ∀ D, Spec.usedSample (argsR (some .zero)).wavelet.fn.eval 2 D 1 0 = 0 := by
      intro D
      have : Spec.wavSample (argsR (some .zero)).wavelet.fn.eval 2 1 0 = 0 := by
        simp [Spec.wavSample, Spec.xi, argsR, WFn.eval, fnR]
      unfold Spec.usedSample
      rw [this]
      simp
    have e0 := hx 0 (by omega)
    have e1 := hx 1 (by omega)
    have g0 : xp.getD 0 0 = xp[0]'(by omega) := List.getD_eq_getElem _ _ _
    have g1 : xp.getD 1 0 = xp[1]'(by omega) := List.getD_eq_getElem _ _ _
    have hl1 : (argsR (some .zero)).l1Norm = true := rfl
    have hn1 : n1 = 0 ∨ n1 = 1 := by omega
    simp only [idft, dft, sum_range_succ, sum_range_zero, hl1, if_true, List.getD_cons_zero, hw, hw0, g0, g1, e0, e1]
    rcases hn1 with rfl | rfl <;> simp [ht1, ht2, tw_zero] <;> ring
  have k0 := key 0 h
  have k1 := key 1 h'
  rw [k0] at k1
  have := Complex.ofReal_inj.1 k1
  have hpi := Real.pi_pos
  linarith

theorem StftValid.add_const {lib : WinLib} {tiny : ℝ} {x : List ℝ} {a : StftArgs} {m : ℕ} {w dw : List ℝ} {t : PadType} (h : StftValid lib tiny x a m w dw t) (c : ℝ) :
    StftValid lib tiny (x.map (· + c)) a m w dw t where
  hx := by simpa using h.hx
  hhop := h.hhop
  hm := h.hm
  hnfft := by rw [List.length_map]; exact h.hnfft
  hwin := h.hwin
  hw := h.hw
  hpad := h.hpad
  hsym := by rw [List.length_map]; exact h.hsym

/-- **C173, `stft`.** Except with zero padding, adding a constant `c` to the signal adds to the entry at bin `k` of every frame the same number, `c` times the window's discrete Fourier transform at `k`
(with its phase taken from the centre tap if `modulated`). -/
theorem C173_stft {lib : WinLib} {tiny : ℝ} {x : List ℝ} {a : StftArgs} {m : ℕ} {w dw : List ℝ} {t : PadType} (h : StftValid lib tiny x a m w dw t) (ht : t ≠ .zero) (c : ℝ) :
    ∃ S dS S' dS', stft lib tiny x a = .ok (m, S, dS) ∧ stft lib tiny (x.map (· + c)) a = .ok (m, S', dS') ∧ S.length = S'.length ∧
      ∀ j (h1 : j < S.length) (h2 : j < S'.length), ∀ k < m / 2 + 1, S'[j].getD k 0 = S[j].getD k 0 +
        c * ∑ r ∈ range m, (w.getD r 0 : ℂ) * Complex.exp (-(2 * Real.pi * Complex.I * k * ((r : ℂ) - (if a.modulated then ((m / 2 : ℕ) : ℂ) else 0)) / m)) := by
  obtain ⟨E, hE⟩ := exists_extension t x h.hx
  obtain ⟨S, dS, e, l, -, n, -⟩ := C07_stft_entries h E hE
  obtain ⟨S', dS', e', l', -, n', -⟩ := C07_stft_entries (h.add_const c) _ (extension_add ht hE c)
  rw [List.length_map] at l'
  refine ⟨S, dS, S', dS', e, e', by rw [l, l'], fun j h1 h2 k hk => ?_⟩
  rw [(n j h1).2 k hk, (n' j h2).2 k hk]
  unfold Spec.stft
  rw [mul_sum, ← sum_add_distrib]
  refine sum_congr rfl fun r _ => ?_
  push_cast
  ring

/-- Non-vacuity of `C173_cwt_partial`: five samples, reflected; and of `C173_stft`. -/
example : ∃ W dW, cwt [1, 2, 3, 4, 5] (argsR (some .reflect)) = .ok (W, [1, 2, 4], dW) ∧ cwt [8, 9, 10, 11, 12] (argsR (some .reflect)) = .ok (W, [1, 2, 4], dW) := by
  obtain ⟨W, dW, h⟩ := argsR_ok [1, 2, 3, 4, 5] (by simp) (some .reflect)
  refine ⟨W, dW, h, ?_⟩
  have := (C173_cwt_partial [1, 2, 3, 4, 5] 7 (argsR (some .reflect)) (some .reflect) rfl (by simp) (by simp [argsR, WFn.eval, fnR]) W [1, 2, 4] dW).2 h
  norm_num at this
  exact this

example : ∃ S dS S' dS', stft onesLib 0 [1, 2, 3, 4] exArgs = .ok (3, S, dS) ∧ stft onesLib 0 ([1, 2, 3, 4].map (· + 7)) exArgs = .ok (3, S', dS') ∧ S.length = S'.length := by
  obtain ⟨S, dS, S', dS', h1, h2, h3, -⟩ := C173_stft exValid (by simp) 7
  exact ⟨S, dS, S', dS', h1, h2, h3⟩

/-- Non-vacuity of `C173_ssq_cwt_partial`. -/
example : ∃ o, ssqCwt [1, 2, 3, 4, 5] (exS [1, 2, 3] (some .reflect)) = .ok o ∧ ssqCwt ([1, 2, 3, 4, 5].map (· + 7)) (exS [1, 2, 3] (some .reflect)) = .ok o := by
  obtain ⟨o, ho, -, -⟩ := exS_ok [1, 2, 3] (some .reflect) [1, 2, 3, 4, 5] (by simp) .linear .none (by simp) process123 (fun v => ⟨_, _, rfl, rfl⟩)
  exact ⟨o, ho, (C173_ssq_cwt_partial _ 7 _ (some .reflect) rfl (by simp) (by simp [exS, exSsq, WFn.eval, fnR]) o).2 ho⟩

end Ssq
