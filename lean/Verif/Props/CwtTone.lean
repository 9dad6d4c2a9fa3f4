import Verif.Props.Cwt
import Verif.Props.Phase
import Mathlib.Analysis.SpecialFunctions.ExpDeriv
import Mathlib.Analysis.Calculus.Deriv.Comp
import Mathlib.Analysis.Complex.RealDeriv

/-!
# The derivative output of `cwt` and its action on tones (C38, C39 first half)
-/
namespace Ssq
open Complex

/-- An entry of the wavelet rows is the sample of the wavelet or its real part. -/
theorem psihRows_entry (f : WFn) (vec : Bool) (L : ℕ) (scales : List ℝ) (i : ℕ) (hi : i < scales.length)
    (k : ℕ) (hk : k < L) :
    ((psihRows f vec L scales).getD i []).getD k 0 = Spec.wavSample f.eval L scales[i] k ∨
    ((psihRows f vec L scales).getD i []).getD k 0 =
      (((Spec.wavSample f.eval L scales[i] k).re : ℝ) : ℂ) := by
  have key : ∀ (rows : List (List ℂ)) (hr : ∀ r ∈ rows, r.length = L) (i : ℕ) (h : i < rows.length),
      ((dropImag f rows).getD i []).getD k 0 = (rows.getD i []).getD k 0 ∨
      ((dropImag f rows).getD i []).getD k 0 = ((((rows.getD i []).getD k 0).re : ℝ) : ℂ) := by
    intro rows hr i h
    unfold dropImag
    split
    · exact Or.inl rfl
    · split
      · right
        have e : (rows.map fun r => r.map fun z : ℂ => ((z.re : ℝ) : ℂ)).getD i [] =
            (rows[i]).map fun z : ℂ => ((z.re : ℝ) : ℂ) := by
          rw [List.getD_eq_getElem _ _ (by simpa using h), List.getElem_map]
        rw [e, getD_map_c _ _ _ 0 (by rw [hr _ (List.getElem_mem h)]; exact hk),
          List.getD_eq_getElem rows [] h]
      · exact Or.inl rfl
  have hrow : ∀ (l : List ℝ), ∀ r ∈ l.map (fun s => halveNyquist (sampleRow f L s)), r.length = L := by
    intro l r hr
    obtain ⟨s, _, rfl⟩ := List.mem_map.1 hr
    rw [halveNyquist_length, sampleRow_length]
  unfold psihRows
  split
  · have := key _ (hrow scales) i (by simpa using hi)
    rw [List.getD_eq_getElem (scales.map _) _ (by simpa using hi), List.getElem_map,
      psihRow_getD _ _ _ _ hk] at this
    exact this
  · have := key _ (hrow [scales[i]]) 0 (by simp)
    rw [List.getD_eq_getElem (scales.map _) _ (by simpa using hi), List.getElem_map]
    simp only [List.map_cons, List.map_nil, List.getD_cons_zero] at this
    rw [psihRow_getD _ _ _ _ hk] at this
    exact this

theorem tw_xi (L : ℕ) (hL : L ≠ 0) (j k : ℕ) :
    tw L ((j : ℤ) * k) = exp (I * ((Spec.xi L k * j : ℝ) : ℂ)) := by
  have hL' : (L : ℂ) ≠ 0 := by exact_mod_cast hL
  unfold tw Spec.xi
  by_cases h : 2 * k ≤ L
  · rw [if_pos h]; congr 1; push_cast; ring
  · rw [if_neg h]
    have : (I * ((2 * Real.pi * ((k : ℝ) - L) / L * j : ℝ) : ℂ)) =
        2 * Real.pi * I * ((j : ℤ) * (k : ℤ) : ℤ) / L + ((-(j : ℤ) : ℤ) : ℂ) * (2 * Real.pi * I) := by
      push_cast; field_simp; ring
    rw [this, Complex.exp_add, Complex.exp_int_mul_two_pi_mul_I, mul_one]

/-- The trigonometric polynomial with coefficients `c` over the signed DFT frequencies of `L` samples at
rate `fs`, as a function of time. -/
noncomputable def Spec.trigPoly (L : ℕ) (fs : ℝ) (c : ℕ → ℂ) (τ : ℝ) : ℂ :=
  ∑ k ∈ Finset.range L, c k * exp (I * ((Spec.xi L k * fs * τ : ℝ) : ℂ))

theorem trigPoly_hasDerivAt (L : ℕ) (fs : ℝ) (c : ℕ → ℂ) (τ : ℝ) :
    HasDerivAt (Spec.trigPoly L fs c)
      (∑ k ∈ Finset.range L, c k * (exp (I * ((Spec.xi L k * fs * τ : ℝ) : ℂ)) * (I * ((Spec.xi L k * fs : ℝ) : ℂ)))) τ := by
  unfold Spec.trigPoly
  apply HasDerivAt.fun_sum
  intro k _
  apply HasDerivAt.const_mul
  have h1 : HasDerivAt (fun τ : ℝ => ((Spec.xi L k * fs * τ : ℝ) : ℂ)) ((Spec.xi L k * fs : ℝ) : ℂ) τ := by
    have := ((hasDerivAt_id τ).const_mul (Spec.xi L k * fs)).ofReal_comp
    simpa using this
  exact (h1.const_mul I).cexp

/-- **C38.** Each row of the transform is a trigonometric polynomial in time (its Fourier coefficients
being wavelet sample times signal spectrum), sampled at the times `(first + j)/fs` of the padded signal, and
the derivative output is the exact time derivative of that polynomial at the same times. For every
wavelet (for complex ones the sample may have been replaced by its real part), signal, scales, pad
type, norm, code path and sampling rate. -/
theorem C38_derivative (x : List ℝ) (a : CwtArgs) (t : Option PadType)
    (ht : a.padtype = t.map padName) (hx : 0 < x.length)
    (W : List (List ℂ)) (scales : List ℝ) (dW : List (List ℂ)) (h : cwt x a = .ok (W, scales, dW)) :
    ∃ xp, ∃ n1 : ℕ, ∃ fs dt : ℝ, Spec.Padded t x xp n1 ∧
      processFsT a.fs a.t x.length = .ok (.fin fs dt) ∧ fs ≠ 0 ∧
      ∀ i (hi : i < scales.length), ∃ ψ : ℕ → ℂ,
        (∀ k < xp.length, ψ k = Spec.wavSample a.wavelet.fn.eval xp.length scales[i] k ∨
          ψ k = (((Spec.wavSample a.wavelet.fn.eval xp.length scales[i] k).re : ℝ) : ℂ)) ∧
        (W.getD i []).length = (if a.rpadded = false ∧ t.isSome then x.length else xp.length) ∧
        (dW.getD i []).length = (W.getD i []).length ∧
        ∀ j < (W.getD i []).length,
          let g := Spec.trigPoly xp.length fs fun k =>
            (if a.l1Norm then 1 else ((Real.sqrt scales[i] : ℝ) : ℂ)) *
              ψ k * dft xp.length (fun q => ((xp.getD q 0 : ℝ) : ℂ)) k / xp.length
          let τ : ℝ := ((if a.rpadded = false ∧ t.isSome then n1 + j else j : ℕ) : ℝ) / fs
          ent W i j = g τ ∧ HasDerivAt g (ent dW i j) τ := by
  obtain ⟨xp, n1, r, h1, h2, hr, h4⟩ := cwt_ok ht hx h
  rw [cwtRun_eq a _ _ _ _ _ h2] at h4
  simp only [Prod.mk.injEq] at h4
  have hcols : a.cols x.length xp.length =
      (if a.rpadded = false ∧ t.isSome then x.length else xp.length) := by
    unfold CwtArgs.cols CwtArgs.trimmed; rw [ht]
    cases a.rpadded <;> cases t <;> simp
  have hfirst : ∀ j, a.first n1 + j = (if a.rpadded = false ∧ t.isSome then n1 + j else j) := by
    intro j
    unfold CwtArgs.first CwtArgs.trimmed; rw [ht]
    cases a.rpadded <;> cases t <;> simp
  have hnorm : ∀ s, ((a.norm s : ℝ) : ℂ) = (if a.l1Norm then 1 else ((Real.sqrt s : ℝ) : ℂ)) := by
    intro s; unfold CwtArgs.norm; split <;> simp
  obtain ⟨hm, hfs, hdt, hdd⟩ := cwtDt_mul hr
  have hL : xp.length ≠ 0 := by omega
  refine ⟨xp, n1, r.1, r.2, h1, cwtDt_fin hr, hfs, fun i hi => ?_⟩
  refine ⟨fun k => ((psihRows a.wavelet.fn a.vectorized xp.length scales).getD i []).getD k 0,
    fun k hk => psihRows_entry _ _ _ _ i hi k hk, ?_⟩
  have hs : scales.getD i 0 = scales[i] := List.getD_eq_getElem _ _ hi
  have e1 := fun g => zipWith_getD (γ := List ℂ) g scales
    (psihRows a.wavelet.fn a.vectorized xp.length scales) i (0 : ℝ) ([] : List ℂ) [] hi
    (by rw [psihRows_length]; exact hi)
  have l1 : (W.getD i []).length = a.cols x.length xp.length := by rw [h4.1, e1]; simp
  have l2 : (dW.getD i []).length = a.cols x.length xp.length := by rw [h4.2, e1]; simp
  rw [l1, l2]
  refine ⟨hcols, rfl, fun j hj => ?_⟩
  have hx1 : ∀ k, exp (I * ((Spec.xi xp.length k * r.1 * (((a.first n1 + j : ℕ) : ℝ) / r.1) : ℝ) : ℂ)) =
      tw xp.length (((a.first n1 + j : ℕ) : ℤ) * k) := by
    intro k
    rw [tw_xi _ hL]
    congr 3
    field_simp
  simp only [← hfirst, ← hnorm]
  constructor
  · rw [ent, h4.1, e1, getD_map_range _ _ hj, hs]
    unfold idft Spec.trigPoly
    rw [← mul_div_assoc, Finset.mul_sum, Finset.sum_div]
    refine Finset.sum_congr rfl fun k _ => ?_
    rw [hx1]; push_cast; ring
  · convert trigPoly_hasDerivAt _ _ _ _ using 1
    rw [ent, h4.2, e1, getD_map_range _ _ hj, hs]
    unfold idft
    rw [← mul_div_assoc, Finset.mul_sum, Finset.sum_div]
    refine Finset.sum_congr rfl fun k _ => ?_
    rw [hx1, hdd]
    push_cast
    simp only [div_eq_mul_inv, one_mul, inv_inv]
    ring

/-! ## Tones -/

/-- The real tone of `k` cycles in `N` samples, amplitude `A`, phase `φ`. -/
noncomputable def Spec.tone (N k : ℕ) (A φ : ℝ) : List ℝ :=
  (List.range N).map fun j : ℕ => A * Real.cos (2 * Real.pi * k * j / N + φ)

/-- A wavelet that vanishes at negative frequencies. -/
def Spec.Analytic (f : ℝ → ℂ) : Prop := ∀ w < 0, f w = 0

theorem tone_eq (N k : ℕ) (A φ : ℝ) (j : ℕ) (hj : j < N) :
    (((Spec.tone N k A φ).getD j 0 : ℝ) : ℂ) =
      (A / 2 * exp (I * φ)) * tw N ((j : ℤ) * k) + (A / 2 * exp (-(I * φ))) * tw N (-((j : ℤ) * k)) := by
  rw [Spec.tone, getD_map_range _ _ hj, Complex.ofReal_mul, Complex.ofReal_cos, Complex.cos]
  unfold tw
  have e1 : exp (((2 * Real.pi * k * j / N + φ : ℝ) : ℂ) * I) =
      exp (I * φ) * exp (2 * Real.pi * I * ((j : ℤ) * k : ℤ) / N) := by
    rw [← Complex.exp_add]; congr 1; push_cast; ring
  have e2 : exp (-((2 * Real.pi * k * j / N + φ : ℝ) : ℂ) * I) =
      exp (-(I * φ)) * exp (2 * Real.pi * I * (-((j : ℤ) * k) : ℤ) / N) := by
    rw [← Complex.exp_add]; congr 1; push_cast; ring
  rw [e1, e2]; ring

theorem dft_tone (N k : ℕ) (A φ : ℝ) (hk : 2 * k < N) (m : ℕ) (hm : 2 * m ≤ N) :
    dft N (fun q => (((Spec.tone N k A φ).getD q 0 : ℝ) : ℂ)) m =
      (if m = k then (N : ℂ) * (A / 2 * exp (I * φ)) else 0) +
      (if m = k ∧ k = 0 then (N : ℂ) * (A / 2 * exp (-(I * φ))) else 0) := by
  have hN : N ≠ 0 := by omega
  rw [dft_congr (fun q hq => tone_eq N k A φ q hq)]
  rw [dft_add, dft_smul, dft_smul]
  have h1 : dft N (fun j => tw N ((j : ℤ) * k)) m = if m = k then (N : ℂ) else 0 := by
    unfold dft
    rw [Finset.sum_congr rfl (g := fun j : ℕ => tw N ((j : ℤ) * ((k : ℤ) - m)))
      (fun j _ => by rw [← tw_add]; congr 1; ring), sum_tw hN]
    by_cases h : m = k
    · simp [h]
    · rw [if_neg h, if_neg]
      rw [dvd_sub_iff (by omega) (by omega)]
      omega
  have h2 : dft N (fun j => tw N (-((j : ℤ) * k))) m = if m = k ∧ k = 0 then (N : ℂ) else 0 := by
    unfold dft
    rw [Finset.sum_congr rfl (g := fun j : ℕ => tw N ((j : ℤ) * (-((k : ℤ) + m))))
      (fun j _ => by rw [← tw_add]; congr 1; ring), sum_tw hN]
    by_cases h : m = k ∧ k = 0
    · rw [if_pos h, if_pos]
      obtain ⟨rfl, rfl⟩ := h
      simp
    · rw [if_neg h, if_neg]
      rw [Int.dvd_neg]
      intro hd
      have := Int.eq_zero_of_abs_lt_dvd hd (by rw [abs_lt]; omega)
      omega
  rw [h1, h2]
  congr 1
  · split <;> ring
  · split <;> ring

/-- For a tone and an analytic wavelet only the bin of the tone contributes. -/
theorem cwt_tone (N k : ℕ) (A φ : ℝ) (hk : 2 * k < N) (a : CwtArgs) (hp : a.padtype = none)
    (han : Spec.Analytic a.wavelet.fn.eval)
    (W : List (List ℂ)) (scales : List ℝ) (dW : List (List ℂ))
    (h : cwt (Spec.tone N k A φ) a = .ok (W, scales, dW)) (hpos : ∀ s ∈ scales, 0 < s) :
    ∃ fs dt : ℝ, processFsT a.fs a.t N = .ok (.fin fs dt) ∧ fs ≠ 0 ∧
      W.length = scales.length ∧ dW.length = scales.length ∧
      ∀ i (hi : i < scales.length), ∃ ψ : ℂ,
        (ψ = a.wavelet.fn.eval (scales[i] * (2 * Real.pi * k / N)) ∨
          ψ = (((a.wavelet.fn.eval (scales[i] * (2 * Real.pi * k / N))).re : ℝ) : ℂ)) ∧
        (W.getD i []).length = N ∧ (dW.getD i []).length = N ∧
        ∀ j < N,
          ent W i j = ((a.norm scales[i] : ℝ) : ℂ) * (ψ *
            (if k = 0 then ((A * Real.cos φ : ℝ) : ℂ) else A / 2 * exp (I * φ)) * tw N ((j : ℤ) * k)) ∧
          ent dW i j = (2 * Real.pi * I * k * fs / N) * ent W i j := by
  have hN : N ≠ 0 := by omega
  have hN' : (N : ℂ) ≠ 0 := by exact_mod_cast hN
  have hlen : (Spec.tone N k A φ).length = N := by simp [Spec.tone]
  obtain ⟨xp, n1, r, h1, h2, hr, h4⟩ := cwt_ok (t := none) (by simpa using hp) (by omega) h
  obtain ⟨rfl, rfl⟩ := h1
  rw [cwtRun_eq a _ _ _ _ _ h2, hlen] at h4
  rw [hlen] at hr
  simp only [Prod.mk.injEq] at h4
  have hc : a.cols N N = N := by unfold CwtArgs.cols; split <;> rfl
  have hf : a.first 0 = 0 := by unfold CwtArgs.first; split <;> rfl
  obtain ⟨hm, hfs, hdt, hdd⟩ := cwtDt_mul hr
  refine ⟨r.1, r.2, cwtDt_fin hr, hfs, by rw [h4.1]; simp [psihRows_length],
    by rw [h4.2]; simp [psihRows_length], fun i hi => ?_⟩
  set P := (psihRows a.wavelet.fn a.vectorized N scales).getD i [] with hP
  have hs : scales.getD i 0 = scales[i] := List.getD_eq_getElem _ _ hi
  have e1 := fun g => zipWith_getD (γ := List ℂ) g scales
    (psihRows a.wavelet.fn a.vectorized N scales) i (0 : ℝ) ([] : List ℂ) [] hi
    (by rw [psihRows_length]; exact hi)
  have hxik : Spec.xi N k = 2 * Real.pi * k / N := by unfold Spec.xi; rw [if_pos (by omega)]
  have hws : Spec.wavSample a.wavelet.fn.eval N scales[i] k =
      a.wavelet.fn.eval (scales[i] * (2 * Real.pi * k / N)) := by
    unfold Spec.wavSample; rw [if_neg (by omega), hxik]
  have hz : ∀ m < N, m ≠ k → P.getD m 0 *
      dft N (fun q => (((Spec.tone N k A φ).getD q 0 : ℝ) : ℂ)) m = 0 := by
    intro m hm hmk
    by_cases h2m : 2 * m ≤ N
    · rw [dft_tone N k A φ hk m h2m, if_neg hmk, if_neg (by tauto)]; simp
    · have hneg : scales[i] * Spec.xi N m < 0 := by
        apply mul_neg_of_pos_of_neg (hpos _ (List.getElem_mem _))
        unfold Spec.xi
        rw [if_neg h2m]
        have : (m : ℝ) - N < 0 := by
          have : (m : ℝ) < N := by exact_mod_cast hm
          linarith
        have hN0 : (0 : ℝ) < N := by exact_mod_cast Nat.pos_of_ne_zero hN
        apply div_neg_of_neg_of_pos _ hN0
        have := Real.pi_pos
        nlinarith
      have hw0 : Spec.wavSample a.wavelet.fn.eval N scales[i] m = 0 := by
        unfold Spec.wavSample; rw [if_neg (by omega), han _ hneg]
      have : P.getD m 0 = 0 := by
        rcases psihRows_entry a.wavelet.fn a.vectorized N scales i hi m hm with h | h
        · rw [hP, h, hw0]
        · rw [hP, h, hw0]; simp
      rw [this, zero_mul]
  have hXk : dft N (fun q => (((Spec.tone N k A φ).getD q 0 : ℝ) : ℂ)) k =
      N * (if k = 0 then ((A * Real.cos φ : ℝ) : ℂ) else A / 2 * exp (I * φ)) := by
    rw [dft_tone N k A φ hk k (by omega), if_pos rfl]
    by_cases h0 : k = 0
    · rw [if_pos ⟨rfl, h0⟩, if_pos h0, Complex.ofReal_mul, Complex.ofReal_cos, Complex.cos]
      rw [show (φ : ℂ) * I = I * φ by ring, show -(φ : ℂ) * I = -(I * φ) by ring]
      ring
    · rw [if_neg (by tauto), if_neg h0]; ring
  have hsum : ∀ (G : ℕ → ℂ) (j : ℕ), idft N (fun m => G m * (P.getD m 0 *
      dft N (fun q => (((Spec.tone N k A φ).getD q 0 : ℝ) : ℂ)) m)) j =
      G k * (P.getD k 0 * (if k = 0 then ((A * Real.cos φ : ℝ) : ℂ) else A / 2 * exp (I * φ))) *
        tw N ((j : ℤ) * k) := by
    intro G j
    unfold idft
    rw [Finset.sum_eq_single k]
    · simp only; rw [hXk]; field_simp
    · intro m hm hmk; simp only; rw [hz m (Finset.mem_range.1 hm) hmk]; ring
    · intro hk'; exact absurd (Finset.mem_range.2 (by omega)) hk'
  have hW : ∀ j < N, ent W i j = ((a.norm scales[i] : ℝ) : ℂ) * (P.getD k 0 *
      (if k = 0 then ((A * Real.cos φ : ℝ) : ℂ) else A / 2 * exp (I * φ)) * tw N ((j : ℤ) * k)) := by
    intro j hj
    rw [ent, h4.1, e1, getD_map_range _ _ (by rw [hc]; exact hj), hs, ← hP, hf, zero_add]
    have := hsum (fun _ => 1) j
    simp only [one_mul] at this
    rw [this]
  refine ⟨P.getD k 0, ?_, ?_, ?_, fun j hj => ⟨hW j hj, ?_⟩⟩
  · rw [← hws]
    exact psihRows_entry a.wavelet.fn a.vectorized N scales i hi k (by omega)
  · rw [h4.1, e1]; simp [hc]
  · rw [h4.2, e1]; simp [hc]
  · rw [hW j hj, ent, h4.2, e1, getD_map_range _ _ (by rw [hc]; exact hj), hs, ← hP, hf, zero_add,
      hsum (fun m => I * ((Spec.xi N m : ℝ) : ℂ) / (r.2 : ℂ)) j, hxik, hdd]
    push_cast
    simp only [div_eq_mul_inv, one_mul, inv_inv]
    ring

/-- **C38, tones.** For every tone of `k` cycles in `N` samples below Nyquist, every analytic wavelet,
positive scales, norm, code path and sampling rate (no padding), every entry of the derivative output is
exactly `2πi·k·fs/N` times the corresponding entry of the transform. -/
theorem C38_tone (N k : ℕ) (A φ : ℝ) (hk : 2 * k < N) (a : CwtArgs) (hp : a.padtype = none)
    (han : Spec.Analytic a.wavelet.fn.eval)
    (W : List (List ℂ)) (scales : List ℝ) (dW : List (List ℂ))
    (h : cwt (Spec.tone N k A φ) a = .ok (W, scales, dW)) (hpos : ∀ s ∈ scales, 0 < s) :
    ∃ fs dt : ℝ, processFsT a.fs a.t N = .ok (.fin fs dt) ∧
      ∀ i < scales.length, ∀ j < N, ent dW i j = (2 * Real.pi * I * k * fs / N) * ent W i j := by
  obtain ⟨fs, dt, h1, _, _, _, h2⟩ := cwt_tone N k A φ hk a hp han W scales dW h hpos
  refine ⟨fs, dt, h1, fun i hi j hj => ?_⟩
  obtain ⟨ψ, _, _, _, h3⟩ := h2 i hi
  exact (h3 j hj).2

/-- **C39, first half.** In every cell of the transform of a tone that is not below the threshold (and
not zero), the phase transform is exactly the physical frequency `k·|fs|/N` of the tone. (`fs` is negative
only for a decreasing time vector, see C48.) -/
theorem C39_phase (N k : ℕ) (A φ : ℝ) (hk : 2 * k < N) (a : CwtArgs) (hp : a.padtype = none)
    (han : Spec.Analytic a.wavelet.fn.eval)
    (W : List (List ℂ)) (scales : List ℝ) (dW : List (List ℂ))
    (h : cwt (Spec.tone N k A φ) a = .ok (W, scales, dW)) (hpos : ∀ s ∈ scales, 0 < s) :
    ∃ fs dt : ℝ, processFsT a.fs a.t N = .ok (.fin fs dt) ∧
      ∀ (gamma : ℝ), ∀ i < scales.length, ∀ j < N, ent W i j ≠ 0 → gamma ≤ ‖ent W i j‖ →
        phaseCwt gamma (ent W) (ent dW) i j = .fin (k * |fs| / N) := by
  obtain ⟨fs, dt, h1, h2⟩ := C38_tone N k A φ hk a hp han W scales dW h hpos
  refine ⟨fs, dt, h1, fun gamma i hi j hj h0 hg => ?_⟩
  unfold phaseCwt
  rw [if_neg (not_lt.2 hg), cwtFreq_eq _ _ h0, h2 i hi j hj, mul_div_assoc, div_self h0, mul_one]
  have hN0 : (0 : ℝ) < N := by exact_mod_cast (show 0 < N by omega)
  have : (2 * Real.pi * I * k * fs / N : ℂ) = ((2 * Real.pi * (k * fs / N) : ℝ) : ℂ) * I := by
    push_cast; ring
  rw [this, Complex.mul_im]
  simp only [Complex.ofReal_re, Complex.I_im, mul_one, Complex.ofReal_im, Complex.I_re, mul_zero, add_zero]
  congr 1
  have hpi := Real.pi_pos
  rw [abs_mul, abs_of_pos (by positivity : (0 : ℝ) < 2 * Real.pi), abs_div, abs_mul, abs_of_pos hN0,
    abs_of_nonneg (Nat.cast_nonneg k)]
  field_simp

theorem analytic_fnR (t : Option PadType) : Spec.Analytic (argsR t).wavelet.fn.eval := by
  intro w hw
  simp [argsR, WFn.eval, fnR, not_le.2 hw]

/-- The hypotheses of `C38_tone` and `C39_phase` hold for a tone of one cycle in four samples at rate 2,
and its cells are not zero: the phase transform is `1·2/4` Hz in the first cell. -/
example : ∃ W dW, cwt (Spec.tone 4 1 1 0) (argsR none) = .ok (W, [1, 2, 4], dW) ∧ ent W 0 0 ≠ 0 ∧
    phaseCwt 0 (ent W) (ent dW) 0 0 = .fin (1 / 2) := by
  obtain ⟨W, dW, h⟩ := argsR_ok (Spec.tone 4 1 1 0) (by simp [Spec.tone]) none
  have hpos : ∀ s ∈ ([1, 2, 4] : List ℝ), 0 < s := by simp
  obtain ⟨fs, dt, hfs, -, -, -, h2⟩ := cwt_tone 4 1 1 0 (by norm_num) _ rfl (analytic_fnR none) W _ dW h hpos
  obtain ⟨ψ, hψ, -, -, h3⟩ := h2 0 (by simp)
  have hψ' : ψ = ((Real.pi / 2 : ℝ) : ℂ) := by
    have e : (argsR none).wavelet.fn.eval (([1, 2, 4] : List ℝ)[0] * (2 * Real.pi * (1 : ℕ) / (4 : ℕ))) =
        ((Real.pi / 2 : ℝ) : ℂ) := by
      have : (0 : ℝ) ≤ Real.pi / 2 := by have := Real.pi_pos; positivity
      have e' : ([1, 2, 4] : List ℝ)[0] * (2 * Real.pi * (1 : ℕ) / (4 : ℕ)) = Real.pi / 2 := by
        simp; ring
      rw [e']
      simp only [argsR, WFn.eval, fnR, if_pos this]
    rcases hψ with h | h
    · rw [h, e]
    · rw [h, e]; simp
  have h0 : ent W 0 0 ≠ 0 := by
    rw [(h3 0 (by norm_num)).1, hψ']
    have := Real.pi_ne_zero
    simp [CwtArgs.norm, argsR, tw, this]
  refine ⟨W, dW, h, h0, ?_⟩
  obtain ⟨fs', dt', hf, hph⟩ := C39_phase 4 1 1 0 (by norm_num) _ rfl (analytic_fnR none) W _ dW h hpos
  have : fs' = 2 := by
    simp only [processFsT, argsR] at hf
    rw [if_neg (by norm_num)] at hf
    simp only [Except.ok.injEq, Rate.fin.injEq] at hf
    exact hf.1.symm
  rw [hph 0 0 (by simp) 0 (by norm_num) h0 (norm_nonneg _), this]
  norm_num

end Ssq
