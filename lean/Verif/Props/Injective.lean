import Verif.Props.Cwt
import Verif.Props.Energy
import Verif.Props.Gmw
import Verif.Props.LocalTone
import Verif.Props.StftSym

/-!
# C189: signals are determined by their transforms
-/
namespace Ssq
open Finset Complex Spec

/-- Real samples whose spectra agree at all bins but the zeroth differ by a constant. -/
theorem const_of_spectra {n : ℕ} (hn : n ≠ 0) (u v : ℕ → ℝ)
    (h : ∀ k, 0 < k → 2 * k ≤ n → dft n (fun j => (u j : ℂ)) k = dft n (fun j => (v j : ℂ)) k) : ∃ c : ℝ, ∀ j < n, u j = v j + c := by
  have hall : ∀ k, 0 < k → k < n → dft n (fun j => (u j : ℂ)) k = dft n (fun j => (v j : ℂ)) k := by
    intro k hk hkn
    by_cases h2 : 2 * k ≤ n
    · exact h k hk h2
    · have h1 := dft_real_symm u (k := n - k) (by omega) hn
      have h3 := dft_real_symm v (k := n - k) (by omega) hn
      rw [show n - (n - k) = k by omega] at h1 h3
      rw [h1, h3, h (n - k) (by omega) (by omega)]
  have hdiff : ∀ j < n, ((u j : ℂ) - (v j : ℂ)) = dft n (fun i => (u i : ℂ) - (v i : ℂ)) 0 / n := by
    intro j hj
    rw [← idft_dft (fun i => (u i : ℂ) - (v i : ℂ)) hj]
    unfold idft
    rw [sum_eq_single 0]
    · simp
      try ring
    · intro k hk hk0
      rw [← dft_sub', hall k (by omega) (mem_range.1 hk)]
      simp
    · intro h0; exact absurd (mem_range.2 (by omega)) h0
  refine ⟨u 0 - v 0, fun j hj => ?_⟩
  have h1 := hdiff j hj
  rw [← hdiff 0 (by omega)] at h1
  have h2 : u j - v j = u 0 - v 0 := by exact_mod_cast h1
  linarith

/-- **C189** (cwt). Two signals of the same length whose untrimmed transforms agree, in rows whose wavelets together reach every positive frequency of the (padded) signal, differ by a
constant. -/
theorem C189_cwt (x y : List ℝ) (hxy : x.length = y.length) (a : CwtArgs) (t : Option PadType) (ht : a.padtype = t.map padName) (hx : 0 < x.length) (f : ℝ → ℝ)
    (hf : ∀ w, a.wavelet.fn.eval w = (f w : ℂ)) (hrp : a.rpadded = true ∨ t = none)
    (W W' : List (List ℂ)) (scales : List ℝ) (dW dW' : List (List ℂ)) (h : cwt x a = .ok (W, scales, dW)) (h' : cwt y a = .ok (W', scales, dW')) (hpos : ∀ s ∈ scales, 0 < s)
    (n : ℕ) (hn : n = if t = none then x.length else (p2up x.length).1)
    (hrows : ∀ k, 0 < k → 2 * k ≤ n → ∃ i, ∃ hi : i < scales.length, W.getD i [] = W'.getD i [] ∧ f (scales[i] * (2 * Real.pi * k / n)) ≠ 0) :
    ∃ c : ℝ, ∀ j < x.length, x.getD j 0 = y.getD j 0 + c := by
  have hc : ¬ (a.rpadded = false ∧ t.isSome = true) := by
    rcases hrp with h | h <;> simp [h]
  have main : ∀ (x : List ℝ) (W dW : List (List ℂ)), 0 < x.length → (n = if t = none then x.length else (p2up x.length).1) → cwt x a = .ok (W, scales, dW) →
      ∃ xp : List ℝ, ∃ n1 : ℕ, xp.length = n ∧ 0 < n ∧ ((n1 : ℤ) = if t = none then 0 else (p2up x.length).2.1) ∧ n1 + x.length ≤ n ∧ (∀ j < x.length, xp.getD (n1 + j) 0 = x.getD j 0) ∧
        ∀ i (hi : i < scales.length), ∀ k < n, dft n (ent W i) k =
          (if a.l1Norm then 1 else ((Real.sqrt scales[i] : ℝ) : ℂ)) * (wavSample a.wavelet.fn.eval n scales[i] k * dft n (fun q => ((xp.getD q 0 : ℝ) : ℂ)) k) := by
    intro x W dW hx hn h
    obtain ⟨xp, n1, fs, dt, hpad, -, -, -, -, hrow⟩ := C37_rows_partial x a t ht hx (fun w => by rw [hf, ofReal_im]) W scales dW h
    simp only [if_neg hc] at hrow
    have hlen : xp.length = n := by
      cases t with
      | none => rw [hpad.1, hn, if_pos rfl]
      | some p => rw [hpad.1, hn, if_neg (by simp)]
    have hn1 : (n1 : ℤ) = if t = none then 0 else (p2up x.length).2.1 := by
      cases t with
      | none => rw [hpad.2, if_pos rfl]; rfl
      | some p => rw [hpad.2.1, if_neg (by simp)]
    have hle : n1 + x.length ≤ n := by
      cases t with
      | none => rw [hpad.2, ← hlen, hpad.1]; omega
      | some p => rw [← hlen]; exact hpad.2.2.1
    refine ⟨xp, n1, hlen, by omega, hn1, hle, fun j hj => ?_, fun i hi k hk => ?_⟩
    · cases t with
      | none => rw [hpad.1, hpad.2, zero_add]
      | some p =>
        obtain ⟨E, hE⟩ := exists_extension p x hx
        rw [List.getD_eq_getElem _ _ (by omega), List.getD_eq_getElem _ _ hj, hpad.2.2.2 E hE (n1 + j) (by omega)]
        rw [← hE.1 j hj]
        congr 1
        push_cast
        ring
    · obtain ⟨-, -, hv⟩ := hrow i hi
      rw [hlen] at hv
      rw [dft_congr (g := fun j => (if a.l1Norm then (1 : ℂ) else ((Real.sqrt scales[i] : ℝ) : ℂ)) * idft n (fun k => wavSample a.wavelet.fn.eval n scales[i] k *
        dft n (fun q => ((xp.getD q 0 : ℝ) : ℂ)) k) j) (fun j hj => (hv j hj).1), dft_smul, dft_idft _ hk]
  obtain ⟨xp, n1, -, hn0, e1, l1, v1, d1⟩ := main x W dW hx hn h
  obtain ⟨yp, n1', -, -, e2, -, v2, d2⟩ := main y W' dW' (by omega) (by rw [← hxy]; exact hn) h'
  obtain rfl : n1 = n1' := by rw [← hxy, ← e1] at e2; exact_mod_cast e2.symm
  obtain ⟨c, hcst⟩ := const_of_spectra (n := n) (by omega) (fun q => xp.getD q 0) (fun q => yp.getD q 0) (by
    intro k hk hk2
    obtain ⟨i, hi, hW, hfne⟩ := hrows k hk hk2
    have h1 := d1 i hi k (by omega)
    have h2 := d2 i hi k (by omega)
    have hent : ent W i = ent W' i := by funext j; unfold ent; rw [hW]
    rw [hent, h2] at h1
    have hs := hpos _ (List.getElem_mem hi)
    have hc0 : (if a.l1Norm then (1 : ℂ) else ((Real.sqrt scales[i] : ℝ) : ℂ)) ≠ 0 := by
      split
      · exact one_ne_zero
      · exact_mod_cast (Real.sqrt_pos.2 hs).ne'
    have hxi : Spec.xi n k = 2 * Real.pi * k / n := by unfold Spec.xi; rw [if_pos hk2]
    have hw0 : wavSample a.wavelet.fn.eval n scales[i] k ≠ 0 := by
      unfold wavSample
      rw [hf, hxi]
      split
      · exact div_ne_zero (by exact_mod_cast hfne) two_ne_zero
      · exact_mod_cast hfne
    exact (mul_left_cancel₀ hw0 (mul_left_cancel₀ hc0 h1)).symm)
  refine ⟨c, fun j hj => ?_⟩
  have := hcst (n1 + j) (by omega)
  rw [v1 j hj, v2 j (by omega)] at this
  exact this

/-- **C189** (one row). With a bandpass or energy-normalised Morse wavelet of order 0 every single row determines the signal up to a constant. -/
theorem C189_cwt_row (x y : List ℝ) (hxy : x.length = y.length) (a : CwtArgs) (t : Option PadType) (ht : a.padtype = t.map padName) (hx : 0 < x.length) (f : ℝ → ℝ)
    (hf : a.wavelet.fn = .real f) {γ β : Option ℝ} {norm : NormArg} {c : Option Bool} {f32 : Bool} (hg : gmw γ β norm (.int 0) c f32 = .ok f) (hrp : a.rpadded = true ∨ t = none)
    (W W' : List (List ℂ)) (scales : List ℝ) (dW dW' : List (List ℂ)) (h : cwt x a = .ok (W, scales, dW)) (h' : cwt y a = .ok (W', scales, dW')) (hpos : ∀ s ∈ scales, 0 < s)
    (i : ℕ) (hi : i < scales.length) (hrow : W.getD i [] = W'.getD i []) :
    ∃ c : ℝ, ∀ j < x.length, x.getD j 0 = y.getD j 0 + c := by
  refine C189_cwt x y hxy a t ht hx f (fun w => by rw [hf]; rfl) hrp W W' scales dW dW' h h' hpos _ rfl fun k hk hk2 => ⟨i, hi, hrow, ?_⟩
  have hs := hpos _ (List.getElem_mem hi)
  refine (C51_gmw_pos hg _ ?_).ne'
  have : (0 : ℝ) < k := by exact_mod_cast hk
  have := Real.pi_pos
  have hn0 : 0 < (if t = none then x.length else (p2up x.length).1) := by omega
  have : (0 : ℝ) < ((if t = none then x.length else (p2up x.length).1 : ℕ) : ℝ) := by exact_mod_cast hn0
  positivity

/-- **C189** (stft). Two signals with the same STFT have the same samples wherever a nonzero tap of the window reaches. -/
theorem C189_stft {lib : WinLib} {tiny : ℝ} {x y : List ℝ} {a : StftArgs} {m : ℕ} {w dw : List ℝ} {t : PadType} (h : StftValid lib tiny x a m w dw t) (h' : StftValid lib tiny y a m w dw t)
    (hxy : x.length = y.length) (S dS dS' : List (List ℂ)) (hS : stft lib tiny x a = .ok (m, S, dS)) (hS' : stft lib tiny y a = .ok (m, S, dS'))
    (q : ℕ) (hq : q < x.length) (j r : ℕ) (hj : j < S.length) (hr : r < m) (hqr : q + m / 2 = j * a.hop + r) (hw : w.getD r 0 ≠ 0) : x.getD q 0 = y.getD q 0 := by
  obtain ⟨E, hE⟩ := exists_extension t x h.hx
  obtain ⟨E', hE'⟩ := exists_extension t y h'.hx
  obtain ⟨S1, dS1, e1, -, -, n1, -⟩ := C07_stft_entries h E hE
  obtain ⟨S2, dS2, e2, -, -, n2, -⟩ := C07_stft_entries h' E' hE'
  rw [hS] at e1
  rw [hS'] at e2
  simp only [Except.ok.injEq, Prod.mk.injEq, true_and] at e1 e2
  obtain ⟨rfl, -⟩ := e1
  obtain ⟨rfl, -⟩ := e2
  have hen := specStft_energy m h.hm a.hop (fun r => w.getD r 0) (fun i => E i - E' i) a.modulated j
  have hz : ∀ k, k < m / 2 + 1 → Spec.stft m a.hop (fun r => w.getD r 0) (fun i => E i - E' i) a.modulated k j = 0 := by
    intro k hk
    have h1 := (n1 j hj).2 k hk
    have h2 := (n2 j hj).2 k hk
    rw [h1] at h2
    have : Spec.stft m a.hop (fun r => w.getD r 0) (fun i => E i - E' i) a.modulated k j =
        Spec.stft m a.hop (fun r => w.getD r 0) E a.modulated k j - Spec.stft m a.hop (fun r => w.getD r 0) E' a.modulated k j := by
      unfold Spec.stft
      rw [← sum_sub_distrib]
      refine sum_congr rfl fun r _ => ?_
      push_cast
      ring
    rw [this, h2, sub_self]
  rw [hz 0 (by omega), hz (m / 2) (by omega), sum_eq_zero (fun k hk => by rw [hz k (mem_range.1 hk)]; simp)] at hen
  have hm0 : (0 : ℝ) < m := by exact_mod_cast h.hm
  have hsum : ∑ r ∈ range m, (w.getD r 0 * (E ((j : ℤ) * a.hop + r - (m / 2 : ℕ)) - E' ((j : ℤ) * a.hop + r - (m / 2 : ℕ)))) ^ 2 = 0 := by
    simp only [norm_zero, ne_eq, OfNat.ofNat_ne_zero, not_false_eq_true, zero_pow, mul_zero, sub_zero, ite_self] at hen
    rcases mul_eq_zero.1 hen.symm with h | h
    · exact absurd h hm0.ne'
    · exact h
  rw [sum_eq_zero_iff_of_nonneg (fun _ _ => sq_nonneg _)] at hsum
  have h3 := hsum r (mem_range.2 hr)
  have h4 : w.getD r 0 * (E ((j : ℤ) * a.hop + r - (m / 2 : ℕ)) - E' ((j : ℤ) * a.hop + r - (m / 2 : ℕ))) = 0 := by simpa using h3
  have e : ((j : ℤ) * a.hop + r - (m / 2 : ℕ)) = q := by
    have : ((q + m / 2 : ℕ) : ℤ) = ((j * a.hop + r : ℕ) : ℤ) := by rw [hqr]
    push_cast at this ⊢
    linarith
  rw [e, hE.1 q hq, hE'.1 q (by omega)] at h4
  rcases mul_eq_zero.1 h4 with h | h
  · exact absurd h hw
  · rw [List.getD_eq_getElem _ _ hq, List.getD_eq_getElem _ _ (by omega)]
    linarith

/-- Changing the last of four samples changes every row of the transform. -/
example : ∃ (a : CwtArgs) (W dW W' dW' : List (List ℂ)), cwt [1, 2, 3, 4] a = .ok (W, [1, 2, 4], dW) ∧ cwt [1, 2, 3, 5] a = .ok (W', [1, 2, 4], dW') ∧ ∀ i < 3, W.getD i [] ≠ W'.getD i [] := by
  have hg := gmw_eq (γ := some 3) (β := some 60) (norm := .known .bandpass) (order := .int 0) (n := .bandpass) (k := 0)
    (f32 := true) none (by norm_num) (by norm_num) rfl (by simp [gmwCheckOrder]) rfl (by simp)
  generalize (fun w : ℝ => gmwClosed ((some (3 : ℝ)).getD 3) ((some (60 : ℝ)).getD 60) .bandpass 0 (gmwArg ((none : Option Bool).getD false)
    (morsefreq ((some (3 : ℝ)).getD 3) ((some (60 : ℝ)).getD 60)) w)) = f at hg
  let a : CwtArgs := { argsR none with wavelet := ⟨.real f, sw0, none⟩ }
  have hok : ∀ x : List ℝ, 0 < x.length → ∃ W dW, cwt x a = .ok (W, [1, 2, 4], dW) := fun x hx =>
    C37_succeeds _ a none rfl hx 2 (1 / 2) (by simp [processFsT, a, argsR]) (by simp [a, argsR]) [1, 2, 4] .log 3 (.int 1) none (by simp [a, argsR, sc124]) (fun _ => rfl)
      (process124 _ _ _ _)
  obtain ⟨W, dW, h⟩ := hok [1, 2, 3, 4] (by simp)
  obtain ⟨W', dW', h'⟩ := hok [1, 2, 3, 5] (by simp)
  refine ⟨a, W, dW, W', dW', h, h', fun i hi hrow => ?_⟩
  obtain ⟨c, hc⟩ := C189_cwt_row [1, 2, 3, 4] [1, 2, 3, 5] rfl a none rfl (by simp) f rfl hg (Or.inr rfl) W W' [1, 2, 4] dW dW' h h' (by simp) i (by simpa using hi) hrow
  have h0 := hc 0 (by simp)
  have h3 := hc 3 (by simp)
  simp at h0 h3
  subst h0
  norm_num at h3

/-- Changing one of six samples changes the STFT. -/
example (S dS S' dS' : List (List ℂ)) (h : stft onesLib 0 [3, 1, 4, 1, 5, 9] { exArgs with hop := 2, padtype := "wrap" } = .ok (3, S, dS))
    (h' : stft onesLib 0 [3, 1, 4, 2, 5, 9] { exArgs with hop := 2, padtype := "wrap" } = .ok (3, S', dS')) : S ≠ S' := by
  rintro rfl
  have hv : StftValid onesLib 0 [3, 1, 4, 2, 5, 9] { exArgs with hop := 2, padtype := "wrap" } 3 [1, 2, 1] (zeroDenormals 0 (diffWindow [1, 2, 1])) .wrap :=
    { exWrap with hx := by simp }
  obtain ⟨E, hE⟩ := exists_extension .wrap [(3 : ℝ), 1, 4, 1, 5, 9] (by simp)
  obtain ⟨S1, dS1, e1, l1, -⟩ := C07_stft_entries exWrap E hE
  rw [h] at e1
  simp only [Except.ok.injEq, Prod.mk.injEq, true_and] at e1
  obtain ⟨rfl, -⟩ := e1
  have := C189_stft exWrap hv rfl S dS dS' h h' 3 (by simp) 1 2 (by rw [l1]; simp) (by norm_num) (by simp) (by simp)
  norm_num at this

end Ssq
