import Verif.Props.Mean
import Verif.Props.StftSym
import Verif.Props.StftTone
import Verif.Lemmas.L2

/-!
# Energies of the transforms, and their stability (C176)
-/
namespace Ssq
open Finset
open Spec (IsExtension l2)

/-! ## STFT -/

/-- The energy of one frame. -/
theorem specStft_energy (m : ℕ) (hm : 0 < m) (hop : ℕ) (w : ℕ → ℝ) (E : ℤ → ℝ) (b : Bool) (j : ℕ) :
    2 * ∑ k ∈ range (m / 2 + 1), ‖Spec.stft m hop w E b k j‖ ^ 2 - ‖Spec.stft m hop w E b 0 j‖ ^ 2 - (if m % 2 = 0 then ‖Spec.stft m hop w E b (m / 2) j‖ ^ 2 else 0) =
      m * ∑ r ∈ range m, (w r * E ((j : ℤ) * hop + r - (m / 2 : ℕ))) ^ 2 := by
  have hm0 : m ≠ 0 := by omega
  set f : ℕ → ℂ := fun r => ((w r * E ((j : ℤ) * hop + r - (m / 2 : ℕ)) : ℝ) : ℂ) with hf
  have hn : ∀ k : ℕ, ‖Spec.stft m hop w E b k j‖ = ‖dft m f k‖ := by
    intro k
    have e : Spec.stft m hop w E b k j = tw m (if b then (k : ℤ) * (m / 2 : ℕ) else 0) * dft m f k := by
      unfold Spec.stft dft
      rw [mul_sum]
      refine sum_congr rfl fun r _ => ?_
      rw [mul_left_comm, ← tw_add]
      congr 1
      unfold tw
      congr 1
      generalize m / 2 = c
      cases b
      · simp only [Bool.false_eq_true, if_false]
        push_cast
        ring
      · simp only [if_true]
        push_cast
        ring
    rw [e, norm_mul, norm_tw, one_mul]
  have hsym : ∀ k ≤ m, ‖dft m f (m - k)‖ = ‖dft m f k‖ := by
    intro k hk
    have : dft m f (m - k) = (starRingEnd ℂ) (dft m f k) := by
      unfold dft
      rw [map_sum]
      refine sum_congr rfl fun r _ => ?_
      rw [map_mul, hf, Complex.conj_ofReal, tw_conj, neg_neg]
      congr 1
      have : (-((r : ℤ) * ((m - k : ℕ) : ℤ))) = (m : ℤ) * (-(r : ℤ)) + (r : ℤ) * k := by
        push_cast [Nat.cast_sub hk]; ring
      rw [this, tw_add, tw_mul_n hm0, one_mul]
    rw [this, Complex.norm_conj]
  have hp := dft_parseval (n := m) f
  rw [sum_pairs _ hm] at hp
  have hpair : ∀ k ∈ Icc 1 ((m - 1) / 2), ‖dft m f k‖ ^ 2 + ‖dft m f (m - k)‖ ^ 2 = 2 * ‖dft m f k‖ ^ 2 := by
    intro k hk
    rw [hsym k (by have := mem_Icc.1 hk; omega)]
    ring
  rw [sum_congr rfl hpair, ← mul_sum] at hp
  have hsplit : ∑ k ∈ range (m / 2 + 1), ‖dft m f k‖ ^ 2 = ‖dft m f 0‖ ^ 2 + ∑ k ∈ Icc 1 ((m - 1) / 2), ‖dft m f k‖ ^ 2 + (if m % 2 = 0 then ‖dft m f (m / 2)‖ ^ 2 else 0) := by
    have h0 : ∀ n, ∑ k ∈ range (n + 1), ‖dft m f k‖ ^ 2 = ‖dft m f 0‖ ^ 2 + ∑ k ∈ Icc 1 n, ‖dft m f k‖ ^ 2 := by
      intro n
      induction n with
      | zero => simp
      | succ n ih => rw [sum_range_succ, ih, ← Nat.succ_eq_add_one, ← Nat.add_one, sum_Icc_succ_top (by omega), add_assoc]
    by_cases he : m % 2 = 0
    · rw [if_pos he, sum_range_succ]
      have : m / 2 = (m - 1) / 2 + 1 := by omega
      rw [this, h0]
    · rw [if_neg he, add_zero]
      have : m / 2 = (m - 1) / 2 := by omega
      rw [this, h0]
  simp only [hn]
  rw [hsplit]
  have hr : ∑ r ∈ range m, ‖f r‖ ^ 2 = ∑ r ∈ range m, (w r * E ((j : ℤ) * hop + r - (m / 2 : ℕ))) ^ 2 := by
    refine sum_congr rfl fun r _ => ?_
    rw [hf]
    simp only
    rw [Complex.norm_real, Real.norm_eq_abs, sq_abs]
  rw [hr] at hp
  rw [← hp]
  ring

/-- The energy of a column of the half spectrum: bins which stand for two are counted twice. -/
noncomputable def Spec.halfEnergy (m : ℕ) (c : List ℂ) : ℝ :=
  2 * ∑ k ∈ range (m / 2 + 1), ‖c.getD k 0‖ ^ 2 - ‖c.getD 0 0‖ ^ 2 - (if m % 2 = 0 then ‖c.getD (m / 2) 0‖ ^ 2 else 0)

/-- **C176, frames.** For every call of `stft`, the energy of a column is `n_fft` times the energy of the windowed frame. -/
theorem C176_frames {lib : WinLib} {tiny : ℝ} {x : List ℝ} {a : StftArgs} {m : ℕ} {w dw : List ℝ} {t : PadType} (h : StftValid lib tiny x a m w dw t) (E : ℤ → ℝ) (hE : IsExtension t x E) :
    ∃ S dS, stft lib tiny x a = .ok (m, S, dS) ∧ S.length = (x.length - 1) / a.hop + 1 ∧
      ∀ j (hj : j < S.length), Spec.halfEnergy m S[j] = m * ∑ r ∈ range m, (w.getD r 0 * E ((j : ℤ) * a.hop + r - (m / 2 : ℕ))) ^ 2 := by
  obtain ⟨S, dS, e, l, -, n, -⟩ := C07_stft_entries h E hE
  refine ⟨S, dS, e, l, fun j hj => ?_⟩
  rw [← specStft_energy m h.hm a.hop (fun r => w.getD r 0) E a.modulated j]
  unfold Spec.halfEnergy
  rw [(n j hj).2 0 (by omega), (n j hj).2 (m / 2) (by omega)]
  congr 3
  exact sum_congr rfl fun k hk => by rw [(n j hj).2 k (mem_range.1 hk)]

theorem wrap_sum {x : List ℝ} (hx : 0 < x.length) {E : ℤ → ℝ} (hE : IsExtension .wrap x E) (q : ℤ) (g : ℝ → ℝ) : ∑ j ∈ range x.length, g (E ((j : ℤ) + q)) = (x.map g).sum := by
  have hper : ∀ i, E (i + x.length) = E i := hE.2
  have step : ∀ q : ℤ, ∑ j ∈ range x.length, g (E ((j : ℤ) + (q + 1))) = ∑ j ∈ range x.length, g (E ((j : ℤ) + q)) := by
    intro q
    have h1 := sum_range_succ' (fun j : ℕ => g (E ((j : ℤ) + q))) x.length
    have h2 := sum_range_succ (fun j : ℕ => g (E ((j : ℤ) + q))) x.length
    rw [h1] at h2
    have e : E (((x.length : ℕ) : ℤ) + q) = E (((0 : ℕ) : ℤ) + q) := by
      rw [add_comm, hper]; simp
    rw [e] at h2
    have h3 := add_right_cancel h2
    rw [← h3]
    refine sum_congr rfl fun j _ => ?_
    congr 2
    push_cast; ring
  have h0 : ∑ j ∈ range x.length, g (E ((j : ℤ) + 0)) = (x.map g).sum := by
    rw [getD_sum, List.length_map]
    refine sum_congr rfl fun j hj => ?_
    have hj := mem_range.1 hj
    rw [List.getD_eq_getElem _ _ (by simpa using hj), List.getElem_map, add_zero, hE.1 j hj]
  induction q using Int.induction_on with
  | zero => exact h0
  | succ i ih => rw [step, ih]
  | pred i ih => rw [← ih, ← step (-(i : ℤ) - 1)]; congr 1; ext j; congr 2; ring

/-- **C176, energy of the STFT.** With periodic padding and hop 1, the energy of the whole transform is `n_fft` times the window's times the signal's. -/
theorem C176_stft {lib : WinLib} {tiny : ℝ} {x : List ℝ} {a : StftArgs} {m : ℕ} {w dw : List ℝ} (h : StftValid lib tiny x a m w dw .wrap) (hh : a.hop = 1) :
    ∃ S dS, stft lib tiny x a = .ok (m, S, dS) ∧ (S.map (Spec.halfEnergy m)).sum = m * (w.map (· ^ 2)).sum * (x.map (· ^ 2)).sum := by
  obtain ⟨E, hE⟩ := exists_extension .wrap x h.hx
  obtain ⟨S, dS, e, l, n⟩ := C176_frames h E hE
  refine ⟨S, dS, e, ?_⟩
  have hl : S.length = x.length := by have := h.hx; rw [l, hh]; simp; omega
  have e1 : (S.map (Spec.halfEnergy m)).sum = ∑ j ∈ range x.length, m * ∑ r ∈ range m, (w.getD r 0 * E ((j : ℤ) * a.hop + r - (m / 2 : ℕ))) ^ 2 := by
    rw [getD_sum, List.length_map, hl]
    refine sum_congr rfl fun j hj => ?_
    have hj : j < S.length := by rw [hl]; exact mem_range.1 hj
    rw [List.getD_eq_getElem _ _ (by simpa using hj), List.getElem_map, n j hj]
  rw [e1, ← mul_sum, sum_comm, mul_assoc]
  congr 1
  have e2 : ∀ r ∈ range m, ∑ j ∈ range x.length, (w.getD r 0 * E ((j : ℤ) * a.hop + r - (m / 2 : ℕ))) ^ 2 = w.getD r 0 ^ 2 * (x.map (· ^ 2)).sum := by
    intro r _
    rw [← wrap_sum h.hx hE ((r : ℤ) - (m / 2 : ℕ)) (· ^ 2), mul_sum]
    refine sum_congr rfl fun j _ => ?_
    rw [hh, mul_pow]
    congr 3
    push_cast; ring
  rw [sum_congr rfl e2, ← sum_mul, getD_sum (w.map _), List.length_map, h.hw]
  congr 1
  refine sum_congr rfl fun r hr => ?_
  have hr : r < w.length := by rw [h.hw]; exact mem_range.1 hr
  rw [List.getD_eq_getElem w _ hr, List.getD_eq_getElem (w.map _) _ (by simpa using hr), List.getElem_map]

/-! ## CWT -/

/-- **C176, rows.** The energy of a row of `cwt`: that of the padded signal's spectrum times the sampled wavelet's. If the padding is removed from the result, at most that. -/
theorem C176_rows (x : List ℝ) (a : CwtArgs) (t : Option PadType) (ht : a.padtype = t.map padName) (hx : 0 < x.length) (W : List (List ℂ)) (scales : List ℝ) (dW : List (List ℂ))
    (h : cwt x a = .ok (W, scales, dW)) (hs : ∀ s ∈ scales, 0 ≤ s) :
    ∃ xp, ∃ n1 : ℕ, Spec.Padded t x xp n1 ∧ ∀ i < scales.length,
      let P := (if a.l1Norm then 1 else scales.getD i 0) / xp.length * ∑ k ∈ range xp.length, (‖Spec.usedSample a.wavelet.fn.eval xp.length
        (Spec.Dropped a.wavelet.fn.isCplx a.vectorized a.wavelet.fn.eval xp.length scales i) (scales.getD i 0) k‖ * ‖dft xp.length (fun q => ((xp.getD q 0 : ℝ) : ℂ)) k‖) ^ 2
      ∑ j ∈ range (W.getD i []).length, ‖ent W i j‖ ^ 2 ≤ P ∧ (a.rpadded = true ∨ t = none → ∑ j ∈ range (W.getD i []).length, ‖ent W i j‖ ^ 2 = P) := by
  obtain ⟨xp, n1, fs, dt, hp, -, -, h1, h2, h3⟩ := C37_rows_any x a t ht hx W scales dW h
  refine ⟨xp, n1, hp, fun i hi => ?_⟩
  obtain ⟨q1, -, q3⟩ := h3 i hi
  have hL : 0 < xp.length := by
    cases t with
    | none => rw [hp.1]; exact hx
    | some t => have := hp.2.2.1; omega
  have hfit : n1 + x.length ≤ xp.length := by
    cases t with
    | none => rw [hp.1, hp.2]; simp
    | some t => exact hp.2.2.1
  set F : ℕ → ℂ := fun k => Spec.usedSample a.wavelet.fn.eval xp.length (Spec.Dropped a.wavelet.fn.isCplx a.vectorized a.wavelet.fn.eval xp.length scales i) (scales.getD i 0) k *
    dft xp.length (fun q => ((xp.getD q 0 : ℝ) : ℂ)) k with hF
  have hs0 : 0 ≤ scales.getD i 0 := by
    rw [List.getD_eq_getElem _ _ hi]; exact hs _ (List.getElem_mem _)
  set c : ℝ := if a.l1Norm then 1 else scales.getD i 0 with hc
  have hc0 : 0 ≤ c := by rw [hc]; split <;> [norm_num; exact hs0]
  have hcn : ‖(if a.l1Norm then 1 else ((Real.sqrt (scales.getD i 0) : ℝ) : ℂ))‖ ^ 2 = c := by
    rw [hc]
    split
    · simp
    · rw [Complex.norm_real, Real.norm_eq_abs, sq_abs, Real.sq_sqrt hs0]
  have hpar : ∑ k ∈ range xp.length, ‖F k‖ ^ 2 = xp.length * ∑ j ∈ range xp.length, ‖idft xp.length F j‖ ^ 2 := by
    have := congrArg (· ^ 2) (l2_idft hL F)
    simp only [mul_pow, l2_sq, Real.sq_sqrt (Nat.cast_nonneg _)] at this
    exact this
  have hLr : (xp.length : ℝ) ≠ 0 := by exact_mod_cast hL.ne'
  have hP : c / xp.length * ∑ k ∈ range xp.length, (‖Spec.usedSample a.wavelet.fn.eval xp.length
        (Spec.Dropped a.wavelet.fn.isCplx a.vectorized a.wavelet.fn.eval xp.length scales i) (scales.getD i 0) k‖ * ‖dft xp.length (fun q => ((xp.getD q 0 : ℝ) : ℂ)) k‖) ^ 2 =
      c * ∑ j ∈ range xp.length, ‖idft xp.length F j‖ ^ 2 := by
    have e : ∀ k ∈ range xp.length, (‖Spec.usedSample a.wavelet.fn.eval xp.length
        (Spec.Dropped a.wavelet.fn.isCplx a.vectorized a.wavelet.fn.eval xp.length scales i) (scales.getD i 0) k‖ * ‖dft xp.length (fun q => ((xp.getD q 0 : ℝ) : ℂ)) k‖) ^ 2 = ‖F k‖ ^ 2 := by
      intro k _
      rw [hF, norm_mul]
    rw [sum_congr rfl e, hpar]
    field_simp
  intro P
  have hPe : P = c * ∑ j ∈ range xp.length, ‖idft xp.length F j‖ ^ 2 := hP
  rw [hPe]
  by_cases hcase : a.rpadded = false ∧ t.isSome = true
  · rw [if_pos hcase] at q1 q3
    have e : ∑ j ∈ range (W.getD i []).length, ‖ent W i j‖ ^ 2 = c * ∑ j ∈ range x.length, ‖idft xp.length F (n1 + j)‖ ^ 2 := by
      rw [q1, mul_sum]
      refine sum_congr rfl fun j hj => ?_
      have := (q3 j (mem_range.1 hj)).1
      rw [if_pos hcase] at this
      rw [this, norm_mul, mul_pow, hcn]
    refine ⟨?_, fun hor => ?_⟩
    · rw [e]
      refine mul_le_mul_of_nonneg_left ?_ hc0
      calc ∑ j ∈ range x.length, ‖idft xp.length F (n1 + j)‖ ^ 2 = ∑ j ∈ (range x.length).map (addLeftEmbedding n1), ‖idft xp.length F j‖ ^ 2 := by
            rw [sum_map]; rfl
        _ ≤ _ := by
            refine sum_le_sum_of_subset_of_nonneg ?_ fun _ _ _ => by positivity
            intro q hq
            simp only [mem_map, mem_range, addLeftEmbedding_apply] at hq ⊢
            obtain ⟨j, hj, rfl⟩ := hq
            omega
    · exfalso
      rcases hor with h | h
      · rw [h] at hcase; simp at hcase
      · rw [h] at hcase; simp at hcase
  · rw [if_neg hcase] at q1 q3
    have e : ∑ j ∈ range (W.getD i []).length, ‖ent W i j‖ ^ 2 = c * ∑ j ∈ range xp.length, ‖idft xp.length F j‖ ^ 2 := by
      rw [q1, mul_sum]
      refine sum_congr rfl fun j hj => ?_
      have := (q3 j (mem_range.1 hj)).1
      rw [if_neg hcase] at this
      rw [this, norm_mul, mul_pow, hcn]
    exact ⟨e.le, fun _ => e⟩

theorem norm_usedSample_le {f : ℝ → ℂ} {C : ℝ} (hC : ∀ w, ‖f w‖ ≤ C) (L : ℕ) (D : Prop) (s : ℝ) (k : ℕ) : ‖Spec.usedSample f L D s k‖ ≤ C := by
  have h0 : 0 ≤ C := (norm_nonneg _).trans (hC 0)
  have h1 : ‖Spec.wavSample f L s k‖ ≤ C := by
    unfold Spec.wavSample
    split
    · rw [norm_div]
      have := hC (s * Spec.xi L k)
      have h2 : ‖(2 : ℂ)‖ = 2 := by simp
      rw [h2]
      linarith
    · exact hC _
  unfold Spec.usedSample
  split
  · rw [Complex.norm_real, Real.norm_eq_abs]
    exact (Complex.abs_re_le_norm _).trans h1
  · exact h1

/-- **C176, bound.** If the wavelet is bounded by `C`, the energy of every row is at most `C²` times that of the padded signal (times the scale without `l1_norm`). -/
theorem C176_bound (x : List ℝ) (a : CwtArgs) (t : Option PadType) (ht : a.padtype = t.map padName) (hx : 0 < x.length) (W : List (List ℂ)) (scales : List ℝ) (dW : List (List ℂ))
    (h : cwt x a = .ok (W, scales, dW)) (hs : ∀ s ∈ scales, 0 ≤ s) (C : ℝ) (hC : ∀ w, ‖a.wavelet.fn.eval w‖ ≤ C) :
    ∃ xp, ∃ n1 : ℕ, Spec.Padded t x xp n1 ∧ ∀ i < scales.length,
      ∑ j ∈ range (W.getD i []).length, ‖ent W i j‖ ^ 2 ≤ (if a.l1Norm then 1 else scales.getD i 0) * C ^ 2 * (xp.map (· ^ 2)).sum := by
  obtain ⟨xp, n1, hp, H⟩ := C176_rows x a t ht hx W scales dW h hs
  refine ⟨xp, n1, hp, fun i hi => (H i hi).1.trans ?_⟩
  have hL : 0 < xp.length := by
    cases t with
    | none => rw [hp.1]; exact hx
    | some t => have := hp.2.2.1; omega
  have hLr : (0 : ℝ) < xp.length := by exact_mod_cast hL
  have hs0 : 0 ≤ scales.getD i 0 := by
    rw [List.getD_eq_getElem _ _ hi]; exact hs _ (List.getElem_mem _)
  have hc0 : 0 ≤ (if a.l1Norm then 1 else scales.getD i 0) := by split <;> [norm_num; exact hs0]
  have hC0 : 0 ≤ C := (norm_nonneg _).trans (hC 0)
  have e1 : ∀ k ∈ range xp.length, (‖Spec.usedSample a.wavelet.fn.eval xp.length
        (Spec.Dropped a.wavelet.fn.isCplx a.vectorized a.wavelet.fn.eval xp.length scales i) (scales.getD i 0) k‖ * ‖dft xp.length (fun q => ((xp.getD q 0 : ℝ) : ℂ)) k‖) ^ 2 ≤
      C ^ 2 * ‖dft xp.length (fun q => ((xp.getD q 0 : ℝ) : ℂ)) k‖ ^ 2 := by
    intro k _
    rw [mul_pow]
    exact mul_le_mul_of_nonneg_right (pow_le_pow_left₀ (norm_nonneg _) (norm_usedSample_le hC _ _ _ _) 2) (sq_nonneg _)
  have e2 := sum_le_sum e1
  rw [← mul_sum, dft_parseval] at e2
  have e3 : ∑ j ∈ range xp.length, ‖((xp.getD j 0 : ℝ) : ℂ)‖ ^ 2 = (xp.map (· ^ 2)).sum := by
    rw [getD_sum, List.length_map]
    refine sum_congr rfl fun j hj => ?_
    have hj := mem_range.1 hj
    rw [List.getD_eq_getElem _ _ hj, List.getD_eq_getElem _ _ (by simpa using hj), List.getElem_map, Complex.norm_real, Real.norm_eq_abs, sq_abs]
  rw [e3] at e2
  calc _ ≤ (if a.l1Norm then 1 else scales.getD i 0) / xp.length * (C ^ 2 * (xp.length * (xp.map (· ^ 2)).sum)) := mul_le_mul_of_nonneg_left e2 (div_nonneg hc0 hLr.le)
    _ = _ := by field_simp

/-- Zeros have no energy. -/
theorem padded_energy {t : Option PadType} (hz : t = none ∨ t = some .zero) {x xp : List ℝ} {n1 : ℕ} (hp : Spec.Padded t x xp n1) : (xp.map (· ^ 2)).sum = (x.map (· ^ 2)).sum := by
  rcases hz with rfl | rfl
  · rw [hp.1]
  · obtain ⟨-, -, h3, h4⟩ := hp
    have hE : IsExtension .zero x fun i => if 0 ≤ i ∧ i < x.length then x.getD i.toNat 0 else 0 := by
      refine ⟨fun i hi => ?_, fun i hi => ?_⟩
      · have : (0 : ℤ) ≤ i ∧ (i : ℤ) < x.length := by omega
        simp [this, List.getElem?_eq_getElem hi]
      · exact if_neg (by omega)
    have h := h4 _ hE
    rw [getD_sum, getD_sum, List.length_map, List.length_map]
    have e : ∑ p ∈ range xp.length, (xp.map (· ^ 2)).getD p 0 = ∑ p ∈ (range x.length).map (addLeftEmbedding n1), (xp.map (· ^ 2)).getD p 0 := by
      symm
      refine sum_subset ?_ ?_
      · intro q hq
        simp only [mem_map, mem_range, addLeftEmbedding_apply] at hq ⊢
        obtain ⟨j, hj, rfl⟩ := hq
        omega
      · intro q hq hq2
        have hq := mem_range.1 hq
        rw [List.getD_eq_getElem _ _ (by simpa using hq), List.getElem_map, h q hq, if_neg]
        · simp
        · rintro ⟨k1, k2⟩
          refine hq2 ?_
          simp only [mem_map, mem_range, addLeftEmbedding_apply]
          exact ⟨q - n1, by omega, by omega⟩
    rw [e, sum_map]
    refine sum_congr rfl fun j hj => ?_
    have hj := mem_range.1 hj
    rw [addLeftEmbedding_apply, List.getD_eq_getElem (xp.map _) _ (by rw [List.length_map]; omega), List.getElem_map, h (n1 + j) (by omega), if_pos (by constructor <;> push_cast <;> omega),
      List.getD_eq_getElem (x.map _) _ (by simpa using hj), List.getElem_map]
    have : (((n1 + j : ℕ) : ℤ) - n1).toNat = j := by omega
    rw [this, List.getD_eq_getElem _ _ hj]

/-- **C176, stability.** Without padding and with zero padding, `cwt` is as stable as the wavelet is bounded: the transforms of two signals, row by row, differ by at most `C` times the difference of the
signals (times the root of the scale without `l1_norm`), in root mean square. -/
theorem C176_stable (x y : List ℝ) (hxy : x.length = y.length) (hx : 0 < x.length) (a : CwtArgs) (t : Option PadType) (ht : a.padtype = t.map padName) (hz : t = none ∨ t = some .zero)
    (W : List (List ℂ)) (scales : List ℝ) (dW : List (List ℂ)) (h : cwt x a = .ok (W, scales, dW)) (hs : ∀ s ∈ scales, 0 ≤ s) (C : ℝ) (hC : ∀ w, ‖a.wavelet.fn.eval w‖ ≤ C) :
    ∃ V dV, cwt y a = .ok (V, scales, dV) ∧ ∀ i < scales.length, ∑ j ∈ range (W.getD i []).length, ‖ent W i j - ent V i j‖ ^ 2 ≤
      (if a.l1Norm then 1 else scales.getD i 0) * C ^ 2 * ∑ q ∈ range x.length, (x.getD q 0 - y.getD q 0) ^ 2 := by
  obtain ⟨V, dV, h1, h2⟩ := C36_linear x y hxy hx 1 (-1) a t ht W scales dW h
  refine ⟨V, dV, h1, fun i hi => ?_⟩
  have hzl : (List.zipWith (fun u v : ℝ => 1 * u + -1 * v) x y).length = x.length := by simp [hxy]
  obtain ⟨zp, n1, hp, H⟩ := C176_bound _ a t ht (by omega) _ scales _ h2 hs C hC
  have H := H i hi
  rw [padded_energy hz hp] at H
  obtain ⟨l1, -, l3⟩ := cwt_row_length hx ht h
  obtain ⟨m1, -, m3⟩ := cwt_row_length (by omega) ht h1
  have r1 := (l3 i hi).1
  have r2 := (m3 i hi).1
  rw [← hxy, ← r1] at r2
  rw [List.getD_eq_getElem _ _ (by omega)] at r1 
  have hrow : (List.zipWith (List.zipWith fun u v : ℂ => ((1 : ℝ) : ℂ) * u + ((-1 : ℝ) : ℂ) * v) W V).getD i [] = List.zipWith (fun u v : ℂ => ((1 : ℝ) : ℂ) * u + ((-1 : ℝ) : ℂ) * v) (W.getD i []) (V.getD i []) := by
    rw [List.getD_eq_getElem _ _ (by simp; omega), List.getElem_zipWith, List.getD_eq_getElem W _ (by omega), List.getD_eq_getElem V _ (by omega)]
  have e1 : ∑ j ∈ range (W.getD i []).length, ‖ent W i j - ent V i j‖ ^ 2 =
      ∑ j ∈ range ((List.zipWith (List.zipWith fun u v : ℂ => ((1 : ℝ) : ℂ) * u + ((-1 : ℝ) : ℂ) * v) W V).getD i []).length,
        ‖ent (List.zipWith (List.zipWith fun u v : ℂ => ((1 : ℝ) : ℂ) * u + ((-1 : ℝ) : ℂ) * v) W V) i j‖ ^ 2 := by
    rw [hrow, List.length_zipWith, r2, min_self]
    refine sum_congr rfl fun j hj => ?_
    have hj := mem_range.1 hj
    unfold ent
    rw [hrow, List.getD_eq_getElem (List.zipWith _ _ _) _ (by simp only [List.length_zipWith]; omega), List.getElem_zipWith, List.getD_eq_getElem (W.getD i []) _ hj,
      List.getD_eq_getElem (V.getD i []) _ (by omega)]
    congr 2
    push_cast
    ring
  have e2 : ((List.zipWith (fun u v : ℝ => 1 * u + -1 * v) x y).map (· ^ 2)).sum = ∑ q ∈ range x.length, (x.getD q 0 - y.getD q 0) ^ 2 := by
    rw [getD_sum, List.length_map, hzl]
    refine sum_congr rfl fun q hq => ?_
    have hq := mem_range.1 hq
    rw [List.getD_eq_getElem _ _ (by simp; omega), List.getElem_map, List.getElem_zipWith, List.getD_eq_getElem x _ hq, List.getD_eq_getElem y _ (by omega)]
    ring
  rw [e1, ← e2]
  exact H

/-! ## Non-vacuity -/

/-- A bounded wavelet: 1 at frequencies above 1, 0 below 0. -/
example : ∃ W dW, cwt [1, 2, 3, 4, 5] { argsR (some .zero) with wavelet := ⟨.real fun w => max 0 (min w 1), sw0, none⟩ } = .ok (W, [1, 2, 4], dW) ∧ ∀ i < 3,
    ∑ j ∈ range (W.getD i []).length, ‖ent W i j‖ ^ 2 ≤ 55 := by
  obtain ⟨W, dW, h⟩ := C37_succeeds [1, 2, 3, 4, 5] { argsR (some .zero) with wavelet := ⟨.real fun w => max 0 (min w 1), sw0, none⟩ } (some .zero) rfl (by simp) 2 (1 / 2)
    (by simp [processFsT, argsR]) (by simp [argsR]) [1, 2, 4] .log 3 (.int 1) none (by simp [argsR, sc124]) (fun _ => rfl) (process124 _ _ _ _)
  refine ⟨W, dW, h, fun i hi => ?_⟩
  obtain ⟨xp, n1, hp, H⟩ := C176_bound _ _ (some .zero) rfl (by simp) _ _ _ h (by simp) 1 (by
    intro w
    simp only [WFn.eval, Complex.norm_real, Real.norm_eq_abs]
    rw [abs_of_nonneg (le_max_left _ _)]
    exact max_le (by norm_num) (min_le_right _ _))
  have H := H i hi
  rw [padded_energy (Or.inr rfl) hp] at H
  refine H.trans (le_of_eq ?_)
  simp [argsR]
  norm_num

/-- Non-vacuity of `C176_stft`: three samples, wrapped. -/
example : ∃ S dS, stft onesLib 0 [1, 2, 3] ex160.stft = .ok (6, S, dS) ∧ (S.map (Spec.halfEnergy 6)).sum = 504 := by
  obtain ⟨S, dS, h1, h2⟩ := C176_stft (ex160_valid [1, 2, 3] (by simp)) rfl
  refine ⟨S, dS, h1, ?_⟩
  rw [h2]
  norm_num

end Ssq
