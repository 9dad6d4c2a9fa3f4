import Verif.Props.LinInv
import Verif.Props.Energy

/-!
# C180: `istft` of a modified transform is the least-squares estimate
-/
namespace Ssq
open Finset Spec

namespace Spec

/-- Distance of an array `S` of STFT coefficients (columns) from the STFT of a signal `E`: sum over the columns of the energy of
the difference, where bins which stand for two are counted twice. -/
noncomputable def stftDist (m hop : ℕ) (w : ℕ → ℝ) (modulated : Bool) (S : List (List ℂ)) (E : ℤ → ℝ) : ℝ :=
  ∑ j ∈ range S.length, halfEnergy m ((List.range (m / 2 + 1)).map fun k => (S.getD j []).getD k 0 - stft m hop w E modulated k j)

end Spec

theorem sum_half (T : ℕ → ℝ) {m : ℕ} (hm : 0 < m) : ∑ k ∈ range (m / 2 + 1), T k =
    T 0 + ∑ k ∈ Icc 1 ((m - 1) / 2), T k + (if m % 2 = 0 then T (m / 2) else 0) := by
  have h0 : ∀ n, ∑ k ∈ range (n + 1), T k = T 0 + ∑ k ∈ Icc 1 n, T k := by
    intro n
    induction n with
    | zero => simp
    | succ n ih => rw [sum_range_succ, ih, ← Nat.succ_eq_add_one, ← Nat.add_one, sum_Icc_succ_top (by omega), add_assoc]
  by_cases he : m % 2 = 0
  · rw [if_pos he, sum_range_succ]
    have : m / 2 = (m - 1) / 2 + 1 := by omega
    rw [this, h0]
  · rw [if_neg he, add_zero]
    have : m / 2 = (m - 1) / 2 := by omega
    rw [this, h0]

theorem irfft_getD {m : ℕ} (D : List ℂ) {j : ℕ} (hj : j < m) : (irfftL m D).getD j 0 =
    ((D.getD 0 0).re + (∑ k ∈ Icc 1 ((m - 1) / 2), 2 * (D.getD k 0 * tw m (j * k)).re)
      + (if m % 2 = 0 then (D.getD (m / 2) 0 * tw m (j * (m / 2 : ℕ))).re else 0)) / m := by
  rw [List.getD_eq_getElem _ _ (by simpa [irfftL] using hj)]
  simp [irfftL]

/-- Energy of any half spectrum: that of its inverse transform, and the imaginary parts which the inverse ignores. -/
theorem halfEnergy_irfft {m : ℕ} (hm : 0 < m) (D : List ℂ) :
    halfEnergy m D = m * ∑ j ∈ range m, (irfftL m D).getD j 0 ^ 2 + (D.getD 0 0).im ^ 2 +
      (if m % 2 = 0 then (D.getD (m / 2) 0).im ^ 2 else 0) := by
  have hm0 : m ≠ 0 := by omega
  set H : ℕ → ℂ := fun k => if k = 0 ∨ 2 * k = m then (((D.getD k 0).re : ℝ) : ℂ) else if 2 * k < m then D.getD k 0 else
    (starRingEnd ℂ) (D.getD (m - k) 0) with hH
  have h0 : H 0 = (((D.getD 0 0).re : ℝ) : ℂ) := by simp [hH]
  have hk1 : ∀ k ∈ Icc 1 ((m - 1) / 2), H k = D.getD k 0 := by
    intro k hk
    have := mem_Icc.1 hk
    simp only [hH]
    rw [if_neg (by omega), if_pos (by omega)]
  have hk2 : ∀ k ∈ Icc 1 ((m - 1) / 2), H (m - k) = (starRingEnd ℂ) (D.getD k 0) := by
    intro k hk
    have := mem_Icc.1 hk
    simp only [hH]
    rw [if_neg (by omega), if_neg (by omega), show m - (m - k) = k by omega]
  have hmid : m % 2 = 0 → H (m / 2) = (((D.getD (m / 2) 0).re : ℝ) : ℂ) := by
    intro he
    simp only [hH]
    rw [if_pos (by omega)]
  have hreal : ∀ j < m, idft m H j = (((irfftL m D).getD j 0 : ℝ) : ℂ) := by
    intro j hj
    rw [irfft_getD D hj]
    unfold idft
    rw [sum_pairs _ hm]
    rw [Complex.ofReal_div, Complex.ofReal_add, Complex.ofReal_add, Complex.ofReal_sum, Complex.ofReal_natCast]
    congr 1
    congr 1
    · congr 1
      · rw [h0]; simp
      · refine sum_congr rfl fun k hk => ?_
        rw [hk1 k hk, hk2 k hk]
        have : (starRingEnd ℂ) (D.getD k 0) * tw m (j * ((m - k : ℕ) : ℤ)) = (starRingEnd ℂ) (D.getD k 0 * tw m (j * k)) := by
          have := mem_Icc.1 hk
          rw [map_mul, tw_conj]
          congr 1
          rw [Nat.cast_sub (by omega), show (j : ℤ) * ((m : ℤ) - k) = m * j + -(j * k) by ring,
            tw_add, tw_mul_n hm0, one_mul]
        rw [this, Complex.add_conj]
    · by_cases he : m % 2 = 0
      · rw [if_pos he, if_pos he, hmid he]
        have hself : (starRingEnd ℂ) (tw m (j * (m / 2 : ℕ))) = tw m (j * (m / 2 : ℕ)) := by
          rw [tw_conj]
          have e : (j : ℤ) * ((m / 2 : ℕ) : ℤ) = m * j + -((j : ℤ) * ((m / 2 : ℕ) : ℤ)) := by
            have : ((m : ℕ) : ℤ) = 2 * ((m / 2 : ℕ) : ℤ) := by omega
            rw [this]; ring_nf
          conv_rhs => rw [e]
          rw [tw_add, tw_mul_n hm0, one_mul]
        obtain ⟨t, ht⟩ := Complex.conj_eq_iff_real.1 hself
        rw [ht, ← Complex.ofReal_mul]
        congr 1
        simp
      · rw [if_neg he, if_neg he]; simp
  have hpars : ∑ k ∈ range m, ‖H k‖ ^ 2 = m * ∑ j ∈ range m, (irfftL m D).getD j 0 ^ 2 := by
    have h1 := dft_parseval (n := m) (idft m H)
    rw [sum_congr rfl fun k hk => by rw [dft_idft H (mem_range.1 hk)]] at h1
    rw [h1]
    congr 1
    refine sum_congr rfl fun j hj => ?_
    rw [hreal j (mem_range.1 hj), Complex.norm_real, Real.norm_eq_abs, sq_abs]
  rw [← hpars, sum_pairs _ hm]
  unfold halfEnergy
  rw [sum_half _ hm]
  have hn : ∀ z : ℂ, ‖z‖ ^ 2 = z.re ^ 2 + z.im ^ 2 := by
    intro z; rw [Complex.sq_norm, Complex.normSq_apply]; ring
  have hsum : ∑ k ∈ Icc 1 ((m - 1) / 2), (‖H k‖ ^ 2 + ‖H (m - k)‖ ^ 2) = 2 * ∑ k ∈ Icc 1 ((m - 1) / 2), ‖D.getD k 0‖ ^ 2 := by
    rw [mul_sum]
    refine sum_congr rfl fun k hk => ?_
    rw [hk1 k hk, hk2 k hk, Complex.norm_conj]
    ring
  rw [hsum, h0, Complex.norm_real, Real.norm_eq_abs, sq_abs, hn (D.getD 0 0)]
  by_cases he : m % 2 = 0
  · simp only [if_pos he]
    rw [hmid he, Complex.norm_real, Real.norm_eq_abs, sq_abs, hn (D.getD (m / 2) 0)]
    ring
  · simp only [if_neg he]
    ring

/-- `fftshift` if the transform is modulated. -/
def unshift (b : Bool) (c : List ℝ) : List ℝ := if b then fftshiftL c else c

theorem unshift_length (b : Bool) (c : List ℝ) : (unshift b c).length = c.length := by
  unfold unshift; cases b <;> simp [fftshiftL]

theorem unshift_comb (b : Bool) {α β : ℝ} {x y : List ℝ} (h : x.length = y.length) :
    unshift b (comb α β x y) = comb α β (unshift b x) (unshift b y) := by
  unfold unshift; cases b
  · rfl
  · exact comb_fftshift h

theorem sum_sq_list (l : List ℝ) : ∑ j ∈ range l.length, l.getD j 0 ^ 2 = (l.map (· ^ 2)).sum := by
  induction l with
  | nil => simp
  | cons a l ih =>
    rw [List.length_cons, sum_range_succ', List.map_cons, List.sum_cons, ← ih]
    simp [add_comm]

theorem unshift_energy (b : Bool) (l : List ℝ) :
    ∑ j ∈ range l.length, (unshift b l).getD j 0 ^ 2 = ∑ j ∈ range l.length, l.getD j 0 ^ 2 := by
  conv_lhs => rw [← unshift_length b l]
  rw [sum_sq_list, sum_sq_list]
  unfold unshift
  cases b
  · rfl
  · simp only [if_true, fftshiftL, List.map_rotate]
    exact (List.rotate_perm _ _).sum_eq

/-- The windowed frame as the inverse of its transform. -/
theorem unshift_irfft_stft (m h : ℕ) (hm : 0 < m) (w : List ℝ) (hw : w.length = m) (E : ℤ → ℝ) (b : Bool) (j : ℕ) :
    unshift b (irfftL m ((List.range (m / 2 + 1)).map fun k => Spec.stft m h (fun r => w.getD r 0) E b k j)) =
      (List.range m).map (fun r : ℕ => w.getD r 0 * E ((j : ℤ) * h + r - (m / 2 : ℕ))) ∧
    (Spec.stft m h (fun r => w.getD r 0) E b 0 j).im = 0 ∧
    (m % 2 = 0 → (Spec.stft m h (fun r => w.getD r 0) E b (m / 2) j).im = 0) := by
  set E' : ℤ → ℝ := fun i => E ((j : ℤ) * h + i) with hE'
  have hst : ∀ k, Spec.stft m h (fun r => w.getD r 0) E b k j = Spec.stft m 1 (fun r => w.getD r 0) E' b k 0 := by
    intro k
    unfold Spec.stft
    refine sum_congr rfl fun r _ => ?_
    rw [hE']
    congr 4
    push_cast
    ring_nf
  simp only [hst]
  set xp := (List.range m).map (fun r : ℕ => E' ((r : ℤ) - (m / 2 : ℕ))) with hxp
  have hxl : xp.length = m := by simp [hxp]
  have hwl : (winCols xp w m 1 b).length = 1 := by simp [winCols, frames_length, hxl]
  obtain ⟨col, hcol⟩ := List.length_eq_one_iff.1 hwl
  have hr := rfft_winCols xp w m 1 b (by omega) hm hw (m / 2 : ℕ) rfl E' (by
    intro p hp
    simp [hxp]) 0 (by simp [hwl])
  simp only [hcol, List.map_cons, List.map_nil, List.getElem_cons_zero] at hr
  have hX : ((List.range (m / 2 + 1)).map fun k => Spec.stft m 1 (fun r => w.getD r 0) E' b k 0) = rfftL col := by
    apply List.ext_getElem
    · simp [hr.1]
    intro k h1 h2
    have hk : k < m / 2 + 1 := by simpa using h1
    rw [List.getElem_map, List.getElem_range, ← hr.2 k hk, List.getD_eq_getElem _ _ h2]
  have hsh := shift_winCols xp w m 1 b hw
  have hcf : winCols xp w m 1 false = [unshift b col] := by
    rw [← hsh, hcol]
    unfold unshift
    cases b <;> rfl
  have hfr : winCols xp w m 1 false = [(List.range m).map fun r : ℕ => w.getD r 0 * E ((j : ℤ) * h + r - (m / 2 : ℕ))] := by
    have hl : (winCols xp w m 1 false).length = 1 := by rw [hcf]; rfl
    obtain ⟨h1, h2⟩ := winCols_false xp w m 1 hw 0 (by omega)
    simp only [hcf, List.getElem_cons_zero] at h1 h2
    rw [hcf]
    congr 1
    apply List.ext_getElem
    · simp [h1]
    intro r h3 h4
    have hr' : r < m := by omega
    have := h2 r hr'
    rw [List.getD_eq_getElem _ _ h3] at this
    rw [this, List.getElem_map, List.getElem_range, mul_comm, List.getD_eq_getElem xp _ (by omega)]
    congr 1
    simp only [hxp, hE', List.getElem_map, List.getElem_range]
    congr 1
    push_cast
    ring
  have hcl : col.length = m := by
    have := unshift_length b col
    rw [hcf] at hfr
    have h2 := congrArg List.length (List.head_eq_of_cons_eq hfr)
    rw [this] at h2
    simpa using h2
  refine ⟨?_, ?_, ?_⟩
  · rw [hX]
    conv_lhs => rw [← hcl]
    rw [irfftL_rfftL]
    exact List.head_eq_of_cons_eq (hcf.symm.trans hfr)
  · rw [← hr.2 0 (by omega)]
    unfold rfftL
    rw [hcl, getD_map_range _ _ (by omega)]
    unfold dft
    rw [Complex.im_sum]
    refine sum_eq_zero fun r _ => ?_
    simp [tw_zero]
  · intro he
    rw [← hr.2 (m / 2) (by omega)]
    unfold rfftL
    rw [hcl, getD_map_range _ _ (by omega)]
    unfold dft
    rw [Complex.im_sum]
    refine sum_eq_zero fun r _ => ?_
    have hself : (starRingEnd ℂ) (tw m (-((r : ℤ) * ((m / 2 : ℕ) : ℤ)))) = tw m (-((r : ℤ) * ((m / 2 : ℕ) : ℤ))) := by
      rw [tw_conj]
      have e : - -((r : ℤ) * ((m / 2 : ℕ) : ℤ)) = m * r + -((r : ℤ) * ((m / 2 : ℕ) : ℤ)) := by
        have : ((m : ℕ) : ℤ) = 2 * ((m / 2 : ℕ) : ℤ) := by omega
        rw [this]; ring_nf
      rw [e, tw_add, tw_mul_n (by omega), one_mul]
    obtain ⟨t, ht⟩ := Complex.conj_eq_iff_real.1 hself
    rw [ht, ← Complex.ofReal_mul]
    exact Complex.ofReal_im _

/-- The distance as a sum over frames of squared differences of windowed frames, and a part which does not depend on the signal. -/
theorem stftDist_eq (m h : ℕ) (hm : 0 < m) (w : List ℝ) (hw : w.length = m) (b : Bool) (S : List (List ℂ)) (E : ℤ → ℝ) :
    stftDist m h (fun r => w.getD r 0) b S E =
      m * (∑ j ∈ range S.length, ∑ r ∈ range m,
        ((unshift b (irfftL m (S.getD j []))).getD r 0 - w.getD r 0 * E ((j : ℤ) * h + r - (m / 2 : ℕ))) ^ 2) +
      ∑ j ∈ range S.length, (((S.getD j []).getD 0 0).im ^ 2 + (if m % 2 = 0 then ((S.getD j []).getD (m / 2) 0).im ^ 2 else 0)) := by
  unfold stftDist
  rw [mul_sum, ← sum_add_distrib]
  refine sum_congr rfl fun j _ => ?_
  obtain ⟨h1, h2, h3⟩ := unshift_irfft_stft m h hm w hw E b j
  set c := S.getD j [] with hc
  set X := (List.range (m / 2 + 1)).map fun k => Spec.stft m h (fun r => w.getD r 0) E b k j with hX
  set c' := (List.range (m / 2 + 1)).map fun k => c.getD k 0 with hc'
  have hcc : irfftL m c' = irfftL m c := by
    apply List.ext_getElem
    · simp [irfftL]
    intro i h4 h5
    have hi : i < m := by simpa [irfftL] using h5
    rw [← List.getD_eq_getElem _ 0 h4, ← List.getD_eq_getElem _ 0 h5, irfft_getD _ hi, irfft_getD _ hi]
    have hk : ∀ k < m / 2 + 1, c'.getD k 0 = c.getD k 0 := fun k hk => by rw [hc', getD_map_range _ _ hk]
    rw [hk 0 (by omega), hk (m / 2) (by omega), sum_congr rfl fun k hk' => by
      rw [hk k (by have := mem_Icc.1 hk'; omega)]]
  have hD : ((List.range (m / 2 + 1)).map fun k => c.getD k 0 - Spec.stft m h (fun r => w.getD r 0) E b k j) =
      List.zipWith (fun u v : ℂ => ((1 : ℝ) : ℂ) * u + ((-1 : ℝ) : ℂ) * v) c' X := by
    apply List.ext_getElem
    · simp [hc', hX]
    intro k h4 h5
    simp [hc', hX, sub_eq_add_neg]
  have hlc : c'.length = X.length := by simp [hc', hX]
  rw [halfEnergy_irfft hm, hD, irfft_comb m hlc, hcc]
  have hlen : (comb 1 (-1) (irfftL m c) (irfftL m X)).length = m := by
    rw [comb_length (by simp [irfftL])]; simp [irfftL]
  have hen := unshift_energy b (comb 1 (-1) (irfftL m c) (irfftL m X))
  rw [hlen] at hen
  rw [← hen, unshift_comb b (by simp [irfftL]), h1]
  have him0 : ((List.zipWith (fun u v : ℂ => ((1 : ℝ) : ℂ) * u + ((-1 : ℝ) : ℂ) * v) c' X).getD 0 0).im = (c.getD 0 0).im := by
    rw [combC_getD hlc, hc', hX, getD_map_range _ _ (by omega), getD_map_range _ _ (by omega)]
    rw [Complex.add_im, Complex.im_ofReal_mul, Complex.im_ofReal_mul, h2]; ring
  rw [him0]
  have him1 : m % 2 = 0 → ((List.zipWith (fun u v : ℂ => ((1 : ℝ) : ℂ) * u + ((-1 : ℝ) : ℂ) * v) c' X).getD (m / 2) 0).im = (c.getD (m / 2) 0).im := by
    intro he
    rw [combC_getD hlc, hc', hX, getD_map_range _ _ (by omega), getD_map_range _ _ (by omega)]
    rw [Complex.add_im, Complex.im_ofReal_mul, Complex.im_ofReal_mul, h3 he]; ring
  have hs : ∑ r ∈ range m, (comb 1 (-1) (unshift b (irfftL m c)) ((List.range m).map fun r : ℕ => w.getD r 0 * E ((j : ℤ) * h + r - (m / 2 : ℕ)))).getD r 0 ^ 2 =
      ∑ r ∈ range m, ((unshift b (irfftL m c)).getD r 0 - w.getD r 0 * E ((j : ℤ) * h + r - (m / 2 : ℕ))) ^ 2 := by
    refine sum_congr rfl fun r hr => ?_
    have hr := mem_range.1 hr
    have hul : (unshift b (irfftL m c)).length = m := by rw [unshift_length]; simp [irfftL]
    rw [List.getD_eq_getElem?_getD, comb_getElem? (by simp [hul]) r (by omega), Option.getD_some, getD_map_range _ _ hr]
    ring
  rw [hs]
  by_cases he : m % 2 = 0
  · rw [if_pos he, if_pos he, him1 he]; ring
  · rw [if_neg he, if_neg he]; ring

/-- The overlap-add loop, as a sum. -/
theorem overlap_sum (m h L : ℕ) (cols : List (List ℝ)) (hcols : ∀ c ∈ cols, c.length = m)
    (hL : ∀ j < cols.length, j * h + m ≤ L) (wpow : List ℝ) (hwp : wpow.length = m) :
    ∃ X, overlapAdd (List.replicate L 0) cols wpow h = .ok X ∧ X.length = L ∧
      ∀ p < L, X.getD p 0 = ∑ j ∈ range cols.length, if j * h ≤ p ∧ p < j * h + m then
        (cols.getD j []).getD (p - j * h) 0 * wpow.getD (p - j * h) 0 else 0 := by
  unfold overlapAdd
  induction cols using List.reverseRecOn with
  | nil =>
    refine ⟨_, rfl, by simp, ?_⟩
    intro p hp; simp
  | append_singleton cs c ih =>
    obtain ⟨X, hX, hXl, hXv⟩ := ih (fun d hd => hcols d (by simp [hd])) (fun j hj => hL j (by simp; omega))
    have hc := hcols c (by simp)
    have hLl := hL cs.length (by simp)
    have hv1 : (List.zipWith (· * ·) c wpow).length = m := by
      rw [List.length_zipWith, hc, hwp]; simp
    obtain ⟨X', hX', hXl', hXv'⟩ := addSlice_ok X (cs.length * h) (List.zipWith (· * ·) c wpow)
      (by rw [hv1, hXl]; exact hLl)
    refine ⟨X', ?_, by omega, ?_⟩
    · rw [List.zipIdx_append, List.foldlM_append, hX]
      simp [hX']
    · intro p hp
      rw [hXv' p (by omega), hv1, hXv p hp, List.length_append, List.length_singleton, sum_range_succ]
      congr 1
      · refine sum_congr rfl fun j hj => ?_
        rw [List.getD_append _ _ _ _ (mem_range.1 hj)]
      · rw [List.getD_append_right _ _ _ _ (le_refl _)]
        simp only [Nat.sub_self, List.getD_cons_zero]
        split
        · rw [List.getD_eq_getElem _ _ (by omega), List.getElem_zipWith, List.getD_eq_getElem c _ (by omega),
            List.getD_eq_getElem wpow _ (by omega)]
        · rfl

/-- Sums over frames as sums over positions. -/
theorem sum_frames (m h L n : ℕ) (hL : ∀ j < n, j * h + m ≤ L) (g : ℕ → ℕ → ℕ → ℝ) :
    ∑ j ∈ range n, ∑ r ∈ range m, g j r (j * h + r) =
      ∑ p ∈ range L, ∑ j ∈ range n, if j * h ≤ p ∧ p < j * h + m then g j (p - j * h) p else 0 := by
  rw [sum_comm (s := range L)]
  refine sum_congr rfl fun j hj => ?_
  have hj := hL j (mem_range.1 hj)
  rw [← sum_filter]
  refine sum_bij (fun r _ => j * h + r) ?_ ?_ ?_ ?_
  · intro r hr; have := mem_range.1 hr; simp; omega
  · intro r _ s _ e; simpa using e
  · intro p hp
    simp only [mem_filter, mem_range] at hp
    exact ⟨p - j * h, mem_range.2 (by omega), by omega⟩
  · intro r hr
    rw [show j * h + r - j * h = r by omega]

/-- **C180.** Let `S` be any array of the shape of an STFT (`n_fft ≥ 3`), e.g. a transform some cells of which have been
masked. `istft` (with the default `win_exp = 1`) returns the samples of a signal whose STFT is closest to `S`, counting twice the bins which stand for two: no
signal `F` comes closer, and one which comes as close has the same samples wherever a nonzero tap of the window reaches. -/
theorem C180_istft (lib : WinLib) (tiny th : ℝ) (hth : 0 < th) (ia : IstftArgs) (hexp : ia.winExp = 1) (rows m N : ℕ)
    (S : List (List ℂ)) (w : List ℝ) (hm : orElse ia.nFft ((rows - 1) * 2) = m) (hm3 : 3 ≤ m) (hop : 0 < ia.hop)
    (hN : orElse ia.N (ia.hop * S.length) = N) (hcols : (N - 1) / ia.hop + 1 = S.length) (hN0 : 0 < N)
    (hwin : getWindow lib tiny ia.window (orElse ia.winLen m) (some m) = .ok w) (hw : w.length = m)
    (hnorm : ∀ p < N + m - 1, th < winNorm m ia.hop S.length 1 (fun r => w.getD r 0) p ∨ winNorm m ia.hop S.length 1 (fun r => w.getD r 0) p = 0) :
    ∃ (y : List ℝ) (E : ℤ → ℝ), istft lib tiny th rows S ia = .ok y ∧ y.length = N ∧
      (∀ n < N, y.getD n 0 = E n) ∧
      ∀ F : ℤ → ℝ,
        stftDist m ia.hop (fun r => w.getD r 0) ia.modulated S E ≤ stftDist m ia.hop (fun r => w.getD r 0) ia.modulated S F ∧
        (stftDist m ia.hop (fun r => w.getD r 0) ia.modulated S F = stftDist m ia.hop (fun r => w.getD r 0) ia.modulated S E →
          ∀ j < S.length, ∀ r < m, w.getD r 0 ≠ 0 → F ((j : ℤ) * ia.hop + r - (m / 2 : ℕ)) = E ((j : ℤ) * ia.hop + r - (m / 2 : ℕ))) := by
  set h := ia.hop with hh
  set b := ia.modulated with hb
  have hbnd : ∀ j < S.length, j * h + m ≤ N + m - 1 := by
    intro j hj
    have h1 : j ≤ (N - 1) / h := by omega
    have h2 : j * h ≤ N - 1 := (Nat.le_div_iff_mul_le hop).1 h1
    omega
  set cols := S.map fun c => unshift b (irfftL m c) with hcd
  have hcl : cols.length = S.length := by simp [hcd]
  have hxbuf : (if ia.modulated then (S.map (irfftL m)).map fftshiftL else S.map (irfftL m)) = cols := by
    rw [hcd, ← hb]
    cases b <;> simp [unshift]
  have hlen : ∀ c ∈ cols, c.length = m := by
    intro c hc
    obtain ⟨d, -, rfl⟩ := List.mem_map.1 hc
    rw [unshift_length]; simp [irfftL]
  obtain ⟨X, hX, hXl, hXv⟩ := overlap_sum m h (N + m - 1) cols hlen (by rw [hcl]; exact hbnd) w hw
  obtain ⟨-, W, -, hW, -, hWl, -, hWn⟩ := overlap_invariant (List.replicate (N + m - 1) 0) w m h 1 (N + m - 1)
    (List.replicate S.length (List.replicate m 0)) hw (by
      intro j hj
      refine ⟨by simp, fun r hr => ?_⟩
      simp) (by simpa using hbnd) _ rfl
  simp only [List.length_replicate] at hW hWn
  set n1 : ℤ := ((m / 2 : ℕ) : ℤ) with hn1
  have hXW : ∀ p < N + m - 1, W.getD p 0 = 0 → X.getD p 0 = 0 := by
    intro p hp h0
    rw [hXv p hp]
    rw [hWn p hp] at h0
    unfold winNorm at h0
    rw [hcl]
    refine sum_eq_zero fun j hj => ?_
    have h1 := (sum_eq_zero_iff_of_nonneg (fun j _ => by
      split
      · exact even_two.pow_nonneg _
      · exact le_refl _)).1 h0 j hj
    by_cases hc : j * h ≤ p ∧ p < j * h + m
    · rw [if_pos hc] at h1 ⊢
      have : w.getD (p - j * h) 0 = 0 := by simpa using h1
      rw [this, mul_zero]
    · rw [if_neg hc]
  set Q := List.zipWith (fun a c : ℝ => a / c) X W with hQ
  have hQv : ∀ p < N + m - 1, Q.getD p 0 = X.getD p 0 / W.getD p 0 := by
    intro p hp
    rw [List.getD_eq_getElem Q _ (by simp [hQ]; omega), List.getD_eq_getElem X _ (by omega), List.getD_eq_getElem W _ (by omega)]
    simp [hQ]
  have hQW : ∀ p < N + m - 1, X.getD p 0 = Q.getD p 0 * W.getD p 0 := by
    intro p hp
    rw [hQv p hp]
    by_cases h0 : W.getD p 0 = 0
    · rw [hXW p hp h0, h0]; simp
    · rw [div_mul_cancel₀ _ h0]
  obtain ⟨Y, hY, hYl, hYv, hYz⟩ := divByNorm_get th hth X W Q (N + m - 1) (by omega) hXl hWl hQW
  have hYW : ∀ p < N + m - 1, X.getD p 0 = Y.getD p 0 * W.getD p 0 := by
    intro p hp
    rcases hnorm p hp with h1 | h1
    · rw [hYv p hp (by rw [hWn p hp]; exact h1)]; exact hQW p hp
    · have h0 : W.getD p 0 = 0 := by rw [hWn p hp]; exact h1
      rw [h0, mul_zero]; exact hXW p hp h0
  have hrun : istft lib tiny th rows S ia = .ok (pySlice Y (some ((m / 2 : ℕ) : ℤ)) (some (-(((m - 1) / 2 : ℕ) : ℤ)))) := by
    have hnola : checkNOLA w ia.hop = .ok () := by
      unfold checkNOLA
      split
      · rfl
      · rw [if_neg (by omega)]
    have hunb : unbuffer cols w ia.hop m N ia.winExp = .ok X := by
      unfold unbuffer
      rw [if_neg (by simp [hw]), hexp]
      exact hX
    have hwn : windowNorm w ia.hop m N ia.winExp = .ok W := by
      unfold windowNorm
      simp only [List.length_replicate]
      rw [← hh, fdiv_hops hN0 hop m (by omega), hcols, hexp]
      simp only [show h ≠ 0 by omega, if_false]
      exact hW
    have hN' : orElse ia.N (ia.hop * S.length) = N := hN
    unfold istft
    simp only [hm, hwin, hnola, ok_bind, show m ≠ 0 by omega, if_false, pure_eq_ok, hxbuf, hN', hunb, hwn, hY]
  rw [pySlice_neg _ _ _ (by omega) (by omega)] at hrun
  have hlenY : ((Y.drop (m / 2)).take (Y.length - (m - 1) / 2 - m / 2)).length = N := by
    simp; omega
  refine ⟨_, fun i => Y.getD (i + n1).toNat 0, hrun, hlenY, ?_, ?_⟩
  · intro n hn
    rw [List.getD_eq_getElem _ _ (by omega), List.getElem_take, List.getElem_drop]
    beta_reduce
    rw [show ((n : ℤ) + n1).toNat = m / 2 + n by omega, List.getD_eq_getElem _ _ (by omega)]
  intro F
  -- squared distances differ by a weighted sum of squares
  set u : ℕ → ℕ → ℝ := fun j r => (unshift b (irfftL m (S.getD j []))).getD r 0 with hu
  set G : ℕ → ℝ := fun p => F ((p : ℤ) - n1) with hG
  have hpos : ∀ j r : ℕ, F ((j : ℤ) * h + r - n1) = G (j * h + r) := by
    intro j r; rw [hG]; push_cast; rfl
  have hposE : ∀ j r : ℕ, Y.getD ((j : ℤ) * h + r - n1 + n1).toNat 0 = Y.getD (j * h + r) 0 := by
    intro j r; congr 1; rw [sub_add_cancel]; exact_mod_cast Int.toNat_natCast (j * h + r)
  have hcross : ∑ j ∈ range S.length, ∑ r ∈ range m, (u j r - w.getD r 0 * Y.getD (j * h + r) 0) * (w.getD r 0 * (Y.getD (j * h + r) 0 - G (j * h + r))) = 0 := by
    rw [sum_frames m h (N + m - 1) S.length hbnd (fun j r p => (u j r - w.getD r 0 * Y.getD p 0) * (w.getD r 0 * (Y.getD p 0 - G p)))]
    refine sum_eq_zero fun p hp => ?_
    have hp := mem_range.1 hp
    have h1 := hYW p hp
    rw [hXv p hp, hWn p hp, hcl] at h1
    unfold winNorm at h1
    have h2 : ∑ j ∈ range S.length, (if j * h ≤ p ∧ p < j * h + m then (u j (p - j * h) - w.getD (p - j * h) 0 * Y.getD p 0) * w.getD (p - j * h) 0 else 0) = 0 := by
      rw [mul_sum, ← sub_eq_zero, ← sum_sub_distrib] at h1
      refine Eq.trans ?_ h1
      refine sum_congr rfl fun j hj => ?_
      have : cols.getD j [] = unshift b (irfftL m (S.getD j [])) := by
        have hj := mem_range.1 hj
        rw [List.getD_eq_getElem _ _ (by omega), List.getD_eq_getElem S _ hj]
        simp [hcd]
      rw [this]
      by_cases hc : j * h ≤ p ∧ p < j * h + m
      · rw [if_pos hc, if_pos hc, if_pos hc]; simp only [hu]; ring
      · rw [if_neg hc, if_neg hc, if_neg hc]; ring
    calc _ = (∑ j ∈ range S.length, (if j * h ≤ p ∧ p < j * h + m then (u j (p - j * h) - w.getD (p - j * h) 0 * Y.getD p 0) * w.getD (p - j * h) 0 else 0)) * (Y.getD p 0 - G p) := by
          rw [sum_mul]
          refine sum_congr rfl fun j _ => ?_
          split
          · ring
          · ring
      _ = 0 := by rw [h2, zero_mul]
  have hdiff : stftDist m h (fun r => w.getD r 0) b S F = stftDist m h (fun r => w.getD r 0) b S (fun i => Y.getD (i + n1).toNat 0) +
      m * ∑ j ∈ range S.length, ∑ r ∈ range m, (w.getD r 0 * (Y.getD (j * h + r) 0 - G (j * h + r))) ^ 2 := by
    rw [stftDist_eq m h (by omega) w hw, stftDist_eq m h (by omega) w hw]
    simp only [← hn1, hpos, hposE]
    have : ∑ j ∈ range S.length, ∑ r ∈ range m, (u j r - w.getD r 0 * G (j * h + r)) ^ 2 =
        ∑ j ∈ range S.length, ∑ r ∈ range m, (u j r - w.getD r 0 * Y.getD (j * h + r) 0) ^ 2 +
        2 * ∑ j ∈ range S.length, ∑ r ∈ range m, (u j r - w.getD r 0 * Y.getD (j * h + r) 0) * (w.getD r 0 * (Y.getD (j * h + r) 0 - G (j * h + r))) +
        ∑ j ∈ range S.length, ∑ r ∈ range m, (w.getD r 0 * (Y.getD (j * h + r) 0 - G (j * h + r))) ^ 2 := by
      rw [mul_sum, ← sum_add_distrib, ← sum_add_distrib]
      refine sum_congr rfl fun j _ => ?_
      rw [mul_sum, ← sum_add_distrib, ← sum_add_distrib]
      refine sum_congr rfl fun r _ => ?_
      ring
    rw [hcross, mul_zero, add_zero] at this
    simp only [hu] at this ⊢
    rw [this]
    ring
  have hm0 : (0 : ℝ) < m := by exact_mod_cast (by omega : 0 < m)
  have hnn : ∀ j ∈ range S.length, 0 ≤ ∑ r ∈ range m, (w.getD r 0 * (Y.getD (j * h + r) 0 - G (j * h + r))) ^ 2 :=
    fun j _ => sum_nonneg fun r _ => sq_nonneg _
  refine ⟨?_, ?_⟩
  · rw [hdiff]
    have := mul_nonneg hm0.le (sum_nonneg hnn)
    linarith
  · intro he j hj r hr hw0
    rw [hdiff] at he
    have h0 : ∑ j ∈ range S.length, ∑ r ∈ range m, (w.getD r 0 * (Y.getD (j * h + r) 0 - G (j * h + r))) ^ 2 = 0 := by
      have : (m : ℝ) * ∑ j ∈ range S.length, ∑ r ∈ range m, (w.getD r 0 * (Y.getD (j * h + r) 0 - G (j * h + r))) ^ 2 = 0 := by linarith
      exact (mul_eq_zero.1 this).resolve_left hm0.ne'
    have h1 := (sum_eq_zero_iff_of_nonneg hnn).1 h0 j (mem_range.2 hj)
    have h2 := (sum_eq_zero_iff_of_nonneg (fun r _ => sq_nonneg _)).1 h1 r (mem_range.2 hr)
    have h3 := (mul_eq_zero.1 (pow_eq_zero_iff (two_ne_zero) |>.1 h2)).resolve_left hw0
    rw [hpos]
    beta_reduce
    rw [hposE]
    linarith

/-- Non-vacuity of C180: the window `[1, 2, 1]`, and an array of two columns which is no STFT (its first bins are not real). -/
example : ∃ (y : List ℝ) (E : ℤ → ℝ), istft onesLib 0 (1/2) 2 [[1 + Complex.I, 2], [Complex.I, 5 - Complex.I]]
      { window := .arr [1, 2, 1], nFft := some 3 } = .ok y ∧ y.length = 2 ∧ (∀ n < 2, y.getD n 0 = E n) ∧
    ∀ F : ℤ → ℝ, stftDist 3 1 (fun r => [1, 2, 1].getD r 0) true [[1 + Complex.I, 2], [Complex.I, 5 - Complex.I]] E ≤
      stftDist 3 1 (fun r => [1, 2, 1].getD r 0) true [[1 + Complex.I, 2], [Complex.I, 5 - Complex.I]] F := by
  obtain ⟨y, E, h1, h2, h3, h4⟩ := C180_istft onesLib 0 (1/2) (by norm_num) { window := .arr [1, 2, 1], nFft := some 3 } rfl 2 3 2
    [[1 + Complex.I, 2], [Complex.I, 5 - Complex.I]] [1, 2, 1] rfl (le_refl _) (by simp) rfl rfl (by norm_num)
    (by unfold getWindow getWindowRaw; simp [orElse, zeroDenormals]) rfl (by
      intro p hp
      left
      have hp : p < 4 := hp
      interval_cases p <;> simp [winNorm, sum_range_succ] <;> norm_num)
  exact ⟨y, E, h1, h2, h3, fun F => (h4 F).1⟩

end Ssq
