import Verif.Props.SsqRounding
import Verif.Props.StftRounding
import Verif.Props.SsqStft

/-!
# Rounding errors of `stft` and of `issq_stft(ssq_stft(x))` (C172)
-/
namespace Ssq
open Finset
open Spec (l2 IsExtension)

variable {lib : WinLib} {tiny : ℝ} {x : List ℝ} {a : StftArgs} {m : ℕ} {w dw : List ℝ} {t : PadType}

/-- The size of a windowed frame. -/
theorem frame_l2 (xp : List ℝ) (hop : ℕ) (b : Bool) (hw : w.length = m) (j : ℕ) (hj : j < (xp.length - m) / hop + 1) :
    l2 m (fun r => (((List.zipWith (· * ·) ((frames xp m hop b).getD j []) (usedWindow w b)).getD r 0 : ℝ) : ℂ)) =
      Real.sqrt (∑ r ∈ range m, (xp.getD (j * hop + r) 0 * w.getD r 0) ^ 2) := by
  have hjf : j < (frames xp m hop b).length := by rw [frames_length]; exact hj
  set f := (frames xp m hop b).getD j [] with hf
  have hfm : f ∈ frames xp m hop b := by rw [hf, getD_lt _ _ hjf]; exact List.getElem_mem _
  have hfl : f.length = m := frames_mem_length hfm
  have hul : (usedWindow w b).length = m := by rw [usedWindow_length, hw]
  set c := List.zipWith (· * ·) f (usedWindow w b) with hc
  have hcl : c.length = m := by simp [hc, hfl, hul]
  have hsh : (if b then fftshiftL c else c) = (winCols xp w m hop false).getD j [] := by
    have h1 := congrArg (fun l : List (List ℝ) => l.getD j []) (shift_winCols xp w m hop b hw)
    rw [← h1]
    have h2 : (winCols xp w m hop b).getD j [] = c := by
      rw [hc, hf]
      unfold winCols
      rw [getD_lt _ _ (by simpa using hjf), List.getElem_map, getD_lt _ _ hjf]
    cases b
    · exact h2.symm
    · simp only [if_true]
      have hjw : j < (winCols xp w m hop true).length := by simpa [winCols] using hjf
      have h3 : ((winCols xp w m hop true).map fftshiftL).getD j [] = fftshiftL ((winCols xp w m hop true).getD j []) := by
        rw [getD_lt _ _ (by rw [List.length_map]; exact hjw), List.getElem_map, getD_lt _ _ hjw]
      rw [h3, h2]
  have hexact : ∀ r < m, (if b then fftshiftL c else c).getD r 0 = xp.getD (j * hop + r) 0 * w.getD r 0 := by
    have hjw : j < (winCols xp w m hop false).length := by simpa [winCols, frames_length] using hj
    have := winCols_false xp w m hop hw j hjw
    intro r hr
    rw [hsh, getD_lt _ _ hjw]
    exact this.2 r hr
  have h1 : (c.map fun r => r ^ 2).sum = ((if b then fftshiftL c else c).map fun r => r ^ 2).sum := by
    cases b
    · rfl
    · simp only [if_true, fftshiftL]
      exact (((List.rotate_perm c _).map fun r => r ^ 2).sum_eq).symm
  have hl2 : (if b then fftshiftL c else c).length = m := by
    cases b
    · exact hcl
    · simp [length_fftshiftL, hcl]
  have e1 := l2_list c
  rw [hcl] at e1
  have h2 := l2_list (if b then fftshiftL c else c)
  rw [hl2] at h2
  rw [e1, h1, ← h2]
  unfold l2
  congr 1
  refine sum_congr rfl fun r hr => ?_
  beta_reduce
  rw [hexact r (mem_range.1 hr), Complex.norm_real, Real.norm_eq_abs, sq_abs]

/-- **C172, `stft`.** Every entry of the computed STFT is within `((1 + η) (1 + u) - 1) √n_fft R` of the exact one, where `R` bounds the sizes of the windowed frames. -/
theorem C172_stft {η u : ℝ} (hη : 0 ≤ η) (hu : 0 ≤ u) {F : StftOps} (hF : Spec.StftRounds η u F) (h : StftValid lib tiny x a m w dw t) (E : ℤ → ℝ) (hE : IsExtension t x E) {R : ℝ}
    (hR : ∀ j < (x.length - 1) / a.hop + 1, Real.sqrt (∑ r ∈ range m, (E ((j * a.hop + r : ℕ) - (m / 2 : ℕ)) * w.getD r 0) ^ 2) ≤ R) :
    ∃ S dS S', stft lib tiny x a = .ok (m, S, dS) ∧ stftWith F lib tiny x a = .ok (m, S') ∧ S.length = (x.length - 1) / a.hop + 1 ∧ S'.length = (x.length - 1) / a.hop + 1 ∧
      ∀ j < (x.length - 1) / a.hop + 1, (S'.getD j []).length = m / 2 + 1 ∧ (S.getD j []).length = m / 2 + 1 ∧ ∀ k < m / 2 + 1,
        ‖(S'.getD j []).getD k 0 - (S.getD j []).getD k 0‖ ≤ ((1 + η) * (1 + u) - 1) * (Real.sqrt m * R) ∧ ‖(S.getD j []).getD k 0‖ ≤ Real.sqrt m * R := by
  obtain ⟨S, dS, hst, hSl, -, hSe, -⟩ := C07_stft_entries h E hE
  obtain ⟨xp, hl, hext, hrun⟩ := stftWith_run h F
  obtain ⟨xp0, hl0, hext0, hrun0⟩ := stftWith_run h exactStft
  have hxx : xp0 = xp := by
    refine List.ext_getElem (by rw [hl, hl0]) fun p h1 h2 => ?_
    rw [hext E hE p h2, hext0 E hE p h1]
  subst hxx
  rw [stftWith_exact lib tiny x a m S dS hst] at hrun0
  simp only [Except.ok.injEq, Prod.mk.injEq, true_and] at hrun0
  have hx := h.hx
  have hm := h.hm
  have hsub : xp0.length - m = x.length - 1 := by omega
  have hfl : (frames xp0 m a.hop a.modulated).length = (x.length - 1) / a.hop + 1 := by rw [frames_length, hsub]
  refine ⟨S, dS, _, hst, hrun, hSl, by rw [List.length_map, hfl], fun j hj => ?_⟩
  have hjf : j < (frames xp0 m a.hop a.modulated).length := by rw [hfl]; exact hj
  set f := (frames xp0 m a.hop a.modulated).getD j [] with hf
  set c := List.zipWith (· * ·) f (usedWindow w a.modulated) with hc
  set c' := List.zipWith F.mul f (usedWindow w a.modulated) with hc'
  have hfm : f ∈ frames xp0 m a.hop a.modulated := by rw [hf, getD_lt _ _ hjf]; exact List.getElem_mem _
  have hfl2 : f.length = m := frames_mem_length hfm
  have hul : (usedWindow w a.modulated).length = m := by rw [usedWindow_length, h.hw]
  have hcl : c.length = m := by simp [hc, hfl2, hul]
  have hcl' : c'.length = m := by simp [hc', hfl2, hul]
  have e1 : ((frames xp0 m a.hop a.modulated).map fun c => F.rfft (List.zipWith F.mul c (usedWindow w a.modulated))).getD j [] = F.rfft c' := by
    rw [getD_lt _ _ (by rw [List.length_map]; exact hjf), List.getElem_map, hc', hf, getD_lt _ _ hjf]
  have e2 : S.getD j [] = rfftL c := by
    rw [hrun0, getD_lt _ _ (by rw [List.length_map]; exact hjf), List.getElem_map, hc, hf, getD_lt _ _ hjf]
    rfl
  have hnorm : l2 m (fun r => ((c.getD r 0 : ℝ) : ℂ)) ≤ R := by
    rw [hc, hf, frame_l2 xp0 a.hop a.modulated h.hw j (by rw [hsub]; exact hj)]
    refine le_trans (le_of_eq ?_) (hR j hj)
    congr 1
    refine sum_congr rfl fun r hr => ?_
    have hb : j * a.hop + m ≤ xp0.length := frame_bound (L := xp0.length) (seg := m) (h := a.hop) (i := j) (by omega) (by rw [hsub]; exact hj)
    have hlt : j * a.hop + r < xp0.length := by have := mem_range.1 hr; omega
    rw [getD_lt xp0 0 hlt, hext E hE _ hlt]
  have hR0 : 0 ≤ R := (Real.sqrt_nonneg _).trans (hR 0 (by omega))
  have hs := Real.sqrt_nonneg (m : ℝ)
  have hcc : ∀ r < m, |c'.getD r 0 - c.getD r 0| ≤ u * |c.getD r 0| := by
    intro r hr
    rw [hc, hc', getD_zipWith' _ _ _ 0 0 _ (hfl2 ▸ hr) (hul ▸ hr), getD_zipWith' _ _ _ 0 0 _ (hfl2 ▸ hr) (hul ▸ hr)]
    exact hF.mul_err _ _
  have h1 : l2 m (fun j => ((c'.getD j 0 : ℝ) : ℂ) - ((c.getD j 0 : ℝ) : ℂ)) ≤ u * R := by
    refine le_trans (l2_le_mul hu fun i hi => ?_) (mul_le_mul_of_nonneg_left hnorm hu)
    rw [← Complex.ofReal_sub, Complex.norm_real, Complex.norm_real]
    exact hcc i hi
  have h2 : l2 m (fun j => ((c'.getD j 0 : ℝ) : ℂ)) ≤ (1 + u) * R := by
    have := l2_sub_le m (fun j => ((c'.getD j 0 : ℝ) : ℂ)) (fun j => ((c.getD j 0 : ℝ) : ℂ))
    linarith
  have h3 : l2 (m / 2 + 1) (fun k => (F.rfft c').getD k 0 - (rfftL c').getD k 0) ≤ η * (Real.sqrt m * ((1 + u) * R)) := by
    have e1 := hF.rfft_err c'
    have e2 := rfftL_l2 (l := c') (by omega)
    rw [hcl'] at e1 e2
    exact e1.trans (mul_le_mul_of_nonneg_left (e2.trans (mul_le_mul_of_nonneg_left h2 hs)) hη)
  have hrf : ∀ (l : List ℝ), l.length = m → ∀ k < m / 2 + 1, (rfftL l).getD k 0 = dft m (fun j => ((l.getD j 0 : ℝ) : ℂ)) k := by
    intro l hll k hk
    unfold rfftL
    rw [hll]
    exact getD_map_range _ _ hk
  rw [e1, e2]
  refine ⟨by rw [hF.rfft_length, hcl'], by simp [rfftL, hcl], fun k hk => ?_⟩
  have hdft : ∀ (s : ℕ → ℂ) (B : ℝ), l2 m s ≤ B → ‖dft m s k‖ ≤ Real.sqrt m * B := by
    intro s B hB
    have := l2_dft m s
    refine le_trans ?_ (mul_le_mul_of_nonneg_left hB hs)
    rw [← this]
    exact le_l2 (by omega) _
  constructor
  · have d1 : ‖(F.rfft c').getD k 0 - (rfftL c').getD k 0‖ ≤ η * (Real.sqrt m * ((1 + u) * R)) :=
      (le_l2 hk fun k => (F.rfft c').getD k 0 - (rfftL c').getD k 0).trans h3
    have d2 : ‖(rfftL c').getD k 0 - (rfftL c).getD k 0‖ ≤ Real.sqrt m * (u * R) := by
      rw [hrf c' hcl' k hk, hrf c hcl k hk]
      have : dft m (fun j => ((c'.getD j 0 : ℝ) : ℂ)) k - dft m (fun j => ((c.getD j 0 : ℝ) : ℂ)) k = dft m (fun j => ((c'.getD j 0 : ℝ) : ℂ) - ((c.getD j 0 : ℝ) : ℂ)) k := by
        unfold dft
        rw [← sum_sub_distrib]
        exact sum_congr rfl fun _ _ => by ring
      rw [this]
      exact hdft _ _ h1
    have d3 := norm_sub_le_norm_sub_add_norm_sub ((F.rfft c').getD k 0) ((rfftL c').getD k 0) ((rfftL c).getD k 0)
    calc _ ≤ η * (Real.sqrt m * ((1 + u) * R)) + Real.sqrt m * (u * R) := by linarith
      _ = _ := by ring
  · rw [hrf c hcl k hk]
    exact hdft _ _ hnorm

/-- **C172.** `issq_stft(ssq_stft(x))`, both in floating point, against the same in exact arithmetic (which C14 gives): whatever frequencies were computed for the cells and whichever rows they were
taken to, for every schedule of the parallel loops and every order of the final sums. -/
theorem C172_roundtrip {η u : ℝ} (hη : 0 ≤ η) (hu : 0 ≤ u) {F : StftOps} (hF : Spec.StftRounds η u F) {x : List ℝ} {a : SsqStftArgs} {fs : ℝ} {m : ℕ} {w dw : List ℝ} {t : PadType}
    (h : C14Valid lib tiny x a fs m w dw t) (gamma : ℝ) (hgam : gamma = a.gamma.getD (10 * a.eps)) (hg0 : 0 ≤ gamma) (E : ℤ → ℝ) (hE : IsExtension t x E) {R : ℝ}
    (hR : ∀ j < x.length, Real.sqrt (∑ r ∈ range m, (E ((j + r : ℕ) - (m / 2 : ℕ)) * w.getD r 0) ^ 2) ≤ R) :
    ∃ Tx S f Sfs xh S', ssqStft lib tiny x a = .ok (Tx, S, f, Sfs) ∧ issqStft lib tiny (m / 2 + 1) x.length (fun r j => Tx r j) (inverseArgs a m) = .ok (.full xh) ∧
      stftWith F lib tiny x { a.stft with fs := fs } = .ok (m, S') ∧
      ∀ V : ℕ → ℕ → ℂ, V = (fun i j => (S'.getD j []).getD i 0) → ∀ φ : ℕ → ℕ → Phase, Spec.FollowsThreshold u gamma (m / 2 + 1) x.length V φ →
      ∀ c : ℕ → ℝ, (∀ i < m / 2 + 1, |c i - fs / (2 * (m / 2 : ℕ))| ≤ u * |fs / (2 * (m / 2 : ℕ))|) → ∀ (bin : ℝ → ℤ) (omax : ℤ) (flipud : Bool),
      (∀ i < m / 2 + 1, ∀ j < x.length, ∀ f, φ i j = .fin f → 0 ≤ flipRow flipud omax (bin f) ∧ flipRow flipud omax (bin f) < (m / 2 + 1 : ℕ)) →
      ∀ (sched : List (Micro ℂ)) (reg : ℕ → ℂ), IsParRun (m / 2 + 1) x.length (indexedSumBody (cMul F.mul) bin omax flipud V φ c) sched →
      ∀ order : SumTree, order.leaves.Perm (List.range (m / 2 + 1)) → ∀ j < x.length,
        |invertColumn F.add F.mul order (sched.foldl (Mem.step (cAdd F.add)) ⟨fun _ _ => 0, reg⟩).out (F.div 2 (w.getD (m / 2) 0)) j - xh.getD j 0| ≤
          |2 / w.getD (m / 2) 0| * ∑ i ∈ range (m / 2 + 1), |fs / (2 * (m / 2 : ℕ))| * (((1 + u) ^ (2 * (m / 2 + 1) + 3) - 1) * ((1 + η) * (1 + u) * (Real.sqrt m * R)) +
            (1 + u) * Spec.cellDoubt gamma (((1 + η) * (1 + u) - 1) * (Real.sqrt m * R) + u * gamma) ‖(S.getD j []).getD i 0‖) := by
  obtain ⟨Tx, S, f, Sfs, xh, h1, h2, ⟨dS, hst⟩, hxl, hval⟩ := C14_inverse_partial h
  have hx := h.stft.hx
  have hm := h.hm
  have hhop : ({ a.stft with fs := fs } : StftArgs).hop = 1 := h.hhop
  have hcols : (x.length - 1) / ({ a.stft with fs := fs } : StftArgs).hop + 1 = x.length := by rw [hhop, Nat.div_one]; omega
  obtain ⟨S₁, dS₁, S', hst₁, hrun, hSl, -, hb⟩ := C172_stft hη hu hF h.stft E hE (R := R) (fun j hj => by
    rw [hcols] at hj
    rw [hhop, mul_one]
    exact hR j hj)
  rw [hst] at hst₁
  simp only [Except.ok.injEq, Prod.mk.injEq, true_and] at hst₁
  obtain ⟨rfl, rfl⟩ := hst₁
  rw [hcols] at hb hSl
  refine ⟨Tx, S, f, Sfs, xh, S', h1, h2, hrun, ?_⟩
  intro V hV φ hφ c hc bin omax flipud hrow sched reg hs order ho j hj
  have hR0 : 0 ≤ R := (Real.sqrt_nonneg _).trans (hR 0 (by omega))
  have hB0 : 0 ≤ Real.sqrt m * R := mul_nonneg (Real.sqrt_nonneg _) hR0
  have hε : 0 ≤ (1 + η) * (1 + u) - 1 := by nlinarith
  set μ := fs / (2 * (m / 2 : ℕ)) with hμ
  have hmain := squeeze_inverse_err (e := ((1 + η) * (1 + u) - 1) * (Real.sqrt m * R)) hu hg0 (mul_nonneg hε hB0) hB0 hF.add_err hF.mul_err hF.div_err bin omax flipud V
    (fun i j => (S.getD j []).getD i 0) φ (fun _ => μ) c (m / 2 + 1) x.length sched reg hs order ho (w.getD (m / 2) 0) j hj (fun i => gamma < ‖(S.getD j []).getD i 0‖)
    (fun i hi f => hrow i hi j hj f) (fun i hi => by rw [hV]; exact ((hb j hj).2.2 i hi).1) (fun i hi => ((hb j hj).2.2 i hi).2) hc hφ
    (fun i hi => ⟨id, fun h => not_lt.2 h.le⟩)
  have hxh : xh.getD j 0 = 2 / w.getD (m / 2) 0 * ∑ i ∈ range (m / 2 + 1), if gamma < ‖(S.getD j []).getD i 0‖ then ((S.getD j []).getD i 0).re * μ else 0 := by
    have e1 : ∀ i ∈ range (m / 2 + 1), (if gamma < ‖(S.getD j []).getD i 0‖ then ((S.getD j []).getD i 0).re * μ else 0) = ((S.getD j []).getD i 0).re * μ := by
      intro i hi
      split
      · rfl
      · rename_i hn
        rcases h.hgam S dS hst i (mem_range.1 hi) j (by omega) with h0 | h0
        · rw [h0]; simp
        · exact absurd (hgam ▸ h0) hn
    rw [sum_congr rfl e1, ← sum_mul, hval j hj]
    obtain ⟨S₂, dS₂, hst₂, -, -, hSe, -⟩ := C07_stft_entries h.stft E hE
    rw [hst] at hst₂
    simp only [Except.ok.injEq, Prod.mk.injEq, true_and] at hst₂
    obtain ⟨rfl, rfl⟩ := hst₂
    have hcell : ∀ k < m / 2 + 1, (S.getD j []).getD k 0 = Spec.stft m 1 (fun r => w.getD r 0) E true k j := by
      intro k hk
      rw [List.getD_eq_getElem S [] (by omega), (hSe j (by omega)).2 k hk]
      simp only [h.hmod, h.hhop]
    rw [sum_congr rfl fun k hk => by rw [hcell k (mem_range.1 hk)], hcell 0 (by omega), hcell (m / 2) (by omega)]
    have hhalf := half_spectrum m (by omega) (fun r => w.getD r 0) E j
    rw [hE.1 j hj] at hhalf
    have hc := h.hc
    have hh0 : ((m / 2 : ℕ) : ℝ) ≠ 0 := by
      have : 0 < m / 2 := by omega
      positivity
    set A := ∑ k ∈ range (m / 2 + 1), (Spec.stft m 1 (fun r => w.getD r 0) E true k j).re
    set S0 := (Spec.stft m 1 (fun r => w.getD r 0) E true 0 j).re
    set Sn := (if m % 2 = 0 then (Spec.stft m 1 (fun r => w.getD r 0) E true (m / 2) j).re else 0)
    have hA : A = (m * (w.getD (m / 2) 0 * x[j]) + S0 + Sn) / 2 := by linarith
    rw [hA, hμ]
    field_simp
    ring
  rw [hxh]
  refine hmain.trans (le_of_eq ?_)
  have : Real.sqrt m * R + ((1 + η) * (1 + u) - 1) * (Real.sqrt m * R) = (1 + η) * (1 + u) * (Real.sqrt m * R) := by ring
  rw [this]

/-- Correctly rounded double precision: the call of `ex14`. -/
example : ∃ Tx S f Sfs xh S', ssqStft onesLib 0 [1, 1] (ex14 1) = .ok (Tx, S, f, Sfs) ∧ issqStft onesLib 0 2 2 (fun r j => Tx r j) (inverseArgs (ex14 1) 2) = .ok (.full xh) ∧
    stftWith (flStft 53) onesLib 0 [1, 1] { (ex14 1).stft with fs := 1 } = .ok (2, S') := by
  obtain ⟨E, hE⟩ := Ssq.exists_extension .reflect ([1, 1] : List ℝ) (by simp)
  obtain ⟨Tx, S, f, Sfs, xh, S', h1, h2, h3, -⟩ := C172_roundtrip (by positivity) (by positivity) (flStft_rounds 53) (ex14_valid 1 one_pos) 0 (by simp [ex14]) le_rfl E hE
    (R := ∑ j ∈ range 2, Real.sqrt (∑ r ∈ range 2, (E ((j + r : ℕ) - (2 / 2 : ℕ)) * ([0, 1] : List ℝ).getD r 0) ^ 2))
    (fun j hj => single_le_sum (f := fun j => Real.sqrt (∑ r ∈ range 2, (E ((j + r : ℕ) - (2 / 2 : ℕ)) * ([0, 1] : List ℝ).getD r 0) ^ 2)) (fun _ _ => Real.sqrt_nonneg _) (mem_range.2 hj))
  exact ⟨Tx, S, f, Sfs, xh, S', h1, h2, h3⟩

end Ssq
