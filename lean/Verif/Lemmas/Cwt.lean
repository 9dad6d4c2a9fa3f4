import Verif.Model.Cwt
import Verif.Spec.Cwt
import Verif.Lemmas.Xifn
import Verif.Lemmas.Dft
import Verif.Lemmas.Slice
import Verif.Lemmas.PyM
import Verif.Props.Padding

/-! Normal form of `cwt`: every output entry is one inverse DFT sum. -/
namespace Ssq
open Complex

theorem xifn_xi (L k : ℕ) (hk : k < L) : (xifn 1 L).getD k 0 = Spec.xi L k := by
  rw [xifn_getD _ _ _ hk]
  unfold Spec.xi
  by_cases h : k ≤ L / 2
  · rw [if_pos h, if_pos (by omega)]; push_cast; ring
  · rw [if_neg h, if_neg (by omega)]; push_cast; ring

theorem sampleRow_length (f : WFn) (L : ℕ) (s : ℝ) : (sampleRow f L s).length = L := by
  simp [sampleRow]

theorem halveNyquist_length (l : List ℂ) : (halveNyquist l).length = l.length := by
  unfold halveNyquist; split <;> simp

theorem getD_map_c {α : Type} (l : List α) (f : α → ℂ) (k : ℕ) (d : α) (hk : k < l.length) :
    (l.map f).getD k 0 = f (l.getD k d) := by
  rw [List.getD_eq_getElem _ _ (by simpa using hk), List.getD_eq_getElem _ _ hk]; simp

theorem psihRow_getD (f : WFn) (L : ℕ) (s : ℝ) (k : ℕ) (hk : k < L) :
    (halveNyquist (sampleRow f L s)).getD k 0 = Spec.wavSample f.eval L s k := by
  have hs : (sampleRow f L s).getD k 0 = f.eval (s * Spec.xi L k) := by
    unfold sampleRow
    rw [getD_map_c _ _ _ 0 (by simpa using hk), xifn_xi _ _ hk]
  unfold halveNyquist Spec.wavSample
  rw [sampleRow_length]
  by_cases he : L % 2 = 0
  · rw [if_pos he]
    by_cases hk2 : 2 * k = L
    · rw [if_pos hk2, show L / 2 = k by omega, List.getD_eq_getElem _ _ (by simpa [sampleRow_length] using hk)]
      simp only [List.getElem_set_self]
      rw [hs]
    · rw [if_neg hk2, List.getD_eq_getElem _ _ (by simpa [sampleRow_length] using hk),
        List.getElem_set_ne (by omega), ← hs]
      exact (List.getD_eq_getElem _ _ (by simpa [sampleRow_length] using hk)).symm
  · rw [if_neg he, if_neg (by omega), hs]

/-- The wavelet rows used by either code path. -/
noncomputable def psihRows (f : WFn) (vec : Bool) (L : ℕ) (scales : List ℝ) : List (List ℂ) :=
  if vec then psihCall f L scales else scales.map (psihOne f L)

theorem dropImag_length (f : WFn) (rows : List (List ℂ)) : (dropImag f rows).length = rows.length := by
  unfold dropImag
  split
  · rfl
  · split <;> simp

theorem dropImag_row_length (f : WFn) (rows : List (List ℂ)) (L : ℕ) (h : ∀ r ∈ rows, r.length = L) :
    ∀ r ∈ dropImag f rows, r.length = L := by
  unfold dropImag
  split
  · exact h
  · split
    · intro r hr
      obtain ⟨r', hr', rfl⟩ := List.mem_map.1 hr
      simpa using h r' hr'
    · exact h

theorem psihCall_rows (f : WFn) (L : ℕ) (scales : List ℝ) : ∀ r ∈ psihCall f L scales, r.length = L := by
  apply dropImag_row_length
  intro r hr
  obtain ⟨s, _, rfl⟩ := List.mem_map.1 hr
  rw [halveNyquist_length, sampleRow_length]

theorem psihRows_length (f : WFn) (vec : Bool) (L : ℕ) (scales : List ℝ) :
    (psihRows f vec L scales).length = scales.length := by
  unfold psihRows; split
  · simp [psihCall, dropImag_length]
  · simp

theorem psihOne_length (f : WFn) (L : ℕ) (s : ℝ) : (psihOne f L s).length = L := by
  have h : 0 < (psihCall f L [s]).length := by simp [psihCall, dropImag_length]
  unfold psihOne
  rw [List.getD_eq_getElem _ _ h]
  exact psihCall_rows f L [s] _ (List.getElem_mem h)

theorem psihRows_row (f : WFn) (vec : Bool) (L : ℕ) (scales : List ℝ) :
    ∀ r ∈ psihRows f vec L scales, r.length = L := by
  unfold psihRows; split
  · exact psihCall_rows f L scales
  · intro r hr
    obtain ⟨s, _, rfl⟩ := List.mem_map.1 hr
    exact psihOne_length f L s

/-- For a wavelet without imaginary part nothing is dropped. -/
theorem dropImag_real (f : WFn) (rows : List (List ℂ)) (h : ∀ r ∈ rows, ∀ z ∈ r, z.im = 0) :
    dropImag f rows = rows := by
  unfold dropImag
  split
  · rfl
  · split
    · conv_rhs => rw [← List.map_id rows]
      refine List.map_congr_left fun r hr => ?_
      conv_rhs => rw [id, ← List.map_id r]
      refine List.map_congr_left fun z hz => ?_
      apply Complex.ext <;> simp [h r hr z hz]
    · rfl

theorem psihRow_real (f : WFn) (hf : ∀ w, (f.eval w).im = 0) (L : ℕ) (s : ℝ) :
    ∀ z ∈ halveNyquist (sampleRow f L s), z.im = 0 := by
  intro z hz
  obtain ⟨k, hk, rfl⟩ := List.getElem_of_mem hz
  have hk' : k < L := by simpa [halveNyquist_length, sampleRow_length] using hk
  rw [← List.getD_eq_getElem _ 0 hk, psihRow_getD f L s k hk']
  unfold Spec.wavSample
  split
  · rw [Complex.div_im]; simp [hf]
  · exact hf _

theorem psihCall_real (f : WFn) (hf : ∀ w, (f.eval w).im = 0) (L : ℕ) (scales : List ℝ) :
    psihCall f L scales = scales.map fun s => halveNyquist (sampleRow f L s) := by
  apply dropImag_real
  intro r hr
  obtain ⟨s, _, rfl⟩ := List.mem_map.1 hr
  exact psihRow_real f hf L s

theorem psihRows_real (f : WFn) (hf : ∀ w, (f.eval w).im = 0) (vec : Bool) (L : ℕ) (scales : List ℝ) :
    psihRows f vec L scales = scales.map fun s => halveNyquist (sampleRow f L s) := by
  unfold psihRows
  split
  · exact psihCall_real f hf L scales
  · refine List.map_congr_left fun s _ => ?_
    unfold psihOne
    rw [psihCall_real f hf]; rfl

theorem zipWith_getD {α β γ : Type} (g : α → β → γ) (l : List α) (m : List β) (k : ℕ) (a : α) (b : β)
    (c : γ) (h1 : k < l.length) (h2 : k < m.length) :
    (List.zipWith g l m).getD k c = g (l.getD k a) (m.getD k b) := by
  rw [List.getD_eq_getElem _ _ (by simp; omega), List.getD_eq_getElem _ _ h1, List.getD_eq_getElem _ _ h2]
  simp

theorem convRow_eq (p xh : List ℂ) (L : ℕ) (hp : p.length = L) (hx : xh.length = L) :
    convRow p xh = (List.range L).map fun j : ℕ => idft L (fun k => p.getD k 0 * xh.getD k 0) j := by
  unfold convRow ifftL
  simp only [List.length_zipWith, hp, hx, min_self]
  refine List.map_congr_left fun j _ => ?_
  exact idft_congr (fun k hk => zipWith_getD _ _ _ _ _ _ _ (by omega) (by omega)) j

theorem dConvVec_eq (dt : ℝ) (p xh : List ℂ) (L : ℕ) (hp : p.length = L) (hx : xh.length = L) :
    dConvVec dt p xh = (List.range L).map fun j : ℕ =>
      idft L (fun k => I * ((Spec.xi L k : ℝ) : ℂ) / (dt : ℂ) * (p.getD k 0 * xh.getD k 0)) j := by
  unfold dConvVec ifftL
  simp only [List.length_zipWith, hp, hx, min_self, xifn_length]
  refine List.map_congr_left fun j _ => ?_
  refine idft_congr (fun k hk => ?_) j
  rw [zipWith_getD _ _ _ _ (0 : ℂ) (0 : ℝ) _ (by simp [hp, hx]; exact hk) (by simpa using hk),
    zipWith_getD _ _ _ _ (0 : ℂ) (0 : ℂ) _ (by omega) (by omega), xifn_xi _ _ hk]
  ring

theorem dConvLoop_eq (dt : ℝ) (p xh : List ℂ) (L : ℕ) (hp : p.length = L) (hx : xh.length = L) :
    dConvLoop dt p xh = dConvVec dt p xh := by
  rw [dConvVec_eq dt p xh L hp hx]
  unfold dConvLoop ifftL
  simp only [List.length_zipWith, hp, hx, min_self, xifn_length]
  refine List.map_congr_left fun j _ => ?_
  refine idft_congr (fun k hk => ?_) j
  rw [zipWith_getD _ _ _ _ (0 : ℂ) (0 : ℂ) _ (by simp [hp]; exact hk) (by omega),
    zipWith_getD _ _ _ _ (0 : ℝ) (0 : ℂ) _ (by simpa using hk) (by omega), xifn_xi _ _ hk]
  ring

/-- Whether the padding is removed again. -/
def CwtArgs.trimmed (a : CwtArgs) : Bool := !a.rpadded && a.padtype.isSome

/-- Number of columns returned, for a signal of length `N` padded to `L`. -/
def CwtArgs.cols (a : CwtArgs) (N L : ℕ) : ℕ := if a.trimmed then N else L

/-- Position in the padded signal of the first column returned. -/
def CwtArgs.first (a : CwtArgs) (n1 : ℕ) : ℕ := if a.trimmed then n1 else 0

/-- L2 normalisation factor of one row. -/
noncomputable def CwtArgs.norm (a : CwtArgs) (s : ℝ) : ℝ := if a.l1Norm then 1 else Real.sqrt s

theorem l2Scale_eq (a : CwtArgs) (scales : List ℝ) (rows : List (List ℂ)) (h : rows.length = scales.length) :
    l2Scale a.l1Norm scales rows =
      List.zipWith (fun (s : ℝ) r => r.map fun z : ℂ => ((a.norm s : ℝ) : ℂ) * z) scales rows := by
  unfold l2Scale CwtArgs.norm
  by_cases hl : a.l1Norm
  · simp only [hl, if_true, ofReal_one, one_mul]
    apply List.ext_getElem
    · simp [h]
    · intro i h1 h2; simp
  · simp only [hl, if_false, Bool.false_eq_true]
    congr 1
    funext s r
    refine List.map_congr_left fun z _ => ?_
    ring

theorem cwtUnpad_range (a : CwtArgs) (n1 N L : ℕ) (h : n1 + N ≤ L) (g : ℕ → ℂ) :
    cwtUnpad a n1 N ((List.range L).map g) =
      (List.range (a.cols N L)).map fun j => g (a.first n1 + j) := by
  unfold cwtUnpad CwtArgs.cols CwtArgs.first CwtArgs.trimmed
  by_cases hc : a.rpadded = false ∧ a.padtype.isSome
  · rw [if_pos hc]
    have : (!a.rpadded && a.padtype.isSome) = true := by simp [hc.1, hc.2]
    simp only [this, if_true]
    unfold unpad
    rw [show ((n1 : ℤ) + (N : ℤ)) = ((n1 + N : ℕ) : ℤ) by push_cast; rfl, pySlice_nat]
    apply List.ext_getElem
    · simp; omega
    · intro i h1 h2; simp
  · rw [if_neg hc]
    have : (!a.rpadded && a.padtype.isSome) = false := by
      rcases hr : a.rpadded with _ | _ <;> simp_all
    simp [this]

/-- The normal form. -/
theorem cwtRun_eq (a : CwtArgs) (dt : ℝ) (scales : List ℝ) (N : ℕ) (xp : List ℝ) (n1 : ℕ)
    (h : n1 + N ≤ xp.length) :
    cwtRun a dt scales N xp n1 =
      (List.zipWith (fun (s : ℝ) (p : List ℂ) => (List.range (a.cols N xp.length)).map fun j : ℕ =>
          ((a.norm s : ℝ) : ℂ) * idft xp.length (fun k => p.getD k 0 *
            dft xp.length (fun q => ((xp.getD q 0 : ℝ) : ℂ)) k) (a.first n1 + j))
        scales (psihRows a.wavelet.fn a.vectorized xp.length scales),
       List.zipWith (fun (s : ℝ) (p : List ℂ) => (List.range (a.cols N xp.length)).map fun j : ℕ =>
          ((a.norm s : ℝ) : ℂ) * idft xp.length (fun k => I * ((Spec.xi xp.length k : ℝ) : ℂ) / (dt : ℂ) *
            (p.getD k 0 * dft xp.length (fun q => ((xp.getD q 0 : ℝ) : ℂ)) k)) (a.first n1 + j))
        scales (psihRows a.wavelet.fn a.vectorized xp.length scales)) := by
  set L := xp.length with hL
  set xh := fftL (xp.map fun r : ℝ => (r : ℂ)) with hxh
  have hxl : xh.length = L := by simp [hxh, fftL, hL]
  have hxk : ∀ k < L, xh.getD k 0 = dft L (fun q => ((xp.getD q 0 : ℝ) : ℂ)) k := by
    intro k hk
    rw [hxh, fftL]
    simp only [List.length_map, ← hL]
    rw [getD_map_range _ _ hk]
    refine dft_congr (fun q hq => ?_) k
    rw [getD_map_c _ _ _ 0 (by omega)]
  have hW : (if a.vectorized then cwtVectorized a.wavelet.fn dt scales xh
      else cwtLoop a.wavelet.fn dt scales xh) =
      ((psihRows a.wavelet.fn a.vectorized L scales).map fun p => convRow p xh,
       (psihRows a.wavelet.fn a.vectorized L scales).map fun p => dConvVec dt p xh) := by
    unfold psihRows
    by_cases hv : a.vectorized
    · simp only [hv, if_true, cwtVectorized, hxl]
    · simp only [hv, if_false, cwtLoop, hxl, List.map_map, Bool.false_eq_true]
      congr 1
      refine List.map_congr_left fun s _ => ?_
      simp only [Function.comp]
      exact dConvLoop_eq dt _ xh L (psihOne_length _ _ _) hxl
  have hgen : ∀ (F : List ℂ → ℕ → ℂ) (G : List ℂ → List ℂ),
      (∀ p, p.length = L → G p = (List.range L).map (F p)) →
      l2Scale a.l1Norm scales (((psihRows a.wavelet.fn a.vectorized L scales).map G).map (cwtUnpad a n1 N)) =
      List.zipWith (fun (s : ℝ) (p : List ℂ) => (List.range (a.cols N L)).map fun j : ℕ =>
          ((a.norm s : ℝ) : ℂ) * F p (a.first n1 + j)) scales (psihRows a.wavelet.fn a.vectorized L scales) := by
    intro F G hFG
    rw [l2Scale_eq _ _ _ (by simp [psihRows_length])]
    apply List.ext_getElem
    · simp
    · intro i h1 h2
      simp only [List.getElem_zipWith, List.getElem_map]
      rw [hFG _ (psihRows_row _ _ _ _ _ (List.getElem_mem _)), cwtUnpad_range a n1 N L h]
      simp
  unfold cwtRun
  simp only [← hxh]
  rw [hW]
  simp only
  rw [hgen (fun p j => idft L (fun k => p.getD k 0 * xh.getD k 0) j) _
      (fun p hp => convRow_eq p xh L hp hxl),
    hgen (fun p j => idft L (fun k => I * ((Spec.xi L k : ℝ) : ℂ) / (dt : ℂ) * (p.getD k 0 * xh.getD k 0)) j) _
      (fun p hp => dConvVec_eq dt p xh L hp hxl)]
  congr 1
  · congr 1
    funext s p
    refine List.map_congr_left fun j _ => ?_
    congr 1
    exact idft_congr (fun k hk => by rw [hxk k hk]) _
  · congr 1
    funext s p
    refine List.map_congr_left fun j _ => ?_
    congr 1
    exact idft_congr (fun k hk => by rw [hxk k hk]) _

/-- Padding inside `cwt` succeeds for every scheme and nonempty signal. -/
theorem cwtPad_ok (t : Option PadType) (x : List ℝ) (hx : 0 < x.length) :
    ∃ xp, ∃ n1 : ℕ, cwtPad x (t.map padName) = .ok (xp, (n1 : ℤ)) ∧ Spec.Padded t x xp n1 ∧
      n1 + x.length ≤ xp.length := by
  cases t with
  | none => exact ⟨x, 0, by simp [cwtPad], ⟨rfl, rfl⟩, by omega⟩
  | some t =>
    obtain ⟨xp, nUp, n1, n2, h1, _, h3, h4, h5, h6, _, h8⟩ :=
      C02_C03_padding_partial x t none hx (by simp) (by simp)
    obtain ⟨m, rfl⟩ := Int.eq_ofNat_of_zero_le (show 0 ≤ n1 by omega)
    have hle : m + x.length ≤ xp.length := by omega
    have hw : nUp = (p2up x.length).1 ∧ (m : ℤ) = (p2up x.length).2.1 := by
      unfold padsignal at h1
      obtain ⟨t', _, h1⟩ := bind_ok h1
      obtain ⟨y, _, h1⟩ := bind_ok h1
      simp only [pure_eq_ok, Except.ok.injEq, Prod.mk.injEq] at h1
      exact ⟨h1.2.1.symm, h1.2.2.1.symm⟩
    refine ⟨xp, m, ?_, ⟨?_, hw.2, hle, h8⟩, hle⟩
    · simp only [cwtPad, Option.map_some, h1, ok_bind]
    · have := hw.1; omega

/-- `cwt` unfolded for a nonempty signal and a known pad type. -/
theorem cwt_unfold (x : List ℝ) (a : CwtArgs) (t : Option PadType) (ht : a.padtype = t.map padName)
    (hx : 0 < x.length) :
    ∃ xp, ∃ n1 : ℕ, Spec.Padded t x xp n1 ∧ n1 + x.length ≤ xp.length ∧
      cwt x a = (do
        let r ← cwtDt a.fs a.t x.length
        checkGmw a.wavelet.gmw a.l1Norm
        let sc ← processScales a.scales x.length (some a.wavelet.sw) (cwtNv a) true a.downsample
        .ok ((cwtRun a r.2 sc.1 x.length xp n1).1, sc.1, (cwtRun a r.2 sc.1 x.length xp n1).2)) := by
  obtain ⟨xp, n1, h1, h2, h3⟩ := cwtPad_ok t x hx
  refine ⟨xp, n1, h2, h3, ?_⟩
  unfold cwt
  rw [ht, h1]
  simp only [ok_bind]

end Ssq
