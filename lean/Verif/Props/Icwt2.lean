import Verif.Model.Icwt2
import Verif.Props.Icwt
import Verif.Props.HigherOrder

/-!
# Two-integral inverse CWT (C98)
-/
namespace Ssq
open Complex

/-! ## The rows -/

theorem tw_half {L : ℕ} (hL : L ≠ 0) (he : L % 2 = 0) (k : ℕ) : tw L (((L / 2 : ℕ) : ℤ) * k) = (-1) ^ k := by
  have h2 : (L : ℂ) = 2 * ((L / 2 : ℕ) : ℂ) := by
    have : L = 2 * (L / 2) := by omega
    exact_mod_cast this
  have hh : ((L / 2 : ℕ) : ℂ) ≠ 0 := by
    have : L / 2 ≠ 0 := by omega
    exact_mod_cast this
  unfold tw
  rw [h2, ← exp_pi_mul_I, ← exp_nat_mul]
  congr 1
  rw [Int.cast_mul, Int.cast_natCast, Int.cast_natCast]
  field_simp

/-- Modulation by `(-1)^k` moves by half the length. -/
theorem idft_pn {L : ℕ} (he : L % 2 = 0) (F : ℕ → ℂ) {j : ℕ} (hj : j < L) :
    idft L (fun k => F k * (-1) ^ k) ((j + L / 2) % L) = idft L F j := by
  have hL : L ≠ 0 := by omega
  unfold idft
  congr 1
  refine Finset.sum_congr rfl fun k _ => ?_
  rw [tw_emod hL]
  have : ((j + L / 2 : ℕ) : ℤ) * k = (j : ℤ) * k + ((L / 2 : ℕ) : ℤ) * k := by push_cast; ring
  rw [this, tw_add, tw_half hL he]
  have h1 : ((-1 : ℂ) ^ k) * (-1) ^ k = 1 := by
    rw [← mul_pow]; simp
  calc F k * (-1) ^ k * (tw L ((j : ℤ) * k) * (-1) ^ k)
      = F k * tw L ((j : ℤ) * k) * (((-1 : ℂ) ^ k) * (-1) ^ k) := by ring
    _ = F k * tw L ((j : ℤ) * k) := by rw [h1, mul_one]

theorem psihFull_length (f : WFn) (L : ℕ) (s : ℝ) : (psihFull f L s).length = L := by
  unfold psihFull
  have h1 : (dropImag f [sampleRow f L s]).length = 1 := by rw [dropImag_length]; rfl
  rw [List.getD_eq_getElem _ _ (by rw [h1]; exact one_pos)]
  exact dropImag_row_length f _ L (by simp [sampleRow_length]) _ (List.getElem_mem _)

theorem psihFull_real (f : WFn) (hf : ∀ w, (f.eval w).im = 0) (L : ℕ) (s : ℝ) {k : ℕ} (hk : k < L) :
    (psihFull f L s).getD k 0 = f.eval (s * Spec.xi L k) := by
  unfold psihFull
  rw [dropImag_real]
  · simp only [List.getD_cons_zero, sampleRow]
    have hl : k < (xifn 1 L).length := by simpa [sampleRow] using (sampleRow_length f L s).symm ▸ hk
    rw [getD_map_c _ _ _ 0 hl, xifn_xi L k hk]
  · intro r hr z hz
    simp only [List.mem_singleton] at hr
    subst hr
    simp only [sampleRow, List.mem_map] at hz
    obtain ⟨w, -, rfl⟩ := hz
    exact hf _

/-- One scale's contribution. -/
theorem icwt2Row_eq (f : WFn) (st : ScaleType) (l1 : Bool) (L : ℕ) (he : L % 2 = 0) (s : ℝ) (w : List ℂ)
    (hw : w.length = L) :
    icwt2Row f st l1 L s w = (List.range L).map fun j : ℕ =>
      (idft L (fun k => (psihFull f L s).getD k 0 * dft L (fun q => w.getD q 0) k) j).re /
        (icwtNorm st l1 s).getD 0 := by
  have hp := psihFull_length f L s
  have ht : (timesPn (psihFull f L s)).length = L := by simp [timesPn, hp]
  have hF : (List.zipWith (fun a b : ℂ => a * b) (fftL w) (timesPn (psihFull f L s))).length = L := by
    simp [fftL, hw, ht]
  have hI : (ifftL (List.zipWith (fun a b : ℂ => a * b) (fftL w) (timesPn (psihFull f L s)))).length = L := by
    simp [ifftL, fftL, hw, ht]
  unfold icwt2Row
  apply List.ext_getElem
  · simp [ifftshiftL, ifftL, fftL, hw, ht]
  intro j h1 h2
  have hj : j < L := by simpa using h2
  simp only [List.getElem_map, List.getElem_range]
  congr 2
  simp only [ifftshiftL, List.getElem_rotate, hI]
  have hm : (j + L / 2) % L < L := Nat.mod_lt _ (by omega)
  rw [← List.getD_eq_getElem _ 0 (by rw [hI]; exact hm)]
  unfold ifftL
  rw [hF, getD_map_range _ _ hm, ← idft_pn he _ hj]
  refine idft_congr (fun k hk => ?_) _
  rw [zipWith_getD _ _ _ k 0 0 0 (by simp [fftL, hw]; exact hk) (by rw [ht]; exact hk)]
  have e1 : (fftL w).getD k 0 = dft L (fun q => w.getD q 0) k := by
    unfold fftL; rw [hw, getD_map_range _ _ hk]
  have e2 : (timesPn (psihFull f L s)).getD k 0 = (psihFull f L s).getD k 0 * (-1) ^ k := by
    rw [List.getD_eq_getElem _ _ (by rw [ht]; exact hk), List.getD_eq_getElem _ _ (by rw [hp]; exact hk)]
    simp [timesPn]
  rw [e1, e2]
  ring

theorem foldl_addRows (L : ℕ) : ∀ (rows : List (List ℝ)) (acc : List ℝ), acc.length = L →
    (∀ r ∈ rows, r.length = L) →
    (rows.foldl (fun acc row => List.zipWith (fun u v : ℝ => u + v) acc row) acc).length = L ∧
    ∀ j < L, (rows.foldl (fun acc row => List.zipWith (fun u v : ℝ => u + v) acc row) acc).getD j 0 =
      acc.getD j 0 + (rows.map fun r => r.getD j 0).sum
  | [], acc, hacc, _ => ⟨hacc, fun j _ => by simp⟩
  | r :: rows, acc, hacc, h => by
    have hr := h r (by simp)
    have hz : (List.zipWith (fun u v : ℝ => u + v) acc r).length = L := by simp [hacc, hr]
    obtain ⟨h1, h2⟩ := foldl_addRows L rows _ hz (fun q hq => h q (by simp [hq]))
    refine ⟨h1, fun j hj => ?_⟩
    rw [List.foldl_cons, h2 j hj, zipWith_getD _ _ _ j 0 0 0 (by rw [hacc]; exact hj) (by rw [hr]; exact hj)]
    simp only [List.map_cons, List.sum_cons]
    ring

/-! ## Padding of complex rows -/

namespace Spec

/-- `wp` is the row `w` padded by scheme `t` to length `L`, `w` starting at `n1`. -/
def PaddedRow (t : PadType) (w wp : List ℂ) (L n1 : ℕ) : Prop :=
  wp.length = L ∧ ∀ E, IsExtension t w E → ∀ (p : ℕ) (h : p < wp.length), wp[p] = E ((p : ℤ) - n1)

end Spec

theorem padsignal2_rows (t : PadType) (n : ℕ) (hn : 0 < n) (W : List (List ℂ)) (hW : ∀ w ∈ W, w.length = n) :
    ∃ (wp : List (List ℂ)) (n1 : ℕ), (n1 : ℤ) = (p2up n).2.1 ∧ n1 + n ≤ (p2up n).1 ∧ (p2up n).1 % 2 = 0 ∧
      padsignal2 true n W (padName t) none = .ok (wp, ((p2up n).1 : ℤ), (n1 : ℤ), (p2up n).2.2) ∧
      List.Forall₂ (fun w wp => Spec.PaddedRow t w wp (p2up n).1 n1) W wp := by
  obtain ⟨-, h2, h3, h4, h5⟩ := padWidths_facts n hn none (by simp)
  have h5 := h5 rfl
  simp only [padWidths] at h2 h3 h4 h5
  obtain ⟨n1, hn1⟩ := Int.eq_ofNat_of_zero_le (show 0 ≤ (p2up n).2.1 by omega)
  have key : ∀ w ∈ W, ∃ wp, padNumpy t w (p2up n).2.1 (p2up n).2.2 = .ok wp ∧
      Spec.PaddedRow t w wp (p2up n).1 n1 := by
    intro w hw
    have hl := hW w hw
    obtain ⟨wp, hok, hlen, hext⟩ := padNumpy_ext t w (p2up n).2.1 (p2up n).2.2 (by omega) (by omega) h2
      (fun _ => by omega)
    refine ⟨wp, hok, by omega, ?_⟩
    intro E hE p hp
    rw [hext E hE p hp, hn1]
  have : ∃ wp, W.mapM (fun w => padNumpy t w (p2up n).2.1 (p2up n).2.2) = .ok wp ∧
      List.Forall₂ (fun w wp => Spec.PaddedRow t w wp (p2up n).1 n1) W wp := by
    clear hW
    induction W with
    | nil => exact ⟨[], rfl, .nil⟩
    | cons w W ih =>
      obtain ⟨wp, hwp, hp⟩ := key w (by simp)
      obtain ⟨ws, hws, hps⟩ := ih (fun q hq => key q (by simp [hq]))
      exact ⟨wp :: ws, by rw [List.mapM_cons, hwp, hws]; rfl, .cons hp hps⟩
  obtain ⟨wp, h6, h7⟩ := this
  refine ⟨wp, n1, hn1.symm, by omega, ?_, ?_, h7⟩
  · unfold p2up
    simp only [show n ≠ 0 by omega, if_false]
    rw [pow_add, pow_one]; omega
  · unfold padsignal2
    rw [parse_padName, ok_bind]
    change (do let xp ← W.mapM (fun w => padNumpy t w (p2up n).2.1 (p2up n).2.2)
               pure (xp, ((p2up n).1 : ℤ), (p2up n).2.1, (p2up n).2.2) : Py _) = _
    rw [h6, hn1]
    rfl

theorem unpad_getD (x : List ℝ) (n1 m : ℕ) :
    (unpad x (n1 : ℤ) m).length = min m (x.length - n1) ∧
    ∀ j < min m (x.length - n1), (unpad x (n1 : ℤ) m).getD j 0 = x.getD (n1 + j) 0 := by
  have e : unpad x (n1 : ℤ) m = (x.drop n1).take m := by
    unfold unpad
    rw [show (n1 : ℤ) + (m : ℤ) = ((n1 + m : ℕ) : ℤ) by push_cast; ring, pySlice_nat]
    congr 1; omega
  rw [e]
  refine ⟨by simp, fun j hj => ?_⟩
  rw [List.getD_eq_getElem _ _ (by simpa using hj), List.getD_eq_getElem _ _ (by omega)]
  simp

/-! ## C98 -/

namespace Spec

/-- The filter step of the two-integral inverse for one row: the row, circularly convolved with the wavelet of
scale `s`, at sample `p`. -/
noncomputable def refilter (f : ℝ → ℂ) (L : ℕ) (s : ℝ) (w : List ℂ) (p : ℕ) : ℂ :=
  idft L (fun k => f (s * xi L k) * dft L (fun q => w.getD q 0) k) p

end Spec

/-- **C98, values.** For every real-valued wavelet, transform, pad type, normalisation, logarithmic or linear scales
and `x_len`: the two-integral inverse pads every row of the transform, convolves it with the wavelet of its scale,
sums the real parts with the measure `d(scale)/scale` over the admissibility constant, and keeps the samples from
the pad on (up to `x_len` of them), plus `x_mean`. Missing for the full claim: transforms that kept their
padding, and unpadded transforms (see `C98_refuted`). Piecewise scales: `C98_pieces`. -/
theorem C98_values_partial (n : ℕ) (hn : 0 < n) (W : List (List ℂ)) (hW : ∀ w ∈ W, w.length = n)
    (a : Icwt2Args) (t : PadType) (ht : a.padtype = some (padName t))
    (hreal : ∀ w, (a.wavelet.fn.eval w).im = 0) (sh : List ℕ) (d : FDtype) (v : List ℝ) (st : ScaleType) (nv : Nv)
    (hinf : inferScaletype d v = .ok (st, nv)) (hst : st ≠ .logPiecewise) (hpos : ∀ s ∈ v, 0 < s)
    (xh : List ℝ) (h : icwt2 n W (.arr sh d v) a = .ok xh) :
    ∃ (wp : List (List ℂ)) (n1 : ℕ), (n1 : ℤ) = (p2up n).2.1 ∧ W.length = v.length ∧
      List.Forall₂ (fun w wp => Spec.PaddedRow t w wp (p2up n).1 n1) W wp ∧
      xh.length = min (if a.xLen = none ∨ a.xLen = some 0 then n else a.xLen.getD 0) ((p2up n).1 - n1) ∧
      ∀ j < xh.length, xh.getD j 0 =
        ∑ i ∈ Finset.range v.length, 2 / a.admCwt * Spec.icwtWeight st nv v i *
          ((Spec.refilter a.wavelet.fn.eval (p2up n).1 (v.getD i 0) (wp.getD i []) (n1 + j)).re /
            (if a.l1Norm then 1 else Real.sqrt (v.getD i 0))) + a.xMean := by
  obtain ⟨wp, n1, g1, g2, ge, g3, g4⟩ := padsignal2_rows t n hn W hW
  set L := (p2up n).1 with hL
  unfold icwt2 at h
  obtain ⟨_, _, h⟩ := bind_ok h
  simp only at h
  obtain ⟨r, hr, h⟩ := bind_ok h
  obtain ⟨e1, e2, e3⟩ := process_kind hinf hr
  rw [if_neg (by rw [e2]; exact hst)] at h
  unfold icwt2Top at h
  split at h
  · simp at h
  rename_i hlen
  rw [not_not, e1] at hlen
  unfold icwt2Leaf at h
  obtain ⟨x, hx, h⟩ := bind_ok h
  simp only [Except.ok.injEq] at h
  unfold icwt2int at hx
  split at hx
  · simp at hx
  rw [ht] at hx
  simp only [g3, ok_bind, Int.toNat_natCast, Except.ok.injEq, e1, e2] at hx
  have hwl : wp.length = v.length := by rw [← g4.length_eq, hlen]
  have hrow : ∀ i < wp.length, (wp.getD i []).length = L := by
    intro i hi
    have := (List.forall₂_iff_get.1 g4).2 i (by rw [g4.length_eq]; exact hi) hi
    rw [List.getD_eq_getElem _ _ hi]
    exact this.1
  have hrows : ∀ r ∈ List.zipWith (icwt2Row a.wavelet.fn st a.l1Norm L) v wp, r.length = L := by
    intro r hr
    rw [List.mem_iff_getElem] at hr
    obtain ⟨i, hi, rfl⟩ := hr
    simp only [List.length_zipWith] at hi
    rw [List.getElem_zipWith, icwt2Row_eq _ _ _ _ ge]
    · simp
    · have := hrow i (by omega)
      rwa [List.getD_eq_getElem _ _ (by omega)] at this
  obtain ⟨f1, f2⟩ := foldl_addRows L _ (List.replicate L 0) (by simp) hrows
  obtain ⟨u1, u2⟩ := unpad_getD (List.foldl (fun acc row => List.zipWith (fun u v : ℝ => u + v) acc row)
    (List.replicate L 0) (List.zipWith (icwt2Row a.wavelet.fn st a.l1Norm L) v wp)) n1
    (icwtArr.orElseN a.xLen n)
  rw [hx, f1] at u1 u2
  have hxl : xh.length = x.length := by rw [← h]; simp
  have hor : icwtArr.orElseN a.xLen n = if a.xLen = none ∨ a.xLen = some 0 then n else a.xLen.getD 0 := by
    cases hx : a.xLen with
    | none => simp [icwtArr.orElseN]
    | some k => cases k <;> simp [icwtArr.orElseN]
  refine ⟨wp, n1, g1, hlen.symm, g4, by rw [hxl, u1, hor], fun j hj => ?_⟩
  rw [hxl, u1] at hj
  have hxj : xh.getD j 0 = x.getD j 0 * icwtFactor a.admCwt r.2.1 r.2.2.2 + a.xMean := by
    rw [← h, List.getD_eq_getElem _ _ (by simp; omega), List.getD_eq_getElem _ _ (by omega)]
    simp
  have hjL : n1 + j < L := by omega
  rw [hxj, u2 j hj, f2 _ hjL, e2]
  congr 1
  rw [show (List.replicate L (0 : ℝ)).getD (n1 + j) 0 = 0 by simp [List.getD_replicate, hjL], zero_add,
    List.map_zipWith, zipWith_sum _ v wp 0 [] hwl.symm, Finset.sum_mul]
  refine Finset.sum_congr rfl fun i hi => ?_
  rw [Finset.mem_range] at hi
  have hs : 0 < v.getD i 0 := by
    rw [List.getD_eq_getElem _ _ hi]; exact hpos _ (List.getElem_mem _)
  have hq : 0 < Real.sqrt (v.getD i 0) := Real.sqrt_pos.2 hs
  have hR : idft L (fun k => (psihFull a.wavelet.fn L (v.getD i 0)).getD k 0 *
      dft L (fun q => (wp.getD i []).getD q 0) k) (n1 + j) =
      Spec.refilter a.wavelet.fn.eval L (v.getD i 0) (wp.getD i []) (n1 + j) := by
    unfold Spec.refilter
    refine idft_congr (fun k hk => ?_) _
    rw [psihFull_real _ hreal _ _ hk]
  rw [icwt2Row_eq _ _ _ _ ge _ _ (hrow i (by omega)), getD_map_range _ _ hjL, hR]
  rcases infer_kind hinf with ⟨rfl, m, rfl⟩ | ⟨rfl, rfl⟩ | ⟨rfl, -⟩
  · rw [e3 (by simp)]
    simp only [icwtNorm, icwtFactor, Spec.icwtWeight]
    rw [Real.log_rpow two_pos]
    cases a.l1Norm <;> simp <;> ring
  · have hf : icwtFactor a.admCwt .linear r.2.2.2 = 2 / a.admCwt * Real.pi / 4 := by
      unfold icwtFactor; cases r.2.2.2 <;> rfl
    rw [hf]
    simp only [icwtNorm, Spec.icwtWeight]
    cases a.l1Norm
    · simp only [Bool.false_eq_true, if_false, Option.getD_some]; field_simp
    · simp only [if_true, reduceCtorEq, if_false, Option.getD_some]; field_simp
  · exact absurd rfl hst

/-- **C98, success.** With a pad type and without `rpadded`, the inverse of a transform with recognised
logarithmic or linear scales succeeds. -/
theorem C98_succeeds (n : ℕ) (hn : 0 < n) (W : List (List ℂ)) (hW : ∀ w ∈ W, w.length = n)
    (a : Icwt2Args) (t : PadType) (ht : a.padtype = some (padName t)) (hrp : a.rpadded = false)
    (hg : ∀ b, a.wavelet.gmw = some b → b = a.l1Norm)
    (sh : List ℕ) (d : FDtype) (v : List ℝ) (st : ScaleType) (nv : Nv)
    (hinf : inferScaletype d v = .ok (st, nv)) (hst : st ≠ .logPiecewise) (hlen : W.length = v.length)
    (hp : ∃ r, processScales (.arr sh d v) (icwtArr.orElseN a.xLen n) (some a.wavelet.sw) a.nv true a.downsample =
      .ok r) : ∃ xh, icwt2 n W (.arr sh d v) a = .ok xh := by
  obtain ⟨wp, n1, -, -, -, g3, -⟩ := padsignal2_rows t n hn W hW
  obtain ⟨r, hr⟩ := hp
  obtain ⟨e1, e2, e3⟩ := process_kind hinf hr
  have hgm : checkGmw a.wavelet.gmw a.l1Norm = .ok () := by
    unfold checkGmw
    cases hb : a.wavelet.gmw with
    | none => rfl
    | some b => simp only [hg b hb, if_true]
  unfold icwt2
  rw [hgm, ok_bind]
  simp only
  rw [hr, ok_bind, if_neg (by rw [e2]; exact hst)]
  unfold icwt2Top
  rw [if_neg (by rw [e1, hlen]; simp)]
  unfold icwt2Leaf icwt2int
  rw [hrp, ht]
  simp only [Bool.false_eq_true, if_false, g3, ok_bind]
  exact ⟨_, rfl⟩

/-- **C98, rejections.** `rpadded=True` raises `UnboundLocalError` (the padded length is never computed), and
`padtype=None` raises `ValueError`, whatever the transform. -/
theorem C98_rejects (n : ℕ) (W : List (List ℂ)) (a : Icwt2Args) (sh : List ℕ) (d : FDtype) (v : List ℝ)
    (st : ScaleType) (nv : Nv) (hinf : inferScaletype d v = .ok (st, nv)) (hst : st ≠ .logPiecewise)
    (hg : ∀ b, a.wavelet.gmw = some b → b = a.l1Norm) (hlen : W.length = v.length)
    (hp : ∃ r, processScales (.arr sh d v) (icwtArr.orElseN a.xLen n) (some a.wavelet.sw) a.nv true a.downsample =
      .ok r) :
    (a.rpadded = true → icwt2 n W (.arr sh d v) a = .error .unboundLocalError) ∧
    (a.rpadded = false → a.padtype = none → icwt2 n W (.arr sh d v) a = .error .valueError) := by
  obtain ⟨r, hr⟩ := hp
  obtain ⟨e1, e2, e3⟩ := process_kind hinf hr
  have hgm : checkGmw a.wavelet.gmw a.l1Norm = .ok () := by
    unfold checkGmw
    cases hb : a.wavelet.gmw with
    | none => rfl
    | some b => simp only [hg b hb, if_true]
  have key : icwt2 n W (.arr sh d v) a = icwt2Leaf a n W r.1 r.2.1 r.2.2.2 := by
    unfold icwt2
    rw [hgm, ok_bind]
    simp only
    rw [hr, ok_bind, if_neg (by rw [e2]; exact hst)]
    unfold icwt2Top
    rw [if_neg (by rw [e1, hlen]; simp)]
  constructor
  · intro h1
    rw [key]; unfold icwt2Leaf icwt2int
    rw [if_pos h1]; rfl
  · intro h1 h2
    rw [key]; unfold icwt2Leaf icwt2int
    rw [if_neg (by rw [h1]; simp), h2]; rfl

/-- The full claim: whatever padding `cwt` was asked for, its output can be inverted with the same arguments. -/
def C98_full : Prop :=
  ∀ (x : List ℝ) (a : CwtArgs) (t : Option PadType), a.padtype = t.map padName → 0 < x.length →
    ∀ (W : List (List ℂ)) (sc : List ℝ) (dW : List (List ℂ)), cwt x a = .ok (W, sc, dW) →
    ∀ (n : ℕ), (∀ w ∈ W, w.length = n) → ∀ b : Icwt2Args, b.wavelet = a.wavelet → b.l1Norm = a.l1Norm →
      b.padtype = a.padtype → b.rpadded = a.rpadded → b.nv = none →
      ∃ xh, icwt2 n W (.arr [sc.length] .f64 sc) b = .ok xh

/-- Arguments of the witness. -/
noncomputable def icwt2Ex (t : Option PadType) (rp : Bool) : Icwt2Args where
  wavelet := (argsR none).wavelet
  admSsq := 1
  admCwt := 1
  padtype := t.map padName
  rpadded := rp

theorem C98_refuted : ¬ C98_full := by
  intro hfull
  obtain ⟨W, dW, h⟩ := argsR_ok [3, 1, 4] (by simp) none
  obtain ⟨c, hc⟩ := cwt_shape [3, 1, 4] (by simp) none (argsR none).rpadded
  obtain ⟨hl, -, hr, -⟩ := hc (argsR none) rfl rfl _ _ _ h
  obtain ⟨xh, hx⟩ := hfull [3, 1, 4] (argsR none) none rfl (by simp) W _ dW h c hr (icwt2Ex none false)
    rfl rfl rfl rfl rfl
  rw [(C98_rejects c W (icwt2Ex none false) [[1, 2, 4].length] .f64 [1, 2, 4] .log (.int 1) infer124 (by simp)
    (by simp [icwt2Ex, argsR]) hl ⟨_, process124 _ _ _ _⟩).2 rfl rfl] at hx
  simp at hx

/-! ### Exactness for periodic signals -/

theorem sum_range_two_mul (F : ℕ → ℂ) (N : ℕ) :
    ∑ k ∈ Finset.range (2 * N), F k = ∑ k ∈ Finset.range N, (F (2 * k) + F (2 * k + 1)) := by
  induction N with
  | zero => simp
  | succ N ih =>
    rw [Finset.sum_range_succ, show 2 * (N + 1) = 2 * N + 1 + 1 by ring, Finset.sum_range_succ,
      Finset.sum_range_succ, ih]
    ring

theorem tw_two_mul (N : ℕ) (a : ℤ) : tw (2 * N) (2 * a) = tw N a := by
  unfold tw
  congr 1
  push_cast
  rw [show 2 * (Real.pi : ℂ) * I * (2 * a) = 2 * (2 * Real.pi * I * a) by ring]
  exact mul_div_mul_left _ _ two_ne_zero

/-- A signal of period `N`, transformed over two periods. -/
theorem dft_two_periods {N : ℕ} (hN : N ≠ 0) (g : ℕ → ℂ) (hg : ∀ q < N, g (N + q) = g q) (k : ℕ) :
    dft (2 * N) g (2 * k) = 2 * dft N g k ∧ dft (2 * N) g (2 * k + 1) = 0 := by
  have hsplit : ∀ m : ℕ, dft (2 * N) g m = ∑ q ∈ Finset.range N,
      g q * tw (2 * N) (-((q : ℤ) * m)) * (1 + tw (2 * N) (-((N : ℤ) * m))) := by
    intro m
    unfold dft
    rw [two_mul, Finset.sum_range_add, ← Finset.sum_add_distrib]
    refine Finset.sum_congr rfl fun q hq => ?_
    rw [hg q (Finset.mem_range.1 hq),
      show -(((N + q : ℕ) : ℤ) * (m : ℤ)) = -((q : ℤ) * m) + -((N : ℤ) * m) by push_cast; ring, tw_add]
    ring
  have hhalf : ∀ m : ℕ, tw (2 * N) (-((N : ℤ) * m)) = (-1) ^ m := by
    intro m
    have := tw_half (L := 2 * N) (by omega) (by omega) m
    rw [show 2 * N / 2 = N by omega] at this
    rw [tw_neg, this]
    rw [← inv_pow, inv_neg, inv_one]
  constructor
  · rw [hsplit, hhalf, pow_mul]
    unfold dft
    rw [Finset.mul_sum]
    refine Finset.sum_congr rfl fun q _ => ?_
    rw [show -((q : ℤ) * ((2 * k : ℕ) : ℤ)) = 2 * (-((q : ℤ) * k)) by push_cast; ring, tw_two_mul]
    norm_num; ring
  · rw [hsplit, hhalf, pow_succ, pow_mul]
    refine Finset.sum_eq_zero fun q _ => ?_
    norm_num

theorem idft_two_periods {N : ℕ} (hN : N ≠ 0) (g : ℕ → ℂ) (hg : ∀ q < N, g (N + q) = g q) (H : ℕ → ℂ) (p : ℕ) :
    idft (2 * N) (fun k => H k * dft (2 * N) g k) p = idft N (fun k => H (2 * k) * dft N g k) p := by
  have hN' : (N : ℂ) ≠ 0 := by exact_mod_cast hN
  unfold idft
  rw [sum_range_two_mul]
  rw [Finset.sum_congr rfl (g := fun k : ℕ => 2 * (H (2 * k) * dft N g k * tw N ((p : ℤ) * k)))]
  · rw [← Finset.mul_sum]
    push_cast
    exact mul_div_mul_left _ _ two_ne_zero
  · intro k _
    dsimp only
    rw [(dft_two_periods hN g hg k).1, (dft_two_periods hN g hg k).2,
      show (p : ℤ) * ((2 * k : ℕ) : ℤ) = 2 * ((p : ℤ) * k) by push_cast; ring, tw_two_mul]
    ring

theorem xi_two_mul (N k : ℕ) (hN : N ≠ 0) : Spec.xi (2 * N) (2 * k) = Spec.xi N k := by
  have hN' : (N : ℝ) ≠ 0 := by exact_mod_cast hN
  unfold Spec.xi
  by_cases h : 2 * k ≤ N
  · rw [if_pos (by omega), if_pos h]; push_cast; field_simp
  · rw [if_neg (by omega), if_neg h]; push_cast; field_simp

/-- The pad of a power of two: half the length on each side. -/
theorem p2up_pow (m : ℕ) (hm : 1 ≤ m) : p2up (2 ^ m) = (2 * 2 ^ m, ((2 ^ m / 2 : ℕ) : ℤ), ((2 ^ m / 2 : ℕ) : ℤ)) := by
  have hlog : Real.logb 2 ((2 ^ m : ℕ) : ℝ) = m := by
    push_cast
    rw [← Real.rpow_natCast, Real.logb_rpow (by norm_num) (by norm_num)]
  have hr : roundHalfEven (Real.logb 2 ((2 ^ m : ℕ) : ℝ)) = m := by
    rw [hlog]
    have := rhe_intCast (K := ℝ) (m : ℤ)
    simpa using this
  have hne : (2 : ℕ) ^ m ≠ 0 := by positivity
  have hev : (2 : ℕ) ^ m % 2 = 0 := by
    obtain ⟨k, rfl⟩ := Nat.exists_eq_add_of_le hm
    rw [pow_add]; omega
  unfold p2up
  simp only [hne, if_false, hr, Int.toNat_natCast]
  have : (2 : ℕ) ^ (1 + m) = 2 * 2 ^ m := by rw [pow_add, pow_one]
  rw [this]
  generalize (2 : ℕ) ^ m = N at *
  refine Prod.ext rfl (Prod.ext ?_ ?_)
  · simp only; omega
  · simp only; omega

/-- Filtering the periodic extension is filtering the period. -/
theorem refilter_wrap (f : ℝ → ℂ) (N : ℕ) (hN : 0 < N) (n1 : ℕ) (hn : n1 ≤ N) (s : ℝ) (w wp : List ℂ)
    (hw : w.length = N) (hp : Spec.PaddedRow .wrap w wp (2 * N) n1) (j : ℕ) :
    Spec.refilter f (2 * N) s wp (n1 + j) =
      idft N (fun k => f (s * Spec.xi N k) * dft N (fun q => w.getD q 0) k) j := by
  have hN0 : N ≠ 0 := by omega
  set g : ℕ → ℂ := fun q => w.getD ((q + (N - n1)) % N) 0 with hgd
  have hE : Spec.IsExtension .wrap w (fun i : ℤ => w.getD ((i % (N : ℤ)).toNat) 0) := by
    refine ⟨fun i hi => ?_, fun i => ?_⟩
    · rw [hw] at hi
      have : ((i : ℤ) % (N : ℤ)).toNat = i := by
        rw [← Int.natCast_mod, Int.toNat_natCast, Nat.mod_eq_of_lt hi]
      simp only [this]
      rw [List.getD_eq_getElem _ _ (by omega)]
    · simp only [hw, Int.add_emod_right]
  have hwp : ∀ q < 2 * N, wp.getD q 0 = g q := by
    intro q hq
    rw [List.getD_eq_getElem _ _ (by rw [hp.1]; exact hq), hp.2 _ hE q (by rw [hp.1]; exact hq)]
    simp only [hgd]
    congr 1
    have : ((q : ℤ) - n1) % (N : ℤ) = (((q + (N - n1)) % N : ℕ) : ℤ) := by
      rw [Int.natCast_mod]
      push_cast [Nat.cast_sub hn]
      rw [show (q : ℤ) + ((N : ℤ) - n1) = (q : ℤ) - n1 + N by ring, Int.add_emod_right]
    rw [this, Int.toNat_natCast]
  have hper : ∀ q < N, g (N + q) = g q := by
    intro q _
    simp only [hgd]
    rw [show N + q + (N - n1) = (q + (N - n1)) + N by ring, Nat.add_mod_right]
  unfold Spec.refilter
  rw [idft_congr (g := fun k => f (s * Spec.xi (2 * N) k) * dft (2 * N) g k)
    (fun k _ => by rw [dft_congr hwp])]
  rw [idft_two_periods hN0 g hper (fun k => f (s * Spec.xi (2 * N) k))]
  unfold idft
  congr 1
  refine Finset.sum_congr rfl fun k hk => ?_
  dsimp only
  rw [xi_two_mul N k hN0, dft_shift (fun q => w.getD q 0) (N - n1) (Finset.mem_range.1 hk)]
  have : tw N (((N - n1 : ℕ) : ℤ) * k) * tw N (((n1 + j : ℕ) : ℤ) * k) = tw N ((j : ℤ) * k) := by
    rw [← tw_add, show ((N - n1 : ℕ) : ℤ) * (k : ℤ) + ((n1 + j : ℕ) : ℤ) * k = (N : ℤ) * k + (j : ℤ) * k by
      push_cast [Nat.cast_sub hn]; ring, tw_add, tw_mul_n hN0, one_mul]
  rw [← this]
  ring

namespace Spec

/-- The frequency response of `icwt(cwt(x), one_int=False)`: each wavelet is applied twice. -/
noncomputable def icwt2Gain (f : ℝ → ℂ) (L : ℕ) (C : ℝ) (st : ScaleType) (nv : Nv) (v : List ℝ) (k : ℕ) : ℂ :=
  ∑ i ∈ Finset.range v.length, ((2 / C * icwtWeight st nv v i : ℝ) : ℂ) *
    (f (v.getD i 0 * xi L k) * wavSample f L (v.getD i 0) k)

end Spec

/-- **C98, filter.** For a signal whose length is a power of two, taken as periodic (`padtype=None` forward and
`'wrap'` in the inverse), the two-integral inverse of the transform is exactly the signal filtered with the
sum over scales of the squared wavelets over the admissibility constant, plus `x_mean`. -/
theorem C98_filter (m : ℕ) (hm : 1 ≤ m) (x : List ℝ) (hx : x.length = 2 ^ m) (a : CwtArgs)
    (hp : a.padtype = none) (hreal : ∀ w, (a.wavelet.fn.eval w).im = 0)
    (W : List (List ℂ)) (sc : List ℝ) (dW : List (List ℂ)) (h : cwt x a = .ok (W, sc, dW))
    (b : Icwt2Args) (hbw : b.wavelet = a.wavelet) (hb : b.l1Norm = a.l1Norm) (hbp : b.padtype = some "wrap")
    (hxl : b.xLen = none) (sh : List ℕ) (d : FDtype) (st : ScaleType) (nv : Nv)
    (hinf : inferScaletype d sc = .ok (st, nv)) (hst : st ≠ .logPiecewise) (hpos : ∀ s ∈ sc, 0 < s)
    (xh : List ℝ) (hi : icwt2 x.length W (.arr sh d sc) b = .ok xh) :
    xh.length = x.length ∧ ∀ j < x.length, xh.getD j 0 =
      (idft x.length (fun k => Spec.icwt2Gain a.wavelet.fn.eval x.length b.admCwt st nv sc k *
        dft x.length (fun q => ((x.getD q 0 : ℝ) : ℂ)) k) j).re + b.xMean := by
  have hx0 : 0 < x.length := by rw [hx]; positivity
  obtain ⟨xp, n0, fs, dt, hpad, -, -, hWl, -, hrow⟩ := C37_rows_partial x a none (by simpa using hp) hx0 hreal W sc dW h
  obtain ⟨rfl, rfl⟩ := hpad
  set N := xp.length with hN
  have hW : ∀ w ∈ W, w.length = N := by
    intro w hw
    rw [List.mem_iff_getElem] at hw
    obtain ⟨i, hi, rfl⟩ := hw
    have := (hrow i (by omega)).1
    rw [List.getD_eq_getElem _ _ hi] at this
    simpa using this
  obtain ⟨wp, n1, e1, -, e3, e4, e5⟩ := C98_values_partial N hx0 W hW b .wrap hbp (by rw [hbw]; exact hreal) sh d sc st nv
    hinf hst hpos xh hi
  have hpu : p2up N = (2 * N, ((N / 2 : ℕ) : ℤ), ((N / 2 : ℕ) : ℤ)) := by
    rw [hx]; exact p2up_pow m hm
  rw [hpu] at e1 e3 e4 e5
  simp only at e1 e3 e4 e5
  have hn1 : n1 = N / 2 := by exact_mod_cast e1
  rw [hxl] at e4
  simp only [true_or, if_true] at e4
  have hlen : xh.length = N := by omega
  refine ⟨hlen, fun j hj => ?_⟩
  rw [e5 j (by omega)]
  congr 1
  have hwpl : wp.length = sc.length := by rw [← e3.length_eq, hWl]
  have hterm : ∀ i ∈ Finset.range sc.length, 2 / b.admCwt * Spec.icwtWeight st nv sc i *
      ((Spec.refilter b.wavelet.fn.eval (2 * N) (sc.getD i 0) (wp.getD i []) (n1 + j)).re /
        (if b.l1Norm then 1 else Real.sqrt (sc.getD i 0))) =
      (idft N (fun k => ((2 / b.admCwt * Spec.icwtWeight st nv sc i : ℝ) : ℂ) *
        (a.wavelet.fn.eval (sc.getD i 0 * Spec.xi N k) * Spec.wavSample a.wavelet.fn.eval N (sc.getD i 0) k) *
        dft N (fun q => ((xp.getD q 0 : ℝ) : ℂ)) k) j).re := by
    intro i hi
    rw [Finset.mem_range] at hi
    have hpr : Spec.PaddedRow .wrap (W.getD i []) (wp.getD i []) (2 * N) n1 := by
      have := (List.forall₂_iff_get.1 e3).2 i (by omega) (by omega)
      rw [List.getD_eq_getElem _ _ (by omega), List.getD_eq_getElem _ _ (by omega)]
      exact this
    have hWi : (W.getD i []).length = N := by
      rw [List.getD_eq_getElem _ _ (by omega)]; exact hW _ (List.getElem_mem _)
    have hs : sc.getD i 0 = sc[i] := List.getD_eq_getElem _ _ hi
    have hspos : 0 < sc.getD i 0 := by rw [hs]; exact hpos _ (List.getElem_mem _)
    have hq : Real.sqrt (sc.getD i 0) ≠ 0 := (Real.sqrt_pos.2 hspos).ne'
    rw [refilter_wrap _ N hx0 n1 (by omega) _ _ _ hWi hpr, hbw]
    have hdft : ∀ k < N, dft N (fun q => (W.getD i []).getD q 0) k =
        (((if b.l1Norm then 1 else Real.sqrt (sc.getD i 0) : ℝ)) : ℂ) *
          (Spec.wavSample a.wavelet.fn.eval N (sc.getD i 0) k * dft N (fun q => ((xp.getD q 0 : ℝ) : ℂ)) k) := by
      intro k hk
      rw [dft_congr (g := fun q => (((if b.l1Norm then 1 else Real.sqrt (sc.getD i 0) : ℝ)) : ℂ) *
          idft N (fun k => Spec.wavSample a.wavelet.fn.eval N (sc.getD i 0) k *
            dft N (fun q => ((xp.getD q 0 : ℝ) : ℂ)) k) q), dft_smul, dft_idft _ hk]
      intro q hq
      have := ((hrow i hi).2.2 q (by simpa using hq)).1
      simp only [Option.isSome_none, Bool.false_eq_true, and_false, if_false] at this
      rw [hb, hs]
      unfold ent at this
      rw [this]
      split <;> simp
    rw [idft_congr (g := fun k => (((if b.l1Norm then 1 else Real.sqrt (sc.getD i 0) : ℝ)) : ℂ) *
        (a.wavelet.fn.eval (sc.getD i 0 * Spec.xi N k) * Spec.wavSample a.wavelet.fn.eval N (sc.getD i 0) k *
          dft N (fun q => ((xp.getD q 0 : ℝ) : ℂ)) k))
      (fun k hk => by rw [hdft k hk]; ring), idft_smul, re_ofReal_mul]
    rw [idft_congr (f := fun k => ((2 / b.admCwt * Spec.icwtWeight st nv sc i : ℝ) : ℂ) * _ * _)
      (g := fun k => ((2 / b.admCwt * Spec.icwtWeight st nv sc i : ℝ) : ℂ) *
        (a.wavelet.fn.eval (sc.getD i 0 * Spec.xi N k) * Spec.wavSample a.wavelet.fn.eval N (sc.getD i 0) k *
          dft N (fun q => ((xp.getD q 0 : ℝ) : ℂ)) k))
      (fun k _ => by ring), idft_smul, re_ofReal_mul]
    cases b.l1Norm
    · simp only [Bool.false_eq_true, if_false]; field_simp
    · simp
  rw [Finset.sum_congr rfl hterm, ← re_sum, ← idft_sum]
  congr 1
  refine idft_congr (fun k _ => ?_) _
  unfold Spec.icwt2Gain
  rw [Finset.sum_mul]

/-- **C98, exactness.** If moreover the response is flat — its values at every two opposite nonzero frequencies add
up to 2 — the two-integral inverse returns the signal, up to its mean (whose factor is the response at zero) and
`x_mean`. -/
theorem C98_exact (m : ℕ) (hm : 1 ≤ m) (x : List ℝ) (hx : x.length = 2 ^ m) (a : CwtArgs)
    (hp : a.padtype = none) (hreal : ∀ w, (a.wavelet.fn.eval w).im = 0)
    (W : List (List ℂ)) (sc : List ℝ) (dW : List (List ℂ)) (h : cwt x a = .ok (W, sc, dW))
    (b : Icwt2Args) (hbw : b.wavelet = a.wavelet) (hb : b.l1Norm = a.l1Norm) (hbp : b.padtype = some "wrap")
    (hxl : b.xLen = none) (sh : List ℕ) (d : FDtype) (st : ScaleType) (nv : Nv)
    (hinf : inferScaletype d sc = .ok (st, nv)) (hst : st ≠ .logPiecewise) (hpos : ∀ s ∈ sc, 0 < s)
    (hflat : ∀ k, 0 < k → k < x.length →
      Spec.icwt2Gain a.wavelet.fn.eval x.length b.admCwt st nv sc k +
        Spec.icwt2Gain a.wavelet.fn.eval x.length b.admCwt st nv sc (x.length - k) = 2)
    (xh : List ℝ) (hi : icwt2 x.length W (.arr sh d sc) b = .ok xh) :
    xh.length = x.length ∧ ∀ j < x.length, xh.getD j 0 = x.getD j 0 +
      ((Spec.icwt2Gain a.wavelet.fn.eval x.length b.admCwt st nv sc 0).re - 1) * (x.sum / x.length) + b.xMean := by
  obtain ⟨h1, h2⟩ := C98_filter m hm x hx a hp hreal W sc dW h b hbw hb hbp hxl sh d st nv hinf hst hpos xh hi
  refine ⟨h1, fun j hj => ?_⟩
  have him : ∀ k < x.length, (Spec.icwt2Gain a.wavelet.fn.eval x.length b.admCwt st nv sc k).im = 0 := by
    intro k _
    unfold Spec.icwt2Gain
    rw [im_sum]
    refine Finset.sum_eq_zero fun i _ => ?_
    rw [im_ofReal_mul, mul_im, hreal, wavSample_im hreal]
    simp
  rw [h2 j hj, filter_flat x.length (by omega) (fun q => x.getD q 0) _ him hflat j hj, list_sum_range]

/-- A call whose response is flat: `admCwt` chosen for the two-sample period. -/
noncomputable def icwt2Flat : Icwt2Args where
  wavelet := (argsR none).wavelet
  admSsq := 1
  admCwt := 21 * Real.pi ^ 2 * Real.log 2
  padtype := some "wrap"
  xMean := 2

/-- All hypotheses of `C98_values_partial`, `C98_succeeds`, `C98_filter` and `C98_exact` hold together: the
two-integral inverse reconstructs `[3, 1]` exactly. -/
example : ∃ W dW xh, cwt [3, 1] (argsR none) = .ok (W, [1, 2, 4], dW) ∧
    icwt2 2 W sc124 icwt2Flat = .ok xh ∧ xh.length = 2 ∧ xh.getD 0 0 = 3 ∧ xh.getD 1 0 = 1 := by
  obtain ⟨W, dW, hW⟩ := argsR_ok [3, 1] (by simp) none
  obtain ⟨_, _, _, _, ⟨rfl, rfl⟩, -, -, hl, -, hrow⟩ := C37_rows_partial [3, 1] (argsR none) none rfl (by simp)
    (fun w => by simp [argsR, WFn.eval]) W _ dW hW
  have hlen : ∀ w ∈ W, w.length = 2 := by
    intro w hw
    rw [List.mem_iff_getElem] at hw
    obtain ⟨i, hi, rfl⟩ := hw
    have := (hrow i (by omega)).1
    rw [List.getD_eq_getElem _ _ hi] at this
    simpa using this
  obtain ⟨xh, hx⟩ := C98_succeeds 2 (by norm_num) W hlen icwt2Flat .wrap rfl rfl
    (by simp [icwt2Flat, argsR]) [3] .f64 [1, 2, 4] .log (.int 1) infer124 (by simp) hl
    ⟨_, process124 _ _ _ _⟩
  have hpi := Real.pi_pos
  have hlog : 0 < Real.log 2 := Real.log_pos (by norm_num)
  have g0 : Spec.icwt2Gain (argsR none).wavelet.fn.eval 2 icwt2Flat.admCwt .log (.int 1) [1, 2, 4] 0 = 0 := by
    simp [Spec.icwt2Gain, Finset.sum_range_succ, Spec.xi, Spec.wavSample, argsR, WFn.eval, fnR]
  have g1 : Spec.icwt2Gain (argsR none).wavelet.fn.eval 2 icwt2Flat.admCwt .log (.int 1) [1, 2, 4] 1 = 1 := by
    have hw : ∀ s : ℝ, 0 < s → (argsR none).wavelet.fn.eval (s * Spec.xi 2 1) = ((s * Real.pi : ℝ) : ℂ) := by
      intro s hs
      simp only [Spec.xi, argsR, WFn.eval, fnR]
      norm_num
      rw [if_pos (by positivity)]
      push_cast; rfl
    unfold Spec.icwt2Gain Spec.wavSample
    simp only [List.length_cons, List.length_nil, Finset.sum_range_succ, Finset.sum_range_zero, zero_add,
      List.getD_cons_zero, List.getD_cons_succ, mul_one, if_true, Spec.icwtWeight, icwt2Flat]
    rw [hw 1 one_pos, hw 2 two_pos, hw 4 (by norm_num)]
    norm_cast
    have hp2 : Real.pi ≠ 0 := hpi.ne'
    have hl2 : Real.log 2 ≠ 0 := hlog.ne'
    field_simp
    norm_num
  obtain ⟨h1, h2⟩ := C98_exact 1 le_rfl [3, 1] rfl (argsR none) rfl (fun w => by simp [argsR, WFn.eval]) W [1, 2, 4]
    dW hW icwt2Flat rfl rfl rfl rfl [3] .f64 .log (.int 1) infer124 (by simp) (by simp)
    (by
      intro k h0 hk
      have : k = 1 := by simp at hk; omega
      subst this
      show Spec.icwt2Gain _ 2 _ _ _ _ 1 + Spec.icwt2Gain _ 2 _ _ _ _ 1 = 2
      rw [g1]; norm_num) xh hx
  have g0' : Spec.icwt2Gain (argsR none).wavelet.fn.eval ([3, 1] : List ℝ).length icwt2Flat.admCwt .log (.int 1) [1, 2, 4] 0
      = 0 := g0
  refine ⟨W, dW, xh, hW, hx, h1, ?_, ?_⟩
  · rw [h2 0 (by simp), g0']; norm_num [icwt2Flat]
  · rw [h2 1 (by simp), g0']; norm_num [icwt2Flat]

/-- `C98_rejects` and the failing call of `C98_refuted`, with and without `rpadded`. -/
example : icwt2 2 [[1, 2], [3, 4], [5, I]] sc124 (icwt2Ex (some .reflect) true) = .error .unboundLocalError ∧
    icwt2 2 [[1, 2], [3, 4], [5, I]] sc124 (icwt2Ex none false) = .error .valueError :=
  ⟨(C98_rejects 2 _ (icwt2Ex (some .reflect) true) [3] .f64 [1, 2, 4] .log (.int 1) infer124 (by simp)
      (by simp [icwt2Ex, argsR]) rfl ⟨_, process124 _ _ _ _⟩).1 rfl,
    (C98_rejects 2 _ (icwt2Ex none false) [3] .f64 [1, 2, 4] .log (.int 1) infer124 (by simp)
      (by simp [icwt2Ex, argsR]) rfl ⟨_, process124 _ _ _ _⟩).2 rfl rfl⟩

/-! ### Piecewise scales -/

/-- One geometric segment, through the recursion and through a call of its own. -/
theorem icwt2Arr_geometric (a : Icwt2Args) (n : ℕ) (W : List (List ℂ)) {v : List ℝ} {b : ℝ} {m : ℕ}
    (hm : 1 ≤ m) (h : Spec.Geometric v b (1 / (m : ℝ))) (h3 : 3 ≤ v.length)
    (hg : checkGmw a.wavelet.gmw a.l1Norm = .ok ()) :
    icwt2Arr a n W v = icwt2 n W (.arr [v.length, 1] .f64 v) { a with nv := none } := by
  have hsh : ((([v.length, 1] : List ℕ)).filter (· ≠ 1)).length = 1 := by
    rw [List.filter_cons_of_pos (by simp; omega)]; simp
  unfold icwt2Arr icwt2
  simp only [process_geometric (dt := .f64) (by decide) hm h h3 hsh, hg, ok_bind]
  simp only [reduceCtorEq, if_false]
  rfl

/-- **C98, piecewise scales.** For scales in two segments with different whole numbers of voices per octave, each of
three scales or more: the inverse exists exactly when both segments can be inverted on their own, each with its rows of
the transform, and is the sample by sample sum of the two (so `C98_values_partial` gives its values). -/
theorem C98_pieces (n : ℕ) (W : List (List ℂ)) (a : Icwt2Args) (sh : List ℕ) (d : FDtype) (v : List ℝ) (nv : Nv)
    (p : ℕ) (b : ℝ) (n0 n1 : ℕ) (h0 : 1 ≤ n0) (h1 : 1 ≤ n1) (hne : n0 ≠ n1)
    (htwo : Spec.TwoSegment v p b (1 / (n0 : ℝ)) (1 / (n1 : ℝ))) (hp2 : 2 ≤ p) (hp4 : p + 4 ≤ v.length)
    (hinf : inferScaletype d v = .ok (.logPiecewise, nv)) (hlen : W.length = v.length)
    (hg : ∀ b, a.wavelet.gmw = some b → b = a.l1Norm)
    (hp : ∃ r, processScales (.arr sh d v) (icwtArr.orElseN a.xLen n) (some a.wavelet.sw) a.nv true a.downsample =
      .ok r) (xh : List ℝ) :
    icwt2 n W (.arr sh d v) a = .ok xh ↔ ∃ x y,
      icwt2 n (W.take (p + 1)) (.arr [p + 1, 1] .f64 (v.take (p + 1))) { a with nv := none } = .ok x ∧
      icwt2 n (W.drop (p + 1)) (.arr [v.length - (p + 1), 1] .f64 (v.drop (p + 1))) { a with nv := none } = .ok y ∧
      xh = List.zipWith (fun u v : ℝ => u + v) x y := by
  obtain ⟨r, hr⟩ := hp
  obtain ⟨e1, e2, -⟩ := process_kind hinf hr
  have hgm : checkGmw a.wavelet.gmw a.l1Norm = .ok () := by
    unfold checkGmw
    cases hb : a.wavelet.gmw with
    | none => rfl
    | some b => simp only [hg b hb, if_true]
  have hd : (1 : ℝ) / n0 ≠ 1 / n1 := by
    rw [one_div, one_div, Ne, inv_inj]; exact_mod_cast hne
  have htr : logscaleTransitionIdx (thTr .f64) v = .ok (some (p + 1)) := transition_two (by norm_num [thTr]) htwo hd
  have hv0 : (v.take (p + 1)).length = p + 1 := by simp; omega
  have hv1 : (v.drop (p + 1)).length = v.length - (p + 1) := by simp
  have hk : icwt2 n W (.arr sh d v) a = (do
      let x ← icwt2 n (W.take (p + 1)) (.arr [p + 1, 1] .f64 (v.take (p + 1))) { a with nv := none }
      let y ← icwt2 n (W.drop (p + 1)) (.arr [v.length - (p + 1), 1] .f64 (v.drop (p + 1))) { a with nv := none }
      .ok (List.zipWith (fun u v : ℝ => u + v) x y)) := by
    conv_lhs => unfold icwt2
    rw [hgm, ok_bind]
    simp only
    rw [hr, ok_bind, if_pos e2, e1, if_neg (by rw [hlen]; simp), htr, ok_bind]
    simp only
    rw [icwt2Arr_geometric a n _ h0 (two_take htwo) (by rw [hv0]; omega) hgm,
      icwt2Arr_geometric a n _ h1 (two_drop htwo) (by rw [hv1]; omega) hgm, hv0, hv1]
  rw [hk]
  constructor
  · intro h
    obtain ⟨x, hx, h⟩ := bind_ok h
    obtain ⟨y, hy, h⟩ := bind_ok h
    simp only [Except.ok.injEq] at h
    exact ⟨x, y, hx, hy, h.symm⟩
  · rintro ⟨x, y, hx, hy, rfl⟩
    rw [hx, ok_bind, hy, ok_bind]

/-- Six scales in two segments: both inverses exist, and the sum is returned. -/
example : ∃ x y xh, icwt2 2 (List.replicate 6 [1, I]) (.arr [6] .f64 v6) (icwt2Ex (some .wrap) false) = .ok xh ∧
    icwt2 2 (List.replicate 3 [1, I]) (.arr [3, 1] .f64 (v6.take 3)) { icwt2Ex (some .wrap) false with nv := none } = .ok x ∧
    icwt2 2 (List.replicate 3 [1, I]) (.arr [3, 1] .f64 (v6.drop 3)) { icwt2Ex (some .wrap) false with nv := none } = .ok y ∧
    xh = List.zipWith (fun u v : ℝ => u + v) x y := by
  have hrow : ∀ w ∈ List.replicate 3 [(1 : ℂ), I], w.length = 2 := by
    intro w hw; rw [List.eq_of_mem_replicate hw]; rfl
  have hsh : ((([3, 1] : List ℕ)).filter (· ≠ 1)).length = 1 := by decide
  have hm1 : (1 : ℕ) ≤ 2 := by norm_num
  have p0 := fun N wv up ds => process_geometric (dt := .f64) (by decide) hm1 (two_take two_v6) (by simp [v6]) hsh N wv up ds
  have p1 := fun N wv up ds => process_geometric (dt := .f64) (by decide) le_rfl (two_drop two_v6) (by simp [v6]) hsh N wv up ds
  have i0 : inferScaletype .f64 (v6.take 3) = .ok (.log, .int 2) := by
    have := infer_geometric (dt := .f64) (by decide) (two_take two_v6) (by simp [v6]) (by norm_num)
    rw [one_div_one_div] at this
    rw [this]
    have : roundHalfEven ((2 : ℕ) : ℝ) = ((2 : ℕ) : ℤ) := by exact_mod_cast rhe_intCast (K := ℝ) ((2 : ℕ) : ℤ)
    rw [this]; rfl
  have i1 : inferScaletype .f64 (v6.drop 3) = .ok (.log, .int 1) := by
    have := infer_geometric (dt := .f64) (by decide) (two_drop two_v6) (by simp [v6]) (by norm_num)
    rw [one_div_one_div] at this
    rw [this]
    have : roundHalfEven ((1 : ℕ) : ℝ) = ((1 : ℕ) : ℤ) := by exact_mod_cast rhe_intCast (K := ℝ) ((1 : ℕ) : ℤ)
    rw [this]; rfl
  obtain ⟨x, hx⟩ := C98_succeeds 2 (by norm_num) (List.replicate 3 [1, I]) hrow
    { icwt2Ex (some .wrap) false with nv := none } .wrap rfl rfl (by simp [icwt2Ex, argsR]) [3, 1] .f64 (v6.take 3) .log
    (.int 2) i0 (by simp) (by simp [v6]) ⟨_, p0 _ _ _ _⟩
  obtain ⟨y, hy⟩ := C98_succeeds 2 (by norm_num) (List.replicate 3 [1, I]) hrow
    { icwt2Ex (some .wrap) false with nv := none } .wrap rfl rfl (by simp [icwt2Ex, argsR]) [3, 1] .f64 (v6.drop 3) .log
    (.int 1) i1 (by simp) (by simp [v6]) ⟨_, p1 _ _ _ _⟩
  exact ⟨x, y, _, (C98_pieces 2 (List.replicate 6 [1, I]) (icwt2Ex (some .wrap) false) [6] .f64 v6 _ 2 0 2 1 (by norm_num)
    le_rfl (by norm_num) two_v6 le_rfl (by simp [v6]) infer_v6 (by simp [v6]) (by simp [icwt2Ex, argsR])
    ⟨_, process_v6 _ _ _ _ _ (by decide)⟩ _).2 ⟨x, y, hx, hy, rfl⟩, hx, hy, rfl⟩

end Ssq
