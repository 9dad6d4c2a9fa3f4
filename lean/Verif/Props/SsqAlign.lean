import Verif.Props.SsqCwtFull
import Verif.Props.Phase

/-!
# C110: what `ssq_cwt` returns fits together
-/
namespace Ssq

namespace Spec

/-- The layout of the frequencies is logarithmic: named or given so, or, for order 0, that of the scales. -/
def FullLogFreqs (N : ℕ) (a : SsqFullArgs) : Prop :=
  CwtLogFreqs N a.toSsqCwtArgs ∧ (a.ssqFreqs = .none → a.order = .int 0)

/-- `Tx` is the reassignment of `W` by `w`: with scales `sc` recognised as of type `st`, `nv`, and frequencies `f`, each cell whose phase is finite goes
to the row of the frequency nearest (in log-frequency) to its phase, weighted by the measure of its scale. -/
def Reassigned (st : ScaleType) (nv : Nv) (sc f : List ℝ) (cols : ℕ) (W : ℕ → ℕ → ℂ) (w : ℕ → ℕ → Phase) (Tx : ℤ → ℕ → ℂ) : Prop :=
  ∃ row : ℝ → ℕ, (∀ x, 0 < x → NearestLog f x (row x)) ∧ row 0 = sc.length - 1 ∧
    ∀ r < sc.length, ∀ j < cols, Tx r j = squeezed sc.length W (scaleMeasure st nv sc) w row r j

end Spec

theorem fullLog_layout {x : List ℝ} {a : SsqFullArgs} (h : Spec.FullLogFreqs x.length a) {fs : ℝ}
    {W : List (List ℂ) × List ℝ × ScaleType × List (List ℂ)} (hW : ssqTransforms x a fs = .ok W)
    (gamma : ℝ) (sc : List ℝ) (cols : ℕ) (V : List (List ℂ)) (w : Option (List (List Phase))) (dW : Option (List (List ℂ))) :
    Spec.LogLayout (a.squeezeArgs fs gamma W.2.2.1 sc cols V w dW) := by
  obtain ⟨h, h0⟩ := h
  unfold Spec.CwtLogFreqs at h
  unfold Spec.LogLayout SsqFullArgs.squeezeArgs
  cases ha : a.ssqFreqs with
  | none =>
    rw [ha] at h
    simp only at h ⊢
    obtain ⟨sc1, st1, na1, nv1, h1, h2⟩ := h
    unfold ssqTransforms at hW
    rw [h0 ha] at hW
    simp only [lt_self_iff_false, if_false, if_true] at hW
    unfold ssqOrder0 at hW
    rw [h1] at hW
    obtain ⟨q, hq, hW⟩ := bind_ok hW
    injection hq with hq
    subst hq
    obtain ⟨R, hR, hW⟩ := bind_ok hW
    injection hW with hW
    subst hW
    cases st1 <;> simp_all
  | name s => rw [ha] at h; exact h
  | arr d v => rw [ha] at h; exact ⟨rfl, h⟩

theorem full_rows {x : List ℝ} (hx : 0 < x.length) {a : SsqFullArgs} {t : Option PadType} (ht : a.padtype = t.map padName)
    (hd : a.difftype ≠ .numeric) {o : SsqFullOut} (h : ssqCwtFull x a = .ok o) : o.Wx.length = o.scales.length := by
  obtain ⟨od, fs, dt, W, -, -, hW, h3, hc⟩ := full_ok h
  have key : W.1.length = W.2.1.length := by
    rcases orders_cases a.order with h0 | ⟨isSeq, ks, hk⟩ | ⟨k, hk, hk'⟩
    · exact (order0_ok hx ht h0 hW).1.1
    · rw [transforms_orders hk] at hW
      obtain ⟨V, s, D, m, shape, d, -, -, -, g4, g5, -⟩ := ssqHigher_ok hx ht hk hW
      rw [g5, List.length_map, g4.1]
    · exact absurd hW (transforms_negative hk hk' W)
  rcases hc with ⟨-, p, T, -, -, rfl⟩ | ⟨-, T, -, rfl⟩ <;>
  · unfold ssqPost; rw [if_neg hd]; exact key

/-- **C110, phase transform.** With `get_w=True` and the trigonometric derivative, the `w` returned is the phase transform of the `Wx` and `dWx` returned:
infinite where `|Wx| < gamma` (`10 eps` by default) and `|Im(dWx / Wx)| / 2π` elsewhere. -/
theorem C110_phase (x : List ℝ) (hx : 0 < x.length) (a : SsqFullArgs) (t : Option PadType) (ht : a.padtype = t.map padName)
    (hd : a.difftype = .trig) (hw : a.getW = true) (ho : a.order = .int 0 ∨ t.isSome) (hg : 0 < a.gamma.getD (10 * a.eps))
    (o : SsqFullOut) (h : ssqCwtFull x a = .ok o) :
    ∃ w, o.w = some w ∧ w.length = o.Wx.length ∧ ∀ i < o.Wx.length, ∀ j < x.length,
      phaseFn w i j = if ‖(o.Wx.getD i []).getD j 0‖ < a.gamma.getD (10 * a.eps) then .inf
        else .fin (|((o.dWx.getD i []).getD j 0 / (o.Wx.getD i []).getD j 0).im| / (2 * Real.pi)) := by
  obtain ⟨hc1, hc2, -, -⟩ := C99_partial x hx a t ht (by rw [hd]; simp) ho o h
  obtain ⟨od, fs, dt, W, -, -, hW, h3, hc⟩ := full_ok h
  rcases hc with ⟨-, p, T, hp, -, rfl⟩ | ⟨hg', -⟩
  · unfold ssqPhase at hp
    rw [hd] at hp
    simp only [Except.ok.injEq] at hp
    subst hp
    unfold ssqPost at hc2 ⊢
    rw [if_neg (by rw [hd]; simp)] at hc2 ⊢
    simp only at hc2 ⊢
    refine ⟨_, rfl, by simp [phaseRows], fun i hi j hj => ?_⟩
    have hrow : (W.1.getD i []).length = x.length := by
      rw [List.getD_eq_getElem _ _ hi]
      exact hc2 _ (List.getElem_mem hi)
    unfold phaseFn phaseRows
    rw [getD_map_range _ _ hi, getD_map_range _ _ (by rw [hrow]; exact hj)]
    unfold phaseCwt
    by_cases hz : ‖(W.1.getD i []).getD j 0‖ < a.gamma.getD (10 * a.eps)
    · rw [if_pos hz, if_pos hz]
    · rw [if_neg hz, if_neg hz, cwtFreq_eq]
      intro h0
      have h0 : (W.1.getD i []).getD j 0 = 0 := h0
      rw [h0, norm_zero] at hz
      exact hz hg
  · rw [hw] at hg'
    exact nomatch hg'

/-- **C110, reassignment.** With `get_w=True`, the trigonometric or the phase derivative, and any order: column `j` of `Tx` is the reassignment of column `j`
of the `Wx` returned by column `j` of the `w` returned, over the scales and frequencies returned. -/
theorem C110_tx (x : List ℝ) (hx : 0 < x.length) (a : SsqFullArgs) (t : Option PadType) (ht : a.padtype = t.map padName)
    (hd : a.difftype ≠ .numeric) (hw : a.getW = true) (ho : a.order = .int 0 ∨ t.isSome) (hsq : a.squeezing = .sum)
    (hfl : a.flipud = true) (hth : 0 < a.th) (hlay : Spec.FullLogFreqs x.length a) (o : SsqFullOut)
    (h : ssqCwtFull x a = .ok o) (hgrid : Spec.LogGrid o.freqs.reverse)
    (hlen : o.freqs.length = o.scales.length) :
    ∃ w st nv, o.w = some w ∧ inferScaletype a.dtype o.scales = .ok (st, nv) ∧
      Spec.Reassigned st nv o.scales o.freqs x.length (fun i j => (o.Wx.getD i []).getD j 0) (phaseFn w) o.Tx := by
  obtain ⟨hc1, -, -, -⟩ := C99_partial x hx a t ht hd ho o h
  have hM := full_rows hx ht hd h
  obtain ⟨od, fs, dt, W, -, -, hW, h3, hc⟩ := full_ok h
  rcases hc with ⟨-, p, T, hp, hT, rfl⟩ | ⟨hg', -⟩
  · have hpW : p.1 = W.1 := by
      unfold ssqPhase at hp
      split at hp
      · simp only [Except.ok.injEq] at hp
        rw [← hp]
      · obtain ⟨w, hw, hp⟩ := bind_ok hp
        simp only [Except.ok.injEq] at hp
        rw [← hp]
      · exact absurd ‹_› hd
      · simp at hp
    unfold ssqPost at hc1 hM hgrid hlen ⊢
    rw [if_neg hd] at hc1 hM hgrid hlen ⊢
    simp only at hc1 hM hgrid hlen ⊢
    obtain ⟨st, nv, hi⟩ := ssqueeze_scales hT rfl rfl
    refine ⟨_, st, nv, rfl, hi, ?_⟩
    have hML : p.1.length = W.2.1.length := by rw [hpW, hM]
    obtain ⟨row, r1, r2, r3⟩ := C27_log_partial _ T.1 T.2 hT (fullLog_layout hlay hW _ _ _ _ _ _) rfl hfl (Or.inl rfl) hth hgrid
      (by rw [hlen]; exact hML.symm) [W.2.1.length] a.dtype W.2.1 rfl st nv hi hML.symm
      (fun l hl => by rw [show (a.squeezeArgs _ _ _ _ _ _ _ _).M = W.2.1.length from hML]; exact (inferScaletype_nv_length hi).2 l hl)
    refine ⟨row, r1, by rw [r2]; exact congrArg (· - 1) hML, fun r hr j hj => ?_⟩
    rw [r3 r (by rw [show (a.squeezeArgs _ _ _ _ _ _ _ _).M = W.2.1.length from hML]; exact hr) j (hj.trans_eq hc1.symm),
      show (a.squeezeArgs _ _ _ _ _ _ _ _).M = W.2.1.length from hML]
    simp only [SsqFullArgs.squeezeArgs, hsq, applySqueezing, hpW]
    rfl
  · rw [hw] at hg'
    exact nomatch hg'

theorem getD_map_nil {α β : Type} (l : List (List α)) (f : List α → List β) {i : ℕ} (hi : i < l.length) :
    (l.map f).getD i [] = f (l.getD i []) := by
  rw [List.getD_eq_getElem _ _ (by rw [List.length_map]; exact hi), List.getElem_map, List.getD_eq_getElem _ _ hi]

/-- **C110, numeric derivative.** Order 0, a pad type and at least four samples of padding on both sides: column `j` of `Tx` is the reassignment by column
`j` of `w` of column `n1 + j - 4` of the `Wx` returned, which still is padded by `n1 - 4` columns on the left. -/
theorem C110_numeric (x : List ℝ) (hx : 0 < x.length) (a : SsqFullArgs) (t : PadType) (ht : a.padtype = some (padName t))
    (hd : a.difftype = .numeric) (ho : a.order = .int 0) (n1 : ℕ) (hn1 : (n1 : ℤ) = (p2up x.length).2.1) (h4 : 4 ≤ n1)
    (h4' : n1 + x.length + 4 ≤ (p2up x.length).1) (hsq : a.squeezing = .sum)
    (hfl : a.flipud = true) (hth : 0 < a.th) (hlay : Spec.FullLogFreqs x.length a) (o : SsqFullOut)
    (h : ssqCwtFull x a = .ok o) (hgrid : Spec.LogGrid o.freqs.reverse)
    (hlen : o.freqs.length = o.scales.length) :
    ∃ w st nv, o.w = some w ∧ inferScaletype a.dtype o.scales = .ok (st, nv) ∧ o.txCols = x.length ∧
      Spec.Reassigned st nv o.scales o.freqs x.length (fun i j => (o.Wx.getD i []).getD (n1 + j - 4) 0) (phaseFn w) o.Tx := by
  obtain ⟨c1, c2, c3, w0, c4, c5⟩ := C99_numeric x hx a (some t) ht hd ho n1 hn1 h4 o h _ rfl
  simp only [Option.isSome_some, if_true] at c1 c2 c3 c5
  have hN : min (x.length + 8) ((p2up x.length).1 - (n1 - 4)) - 8 = x.length := by omega
  rw [hN] at c3 c5
  obtain ⟨od, fs, dt, W, -, -, hW, h3, hc⟩ := full_ok h
  have hsh := order0_ok hx (t := some t) ht ho hW
  rw [show Spec.cwtCols (some t) (decide (a.difftype = .numeric)) x.length = (p2up x.length).1 by
    unfold Spec.cwtCols; rw [hd]; simp] at hsh
  rcases hc with ⟨-, p, T, hp, hT, rfl⟩ | ⟨hg, T, -, rfl⟩
  · unfold ssqPhase at hp
    rw [hd] at hp
    simp only at hp
    obtain ⟨w, hw, hp⟩ := bind_ok hp
    simp only [Except.ok.injEq] at hp
    subst hp
    simp only at hT
    obtain ⟨st, nv, hi⟩ := ssqueeze_scales hT rfl rfl
    unfold ssqPost at c3 c4 hgrid hlen ⊢
    rw [if_pos hd] at c3 c4 hgrid hlen ⊢
    simp only [Option.map_some] at c3 c4 hgrid hlen ⊢
    injection c4 with c4
    refine ⟨_, st, nv, rfl, hi, c3, ?_⟩
    have hlw : w.length = W.2.1.length := by
      have := ((mapM_ok _ _ _).1 hw).length_eq
      rw [← this, List.length_map, hsh.1.1]
    have hML : (W.1.map fun r => pySlice r (some ((p2up x.length).2.1 - 4)) (some ((p2up x.length).2.1 + x.length + 4))).length =
        W.2.1.length := by rw [List.length_map, hsh.1.1]
    obtain ⟨row, r1, r2, r3⟩ := C27_log_partial _ T.1 T.2 hT (fullLog_layout hlay hW _ _ _ _ _ _) rfl hfl (Or.inl rfl) hth hgrid
      (by rw [hlen]; exact hML.symm) [W.2.1.length] a.dtype W.2.1 rfl st nv hi hML.symm
      (fun l hl => by rw [show (a.squeezeArgs _ _ _ _ _ _ _ _).M = W.2.1.length from hML]; exact (inferScaletype_nv_length hi).2 l hl)
    refine ⟨row, r1, by rw [r2]; exact congrArg (· - 1) hML, fun r hr j hj => ?_⟩
    change T.1 r (j + 4) = _
    rw [r3 r (by rw [show (a.squeezeArgs _ _ _ _ _ _ _ _).M = W.2.1.length from hML]; exact hr) (j + 4) (by
        simp only [SsqFullArgs.squeezeArgs]
        omega),
      show (a.squeezeArgs _ _ _ _ _ _ _ _).M = W.2.1.length from hML]
    simp only [SsqFullArgs.squeezeArgs, hsq, applySqueezing, Spec.squeezed, Spec.usedPhase, Option.map_some]
    refine Finset.sum_congr rfl fun i hi => ?_
    have hi' : i < W.2.1.length := Finset.mem_range.mp hi
    have hW1 : (W.1.getD i []).length = (p2up x.length).1 := by
      rw [List.getD_eq_getElem _ _ (by rw [hsh.1.1]; exact hi')]
      exact hsh.1.2 _ (List.getElem_mem _)
    have e1 : ((W.1.map fun r => pySlice r (some ((p2up x.length).2.1 - 4)) (some ((p2up x.length).2.1 + x.length + 4))).getD i []).getD
        (j + 4) 0 = (W.1.getD i []).getD (n1 + j) 0 := by
      rw [getD_map_nil _ _ (by rw [hsh.1.1]; exact hi'), ← hn1, show (n1 : ℤ) - 4 = ((n1 - 4 : ℕ) : ℤ) by omega,
        show (n1 : ℤ) + x.length + 4 = ((n1 + x.length + 4 : ℕ) : ℤ) by push_cast; ring, pySlice_nat]
      rw [List.getD_eq_getElem?_getD, List.getElem?_take, if_pos (by omega), List.getElem?_drop, ← List.getD_eq_getElem?_getD]
      congr 1
      omega
    have hs4 : ∀ {α : Type} (q : List α) (d : α) (k : ℕ), k + 8 < q.length + 0 → (pySlice q (some 4) (some (-4))).getD k d = q.getD (k + 4) d := by
      intro α q d k hk
      have h1 : sliceBound q.length 4 = 4 := by unfold sliceBound; rw [if_neg (by omega)]; omega
      have h2 : sliceBound q.length (-4) = q.length - 4 := by unfold sliceBound; rw [if_pos (by omega)]; omega
      simp only [pySlice, h1, h2]
      rw [List.getD_eq_getElem _ _ (by simp; omega), List.getD_eq_getElem _ _ (by omega)]
      simp only [List.getElem_take, List.getElem_drop]
      congr 1
      omega
    have e2 : ((W.1.map fun r => pySlice r (some 4) (some (-4))).getD i []).getD (n1 + j - 4) 0 = (W.1.getD i []).getD (n1 + j) 0 := by
      rw [getD_map_nil _ _ (by rw [hsh.1.1]; exact hi'), hs4 _ _ _ (by omega)]
      congr 1
      omega
    have e3 : phaseFn (w.map fun r => pySlice r (some 4) (some (-4))) i j = phaseFn w i (j + 4) := by
      unfold phaseFn
      have hwl : ((w.map fun r => pySlice r (some 4) (some (-4)))[i]'(by rw [List.length_map, hlw]; exact hi')).length = x.length :=
        c5 _ (by rw [← c4]; exact List.getElem_mem _)
      rw [List.getElem_map, slice4_length] at hwl
      rw [getD_map_nil _ _ (by rw [hlw]; exact hi'), List.getD_eq_getElem w _ (by rw [hlw]; exact hi'), hs4 _ _ _ (by omega)]
    rw [e1, e2, e3]
  · exfalso
    unfold ssqPost at c4
    rw [if_pos hd] at c4
    simp at c4

theorem exFull_log (t : Option PadType) (d : DiffType) (g : Bool) (N : ℕ) : Spec.FullLogFreqs N (exFull t d (.int 0) g) :=
  ⟨⟨.log, .int 1, infer124, by simp⟩, fun h => nomatch h⟩

/-- A call with `get_w=True`. -/
theorem exFull_w (x : List ℝ) (hx : 0 < x.length) (t : Option PadType) :
    ∃ o, ssqCwtFull x (exFull t .trig (.int 0) true) = .ok o ∧ o.freqs = [4, 2, 1] ∧ o.scales = [1, 2, 4] := by
  set a := exFull t .trig (.int 0) true with ha
  have hc : checkSsqueezingArgs false a.squeezing a.maprange true (some a.difftype) a.difforder a.getW .cwt = .ok none := rfl
  have hdt : cwtDt a.fs a.t x.length = .ok (8, 1 / 8) := by
    unfold cwtDt; rw [ha, exFull_dt]; rfl
  obtain ⟨W, dW, hW⟩ := C37_succeeds x { a.cwtArgs 8 [1, 2, 4] with rpadded := false } t rfl hx 8 (1 / 8)
    (by show processFsT (some 8) none x.length = _; simp only [processFsT]; rw [if_neg (by norm_num)])
    (by simp [SsqCwtArgs.cwtArgs, ha, exFull, exSsq]) [1, 2, 4] .log 3 (.int 1) none
    (by simp [SsqCwtArgs.cwtArgs]) (fun _ => rfl)
    (by
      have hp : positiveInteger ((1 : ℤ) : ℚ) = .ok 1 := by rfl
      simp only [SsqCwtArgs.cwtArgs, ScalesArg.dtype, ha, exFull, exSsq, sc124, processScales, infer124, ok_bind,
        pure_eq_ok, ne_eq, not_true_eq_false, false_and, if_false, hp]
      rfl)
  have htr : ssqTransforms x a 8 = .ok (W, [1, 2, 4], .log, dW) := by
    unfold ssqTransforms
    rw [show a.order = .int 0 from rfl]
    simp only [lt_self_iff_false, if_false, if_true]
    unfold ssqOrder0
    rw [show processScales a.scales x.length (some a.wavelet.sw) (ssqCwtNv a.toSsqCwtArgs) true a.downsample =
      .ok ([1, 2, 4], .log, 3, .int 1) from process124 _ _ _ _, ok_bind]
    have hW' : cwt x { a.cwtArgs 8 [1, 2, 4] with rpadded := decide (a.difftype = .numeric) } = .ok (W, [1, 2, 4], dW) := hW
    rw [hW']; rfl
  have hsh := (order0_ok hx (t := t) (a := a) rfl rfl htr).1
  have hcols : (W.headD []).length ≠ 0 := by
    rw [headD_length (by simp) hsh]
    unfold Spec.cwtCols
    rw [show a.difftype = .trig from rfl]
    simp only [reduceCtorEq, decide_false, Bool.false_eq_true, false_and, and_false, if_false]
    omega
  obtain ⟨T, hT⟩ := ssqueeze_exFull t .trig (.int 0) true (W.headD []).length W (by rw [hsh.1]; simp) (some (phaseRows (1 / 100) W dW)) none
    (by simp) (by
      rintro v hv r hr y hy
      simp only [Option.some.injEq] at hv
      subst hv
      simp only [phaseRows, List.mem_map, List.mem_range] at hr
      obtain ⟨i, -, rfl⟩ := hr
      obtain ⟨j, -, hj⟩ := List.mem_map.1 hy
      unfold phaseCwt at hj
      split at hj
      · simp at hj
      · simp only [Phase.fin.injEq] at hj
        rw [← hj]; exact cwtFreq_nonneg _ _)
  refine ⟨ssqPost a.difftype ⟨T, (W.headD []).length, W, [4, 2, 1], [1, 2, 4], some (phaseRows (1 / 100) W dW), dW⟩, ?_, rfl, rfl⟩
  unfold ssqCwtFull
  rw [hc, ok_bind, hdt, ok_bind, htr, ok_bind]
  rw [show a.getW = true from rfl, show a.gamma.getD (10 * a.eps) = 1 / 100 from rfl]
  simp only [if_true]
  have hph : ssqPhase a x.length (1 / 8) (1 / 100) none W dW = .ok (W, phaseRows (1 / 100) W dW) := rfl
  rw [hph, ok_bind]
  simp only
  rw [if_neg hcols, hT]
  rfl

example : ∃ o, ssqCwtFull [3, 1, 4, 1, 5] (exFull (some .reflect) .trig (.int 0) true) = .ok o ∧
    ∃ w st nv, o.w = some w ∧ inferScaletype .f64 o.scales = .ok (st, nv) ∧
      Spec.Reassigned st nv o.scales o.freqs 5 (fun i j => (o.Wx.getD i []).getD j 0) (phaseFn w) o.Tx := by
  obtain ⟨o, h, hf, hs⟩ := exFull_w [3, 1, 4, 1, 5] (by simp) (some .reflect)
  exact ⟨o, h, C110_tx _ (by simp) _ (some .reflect) rfl (by simp [exFull]) rfl (Or.inl rfl) rfl rfl one_pos (exFull_log _ _ _ _) o h
    (by rw [hf]; exact loggrid124) (by rw [hf, hs]; rfl)⟩

example : ∃ o, ssqCwtFull (List.replicate 16 1) (exFull (some .reflect) .numeric (.int 0) true) = .ok o ∧
    ∃ w st nv, o.w = some w ∧ inferScaletype .f64 o.scales = .ok (st, nv) ∧ o.txCols = 16 ∧
      Spec.Reassigned st nv o.scales o.freqs 16 (fun i j => (o.Wx.getD i []).getD (8 + j - 4) 0) (phaseFn w) o.Tx := by
  have hp := p2up_pow 4 (by norm_num)
  norm_num at hp
  obtain ⟨o, h, -, hf, hs⟩ := exFull_numeric (List.replicate 16 1) (by simp) .reflect
  have := C110_numeric (List.replicate 16 1) (by simp) _ .reflect rfl rfl rfl 8 (by rw [List.length_replicate, hp]; rfl) (by norm_num)
    (by rw [List.length_replicate, hp]; norm_num) rfl rfl one_pos (exFull_log _ _ _ _) o h (by rw [hf]; exact loggrid124) (by rw [hf, hs]; rfl)
  rw [List.length_replicate] at this
  exact ⟨o, h, this⟩

end Ssq
