import Verif.Props.Icwt2
import Verif.Props.PhaseNum
import Verif.Model.SsqCwtFull
import Verif.Props.SsqCwtSame
import Verif.Props.HigherOrder
import Verif.Props.Trigdiff

/-!
# `ssq_cwt` with every order and kind of derivative (C99, C100)
-/
namespace Ssq
open Complex

/-! ## Row-linear maps and means -/

/-- A map of rows of length `c` that is additive and commutes with division by a constant. -/
structure RowLinear (c : ℕ) (T : List ℂ → List ℂ) : Prop where
  add : ∀ r q : List ℂ, r.length = c → q.length = c →
    T (List.zipWith (fun u v : ℂ => u + v) r q) = List.zipWith (fun u v : ℂ => u + v) (T r) (T q)
  div : ∀ (r : List ℂ) (m : ℂ), r.length = c → T (r.map fun z => z / m) = (T r).map fun z => z / m

theorem addMat_rowLinear {n c : ℕ} {T : List ℂ → List ℂ} (hT : RowLinear c T) {A B : List (List ℂ)}
    (hA : Shaped n c A) (hB : Shaped n c B) : (addMat A B).map T = addMat (A.map T) (B.map T) := by
  apply List.ext_getElem
  · simp [addMat]
  · intro i h1 h2
    simp only [addMat, List.getElem_map, List.getElem_zipWith]
    exact hT.add _ _ (hA.2 _ (List.getElem_mem _)) (hB.2 _ (List.getElem_mem _))

theorem meanMat_rowLinear {n c : ℕ} {T : List ℂ → List ℂ} (hT : RowLinear c T) (l : List (List (List ℂ)))
    (hl : ∀ B ∈ l, Shaped n c B) : (meanMat l).map T = meanMat (l.map fun B => B.map T) := by
  cases l with
  | nil => rfl
  | cons A l =>
    have key : ∀ (l : List (List (List ℂ))) (A : List (List ℂ)), Shaped n c A → (∀ B ∈ l, Shaped n c B) →
        (l.foldl addMat A).map T = (l.map fun B => B.map T).foldl addMat (A.map T) := by
      intro l
      induction l with
      | nil => intro A _ _; rfl
      | cons B l ih =>
        intro A hA hl
        have hB := hl B (by simp)
        rw [List.foldl_cons, ih _ (shaped_addMat hA hB) (fun C hC => hl C (by simp [hC])),
          addMat_rowLinear hT hA hB]
        rfl
    have hA := hl A (by simp)
    have hl' : ∀ B ∈ l, Shaped n c B := fun B hB => hl B (by simp [hB])
    have hs := (foldl_addMat l A hA hl').1
    simp only [meanMat, List.map_cons, List.length_map]
    rw [← key l A hA hl', List.map_map, List.map_map]
    refine List.map_congr_left fun r hr => ?_
    exact hT.div r _ (hs.2 r hr)

theorem unpad_take (n1 N : ℕ) (r : List ℂ) : unpad r (n1 : ℤ) N = (r.drop n1).take N := by
  unfold unpad
  rw [show (n1 : ℤ) + (N : ℕ) = ((n1 + N : ℕ) : ℤ) by push_cast; rfl, pySlice_nat]
  congr 1; omega

theorem unpad_rowLinear (c n1 N : ℕ) : RowLinear c fun r => unpad r (n1 : ℤ) N where
  add r q hr hq := by
    simp only [unpad_take, List.drop_zipWith, List.take_zipWith]
  div r m hr := by
    simp only [unpad_take, List.map_drop, List.map_take]

theorem RowLinear.comp {c : ℕ} {T U : List ℂ → List ℂ} (hT : RowLinear c T) (hU : RowLinear c U)
    (hl : ∀ r, r.length = c → (U r).length = c) : RowLinear c fun r => T (U r) where
  add r q hr hq := by rw [hU.add r q hr hq, hT.add _ _ (hl r hr) (hl q hq)]
  div r m hr := by rw [hU.div r m hr, hT.div _ m (hl r hr)]

theorem diffRow_range (fs : ℝ) (row : List ℂ) : diffRow fs row = (List.range row.length).map fun j => idft row.length
    (fun k => dft row.length (fun i => row.getD i 0) k * (I * (((xifn 1 row.length).getD k 0 : ℝ) : ℂ) * fs)) j := by
  apply List.ext_getElem
  · simp
  · intro j h1 h2
    have hj : j < row.length := by simpa using h1
    rw [← List.getD_eq_getElem _ 0 h1, diffRow_getD fs row j hj]
    simp only [List.getElem_map, List.getElem_range]
    exact idft_congr (fun k _ => by ring) j

theorem diffRow_rowLinear (c : ℕ) (fs : ℝ) : RowLinear c (diffRow fs) where
  add r q hr hq := by
    have hz : (List.zipWith (fun u v : ℂ => u + v) r q).length = c := by simp [hr, hq]
    rw [diffRow_range, diffRow_range fs r, diffRow_range fs q, hz, hr, hq]
    apply List.ext_getElem
    · simp
    · intro j h1 h2
      simp only [List.getElem_map, List.getElem_range, List.getElem_zipWith]
      rw [← idft_add]
      refine idft_congr (fun k _ => ?_) j
      rw [← add_mul, ← dft_add]
      congr 1
      exact dft_congr (fun i hi => zipWith_getD _ _ _ _ _ _ _ (by omega) (by omega)) k
  div r m hr := by
    have hz : (r.map fun z : ℂ => z / m).length = c := by simp [hr]
    rw [diffRow_range, diffRow_range fs r, hz, hr, List.map_map]
    refine List.map_congr_left fun j _ => ?_
    simp only [Function.comp]
    rw [div_eq_mul_inv, mul_comm, ← idft_smul]
    refine idft_congr (fun k _ => ?_) j
    rw [show m⁻¹ * (dft c (fun i => r.getD i 0) k * (I * (((xifn 1 c).getD k 0 : ℝ) : ℂ) * fs)) =
      (m⁻¹ * dft c (fun i => r.getD i 0) k) * (I * (((xifn 1 c).getD k 0 : ℝ) : ℂ) * fs) by ring, ← dft_smul]
    congr 1
    refine dft_congr (fun i hi => ?_) k
    rw [getD_map_c _ _ _ 0 (by omega), div_eq_mul_inv, mul_comm]

/-! ## Transforms that keep their padding -/

/-- Differentiating a convolution by the wavelet in the frequency domain is differentiating the result. -/
theorem dConv_diff (fs : ℝ) (p xh : List ℂ) (hp : p.length = xh.length) :
    dConvVec (1 / fs) p xh = diffRow fs (convRow p xh) := by
  rw [dConvVec_eq _ p xh xh.length hp rfl, diffRow_range, convRow_eq p xh xh.length hp rfl]
  simp only [List.length_map, List.length_range]
  refine List.map_congr_left fun j _ => idft_congr (fun k hk => ?_) j
  rw [xifn_xi _ _ hk]
  have : dft xh.length (fun i => ((List.range xh.length).map fun j : ℕ =>
      idft xh.length (fun k => p.getD k 0 * xh.getD k 0) j).getD i 0) k = p.getD k 0 * xh.getD k 0 := by
    rw [dft_congr (g := idft xh.length fun k => p.getD k 0 * xh.getD k 0) (fun i hi => getD_map_range _ _ hi),
      dft_idft _ hk]
  rw [this]
  push_cast
  rw [div_div_eq_mul_div, div_one]
  ring

theorem cwtRaw_diff (vec : Bool) (f : WFn) (fs : ℝ) (sc : List ℝ) (xh : List ℂ) :
    (if vec then cwtVectorized f (1 / fs) sc xh else cwtLoop f (1 / fs) sc xh).2 =
      (if vec then cwtVectorized f (1 / fs) sc xh else cwtLoop f (1 / fs) sc xh).1.map (diffRow fs) := by
  cases vec with
  | true =>
    simp only [if_true, cwtVectorized, List.map_map]
    refine List.map_congr_left fun p hp => ?_
    exact dConv_diff fs p xh (psihCall_rows _ _ _ _ hp)
  | false =>
    simp only [Bool.false_eq_true, if_false, cwtLoop, List.map_map]
    refine List.map_congr_left fun s _ => ?_
    simp only [Function.comp]
    rw [dConvLoop_eq _ _ _ _ (psihOne_length _ _ _) rfl]
    exact dConv_diff fs _ xh (psihOne_length _ _ _)

/-- A padded transform that keeps its padding: trimmed it is the ordinary one, and the derivative is that of the kept
transform. -/
theorem cwt_kept {x : List ℝ} (hx : 0 < x.length) {A : CwtArgs} {t : PadType} (ht : A.padtype = some (padName t))
    (h1 : A.l1Norm = true) {fs : ℝ} (hfs : A.fs = some fs) (hat : A.t = none) (hrp : A.rpadded = true)
    {W dW : List (List ℂ)} {sc : List ℝ} (h : cwt x A = .ok (W, sc, dW)) :
    ∃ n1 : ℕ, (n1 : ℤ) = (p2up x.length).2.1 ∧ dW = W.map (diffRow fs) ∧
      cwt x { A with rpadded := false } = .ok (W.map (fun r => unpad r (n1 : ℤ) x.length), sc,
        dW.map fun r => unpad r (n1 : ℤ) x.length) := by
  obtain ⟨xp, n1, p1, p2, p3⟩ := cwtPad_ok (some t) x hx
  obtain ⟨r, p, sc', g1, g2, g3, g4, g5, g6⟩ := (cwt_ok_iff _ _ _ _ _).1 h
  have hp : p = (xp, (n1 : ℤ)) := by
    rw [ht] at g3
    have : cwtPad x (some (padName t)) = .ok (xp, (n1 : ℤ)) := p1
    rw [this] at g3
    exact (Except.ok.inj g3).symm
  subst hp
  have hr : r.2 = 1 / fs := by
    have := cwtDt_fin g1
    rw [hfs, hat] at this
    simp only [processFsT] at this
    split at this
    · simp at this
    · simp only [Except.ok.injEq, Rate.fin.injEq] at this
      exact this.2.symm
  set xh := fftL (xp.map fun r : ℝ => (r : ℂ)) with hxh
  set R := (if A.vectorized then cwtVectorized A.wavelet.fn r.2 sc xh else cwtLoop A.wavelet.fn r.2 sc xh) with hR
  have hkeep : (R.1, R.2) = (W, dW) := by
    rw [← g6]
    have : cwtUnpad A (n1 : ℤ) x.length = id := by
      funext row; unfold cwtUnpad; rw [if_neg (by simp [hrp])]; rfl
    simp only [cwtRun, this, l2Scale, h1, if_true, List.map_id, ← hxh, ← hR]
  simp only [Prod.mk.injEq] at hkeep
  refine ⟨n1, p2.2.1, ?_, ?_⟩
  · rw [← hkeep.1, ← hkeep.2, hR, hr]
    exact cwtRaw_diff _ _ _ _ _
  · rw [cwt_ok_iff]
    refine ⟨r, (xp, (n1 : ℤ)), sc', g1, g2, g3, g4, g5, ?_⟩
    have : cwtUnpad { A with rpadded := false } (n1 : ℤ) x.length = fun r => unpad r (n1 : ℤ) x.length := by
      funext row; unfold cwtUnpad; rw [if_pos ⟨rfl, by rw [ht]; rfl⟩]
    simp only [cwtRun, this, ← hxh, ← hR, hkeep.1, hkeep.2]
    simp only [l2Scale, h1, if_true]

/-- Number of columns of what `cwt` returns for `N` samples: with `rpadded` and a pad type the padded length, otherwise
`N`. -/
noncomputable def Spec.cwtCols (t : Option PadType) (rp : Bool) (N : ℕ) : ℕ :=
  if rp = true ∧ t.isSome then (p2up N).1 else N

theorem cwt_cols {x : List ℝ} (hx : 0 < x.length) {a : CwtArgs} {t : Option PadType}
    (ht : a.padtype = t.map padName) {W dW : List (List ℂ)} {s : List ℝ} (h : cwt x a = .ok (W, s, dW)) :
    Shaped s.length (Spec.cwtCols t a.rpadded x.length) W ∧ Shaped s.length (Spec.cwtCols t a.rpadded x.length) dW := by
  obtain ⟨xp, n1, h1, h2, h3⟩ := cwtPad_ok t x hx
  obtain ⟨r, p, sc, -, -, hp, -, rfl, hW⟩ := (cwt_ok_iff _ _ _ _ _).1 h
  rw [ht, h1] at hp
  simp only [Except.ok.injEq] at hp
  subst hp
  rw [cwtRun_eq a _ _ _ _ _ h3] at hW
  simp only [Prod.mk.injEq] at hW
  have hcols : a.cols x.length xp.length = Spec.cwtCols t a.rpadded x.length := by
    unfold CwtArgs.cols CwtArgs.trimmed Spec.cwtCols; rw [ht]
    cases t with
    | none =>
      have : xp = x := h2.1
      cases a.rpadded <;> simp [this]
    | some t =>
      have : xp.length = (p2up x.length).1 := h2.1
      cases a.rpadded <;> simp [this]
  refine ⟨⟨by rw [← hW.1]; simp [psihRows_length], ?_⟩, by rw [← hW.2]; simp [psihRows_length], ?_⟩
  · intro q hq
    rw [← hW.1, List.mem_iff_getElem] at hq
    obtain ⟨i, hi, rfl⟩ := hq
    simp [hcols]
  · intro q hq
    rw [← hW.2, List.mem_iff_getElem] at hq
    obtain ⟨i, hi, rfl⟩ := hq
    simp [hcols]

/-! ## Higher orders -/

theorem hoCombine_map {n c : ℕ} {T : List ℂ → List ℂ} (hT : RowLinear c T) {avg : Bool} {l : List (List (List ℂ))}
    (hl : ∀ B ∈ l, Shaped n c B) {A : List (List ℂ)} (h : hoCombine meanMat avg l = .ok (.one A)) :
    hoCombine meanMat avg (l.map fun B => B.map T) = .ok (.one (A.map T)) ∧ Shaped n c A := by
  unfold hoCombine at h ⊢
  cases avg with
  | true =>
    cases l with
    | nil => simp at h
    | cons r l =>
      simp only [if_true, Except.ok.injEq, HoRes.one.injEq] at h
      simp only [List.map_cons, if_true, Except.ok.injEq, HoRes.one.injEq]
      rw [← h]
      exact ⟨(meanMat_rowLinear hT (r :: l) hl).symm, (meanMat_spec (r :: l) (by simp) hl).1⟩
  | false =>
    simp only [Bool.false_eq_true, if_false] at h ⊢
    match l, hl, h with
    | [], _, h => simp at h
    | [r], hl, h =>
      simp only [Except.ok.injEq, HoRes.one.injEq] at h
      subst h
      exact ⟨rfl, hl r (by simp)⟩
    | r :: q :: l, _, h => simp at h

/-- The arguments of the `cwt` call that corresponds to `ssq_cwt` with a higher order: the same, trimmed as usual. -/
def Spec.orderCall (a : SsqFullArgs) (fs : ℝ) (isSeq : Bool) : HoArgs :=
  { a.hoArgs fs isSeq with a := { (a.hoArgs fs isSeq).a with rpadded := false } }

theorem higher_run {x : List ℝ} (hx : 0 < x.length) {h : HoArgs} {t : PadType} (ht : h.a.padtype = some (padName t))
    (h1 : h.a.l1Norm = true) {fs : ℝ} (hfs : h.a.fs = some fs) (hat : h.a.t = none) (hrp : h.a.rpadded = true)
    {isSeq : Bool} {ks : List ℤ} {W : List (List ℂ)} {s : ScalesArg} {D : HoRes (List (List ℂ))} {n1 : ℕ}
    (hn1 : (n1 : ℤ) = (p2up x.length).2.1)
    (hr : cwtHigherOrder (fun w s => do let r ← cwt x (hoCallArgs h w s); .ok (r.1, r.2.2)) meanMat
      x.length h isSeq ks = .ok (.one W, s, D)) :
    (∃ shape dt sc, s = .arr shape dt sc ∧ Shaped sc.length (p2up x.length).1 W) ∧
    cwtHigherOrder (fun w s => do
        let r ← cwt x (hoCallArgs { h with a := { h.a with rpadded := false } } w s); .ok (r.1, r.2.2)) meanMat
      x.length { h with a := { h.a with rpadded := false } } isSeq ks =
      .ok (.one (W.map fun r => unpad r (n1 : ℤ) x.length), s,
        .one (W.map fun r => unpad (diffRow fs r) (n1 : ℤ) x.length)) := by
  unfold cwtHigherOrder at hr ⊢
  obtain ⟨ws, hws, hr⟩ := bind_ok hr
  obtain ⟨s', hs, hr⟩ := bind_ok hr
  obtain ⟨out, ho, hr⟩ := bind_ok hr
  obtain ⟨M, hM, hr⟩ := bind_ok hr
  obtain ⟨dM, hdM, hr⟩ := bind_ok hr
  simp only [Except.ok.injEq, Prod.mk.injEq] at hr
  obtain ⟨rfl, rfl, rfl⟩ := hr
  have hF := (mapM_ok _ _ _).1 ho
  -- every call
  have hcall : ∀ w o, (do let r ← cwt x (hoCallArgs h w s'); .ok (r.1, r.2.2) : Py _) = .ok o →
      ∃ shape dt sc, s' = .arr shape dt sc ∧ Shaped sc.length (p2up x.length).1 o.1 ∧
      (do let r ← cwt x (hoCallArgs { h with a := { h.a with rpadded := false } } w s'); .ok (r.1, r.2.2) : Py _) =
        .ok (o.1.map fun r => unpad r (n1 : ℤ) x.length, o.1.map fun r => unpad (diffRow fs r) (n1 : ℤ) x.length) := by
    intro w o hw
    obtain ⟨sc, hsc⟩ := call_ok hw
    obtain ⟨m, hm, hd, hc⟩ := cwt_kept hx (A := hoCallArgs h w s') ht h1 hfs hat hrp hsc
    have : m = n1 := by have := hm.trans hn1.symm; exact_mod_cast this
    subst this
    obtain ⟨shape, dt, e⟩ := cwt_scales_arr (a := hoCallArgs h w s') (hoScales_not_str hs) hsc
    have hcols := (cwt_cols hx (a := hoCallArgs h w s') (t := some t) ht hsc).1
    have hcc : Spec.cwtCols (some t) (hoCallArgs h w s').rpadded x.length = (p2up x.length).1 := by
      unfold Spec.cwtCols
      rw [if_pos ⟨hrp, rfl⟩]
    rw [hcc] at hcols
    refine ⟨shape, dt, sc, e, hcols, ?_⟩
    have hc' : cwt x (hoCallArgs { h with a := { h.a with rpadded := false } } w s') = _ := hc
    rw [hc', ok_bind]
    simp only [hd, List.map_map]
    rfl
  have hout : ∃ shape dt sc, (out ≠ [] → s' = .arr shape dt sc) ∧ ∀ o ∈ out, Shaped sc.length (p2up x.length).1 o.1 := by
    clear * - hF hcall
    induction hF with
    | nil => exact ⟨[], .f64, [], by simp, by simp⟩
    | cons g _ ih =>
      obtain ⟨shape, dt, sc, e, q, -⟩ := hcall _ _ g
      refine ⟨shape, dt, sc, fun _ => e, fun o ho => ?_⟩
      rcases List.mem_cons.1 ho with rfl | ho
      · exact q
      · obtain ⟨shape', dt', sc', e', q'⟩ := ih
        have := e' (List.ne_nil_of_mem ho)
        rw [e] at this
        simp only [ScalesArg.arr.injEq] at this
        rw [this.2.2]
        exact q' o ho
  have hF' : ws.mapM (fun w => (do
      let r ← cwt x (hoCallArgs { h with a := { h.a with rpadded := false } } w s'); .ok (r.1, r.2.2) : Py _)) =
      .ok (out.map fun o => (o.1.map fun r => unpad r (n1 : ℤ) x.length,
        o.1.map fun r => unpad (diffRow fs r) (n1 : ℤ) x.length)) := by
    rw [mapM_ok]
    clear * - hF hcall
    induction hF with
    | nil => exact .nil
    | cons g _ ih =>
      obtain ⟨-, -, -, -, -, q⟩ := hcall _ _ g
      exact .cons q ih
  obtain ⟨shape, dt, sc, e1, e2⟩ := hout
  have hsh : ∀ B ∈ out.map Prod.fst, Shaped sc.length (p2up x.length).1 B := by
    intro B hB
    obtain ⟨o, ho, rfl⟩ := List.mem_map.1 hB
    exact e2 o ho
  obtain ⟨c1, c2⟩ := hoCombine_map (unpad_rowLinear _ n1 x.length) hsh hM
  obtain ⟨c3, -⟩ := hoCombine_map ((unpad_rowLinear _ n1 x.length).comp (diffRow_rowLinear _ fs) (by simp)) hsh hM
  have hne : out ≠ [] := by
    rintro rfl
    unfold hoCombine at hM
    simp only [List.map_nil] at hM
    split at hM <;> simp at hM
  refine ⟨⟨shape, dt, sc, e1 hne, c2⟩, ?_⟩
  have w1 : hoWavelets { h with a := { h.a with rpadded := false } } ks = .ok ws := hws
  have w2 : hoScales { h with a := { h.a with rpadded := false } } x.length = .ok s' := hs
  rw [w1, ok_bind, w2, ok_bind, hF', ok_bind]
  simp only [List.map_map] at c1 c3 ⊢
  have e3 : hoCombine meanMat (decide (hoAverage h.average ks.length = some true ∨
        (hoAverage h.average ks.length = none ∧ isSeq = true)))
      (out.map (Prod.fst ∘ fun o => (o.1.map fun r => unpad r (n1 : ℤ) x.length,
        o.1.map fun r => unpad (diffRow fs r) (n1 : ℤ) x.length))) = _ := c1
  have e4 : hoCombine meanMat (decide (hoAverage h.average ks.length = some true ∨
        (hoAverage h.average ks.length = none ∧ isSeq = true)))
      (out.map (Prod.snd ∘ fun o => (o.1.map fun r => unpad r (n1 : ℤ) x.length,
        o.1.map fun r => unpad (diffRow fs r) (n1 : ℤ) x.length))) = _ := c3
  rw [e3, ok_bind, e4, ok_bind]

theorem higher_shape {x : List ℝ} (hx : 0 < x.length) {h : HoArgs} {t : Option PadType}
    (ht : h.a.padtype = t.map padName) {isSeq : Bool} {ks : List ℤ} {W : List (List ℂ)} {s : ScalesArg}
    {D : HoRes (List (List ℂ))}
    (hr : cwtHigherOrder (fun w s => do let r ← cwt x (hoCallArgs h w s); .ok (r.1, r.2.2)) meanMat
      x.length h isSeq ks = .ok (.one W, s, D)) :
    ∃ shape dt sc, s = .arr shape dt sc ∧ Shaped sc.length (Spec.cwtCols t h.a.rpadded x.length) W := by
  obtain ⟨-, -, h3, h4, -, h5, -⟩ := ho_calls hr
  have hne : ks ≠ [] := by
    rintro rfl
    unfold hoCombine at h5
    simp only [List.map_nil] at h5
    split at h5 <;> simp at h5
  obtain ⟨k0, hk0⟩ := List.exists_mem_of_ne_nil _ hne
  have hn := hoScales_not_str h3
  obtain ⟨sc, hsc⟩ := h4 k0 hk0
  obtain ⟨shape, dt, hs⟩ := cwt_scales_arr (a := Spec.orderArgs h k0.toNat s) hn hsc
  have hs' : s = .arr shape dt sc := hs
  refine ⟨shape, dt, sc, hs', ?_⟩
  refine (hoCombine_map (T := id) ⟨fun _ _ _ _ => rfl, fun _ _ _ => rfl⟩ (fun B hB => ?_) h5).2
  obtain ⟨k, hk, rfl⟩ := List.mem_map.1 hB
  obtain ⟨sc2, hsc2⟩ := h4 k hk
  obtain ⟨shape2, dt2, e⟩ := cwt_scales_arr (a := Spec.orderArgs h k.toNat s) hn hsc2
  have e' : s = .arr shape2 dt2 sc2 := e
  rw [hs'] at e'
  simp only [ScalesArg.arr.injEq] at e'
  rw [e'.2.2]
  exact (cwt_cols hx (a := Spec.orderArgs h k.toNat s) ht hsc2).1

/-- The orders given, as a list, and whether they came as a sequence. -/
def Spec.Orders (o : CwtOrderArg) (isSeq : Bool) (ks : List ℤ) : Prop :=
  (isSeq = true ∧ o = .seq ks) ∨ (isSeq = false ∧ ∃ k : ℤ, 0 < k ∧ o = .int k ∧ ks = [k])

theorem cwtOrder_orders {x : List ℝ} {h : HoArgs} {isSeq : Bool} {ks : List ℤ} (ho : Spec.Orders h.order isSeq ks) :
    cwtOrder x h = cwtHigherOrder (fun w s => do let r ← cwt x (hoCallArgs h w s); .ok (r.1, r.2.2)) meanMat
      x.length h isSeq ks := by
  rcases ho with ⟨rfl, ho⟩ | ⟨rfl, k, hk, ho, rfl⟩
  · exact cwtOrder_seq ho
  · exact cwtOrder_int ho hk

/-- What the higher-order branch computes, with any padding. -/
theorem ssqHigher_ok {x : List ℝ} (hx : 0 < x.length) {a : SsqFullArgs} {t : Option PadType}
    (ht : a.padtype = t.map padName) {fs : ℝ} {isSeq : Bool} {ks : List ℤ} (ho : Spec.Orders a.order isSeq ks)
    {r : List (List ℂ) × List ℝ × ScaleType × List (List ℂ)} (h : ssqHigher x a fs isSeq = .ok r) :
    ∃ (W : List (List ℂ)) (s : ScalesArg) (D : HoRes (List (List ℂ))) (n1 : ℕ) (shape : List ℕ) (dt : FDtype),
      cwtOrder x (a.hoArgs fs isSeq) = .ok (.one W, s, D) ∧ (n1 : ℤ) = (p2up x.length).2.1 ∧
      s = .arr shape dt r.2.1 ∧ Shaped r.2.1.length (Spec.cwtCols t true x.length) W ∧
      r.1 = W.map (fun q => unpad q (n1 : ℤ) x.length) ∧
      r.2.2.2 = W.map fun q => unpad (diffRow fs q) (n1 : ℤ) x.length := by
  unfold ssqHigher at h
  obtain ⟨q, hq, h⟩ := bind_ok h
  obtain ⟨M, s, D⟩ := q
  have hn := (C01_default_pad_length x.length hx).2.2.2.2
  obtain ⟨f1, f2, f3, f4, f5⟩ := padWidths_facts x.length hx none (by simp)
  have f5' := f5 rfl
  simp only [padWidths] at f5'
  obtain ⟨n1, hn1⟩ := Int.eq_ofNat_of_zero_le (show 0 ≤ (p2up x.length).2.1 by omega)
  cases M with
  | many l => simp at h
  | one W =>
    simp only at h
    obtain ⟨d, hd, h⟩ := bind_ok h
    obtain ⟨sc, hsc, h⟩ := bind_ok h
    have hq' := hq
    rw [cwtOrder_orders (h := a.hoArgs fs isSeq) ho] at hq'
    obtain ⟨shape, dt, sv, e1, e2⟩ := higher_shape hx (h := a.hoArgs fs isSeq) ht hq'
    have hscv : sc.1 = sv := by rw [e1] at hsc; exact processScales_arr_fst hsc
    have htd : trigdiff true (.d2 (a.padCols x.length) W)
        { fs := fs, rpadded := some true, N := some x.length, n1 := some (p2up x.length).2.1 } =
        .ok (.d2 (trimCols (a.padCols x.length) ((p2up x.length).2.1, x.length))
          (W.map fun q => unpad (diffRow fs q) (p2up x.length).2.1 x.length)) := by
      unfold trigdiff
      simp only [trigPadtype, show ("cwt" = "stft") = False by decide, if_false, Option.getD_some, if_true,
        trigTrim, reduceCtorEq, and_false, ne_eq, not_true_eq_false]
      rfl
    rw [htd] at hd
    simp only [Except.ok.injEq] at hd
    subst hd
    simp only [Except.ok.injEq] at h
    subst h
    refine ⟨W, s, D, n1, shape, dt, hq, hn1.symm, by rw [e1, hscv], ?_, ?_, ?_⟩
    · simp only; rw [hscv]; exact e2
    · simp only; rw [hn1]
    · simp only; rw [hn1]

/-! ## What a successful call went through -/

theorem full_ok {x : List ℝ} {a : SsqFullArgs} {o : SsqFullOut} (h : ssqCwtFull x a = .ok o) :
    ∃ od fs dt W, checkSsqueezingArgs false a.squeezing a.maprange true (some a.difftype) a.difforder a.getW .cwt = .ok od ∧
      cwtDt a.fs a.t x.length = .ok (fs, dt) ∧ ssqTransforms x a fs = .ok W ∧ 3 ≤ W.2.1.length ∧
      ((a.getW = true ∧ ∃ p T, ssqPhase a x.length dt (a.gamma.getD (10 * a.eps)) od W.1 W.2.2.2 = .ok p ∧
          ssqueeze (a.squeezeArgs fs (a.gamma.getD (10 * a.eps)) W.2.2.1 W.2.1 (p.1.headD []).length p.1 (some p.2) none) =
            .ok T ∧
          o = ssqPost a.difftype ⟨T.1, (p.1.headD []).length, W.1, T.2, W.2.1, some p.2, W.2.2.2⟩) ∨
       (a.getW = false ∧ ∃ T,
          ssqueeze (a.squeezeArgs fs (a.gamma.getD (10 * a.eps)) W.2.2.1 W.2.1 (W.1.headD []).length W.1 none
            (some W.2.2.2)) = .ok T ∧
          o = ssqPost a.difftype ⟨T.1, (W.1.headD []).length, W.1, T.2, W.2.1, none, W.2.2.2⟩)) := by
  have h3 : ∀ {b : SsqArgs} {T : (ℤ → ℕ → ℂ) × List ℝ} {d : FDtype} {v : List ℝ}, ssqueeze b = .ok T →
      b.transform = .cwt → b.scales = some (.arr [v.length] d v) → 3 ≤ v.length := by
    intro b T d v hb ht hs
    obtain ⟨st, nv, hi⟩ := ssqueeze_scales hb ht hs
    unfold inferScaletype at hi
    split at hi
    · simp at hi
    · split at hi
      · simp at hi
      · omega
  unfold ssqCwtFull at h
  obtain ⟨od, hod, h⟩ := bind_ok h
  obtain ⟨r, hr, h⟩ := bind_ok h
  obtain ⟨W, hW, h⟩ := bind_ok h
  simp only at h
  split at h
  · rename_i hg
    obtain ⟨p, hp, h⟩ := bind_ok h
    split at h
    · simp at h
    · obtain ⟨T, hT, h⟩ := bind_ok h
      simp only [Except.ok.injEq] at h
      exact ⟨od, r.1, r.2, W, hod, hr, hW, h3 hT rfl rfl, Or.inl ⟨hg, p, T, hp, hT, h.symm⟩⟩
  · rename_i hg
    obtain ⟨T, hT, h⟩ := bind_ok h
    simp only [Except.ok.injEq] at h
    exact ⟨od, r.1, r.2, W, hod, hr, hW, h3 hT rfl rfl, Or.inr ⟨by simpa using hg, T, hT, h.symm⟩⟩

/-- The transforms, whatever the branch. -/
theorem transforms_orders {x : List ℝ} {a : SsqFullArgs} {fs : ℝ} {isSeq : Bool} {ks : List ℤ}
    (ho : Spec.Orders a.order isSeq ks) : ssqTransforms x a fs = ssqHigher x a fs isSeq := by
  unfold ssqTransforms
  rcases ho with ⟨rfl, ho⟩ | ⟨rfl, k, hk, ho, rfl⟩
  · rw [ho]
  · rw [ho]; simp only; rw [if_pos hk]

theorem order0_ok {x : List ℝ} (hx : 0 < x.length) {a : SsqFullArgs} {t : Option PadType} (ht : a.padtype = t.map padName)
    (ho : a.order = .int 0) {fs : ℝ} {r : List (List ℂ) × List ℝ × ScaleType × List (List ℂ)}
    (h : ssqTransforms x a fs = .ok r) :
    Shaped r.2.1.length (Spec.cwtCols t (decide (a.difftype = .numeric)) x.length) r.1 ∧
    Shaped r.2.1.length (Spec.cwtCols t (decide (a.difftype = .numeric)) x.length) r.2.2.2 := by
  unfold ssqTransforms at h
  rw [ho] at h
  simp only [lt_self_iff_false, if_false, if_true] at h
  unfold ssqOrder0 at h
  obtain ⟨sc, hsc, h⟩ := bind_ok h
  obtain ⟨W, hW, h⟩ := bind_ok h
  simp only [Except.ok.injEq] at h
  subst h
  exact cwt_cols hx (a := { a.cwtArgs fs sc.1 with rpadded := decide (a.difftype = .numeric) }) ht hW

theorem orders_cases (o : CwtOrderArg) : o = .int 0 ∨ (∃ isSeq ks, Spec.Orders o isSeq ks) ∨ ∃ k : ℤ, k < 0 ∧ o = .int k := by
  cases o with
  | seq ks => exact Or.inr (Or.inl ⟨true, ks, Or.inl ⟨rfl, rfl⟩⟩)
  | int k =>
    rcases lt_trichotomy k 0 with h | h | h
    · exact Or.inr (Or.inr ⟨k, h, rfl⟩)
    · exact Or.inl (by rw [h])
    · exact Or.inr (Or.inl ⟨false, [k], Or.inr ⟨rfl, k, h, rfl, rfl⟩⟩)

theorem transforms_negative {x : List ℝ} {a : SsqFullArgs} {fs : ℝ} {k : ℤ} (hk : k < 0) (ho : a.order = .int k) :
    ∀ r, ssqTransforms x a fs ≠ .ok r := by
  intro r h
  unfold ssqTransforms at h
  rw [ho] at h
  simp only [show ¬ (0 < k) by omega, show k ≠ 0 by omega, if_false] at h
  obtain ⟨_, _, h⟩ := bind_ok h
  simp at h

theorem unwrap_go_length : ∀ (l : List ℝ) (p c : ℝ), (unwrap.go p c l).length = l.length
  | [], p, c => rfl
  | q :: l, p, c => by simp [unwrap.go, unwrap_go_length l]

theorem phaseCwtPhase_length {g : ℝ} {r : List ℂ} {w : List Phase} (h : phaseCwtPhase g r = .ok w) : w.length = r.length := by
  have hu : (unwrap (r.map fun z : ℂ => Complex.arg z)).length = r.length := by
    cases r with
    | nil => rfl
    | cons z r => simp [unwrap, unwrap_go_length]
  unfold phaseCwtPhase at h
  simp only at h
  split at h
  · simp at h
  · rename_i u0 us he
    simp only [Except.ok.injEq] at h
    rw [he] at hu
    rw [← h, he]
    simp only [List.length_cons] at hu
    simp
    omega

theorem forall₂_length {α β : Type} {R : α → β → Prop} {l : List α} {m : List β} (h : List.Forall₂ R l m)
    {P : β → Prop} (hP : ∀ a ∈ l, ∀ b, R a b → P b) : ∀ b ∈ m, P b := by
  induction h with
  | nil => simp
  | cons h _ ih =>
    intro b hb
    rcases List.mem_cons.1 hb with rfl | hb
    · exact hP _ (by simp) _ h
    · exact ih (fun a ha => hP a (by simp [ha])) b hb

theorem headD_length {n c : ℕ} (hn : 0 < n) {A : List (List ℂ)} (h : Shaped n c A) : (A.headD []).length = c := by
  cases A with
  | nil => have := h.1; simp at this; omega
  | cons r A => exact h.2 r (by simp)

/-! ## C99 -/

/-- Every array returned has `N` columns. -/
def Spec.AllCols (N : ℕ) (o : SsqFullOut) : Prop :=
  o.txCols = N ∧ (∀ r ∈ o.Wx, r.length = N) ∧ (∀ r ∈ o.dWx, r.length = N) ∧ ∀ w, o.w = some w → ∀ r ∈ w, r.length = N

/-- **C99, full claim**: `Tx`, `Wx`, `w` and `dWx` have one column per sample of `x`. -/
def C99_full : Prop := ∀ (x : List ℝ) (a : SsqFullArgs) (t : Option PadType), 0 < x.length → a.padtype = t.map padName →
  ∀ o, ssqCwtFull x a = .ok o → Spec.AllCols x.length o

/-- **C99**, for the trigonometric and the phase derivative, with order 0 or a pad type. -/
theorem C99_partial (x : List ℝ) (hx : 0 < x.length) (a : SsqFullArgs) (t : Option PadType) (ht : a.padtype = t.map padName)
    (hd : a.difftype ≠ .numeric) (ho : a.order = .int 0 ∨ t.isSome) (o : SsqFullOut) (h : ssqCwtFull x a = .ok o) :
    Spec.AllCols x.length o := by
  obtain ⟨od, fs, dt, W, -, -, hW, h3, hc⟩ := full_ok h
  have key : Shaped W.2.1.length x.length W.1 ∧ Shaped W.2.1.length x.length W.2.2.2 := by
    rcases orders_cases a.order with h0 | ⟨isSeq, ks, hk⟩ | ⟨k, hk, hk'⟩
    · have := order0_ok hx ht h0 hW
      rwa [show Spec.cwtCols t (decide (a.difftype = .numeric)) x.length = x.length by
        unfold Spec.cwtCols; rw [if_neg (by simp [hd])]] at this
    · have ht' : t.isSome := by
        rcases ho with ho | ho
        · rw [ho] at hk
          rcases hk with ⟨-, hk⟩ | ⟨-, k, hk, hk', -⟩
          · simp at hk
          · simp only [CwtOrderArg.int.injEq] at hk'; omega
        · exact ho
      rw [transforms_orders hk] at hW
      obtain ⟨V, s, D, n1, shape, d, -, g2, -, g4, g5, g6⟩ := ssqHigher_ok hx ht hk hW
      have hcc : Spec.cwtCols t true x.length = (p2up x.length).1 := by unfold Spec.cwtCols; rw [if_pos ⟨rfl, ht'⟩]
      rw [hcc] at g4
      obtain ⟨f1, f2, f3, f4, f5⟩ := padWidths_facts x.length hx none (by simp)
      simp only [padWidths] at f2 f4
      have hlen : ∀ q : List ℂ, q.length = (p2up x.length).1 → (unpad q (n1 : ℤ) x.length).length = x.length := by
        intro q hq
        rw [unpad_take, List.length_take, List.length_drop, hq]
        omega
      refine ⟨⟨by rw [g5, List.length_map, g4.1], fun r hr => ?_⟩, by rw [g6, List.length_map, g4.1], fun r hr => ?_⟩
      · rw [g5] at hr
        obtain ⟨q, hq, rfl⟩ := List.mem_map.1 hr
        exact hlen q (g4.2 q hq)
      · rw [g6] at hr
        obtain ⟨q, hq, rfl⟩ := List.mem_map.1 hr
        exact hlen _ (by rw [diffRow_length]; exact g4.2 q hq)
    · exact absurd hW (transforms_negative hk hk' _)
  have hpos : 0 < W.2.1.length := by omega
  rcases hc with ⟨hg, p, T, hp, -, rfl⟩ | ⟨hg, T, -, rfl⟩
  · have hpW : p.1 = W.1 ∧ ∀ r ∈ p.2, r.length = x.length := by
      unfold ssqPhase at hp
      split at hp
      · simp only [Except.ok.injEq] at hp
        subst hp
        refine ⟨rfl, fun r hr => ?_⟩
        simp only [phaseRows, List.mem_map, List.mem_range] at hr
        obtain ⟨i, hi, rfl⟩ := hr
        simp only [List.length_map, List.length_range]
        exact key.1.row (by rw [← key.1.1]; exact hi)
      · obtain ⟨w, hw, hp⟩ := bind_ok hp
        simp only [Except.ok.injEq] at hp
        subst hp
        refine ⟨rfl, forall₂_length ((mapM_ok _ _ _).1 hw) fun q hq b hb => ?_⟩
        rw [phaseCwtPhase_length hb, key.1.2 q hq]
      · exact absurd ‹_› hd
      · simp at hp
    unfold ssqPost
    rw [if_neg hd]
    refine ⟨?_, key.1.2, key.2.2, ?_⟩
    · simp only; rw [hpW.1]; exact headD_length hpos key.1
    · intro w hw
      simp only [Option.some.injEq] at hw
      subst hw
      exact hpW.2
  · unfold ssqPost
    rw [if_neg hd]
    exact ⟨headD_length hpos key.1, key.1.2, key.2.2, by simp⟩

theorem phaseCwtNum_length {eps dt : ℝ} {p : ℤ} {g : Option ℝ} {r : List ℂ} (hr : 2 ≤ r.length) {w : List Phase}
    (h : phaseCwtNum eps dt p g r = .ok w) : w.length = r.length := by
  unfold phaseCwtNum at h
  split at h
  · simp at h
  · simp only [Except.ok.injEq] at h
    rw [← h, List.length_zipWith]
    split
    · rw [numDiff1_range _ _ (by omega)]; simp
    · split
      · rw [numDiff2_range _ _ hr]; simp
      · rw [numDiff4_range _ _ hr]; simp

theorem slice4_length {α : Type} (r : List α) : (pySlice r (some 4) (some (-4))).length = r.length - 8 := by
  by_cases h : 4 ≤ r.length
  · have h1 : sliceBound r.length 4 = 4 := by unfold sliceBound; rw [if_neg (by omega)]; omega
    have h2 : sliceBound r.length (-4) = r.length - 4 := by unfold sliceBound; rw [if_pos (by omega)]; omega
    simp only [pySlice, h1, h2]
    simp
    omega
  · have h1 : sliceBound r.length 4 = r.length := by unfold sliceBound; rw [if_neg (by omega)]; omega
    simp only [pySlice, h1]
    simp
    omega

theorem numeric_cols {x : List ℝ} {a : SsqFullArgs} (hd : a.difftype = .numeric) {n1 : ℕ}
    (hn1 : (n1 : ℤ) = (p2up x.length).2.1) (h4 : 4 ≤ n1) {o : SsqFullOut} (h : ssqCwtFull x a = .ok o) {L : ℕ}
    (hL2 : n1 ≤ L + 2)
    (hsh : ∀ fs W, ssqTransforms x a fs = .ok W → Shaped W.2.1.length L W.1 ∧ Shaped W.2.1.length L W.2.2.2) :
    (∀ r ∈ o.Wx, r.length = L - 8) ∧ (∀ r ∈ o.dWx, r.length = L) ∧
    o.txCols = min (x.length + 8) (L - (n1 - 4)) - 8 ∧
    ∃ w, o.w = some w ∧ ∀ r ∈ w, r.length = min (x.length + 8) (L - (n1 - 4)) - 8 := by
  obtain ⟨od, fs, dt, W, hod, -, hW, h3, hc⟩ := full_ok h
  obtain ⟨k1, k2⟩ := hsh fs W hW
  have hpos : 0 < W.2.1.length := by omega
  rcases hc with ⟨hg, p, T, hp, -, rfl⟩ | ⟨hg, T, -, rfl⟩
  · unfold ssqPhase at hp
    rw [hd] at hp
    simp only at hp
    obtain ⟨w, hw, hp⟩ := bind_ok hp
    simp only [Except.ok.injEq] at hp
    subst hp
    have hsl : ∀ q : List ℂ, q.length = L → (pySlice q (some ((p2up x.length).2.1 - 4))
        (some ((p2up x.length).2.1 + x.length + 4))).length = min (x.length + 8) (L - (n1 - 4)) := by
      intro q hq
      rw [← hn1, show (n1 : ℤ) - 4 = ((n1 - 4 : ℕ) : ℤ) by omega,
        show (n1 : ℤ) + x.length + 4 = ((n1 + x.length + 4 : ℕ) : ℤ) by push_cast; ring, pySlice_nat]
      rw [List.length_take, List.length_drop, hq]
      omega
    have hsh : Shaped W.2.1.length (min (x.length + 8) (L - (n1 - 4))) (W.1.map fun r => pySlice r
        (some ((p2up x.length).2.1 - 4)) (some ((p2up x.length).2.1 + x.length + 4))) := by
      refine ⟨by rw [List.length_map, k1.1], fun r hr => ?_⟩
      obtain ⟨q, hq, rfl⟩ := List.mem_map.1 hr
      exact hsl q (k1.2 q hq)
    have hw' : ∀ r ∈ w, r.length = min (x.length + 8) (L - (n1 - 4)) :=
      forall₂_length ((mapM_ok _ _ _).1 hw) fun q hq b hb => by
        have := hsh.2 q hq
        rw [phaseCwtNum_length (by omega) hb, this]
    unfold ssqPost
    rw [if_pos hd]
    simp only
    refine ⟨fun r hr => ?_, k2.2, by rw [headD_length hpos hsh], _, rfl, fun r hr => ?_⟩
    · obtain ⟨q, hq, rfl⟩ := List.mem_map.1 hr
      rw [slice4_length, k1.2 q hq]
    · obtain ⟨q, hq, rfl⟩ := List.mem_map.1 hr
      rw [slice4_length, hw' q hq]
  · exfalso
    rw [hd, hg] at hod
    unfold checkSsqueezingArgs at hod
    obtain ⟨_, _, hod⟩ := bind_ok hod
    obtain ⟨_, _, hod⟩ := bind_ok hod
    obtain ⟨_, _, hod⟩ := bind_ok hod
    obtain ⟨_, hod', hod⟩ := bind_ok hod
    simp [checkDifftype] at hod'

/-- **C99, numeric derivative.** With order 0 and pads of at least four samples, `Wx` has the padded length less eight
columns and `dWx` the padded length; `Tx` and `w` have one column per sample if there are at least four samples of padding
on the right as well, and fewer otherwise (without padding, `n1 + 4` are lost). -/
theorem C99_numeric (x : List ℝ) (hx : 0 < x.length) (a : SsqFullArgs) (t : Option PadType) (ht : a.padtype = t.map padName)
    (hd : a.difftype = .numeric) (ho : a.order = .int 0) (n1 : ℕ) (hn1 : (n1 : ℤ) = (p2up x.length).2.1) (h4 : 4 ≤ n1)
    (o : SsqFullOut) (h : ssqCwtFull x a = .ok o) (L : ℕ) (hL : L = if t.isSome then (p2up x.length).1 else x.length) :
    (∀ r ∈ o.Wx, r.length = L - 8) ∧ (∀ r ∈ o.dWx, r.length = L) ∧
    o.txCols = min (x.length + 8) (L - (n1 - 4)) - 8 ∧
    ∃ w, o.w = some w ∧ ∀ r ∈ w, r.length = min (x.length + 8) (L - (n1 - 4)) - 8 := by
  obtain ⟨f1, f2, f3, f4, f5⟩ := padWidths_facts x.length hx none (by simp)
  have f5' := f5 rfl
  simp only [padWidths] at f2 f4 f5'
  refine numeric_cols hd hn1 h4 h (by rw [hL]; split <;> omega) fun fs W hW => ?_
  have := order0_ok hx ht ho hW
  rwa [show Spec.cwtCols t (decide (a.difftype = .numeric)) x.length = L by
    unfold Spec.cwtCols; rw [hL, hd]; simp] at this

/-- **C99, numeric derivative with higher orders** and a pad type: the transform is trimmed to the signal, and then once
more as if it were still padded: `Wx` lacks eight columns, `Tx` and `w` lack `n1 + 4`. -/
theorem C99_numeric_orders (x : List ℝ) (hx : 0 < x.length) (a : SsqFullArgs) (t : PadType)
    (ht : a.padtype = some (padName t)) (hd : a.difftype = .numeric) (isSeq : Bool) (ks : List ℤ)
    (ho : Spec.Orders a.order isSeq ks) (n1 : ℕ) (hn1 : (n1 : ℤ) = (p2up x.length).2.1) (h4 : 4 ≤ n1)
    (o : SsqFullOut) (h : ssqCwtFull x a = .ok o) :
    (∀ r ∈ o.Wx, r.length = x.length - 8) ∧ (∀ r ∈ o.dWx, r.length = x.length) ∧
    o.txCols = x.length - (n1 + 4) ∧ ∃ w, o.w = some w ∧ ∀ r ∈ w, r.length = x.length - (n1 + 4) := by
  obtain ⟨f1, f2, f3, f4, f5⟩ := padWidths_facts x.length hx none (by simp)
  have f5' := f5 rfl
  simp only [padWidths] at f2 f4 f5'
  obtain ⟨g1, g2, g3, g4⟩ := numeric_cols hd hn1 h4 h (L := x.length) (by omega) fun fs W hW => by
    rw [transforms_orders ho] at hW
    obtain ⟨V, s, D, m, shape, d, -, g2, -, g4, g5, g6⟩ := ssqHigher_ok hx (t := some t) ht ho hW
    have : m = n1 := by have := g2.trans hn1.symm; exact_mod_cast this
    subst this
    have hcc : Spec.cwtCols (some t) true x.length = (p2up x.length).1 := by unfold Spec.cwtCols; simp
    rw [hcc] at g4
    have hlen : ∀ q : List ℂ, q.length = (p2up x.length).1 → (unpad q (m : ℤ) x.length).length = x.length := by
      intro q hq
      rw [unpad_take, List.length_take, List.length_drop, hq]
      omega
    refine ⟨⟨by rw [g5, List.length_map, g4.1], fun r hr => ?_⟩, ⟨by rw [g6, List.length_map, g4.1], fun r hr => ?_⟩⟩
    · rw [g5] at hr
      obtain ⟨q, hq, rfl⟩ := List.mem_map.1 hr
      exact hlen q (g4.2 q hq)
    · rw [g6] at hr
      obtain ⟨q, hq, rfl⟩ := List.mem_map.1 hr
      exact hlen _ (by rw [diffRow_length]; exact g4.2 q hq)
  have e : min (x.length + 8) (x.length - (n1 - 4)) - 8 = x.length - (n1 + 4) := by omega
  rw [e] at g3 g4
  exact ⟨g1, g2, g3, g4⟩

/-- **C99, higher orders without padding.** The columns are trimmed all the same: `Wx`, `dWx` and `Tx` lack as many as the
left pad would have had. -/
theorem C99_unpadded (x : List ℝ) (hx : 0 < x.length) (a : SsqFullArgs) (ht : a.padtype = none)
    (hd : a.difftype ≠ .numeric) (isSeq : Bool) (ks : List ℤ) (ho : Spec.Orders a.order isSeq ks) (n1 : ℕ)
    (hn1 : (n1 : ℤ) = (p2up x.length).2.1) (o : SsqFullOut) (h : ssqCwtFull x a = .ok o) :
    1 ≤ n1 ∧ o.txCols = x.length - n1 ∧ (∀ r ∈ o.Wx, r.length = x.length - n1) ∧
      ∀ r ∈ o.dWx, r.length = x.length - n1 := by
  obtain ⟨od, fs, dt, W, -, -, hW, h3, hc⟩ := full_ok h
  rw [transforms_orders ho] at hW
  obtain ⟨V, s, D, m, shape, d, -, g2, -, g4, g5, g6⟩ := ssqHigher_ok hx (t := none) ht ho hW
  have : m = n1 := by have := g2.trans hn1.symm; exact_mod_cast this
  subst this
  have hcc : Spec.cwtCols none true x.length = x.length := by unfold Spec.cwtCols; simp
  rw [hcc] at g4
  obtain ⟨f1, f2, f3, f4, f5⟩ := padWidths_facts x.length hx none (by simp)
  have f5' := f5 rfl
  simp only [padWidths] at f5'
  have hlen : ∀ q : List ℂ, q.length = x.length → (unpad q (m : ℤ) x.length).length = x.length - m := by
    intro q hq
    rw [unpad_take, List.length_take, List.length_drop, hq]
    omega
  have k1 : Shaped W.2.1.length (x.length - m) W.1 := by
    refine ⟨by rw [g5, List.length_map, g4.1], fun r hr => ?_⟩
    rw [g5] at hr
    obtain ⟨q, hq, rfl⟩ := List.mem_map.1 hr
    exact hlen q (g4.2 q hq)
  have k2 : ∀ r ∈ W.2.2.2, r.length = x.length - m := by
    intro r hr
    rw [g6] at hr
    obtain ⟨q, hq, rfl⟩ := List.mem_map.1 hr
    exact hlen _ (by rw [diffRow_length]; exact g4.2 q hq)
  have hpos : 0 < W.2.1.length := by omega
  refine ⟨by omega, ?_⟩
  rcases hc with ⟨hg, p, T, hp, -, rfl⟩ | ⟨hg, T, -, rfl⟩
  · have hpW : p.1 = W.1 := by
      unfold ssqPhase at hp
      split at hp
      · simp only [Except.ok.injEq] at hp
        rw [← hp]
      · obtain ⟨w, hw, hp⟩ := bind_ok hp
        simp only [Except.ok.injEq] at hp
        rw [← hp]
      · exact absurd ‹_› hd
      · simp at hp
    unfold ssqPost
    rw [if_neg hd]
    exact ⟨by simp only; rw [hpW]; exact headD_length hpos k1, k1.2, k2⟩
  · unfold ssqPost
    rw [if_neg hd]
    exact ⟨headD_length hpos k1, k1.2, k2⟩

/-- **C99, negative orders.** A negative integer order is accepted by every check and then fails with
`UnboundLocalError`. -/
theorem C99_negative (x : List ℝ) (a : SsqFullArgs) (k : ℤ) (hk : k < 0) (ho : a.order = .int k)
    (hod : ∃ od, checkSsqueezingArgs false a.squeezing a.maprange true (some a.difftype) a.difforder a.getW .cwt = .ok od)
    (fs dt : ℝ) (hfs : processFsT a.fs a.t x.length = .ok (.fin fs dt))
    (hsc : ∃ sc, processScales a.scales x.length (some a.wavelet.sw) (ssqCwtNv a.toSsqCwtArgs) true a.downsample = .ok sc) :
    ssqCwtFull x a = .error .unboundLocalError := by
  obtain ⟨od, hod⟩ := hod
  obtain ⟨sc, hsc⟩ := hsc
  have hdt : cwtDt a.fs a.t x.length = .ok (fs, dt) := by unfold cwtDt; rw [hfs]; rfl
  have htr : ssqTransforms x a fs = .error .unboundLocalError := by
    unfold ssqTransforms
    rw [ho]
    simp only [show ¬ (0 < k) by omega, show k ≠ 0 by omega, if_false]
    rw [hsc]; rfl
  unfold ssqCwtFull
  rw [hod, ok_bind, hdt, ok_bind, htr]
  rfl

/-- **C99, the default is the basic model.** With the trigonometric derivative, order 0 and without `get_w`, the call is
that of `ssqCwt`, to which C39 and C76 apply. -/
theorem C99_default (x : List ℝ) (hx : 0 < x.length) (a : SsqFullArgs) (t : Option PadType) (ht : a.padtype = t.map padName)
    (hd : a.difftype = .trig) (ho : a.order = .int 0) (hg : a.getW = false) (o : SsqFullOut)
    (h : ssqCwtFull x a = .ok o) :
    ssqCwt x a.toSsqCwtArgs = .ok ⟨o.Tx, o.Wx, o.freqs, o.scales, o.dWx⟩ ∧ o.txCols = x.length ∧ o.w = none := by
  obtain ⟨od, fs, dt, W, hod, hdt, hW, h3, hc⟩ := full_ok h
  obtain ⟨k1, k2⟩ := order0_ok hx ht ho hW
  have hcc : Spec.cwtCols t (decide (a.difftype = .numeric)) x.length = x.length := by
    unfold Spec.cwtCols; rw [hd]; simp
  rw [hcc] at k1 k2
  rcases hc with ⟨hg', -⟩ | ⟨-, T, hT, rfl⟩
  · rw [hg] at hg'; simp at hg'
  have hhd := headD_length (by omega) k1
  unfold ssqPost
  rw [if_neg (by rw [hd]; simp)]
  refine ⟨?_, hhd, rfl⟩
  unfold ssqTransforms at hW
  rw [ho] at hW
  simp only [lt_self_iff_false, if_false, if_true] at hW
  unfold ssqOrder0 at hW
  obtain ⟨sc, hsc, hW⟩ := bind_ok hW
  obtain ⟨V, hV, hW⟩ := bind_ok hW
  simp only [Except.ok.injEq] at hW
  subst hW
  rw [hd] at hod hV
  unfold ssqCwt
  have hV' : cwt x (a.cwtArgs fs sc.1) = .ok V := hV
  rw [hod, ok_bind, hdt, ok_bind, hsc, ok_bind]
  simp only
  rw [hV', ok_bind]
  have hT' : ssqueeze (a.ssqArgs fs sc.2.1 V.2.1 x.length V.1 V.2.2) = .ok T := by
    rw [← hT]
    congr 1
    unfold SsqCwtArgs.ssqArgs SsqFullArgs.squeezeArgs
    simp only [hg, Bool.false_eq_true, if_false, Option.map_none, Option.map_some]
    rw [hhd, k1.1]
    rfl
  rw [hT', ok_bind]

/-- **C99, the default**, the other way: wherever the basic model succeeds so does the full one. -/
theorem C99_default_runs (x : List ℝ) (hx : 0 < x.length) (a : SsqFullArgs) (t : Option PadType)
    (ht : a.padtype = t.map padName) (hd : a.difftype = .trig) (ho : a.order = .int 0) (hg : a.getW = false)
    (o : SsqCwtOut) (h : ssqCwt x a.toSsqCwtArgs = .ok o) :
    ssqCwtFull x a = .ok ⟨o.Tx, x.length, o.Wx, o.freqs, o.scales, none, o.dWx⟩ := by
  unfold ssqCwt at h
  obtain ⟨od, hod, h⟩ := bind_ok h
  obtain ⟨r, hr, h⟩ := bind_ok h
  obtain ⟨sc, hsc, h⟩ := bind_ok h
  obtain ⟨V, hV, h⟩ := bind_ok h
  obtain ⟨T, hT, h⟩ := bind_ok h
  simp only [Except.ok.injEq] at h
  subst h
  have htr : ssqTransforms x a r.1 = .ok (V.1, V.2.1, sc.2.1, V.2.2) := by
    unfold ssqTransforms
    rw [ho]
    simp only [lt_self_iff_false, if_false, if_true]
    unfold ssqOrder0
    rw [hsc, ok_bind]
    have hV' : cwt x { a.cwtArgs r.1 sc.1 with rpadded := decide (a.difftype = .numeric) } = .ok V := by
      rw [hd]; exact hV
    rw [hV']; rfl
  obtain ⟨k1, k2⟩ := order0_ok hx ht ho htr
  have hcc : Spec.cwtCols t (decide (a.difftype = .numeric)) x.length = x.length := by
    unfold Spec.cwtCols; rw [hd]; simp
  rw [hcc] at k1
  have h3 : 3 ≤ V.2.1.length := by
    obtain ⟨st, nv, hi⟩ := ssqueeze_scales hT rfl rfl
    unfold inferScaletype at hi
    split at hi
    · simp at hi
    · split at hi
      · simp at hi
      · omega
  have hhd := headD_length (show 0 < V.2.1.length by omega) k1
  unfold ssqCwtFull
  rw [hd, hod, ok_bind, hr, ok_bind, htr, ok_bind, hg]
  simp only [Bool.false_eq_true, if_false]
  have hT' : ssqueeze (a.squeezeArgs r.1 (a.gamma.getD (10 * a.eps)) sc.2.1 V.2.1 (V.1.headD []).length V.1 none
      (some V.2.2)) = .ok T := by
    rw [← hT]
    congr 1
    unfold SsqCwtArgs.ssqArgs SsqFullArgs.squeezeArgs
    simp only [hg, Bool.false_eq_true, if_false, Option.map_none, Option.map_some]
    rw [hhd, k1.1]
    rfl
  rw [hT', ok_bind, hhd]
  rfl

/-! ## C100 -/

/-- **C100.** For every higher order, or averaged sequence of orders, and a pad type: the transform, the scales and the
derivative `ssq_cwt` returns are those of `cwt` with the same orders (trimmed, several orders averaged), although
`ssq_cwt` differentiates the padded (average) transform instead of transforming with differentiated wavelets. -/
theorem C100_same_cwt (x : List ℝ) (hx : 0 < x.length) (a : SsqFullArgs) (t : PadType) (ht : a.padtype = some (padName t))
    (hd : a.difftype ≠ .numeric) (isSeq : Bool) (ks : List ℤ) (ho : Spec.Orders a.order isSeq ks)
    (o : SsqFullOut) (h : ssqCwtFull x a = .ok o) :
    ∃ fs dt shape d, processFsT a.fs a.t x.length = .ok (.fin fs dt) ∧
      cwtOrder x (Spec.orderCall a fs isSeq) = .ok (.one o.Wx, .arr shape d o.scales, .one o.dWx) := by
  obtain ⟨od, fs, dt, W, -, hdt, hW, h3, hc⟩ := full_ok h
  rw [transforms_orders ho] at hW
  obtain ⟨V, s, D, n1, shape, d, g1, g2, g3, g4, g5, g6⟩ := ssqHigher_ok hx (t := some t) ht ho hW
  rw [cwtOrder_orders (h := a.hoArgs fs isSeq) ho] at g1
  obtain ⟨-, e⟩ := higher_run hx (h := a.hoArgs fs isSeq) (fs := fs) ht rfl rfl rfl rfl g2 g1
  rw [← g5, ← g6, g3] at e
  have hout : o.Wx = W.1 ∧ o.scales = W.2.1 ∧ o.dWx = W.2.2.2 := by
    rcases hc with ⟨-, p, T, -, -, rfl⟩ | ⟨-, T, -, rfl⟩ <;>
    · unfold ssqPost; rw [if_neg hd]; exact ⟨rfl, rfl, rfl⟩
  refine ⟨fs, dt, shape, d, cwtDt_fin hdt, ?_⟩
  rw [cwtOrder_orders (h := Spec.orderCall a fs isSeq) ho, hout.1, hout.2.1, hout.2.2]
  exact e

/-! ## Witnesses -/

/-- `exSsq` with a difference type and an order; every order has the same real wavelet. -/
noncomputable def exFull (t : Option PadType) (d : DiffType) (o : CwtOrderArg) (g : Bool) : SsqFullArgs where
  toSsqCwtArgs := { exSsq t with getW := g }
  difftype := d
  order := o
  isGmw := true
  fam := fun _ => (.real fnR, sw0)
  normL1 := true

theorem ssqueeze_exFull (t : Option PadType) (d : DiffType) (o : CwtOrderArg) (g : Bool) (cols : ℕ) (W : List (List ℂ))
    (hW : W.length ≠ 1) (w : Option (List (List Phase))) (dW : Option (List (List ℂ))) (hwd : w.isSome ∨ dW.isSome)
    (hneg : ∀ v, w = some v → ∀ r ∈ v, ∀ y, Phase.fin y ∈ r → 0 ≤ y) :
    ∃ Tx, ssqueeze ((exFull t d o g).squeezeArgs 8 (1 / 100) .log [1, 2, 4] cols W w dW) = .ok (Tx, [4, 2, 1]) := by
  set a := (exFull t d o g).squeezeArgs 8 (1 / 100) .log [1, 2, 4] cols W w dW with ha
  have h1 : ssqProcessArgs a = .ok (1 / 8) := by
    have hc : checkSsqueezingArgs false .sum .maximal true none none false .cwt = .ok none := rfl
    unfold ssqProcessArgs
    rw [if_neg, if_neg]
    · simp only [ha, SsqFullArgs.squeezeArgs, exFull, exSsq, Option.isSome_some, hc, ok_bind, Option.isNone_some,
        Bool.false_eq_true, false_and, if_false, processFsT]
      norm_num
    · rintro ⟨v, hv, i, -, j, -, y, hy, hlt⟩
      simp only [ha, SsqFullArgs.squeezeArgs] at hv
      obtain ⟨u, hu, rfl⟩ := Option.map_eq_some_iff.1 hv
      unfold phaseFn at hy
      by_cases hi : i < u.length
      · rw [List.getD_eq_getElem _ _ hi] at hy
        by_cases hj : j < u[i].length
        · rw [List.getD_eq_getElem _ _ hj] at hy
          have := hneg u hu u[i] (List.getElem_mem _) y (hy ▸ List.getElem_mem _)
          linarith
        · rw [List.getD_eq_default _ _ (by omega)] at hy
          simp at hy
      · rw [show u.getD i [] = [] from List.getD_eq_default _ _ (by omega)] at hy
        simp at hy
    · rintro ⟨h, h' | h'⟩
      · cases w <;> cases dW <;> simp [ha, SsqFullArgs.squeezeArgs] at h h' hwd
      · simp [ha, SsqFullArgs.squeezeArgs] at h'
  have h2 : ssqScales a = .ok (some [1, 2, 4], some (.log, .int 1)) := by
    have hp : positiveInteger ((1 : ℤ) : ℚ) = .ok 1 := by rfl
    simp only [ha, SsqFullArgs.squeezeArgs, exFull, exSsq, ssqScales, processScales, infer124, ok_bind, pure_eq_ok, ne_eq,
      not_true_eq_false, false_and, if_false, hp]
    rfl
  have h3 : ssqFreqsOf a (1 / 8) (some [1, 2, 4]) (some (.log, .int 1)) = .ok ([1, 2, 4], .known .log) := by
    simp only [ssqFreqsOf, ha, SsqFullArgs.squeezeArgs, exFull, exSsq, reduceCtorEq, if_false, infer124, ok_bind]
  have h4 : ∀ v, ssqConst a.transform (some [1, 2, 4]) (some (.log, .int 1)) v =
      .ok (.scalar (Real.log 2 / ((1 : ℤ) : ℝ))) := fun v => rfl
  have h6 : ∃ T, ssqKernel a (applySqueezing a.squeezing a.M a.Wx)
      [1, 2, 4] (.scalar (Real.log 2 / ((1 : ℤ) : ℝ))) true = .ok T := by
    rw [kernel_eq _ _ _ _ _ (Or.inr (Or.inl rfl))]
    unfold indexedSumOnfly onflyBody constArr processSsqParams paramsFindClosestLog
    rw [transition_geometric geo124 (by simp)]
    have hM : a.M ≠ 1 := by simpa [ha, SsqFullArgs.squeezeArgs] using hW
    simp only [ok_bind, pure_eq_ok, if_neg hM, if_true]
    exact ⟨_, rfl⟩
  obtain ⟨T, h6⟩ := h6
  refine ⟨T, ?_⟩
  have hr : ssqReverses a.transform a.flipud = true := rfl
  unfold ssqueeze
  simp only [h1, ok_bind, h2, h3, h4, SsqType.isLog, h6, pure_eq_ok, hr, if_true]
  rfl

theorem exFull_dt (t : Option PadType) (d : DiffType) (o : CwtOrderArg) (g : Bool) (N : ℕ) :
    processFsT (exFull t d o g).fs (exFull t d o g).t N = .ok (.fin 8 (1 / 8)) := by
  show processFsT (some 8) none N = _
  simp only [processFsT]; rw [if_neg (by norm_num)]

/-- The transforms of order 1. -/
theorem exFull_tr1 (x : List ℝ) (hx : 0 < x.length) (t : Option PadType) (d : DiffType) (g : Bool) :
    ∃ V dV, ssqTransforms x (exFull t d (.int 1) g) 8 = .ok (V, [1, 2, 4], .log, dV) ∧ V.length = 3 := by
  set a := exFull t d (.int 1) g with ha
  obtain ⟨W, dW, hW⟩ := C37_succeeds x (hoCallArgs (a.hoArgs 8 false) (ordWav (a.hoArgs 8 false) 1) sc124) t rfl hx 8 (1 / 8)
    (by show processFsT (some 8) none x.length = _; simp only [processFsT]; rw [if_neg (by norm_num)])
    (by intro b hb; simp [hoCallArgs, ordWav] at hb)
    [1, 2, 4] .log 3 (.int 1) none (by rintro ⟨n, hn⟩; simp [hoCallArgs, sc124] at hn) (fun _ => rfl)
    (process124 _ _ _ _)
  have hho : cwtOrder x (a.hoArgs 8 false) = .ok (.one W, sc124, .one dW) := by
    rw [cwtOrder_int (k := 1) rfl (by norm_num)]
    unfold cwtHigherOrder
    have hw : hoWavelets (a.hoArgs 8 false) [1] = .ok [ordWav (a.hoArgs 8 false) 1] := rfl
    have hs : hoScales (a.hoArgs 8 false) x.length = .ok sc124 := rfl
    rw [hw, ok_bind, hs, ok_bind, List.mapM_cons]
    dsimp only
    rw [hW]
    have hav : ¬ (hoAverage (some false) 1 = some true ∨ (hoAverage (some false) 1 = none ∧ (false : Bool) = true)) := by
      simp [hoAverage]
    simp only [ok_bind, List.mapM_nil, pure_eq_ok, List.map_cons, List.map_nil, List.length_cons, List.length_nil,
      zero_add]
    rw [show (a.hoArgs 8 false).average = some false from rfl, decide_eq_false hav]
    rfl
  have hlen : W.length = 3 := (cwt_cols hx (t := t) rfl hW).1.1
  unfold ssqTransforms
  rw [show a.order = .int 1 from rfl]
  simp only [zero_lt_one, if_true]
  unfold ssqHigher
  rw [hho, ok_bind]
  simp only
  rw [show processScales sc124 x.length (some a.wavelet.sw) (ssqCwtNv a.toSsqCwtArgs) true a.downsample =
    .ok ([1, 2, 4], .log, 3, .int 1) from process124 _ _ _ _]
  refine ⟨_, _, rfl, by simp [hlen]⟩

/-- A call with order 1. -/
theorem exFull_order1 (x : List ℝ) (hx : 0 < x.length) (t : Option PadType) :
    ∃ o, ssqCwtFull x (exFull t .trig (.int 1) false) = .ok o := by
  obtain ⟨V, dV, htr, hV⟩ := exFull_tr1 x hx t .trig false
  set a := exFull t .trig (.int 1) false with ha
  have hc : checkSsqueezingArgs false a.squeezing a.maprange true (some a.difftype) a.difforder a.getW .cwt =
      .ok none := rfl
  have hdt : cwtDt a.fs a.t x.length = .ok (8, 1 / 8) := by
    unfold cwtDt; rw [ha, exFull_dt]; rfl
  obtain ⟨T, hT⟩ := ssqueeze_exFull t .trig (.int 1) false (V.headD []).length V (by omega) none (some dV) (by simp)
    (by simp)
  unfold ssqCwtFull
  rw [hc, ok_bind, hdt, ok_bind, htr, ok_bind]
  rw [show a.getW = false from rfl, show a.gamma.getD (10 * a.eps) = 1 / 100 from rfl]
  simp only [Bool.false_eq_true, if_false]
  rw [hT]
  exact ⟨_, rfl⟩

/-- A call with the numeric derivative, with sixteen samples, given the transforms. -/
theorem exFull_num' (x : List ℝ) (t : Option PadType) (k : CwtOrderArg) (W dW : List (List ℂ)) (L c : ℕ)
    (hL : ∀ q : List ℂ, q.length = L → (pySlice q (some ((p2up x.length).2.1 - 4))
      (some ((p2up x.length).2.1 + x.length + 4))).length = c) (hc0 : c ≠ 0)
    (htr : ssqTransforms x (exFull t .numeric k true) 8 = .ok (W, [1, 2, 4], .log, dW)) (hsh : Shaped 3 L W) :
    ∃ o, ssqCwtFull x (exFull t .numeric k true) = .ok o ∧ o.Wx ≠ [] ∧ o.freqs = [4, 2, 1] ∧ o.scales = [1, 2, 4] := by
  set a := exFull t .numeric k true with ha
  have hc : checkSsqueezingArgs false a.squeezing a.maprange true (some a.difftype) a.difforder a.getW .cwt =
      .ok (some 4) := rfl
  have hdt : cwtDt a.fs a.t x.length = .ok (8, 1 / 8) := by
    unfold cwtDt; rw [ha, exFull_dt]; rfl
  have hph : ∃ p, ssqPhase a x.length (1 / 8) (1 / 100) (some 4) W dW = .ok p ∧ p.1.length = 3 ∧
      (p.1.headD []).length ≠ 0 ∧ ∀ r ∈ p.2, ∀ y, Phase.fin y ∈ r → 0 ≤ y := by
    unfold ssqPhase
    rw [show a.difftype = .numeric from rfl]
    simp only
    set W' := W.map fun r => pySlice r (some ((p2up x.length).2.1 - 4)) (some ((p2up x.length).2.1 + x.length + 4)) with hW'
    have hf : ∀ r : List ℂ, ∃ w, phaseCwtNum a.eps (1 / 8) ((some 4 : Option ℤ).getD 4) (some (1 / 100)) r = .ok w ∧
        ∀ y, Phase.fin y ∈ w → 0 ≤ y := by
      intro r
      unfold phaseCwtNum
      rw [if_neg (by simp)]
      refine ⟨_, rfl, fun y hy => ?_⟩
      rw [← List.map_uncurry_zip_eq_zipWith] at hy
      obtain ⟨q, -, hq⟩ := List.mem_map.1 hy
      simp only [Function.uncurry] at hq
      split at hq
      · simp at hq
      · simp only [Phase.fin.injEq] at hq
        rw [← hq]; exact abs_nonneg _
    choose f hf hf' using hf
    have hm : W'.mapM (phaseCwtNum a.eps (1 / 8) ((some 4 : Option ℤ).getD 4) (some (1 / 100))) = .ok (W'.map f) := by
      rw [mapM_ok]
      exact List.forall₂_map_right_iff.2 (List.forall₂_same.2 fun r _ => hf r)
    refine ⟨(W', W'.map f), by rw [hm]; rfl, by rw [hW', List.length_map]; exact hsh.1, ?_, ?_⟩
    · have hs' : Shaped 3 c W' := by
        refine ⟨by rw [hW', List.length_map]; exact hsh.1, fun r hr => ?_⟩
        obtain ⟨q, hq, rfl⟩ := List.mem_map.1 hr
        exact hL q (hsh.2 q hq)
      show (W'.headD []).length ≠ 0
      rw [headD_length (by norm_num) hs']
      exact hc0
    · intro r hr y hy
      obtain ⟨q, -, rfl⟩ := List.mem_map.1 hr
      exact hf' q y hy
  obtain ⟨p, hp1, hp2, hp3, hp4⟩ := hph
  obtain ⟨T, hT⟩ := ssqueeze_exFull t .numeric k true (p.1.headD []).length p.1 (by omega) (some p.2) none
    (by simp) (by rintro v hv; simp only [Option.some.injEq] at hv; subst hv; exact hp4)
  refine ⟨ssqPost a.difftype ⟨T, (p.1.headD []).length, W, [4, 2, 1], [1, 2, 4], some p.2, dW⟩, ?_, ?_, rfl, rfl⟩
  · unfold ssqCwtFull
    rw [hc, ok_bind, hdt, ok_bind, htr, ok_bind]
    rw [show a.getW = true from rfl, show a.gamma.getD (10 * a.eps) = 1 / 100 from rfl]
    simp only [if_true]
    rw [hp1, ok_bind, if_neg hp3, hT]
    rfl
  · unfold ssqPost
    rw [if_pos (show a.difftype = .numeric from rfl)]
    simp only
    intro h
    have := hsh.1
    rw [List.map_eq_nil_iff.1 h] at this
    simp at this

theorem exFull_num (x : List ℝ) (hx : x.length = 16) (t : Option PadType) (k : CwtOrderArg) (W dW : List (List ℂ)) (L : ℕ)
    (hL : 4 < L) (htr : ssqTransforms x (exFull t .numeric k true) 8 = .ok (W, [1, 2, 4], .log, dW)) (hsh : Shaped 3 L W) :
    ∃ o, ssqCwtFull x (exFull t .numeric k true) = .ok o ∧ o.Wx ≠ [] ∧ o.freqs = [4, 2, 1] ∧ o.scales = [1, 2, 4] := by
  have hp := p2up_pow 4 (by norm_num)
  norm_num at hp
  refine exFull_num' x t k W dW L (min 24 (L - 4)) (fun q hq => ?_) (by omega) htr hsh
  rw [hx, hp]
  rw [show ((8 : ℤ) - 4) = ((4 : ℕ) : ℤ) by norm_num, show ((8 : ℤ) + (16 : ℕ) + 4) = ((28 : ℕ) : ℤ) by norm_num, pySlice_nat]
  rw [List.length_take, List.length_drop, hq]

/-- The transform of a call with the numeric derivative: it keeps its padding. -/
theorem exFull_trNum (x : List ℝ) (hx : 0 < x.length) (t : PadType) :
    ∃ W dW, ssqTransforms x (exFull (some t) .numeric (.int 0) true) 8 = .ok (W, [1, 2, 4], .log, dW) ∧
      Shaped 3 (p2up x.length).1 W := by
  set a := exFull (some t) .numeric (.int 0) true with ha
  obtain ⟨W, dW, hW⟩ := C37_succeeds x { a.cwtArgs 8 [1, 2, 4] with rpadded := true } (some t) rfl hx 8 (1 / 8)
    (by show processFsT (some 8) none x.length = _; simp only [processFsT]; rw [if_neg (by norm_num)])
    (by simp [SsqCwtArgs.cwtArgs, ha, exFull, exSsq]) [1, 2, 4] .log 3 (.int 1) none
    (by simp [SsqCwtArgs.cwtArgs]) (fun _ => rfl)
    (by
      have hp : positiveInteger ((1 : ℤ) : ℚ) = .ok 1 := by rfl
      simp only [SsqCwtArgs.cwtArgs, ScalesArg.dtype, ha, exFull, exSsq, sc124, processScales, infer124, ok_bind,
        pure_eq_ok, ne_eq, not_true_eq_false, false_and, if_false, hp]
      rfl)
  have hsh := (cwt_cols (t := some t) hx rfl hW).1
  have h32 : Spec.cwtCols (some t) true x.length = (p2up x.length).1 := by
    unfold Spec.cwtCols; simp
  rw [show ({ a.cwtArgs 8 [1, 2, 4] with rpadded := true } : CwtArgs).rpadded = true from rfl, h32] at hsh
  have htr : ssqTransforms x a 8 = .ok (W, [1, 2, 4], .log, dW) := by
    unfold ssqTransforms
    rw [show a.order = .int 0 from rfl]
    simp only [lt_self_iff_false, if_false, if_true]
    unfold ssqOrder0
    rw [show processScales a.scales x.length (some a.wavelet.sw) (ssqCwtNv a.toSsqCwtArgs) true a.downsample =
      .ok ([1, 2, 4], .log, 3, .int 1) from process124 _ _ _ _, ok_bind]
    have hW' : cwt x { a.cwtArgs 8 [1, 2, 4] with rpadded := decide (a.difftype = .numeric) } = .ok (W, [1, 2, 4], dW) := hW
    rw [hW']; rfl
  exact ⟨W, dW, htr, hsh⟩

/-- A call with the numeric derivative, with sixteen samples. -/
theorem exFull_numeric (x : List ℝ) (hx : x.length = 16) (t : PadType) :
    ∃ o, ssqCwtFull x (exFull (some t) .numeric (.int 0) true) = .ok o ∧ o.Wx ≠ [] ∧ o.freqs = [4, 2, 1] ∧
      o.scales = [1, 2, 4] := by
  have hp := p2up_pow 4 (by norm_num)
  norm_num at hp
  obtain ⟨W, dW, htr, hsh⟩ := exFull_trNum x (by omega) t
  rw [hx, hp] at hsh
  exact exFull_num x hx _ _ W dW 32 (by norm_num) htr hsh

/-- The hypotheses of `C99_numeric_orders` are met with order 1 and sixteen samples: `Tx` has four columns. -/
example : ∃ o, ssqCwtFull (List.replicate 16 1) (exFull (some .reflect) .numeric (.int 1) true) = .ok o ∧ o.txCols = 4 := by
  have hp := p2up_pow 4 (by norm_num)
  norm_num at hp
  obtain ⟨V, dV, htr, hV⟩ := exFull_tr1 (List.replicate 16 1) (by simp) (some .reflect) .numeric true
  have ho : Spec.Orders (exFull (some .reflect) .numeric (.int 1) true).order false [1] :=
    Or.inr ⟨rfl, 1, by norm_num, rfl, rfl⟩
  have htr' := htr
  rw [transforms_orders ho] at htr'
  obtain ⟨U, s, D, m, shape, d, -, g2, -, g4, g5, g6⟩ := ssqHigher_ok (by simp) (t := some .reflect) rfl ho htr'
  have hm : m = 8 := by
    rw [List.length_replicate, hp] at g2
    have : (m : ℤ) = 8 := g2
    exact_mod_cast this
  have hcc : Spec.cwtCols (some .reflect) true (List.replicate 16 (1 : ℝ)).length = 32 := by
    unfold Spec.cwtCols; rw [List.length_replicate, hp]; simp
  rw [hcc] at g4
  obtain ⟨o, h, -⟩ := exFull_num (List.replicate 16 1) (by simp) (some .reflect) (.int 1) V dV 16 (by norm_num) htr
    ⟨hV, fun r hr => by
      simp only at g5
      rw [g5] at hr
      obtain ⟨q, hq, rfl⟩ := List.mem_map.1 hr
      rw [unpad_take, List.length_take, List.length_drop, g4.2 q hq, hm]; simp⟩
  refine ⟨o, h, ?_⟩
  have := (C99_numeric_orders _ (by simp) _ .reflect rfl rfl false [1] ho 8 (by rw [List.length_replicate, hp]; rfl)
    (by norm_num) o h).2.2.1
  simpa using this

theorem shortSlice_length {α : Type} (r : List α) {n1 : ℕ} (h : n1 < 4) (b : ℤ) :
    (pySlice r (some ((n1 : ℤ) - 4)) (some b)).length ≤ 4 := by
  have hb : sliceBound r.length b ≤ r.length ∨ b < 0 := by
    unfold sliceBound; split_ifs <;> omega
  simp only [pySlice, List.length_take, List.length_drop]
  have : r.length ≤ sliceBound r.length ((n1 : ℤ) - 4) + 4 := by
    unfold sliceBound; rw [if_pos (by omega)]; omega
  omega

/-- **C99, numeric derivative of short signals** (fewer than four samples of padding on the left; any order, padding): the
slice `Wx[:, n1 - 4:…]` starts at a negative index, so what is squeezed are columns at the right end, at most four of them, which
are then cut off as well: `Tx` and `w` have no columns at all. -/
theorem C99_numeric_short (x : List ℝ) (a : SsqFullArgs) (hd : a.difftype = .numeric) (n1 : ℕ)
    (hn1 : (n1 : ℤ) = (p2up x.length).2.1) (h4 : n1 < 4) (o : SsqFullOut) (h : ssqCwtFull x a = .ok o) :
    o.txCols = 0 ∧ ∃ w, o.w = some w ∧ ∀ r ∈ w, r = [] := by
  obtain ⟨od, fs, dt, W, hod, -, hW, h3, hc⟩ := full_ok h
  rcases hc with ⟨hg, p, T, hp, -, rfl⟩ | ⟨hg, T, -, rfl⟩
  · unfold ssqPhase at hp
    rw [hd] at hp
    simp only at hp
    obtain ⟨w, hw, hp⟩ := bind_ok hp
    simp only [Except.ok.injEq] at hp
    subst hp
    have hsl : ∀ q ∈ W.1.map fun r => pySlice r (some ((p2up x.length).2.1 - 4))
        (some ((p2up x.length).2.1 + x.length + 4)), q.length ≤ 4 := by
      intro q hq
      obtain ⟨r, -, rfl⟩ := List.mem_map.1 hq
      rw [← hn1]
      exact shortSlice_length r h4 _
    have hw' : ∀ r ∈ w, r.length ≤ 4 := by
      intro r hr
      have hf := (mapM_ok _ _ _).1 hw
      obtain ⟨q, hq, hqr⟩ : ∃ q ∈ W.1.map fun r => pySlice r (some ((p2up x.length).2.1 - 4))
          (some ((p2up x.length).2.1 + x.length + 4)), phaseCwtNum a.eps dt (od.getD 4) (some (a.gamma.getD (10 * a.eps))) q = .ok r := by
        obtain ⟨i, hi, rfl⟩ := List.getElem_of_mem hr
        have hlen := hf.length_eq
        exact ⟨_, List.getElem_mem (by omega), hf.get (by omega) hi⟩
      have hle : r.length ≤ q.length := by
        unfold phaseCwtNum at hqr
        split at hqr
        · simp at hqr
        · simp only [Except.ok.injEq] at hqr
          rw [← hqr, List.length_zipWith]
          exact min_le_right _ _
      exact hle.trans (hsl q hq)
    unfold ssqPost
    rw [if_pos hd]
    simp only
    refine ⟨?_, _, rfl, fun r hr => ?_⟩
    · generalize W.1.map (fun r => pySlice r (some ((p2up x.length).2.1 - 4))
          (some ((p2up x.length).2.1 + x.length + 4))) = V at *
      cases V with
      | nil => simp
      | cons v V => have := hsl v (by simp); simp only [List.headD_cons]; omega
    · obtain ⟨q, hq, rfl⟩ := List.mem_map.1 hr
      apply List.eq_nil_of_length_eq_zero
      rw [slice4_length]
      have := hw' q hq
      omega
  · exfalso
    rw [hd, hg] at hod
    unfold checkSsqueezingArgs at hod
    obtain ⟨_, _, hod⟩ := bind_ok hod
    obtain ⟨_, _, hod⟩ := bind_ok hod
    obtain ⟨_, _, hod⟩ := bind_ok hod
    obtain ⟨_, hod', hod⟩ := bind_ok hod
    simp [checkDifftype] at hod'
/-- The hypotheses of `C99_numeric_short` are met by four samples: the pads have two samples each. -/
example : ∃ o, ssqCwtFull [1, 2, 3, 5] (exFull (some .reflect) .numeric (.int 0) true) = .ok o ∧ o.txCols = 0 := by
  have hp := p2up_pow 2 (by norm_num)
  norm_num at hp
  have hl : ([1, 2, 3, 5] : List ℝ).length = 4 := rfl
  obtain ⟨W, dW, htr, hsh⟩ := exFull_trNum [1, 2, 3, 5] (by simp) .reflect
  rw [hl, hp] at hsh
  obtain ⟨o, h, -⟩ := exFull_num' [1, 2, 3, 5] (some .reflect) (.int 0) W dW 8 2 (fun q hq => by
    rw [hl, hp]
    simp only [pySlice, List.length_take, List.length_drop, sliceBound, hq]
    norm_num
    rfl) (by norm_num) htr hsh
  exact ⟨o, h, (C99_numeric_short _ _ rfl 2 (by rw [hl, hp]; rfl) (by norm_num) o h).1⟩

/-- Negation of the full claim: sixteen samples with reflect padding and the numeric derivative; `Wx` has 24 columns. -/
theorem C99_refuted : ¬ C99_full := by
  intro hfull
  set x : List ℝ := List.replicate 16 1 with hx
  obtain ⟨o, ho, hne, -⟩ := exFull_numeric x (by simp [hx]) .reflect
  have h1 := (hfull x _ (some .reflect) (by simp [hx]) rfl o ho).2.1
  have hp := p2up_pow 4 (by norm_num)
  norm_num at hp
  have hl : x.length = 16 := by simp [hx]
  have h2 := (C99_numeric x (by omega) _ (some .reflect) rfl rfl rfl 8 (by rw [hl, hp]; rfl) (by norm_num) o ho 32
    (by rw [hl, hp]; rfl)).1
  obtain ⟨r, hr⟩ := List.exists_mem_of_ne_nil _ hne
  have := h1 r hr
  rw [h2 r hr, hl] at this
  norm_num at this

/-- The hypotheses of `C99_partial` and `C100_same_cwt` are met with order 1 and zero padding … -/
example : ∃ o, ssqCwtFull [3, 1, 4, 1] (exFull (some .zero) .trig (.int 1) false) = .ok o ∧ Spec.AllCols 4 o ∧
    ∃ fs dt shape d, processFsT (some 8) none 4 = .ok (.fin fs dt) ∧
      cwtOrder [3, 1, 4, 1] (Spec.orderCall (exFull (some .zero) .trig (.int 1) false) fs false) =
        .ok (.one o.Wx, .arr shape d o.scales, .one o.dWx) := by
  obtain ⟨o, h⟩ := exFull_order1 [3, 1, 4, 1] (by simp) (some .zero)
  exact ⟨o, h, C99_partial _ (by simp) _ (some .zero) rfl (by simp [exFull]) (Or.inr rfl) o h,
    C100_same_cwt _ (by simp) _ .zero rfl (by simp [exFull]) false [1] (Or.inr ⟨rfl, 1, by norm_num, rfl, rfl⟩) o h⟩

/-- … those of `C99_unpadded` with order 1: of 8 samples 4 are left … -/
example : ∃ o, ssqCwtFull [3, 1, 4, 1, 5, 9, 2, 6] (exFull none .trig (.int 1) false) = .ok o ∧ o.txCols = 4 := by
  obtain ⟨o, h⟩ := exFull_order1 [3, 1, 4, 1, 5, 9, 2, 6] (by simp) none
  have hp := p2up_pow 3 (by norm_num)
  norm_num at hp
  refine ⟨o, h, ?_⟩
  have := (C99_unpadded _ (by simp) _ rfl (by simp [exFull]) false [1] (Or.inr ⟨rfl, 1, by norm_num, rfl, rfl⟩) 4
    (by simp only [List.length_cons, List.length_nil]; norm_num; rw [hp]) o h).2.1
  simpa using this

/-- … those of `C99_default` and `C99_default_runs` with the default arguments … -/
example : ∃ o, ssqCwtFull [3, 1, 4, 1] (exFull (some .reflect) .trig (.int 0) false) = .ok o ∧ o.scales = [1, 2, 4] := by
  obtain ⟨o, h, hs, -⟩ := exSsq_ok (some .reflect) [3, 1, 4, 1] (by simp)
  exact ⟨_, C99_default_runs _ (by simp) _ (some .reflect) rfl rfl rfl rfl o h, hs⟩

/-- … those of `C99_negative` with order -1 … -/
example : ssqCwtFull [3, 1, 4, 1] (exFull none .trig (.int (-1)) false) = .error .unboundLocalError :=
  C99_negative _ _ (-1) (by norm_num) rfl ⟨none, rfl⟩ 8 (1 / 8) (exFull_dt _ _ _ _ _) ⟨_, process124 _ _ _ _⟩

end Ssq
