import Verif.Lemmas.Covariance
import Verif.Props.SsqCwtEx
import Verif.Props.IcwtAny

/-!
# Symmetries of the transforms (C145–C147): shifting, reversing and scaling the signal
-/
namespace Ssq
open Finset Complex

namespace Spec

/-- A function of `M × N` transforms commutes with moving columns by `σ` and applying `φ` to every entry. -/
def Respects (M N : ℕ) (σ : ℕ → ℕ) (φ : ℂ → ℂ) (f : (ℕ → ℕ → ℂ) → ℕ → ℕ → ℂ) : Prop :=
  ∀ W W' : ℕ → ℕ → ℂ, (∀ i < M, ∀ j < N, W' i j = φ (W i (σ j))) → ∀ i < M, ∀ j < N, f W' i j = φ (f W i (σ j))

/-- What multiplying the signal by `c` does to the measure that is summed: `'sum'` adds up the transform, `'abs'` its modulus, and
`'lebesgue'` counts. `none` for anything else. -/
noncomputable def measureFactor (c : ℝ) : Squeezing → Option ℝ
  | .sum => some c
  | .abs => some |c|
  | .lebesgue => some 1
  | _ => none

end Spec

theorem getD_rotate (x : List ℝ) (m q : ℕ) (hq : q < x.length) :
    (x.rotate m).getD q 0 = x.getD ((q + m) % x.length) 0 := by
  rw [List.getD_eq_getElem _ _ (by simpa using hq), List.getElem_rotate, List.getD_eq_getElem _ _ (Nat.mod_lt _ (by omega))]

theorem getD_rev (x : List ℝ) (q : ℕ) (hq : q < x.length) :
    x.reverse.getD q 0 = x.getD (x.length - 1 - q) 0 := by
  rw [List.getD_eq_getElem _ _ (by simpa using hq), List.getElem_reverse, List.getD_eq_getElem _ _ (by omega)]

theorem range_map_rotate (n m : ℕ) (g : ℕ → ℂ) :
    ((List.range n).map g).rotate m = (List.range n).map fun j => g ((j + m) % n) := by
  apply List.ext_getElem
  · simp
  · intro j h1 h2
    rw [List.getElem_rotate]
    simp

theorem range_map_reverse (n : ℕ) (g : ℕ → ℂ) :
    ((List.range n).map g).reverse = (List.range n).map fun j => g (n - 1 - j) := by
  apply List.ext_getElem
  · simp
  · intro j h1 h2
    rw [List.getElem_reverse]
    simp

/-- What `cwt` computes of a shifted signal, row by row. -/
theorem cwtRun_shift (a : CwtArgs) (ha : a.padtype = none) (dt : ℝ) (scales : List ℝ) (x : List ℝ) (m : ℕ) :
    cwtRun a dt scales x.length (x.rotate m) 0 =
      ((cwtRun a dt scales x.length x 0).1.map fun r => r.rotate m, (cwtRun a dt scales x.length x 0).2.map fun r => r.rotate m) := by
  rcases Nat.eq_zero_or_pos x.length with h0 | hn
  · have hx : x = [] := List.length_eq_zero_iff.1 h0
    subst hx
    have h := cwtRun_unpadded a ha dt scales []
    simp only [List.rotate_nil, List.length_nil, List.range_zero, List.map_nil] at h ⊢
    rw [h]
    simp [List.map_zipWith]
  have h1 := cwtRun_unpadded a ha dt scales (x.rotate m)
  rw [List.length_rotate] at h1
  rw [h1, cwtRun_unpadded a ha dt scales x]
  have hd : ∀ k, dft x.length (fun q => (((x.rotate m).getD q 0 : ℝ) : ℂ)) k =
      tw x.length (m * k) * dft x.length (fun q => ((x.getD q 0 : ℝ) : ℂ)) k := by
    intro k
    rw [← dft_rotate (by omega)]
    exact dft_congr (fun q hq => by rw [getD_rotate _ _ _ hq]) k
  simp only [List.map_zipWith, range_map_rotate, hd]
  congr 1
  · congr 1
    funext s p
    refine List.map_congr_left fun j _ => ?_
    rw [← idft_rotate (by omega)]
    congr 1
    exact idft_congr (fun k _ => by ring) j
  · congr 1
    funext s p
    refine List.map_congr_left fun j _ => ?_
    rw [← idft_rotate (by omega)]
    congr 1
    exact idft_congr (fun k _ => by ring) j

/-- C145. Without padding, the transform of a circularly shifted signal is the circularly shifted transform, derivative
included, and it fails exactly when the transform of the signal does. -/
theorem C145_cwt_shift (x : List ℝ) (a : CwtArgs) (ha : a.padtype = none) (m : ℕ) :
    cwt (x.rotate m) a = (cwt x a).map fun r => (r.1.map fun row => row.rotate m, r.2.1, r.2.2.map fun row => row.rotate m) := by
  rw [cwt_unpadded _ a ha, cwt_unpadded _ a ha, List.length_rotate]
  cases cwtDt a.fs a.t x.length with
  | error e => rfl
  | ok r =>
    cases checkGmw a.wavelet.gmw a.l1Norm with
    | error e => rfl
    | ok u =>
      cases processScales a.scales x.length (some a.wavelet.sw) (cwtNv a) true a.downsample with
      | error e => rfl
      | ok sc =>
        simp only [Except.bind, Except.map, cwtRun_shift a ha]

example : ∃ dW, cwt [1, -1] { argsC with vectorized := false } = .ok
    ((cwtRun { argsC with vectorized := false } 1 [1, 2, 4] 2 [1, -1] ((0 : ℕ) : ℤ)).1, [1, 2, 4], dW) := argsC_call false
example : argsC.padtype = none := rfl

/-! ## `ssq_cwt` -/

/-- `ssq_cwt` of two signals whose transforms have the same phases up to moving columns. -/
theorem ssqCwt_cols (x x' : List ℝ) (hl : x'.length = x.length) (a : SsqCwtArgs) (g' : Option ℝ)
    (F G : List (List ℂ) → List (List ℂ))
    (hcwt : ∀ fs sc W s dW, cwt x (a.cwtArgs fs sc) = .ok (W, s, dW) → cwt x' (a.cwtArgs fs sc) = .ok (F W, s, G dW))
    (φ : ℂ →+ ℂ) (hφ : ∀ (z : ℂ) (r : ℝ), φ (z * r) = φ z * r) (σ : ℕ → ℕ) (hσ : ∀ j < x.length, σ j < x.length)
    {o : SsqCwtOut} (h : ssqCwt x a = .ok o)
    (hV : ∀ i < o.scales.length, ∀ j < x.length, applySqueezing a.squeezing o.scales.length (ent (F o.Wx)) i j =
      φ (applySqueezing a.squeezing o.scales.length (ent o.Wx) i (σ j)))
    (hPw : a.getW = true → ∀ i < o.scales.length, ∀ j < x.length,
      phaseCwt (g'.getD (10 * a.eps)) (ent (F o.Wx)) (ent (G o.dWx)) i j =
        phaseCwt (a.gamma.getD (10 * a.eps)) (ent o.Wx) (ent o.dWx) i (σ j))
    (hPf : a.getW = false → ∀ i < o.scales.length, ∀ j < x.length,
      (g'.getD (10 * a.eps) < ‖applySqueezing a.squeezing o.scales.length (ent (F o.Wx)) i j‖ ↔
        a.gamma.getD (10 * a.eps) < ‖applySqueezing a.squeezing o.scales.length (ent o.Wx) i (σ j)‖) ∧
      cwtFreq (applySqueezing a.squeezing o.scales.length (ent (F o.Wx)) i j) (ent (G o.dWx) i j) =
        cwtFreq (applySqueezing a.squeezing o.scales.length (ent o.Wx) i (σ j)) (ent o.dWx i (σ j))) :
    ∃ o', ssqCwt x' { a with gamma := g' } = .ok o' ∧ o'.Wx = F o.Wx ∧ o'.dWx = G o.dWx ∧ o'.scales = o.scales ∧
      o'.freqs = o.freqs ∧ ∀ r, ∀ j < x.length, o'.Tx r j = φ (o.Tx r (σ j)) := by
  unfold ssqCwt at h
  obtain ⟨c, hc, h⟩ := bind_ok h
  obtain ⟨r, hr, h⟩ := bind_ok h
  obtain ⟨sc, hsc, h⟩ := bind_ok h
  obtain ⟨⟨W, s, dW⟩, hW, h⟩ := bind_ok h
  obtain ⟨⟨T, f⟩, hT, h⟩ := bind_ok h
  simp only [Except.ok.injEq] at h
  subst h
  simp only at hV hPw hPf hT
  have hphase : ∀ i < s.length, ∀ j < x.length,
      Spec.usedPhase (({ a with gamma := g' } : SsqCwtArgs).ssqArgs r.1 sc.2.1 s x.length (F W) (G dW))
        (applySqueezing a.squeezing s.length (ent (F W))) i j =
      Spec.usedPhase (a.ssqArgs r.1 sc.2.1 s x.length W dW) (applySqueezing a.squeezing s.length (ent W)) i (σ j) := by
    intro i hi j hj
    unfold Spec.usedPhase
    cases hw : a.getW
    · simp only [SsqCwtArgs.ssqArgs, hw, Bool.false_eq_true, if_false, Option.getD_some]
      have := hPf hw i hi j hj
      by_cases hk : a.gamma.getD (10 * a.eps) < ‖applySqueezing a.squeezing s.length (ent W) i (σ j)‖
      · rw [if_pos hk, if_pos (this.1.2 hk)]
        exact congrArg Phase.fin this.2
      · rw [if_neg hk, if_neg (fun h => hk (this.1.1 h))]
    · simp only [SsqCwtArgs.ssqArgs, hw, if_true]
      exact hPw hw i hi j hj
  obtain ⟨T', hT', hTe⟩ := ssqueeze_cols (a.ssqArgs r.1 sc.2.1 s x.length W dW) (Or.inl rfl)
    (({ a with gamma := g' } : SsqCwtArgs).ssqArgs r.1 sc.2.1 s x.length (F W) (G dW)).Wx
    (({ a with gamma := g' } : SsqCwtArgs).ssqArgs r.1 sc.2.1 s x.length (F W) (G dW)).w
    (({ a with gamma := g' } : SsqCwtArgs).ssqArgs r.1 sc.2.1 s x.length (F W) (G dW)).dWx
    (({ a with gamma := g' } : SsqCwtArgs).ssqArgs r.1 sc.2.1 s x.length (F W) (G dW)).gamma
    (by simp only [SsqCwtArgs.ssqArgs]; split <;> rfl) (by simp only [SsqCwtArgs.ssqArgs]; split <;> rfl) rfl φ hφ σ hσ
    (by
      rintro ⟨w, hw, i, hi, j, hj, y, hy, hneg⟩
      simp only [SsqCwtArgs.ssqArgs] at hw hi hj ⊢
      cases hg : a.getW
      · simp [hg] at hw
      · simp only [hg, if_true, Option.some.injEq] at hw ⊢
        refine ⟨_, rfl, i, hi, σ j, hσ j hj, y, ?_, hneg⟩
        rw [← hw] at hy
        have := hPw hg i hi j hj
        unfold ent at this
        rw [← this, hy])
    hV hphase hT
  refine ⟨⟨T', F W, f, s, G dW⟩, ?_, rfl, rfl, rfl, rfl, hTe⟩
  unfold ssqCwt
  rw [hl]
  simp only
  rw [hc, ok_bind, hr, ok_bind]
  have hnv : ssqCwtNv { a with gamma := g' } = ssqCwtNv a := rfl
  rw [hnv, hsc, ok_bind]
  have hca : ({ a with gamma := g' } : SsqCwtArgs).cwtArgs r.1 sc.1 = a.cwtArgs r.1 sc.1 := rfl
  rw [hca, hcwt _ _ _ _ _ hW, ok_bind]
  have he : ({ a with gamma := g' } : SsqCwtArgs).ssqArgs r.1 sc.2.1 s x.length (F W) (G dW) =
      { a.ssqArgs r.1 sc.2.1 s x.length W dW with
        Wx := (({ a with gamma := g' } : SsqCwtArgs).ssqArgs r.1 sc.2.1 s x.length (F W) (G dW)).Wx
        w := (({ a with gamma := g' } : SsqCwtArgs).ssqArgs r.1 sc.2.1 s x.length (F W) (G dW)).w
        dWx := (({ a with gamma := g' } : SsqCwtArgs).ssqArgs r.1 sc.2.1 s x.length (F W) (G dW)).dWx
        gamma := (({ a with gamma := g' } : SsqCwtArgs).ssqArgs r.1 sc.2.1 s x.length (F W) (G dW)).gamma } := rfl
  simp only
  rw [he, hT', ok_bind]

theorem cwt_dims {x : List ℝ} {a : CwtArgs} (ha : a.padtype = none) (hx : 0 < x.length) {W : List (List ℂ)} {s : List ℝ}
    {dW : List (List ℂ)} (h : cwt x a = .ok (W, s, dW)) :
    W.length = s.length ∧ dW.length = s.length ∧ ∀ i < s.length, (W.getD i []).length = x.length ∧ (dW.getD i []).length = x.length := by
  obtain ⟨xp, n1, fs, dt, hp, -, -, h1, h2, h3⟩ := C37_rows_any x a none (by rw [ha]; rfl) hx W s dW h
  have hl : xp.length = x.length := by rw [hp.1]
  refine ⟨h1, h2, fun i hi => ?_⟩
  have := h3 i hi
  simp only [Option.isSome_none, Bool.false_eq_true, and_false, if_false, hl] at this
  exact ⟨this.1, this.2.1⟩

theorem ssqCwt_dims {x : List ℝ} {a : SsqCwtArgs} (ha : a.padtype = none) (hx : 0 < x.length) {o : SsqCwtOut}
    (h : ssqCwt x a = .ok o) : o.Wx.length = o.scales.length ∧ o.dWx.length = o.scales.length ∧
      ∀ i < o.scales.length, (o.Wx.getD i []).length = x.length ∧ (o.dWx.getD i []).length = x.length := by
  obtain ⟨fs, dt, st, na, nv, -, -, h3, -⟩ := ssqCwt_ok h
  exact cwt_dims (a := a.cwtArgs fs o.scales) ha hx h3

theorem ent_map_rows (W : List (List ℂ)) (g : List ℂ → List ℂ) (i j : ℕ) (hi : i < W.length) :
    ent (W.map g) i j = (g (W.getD i [])).getD j 0 := by
  unfold ent
  rw [List.getD_eq_getElem (W.map g) _ (by simpa using hi), List.getD_eq_getElem W _ hi, List.getElem_map]

theorem ent_rotate (W : List (List ℂ)) (m i j N : ℕ) (hi : i < W.length) (hN : (W.getD i []).length = N) (hj : j < N) :
    ent (W.map fun r => r.rotate m) i j = ent W i ((j + m) % N) := by
  rw [ent_map_rows W _ i j hi, List.getD_eq_getElem _ _ (by rw [List.length_rotate]; omega), List.getElem_rotate]
  unfold ent
  rw [List.getD_eq_getElem (W.getD i []) 0 (show (j + m) % N < _ by rw [hN]; exact Nat.mod_lt _ (by omega))]
  simp only [hN]

theorem ent_reverse (W : List (List ℂ)) (g : ℂ → ℂ) (i j N : ℕ) (hi : i < W.length) (hN : (W.getD i []).length = N) (hj : j < N) :
    ent (W.map fun r => (r.map g).reverse) i j = g (ent W i (N - 1 - j)) := by
  rw [ent_map_rows W _ i j hi, List.getD_eq_getElem _ _ (by rw [List.length_reverse, List.length_map]; omega), List.getElem_reverse, List.getElem_map]
  unfold ent
  rw [List.getD_eq_getElem (W.getD i []) _ (by omega)]
  simp only [List.length_map, hN]

/-- The measures named in the documentation commute with moving columns. -/
theorem applySqueezing_cols {sq : Squeezing} {M N : ℕ} {W W' : ℕ → ℕ → ℂ} {σ : ℕ → ℕ} {φ : ℂ → ℂ}
    (hf : ∀ f, sq = .fn f → Spec.Respects M N σ φ f) (hn : ∀ z, ‖φ z‖ = ‖z‖) (hr : ∀ r : ℝ, φ r = r)
    (h : ∀ i < M, ∀ j < N, W' i j = φ (W i (σ j))) :
    ∀ i < M, ∀ j < N, applySqueezing sq M W' i j = φ (applySqueezing sq M W i (σ j)) := by
  intro i hi j hj
  cases sq with
  | sum => exact h i hi j hj
  | lebesgue =>
    show (1 / (M : ℂ)) = φ (1 / (M : ℂ))
    have := hr (1 / M)
    push_cast at this
    exact this.symm
  | abs =>
    show ((‖W' i j‖ : ℝ) : ℂ) = φ ((‖W i (σ j)‖ : ℝ) : ℂ)
    rw [h i hi j hj, hn, hr]
  | fn f => exact hf f rfl W W' h i hi j hj
  | otherStr => exact h i hi j hj
  | other => exact h i hi j hj

/-- C145. Without padding, the synchrosqueezed transform of a circularly shifted signal is the circularly shifted
synchrosqueezed transform, over the same frequencies. A user's own squeezing function must commute with the shift. -/
theorem C145_ssq_cwt_shift (x : List ℝ) (a : SsqCwtArgs) (ha : a.padtype = none) (m : ℕ)
    (hf : ∀ M f, a.squeezing = .fn f → Spec.Respects M x.length (fun j => (j + m) % x.length) id f)
    (o : SsqCwtOut) (h : ssqCwt x a = .ok o) :
    ∃ o', ssqCwt (x.rotate m) a = .ok o' ∧ o'.Wx = o.Wx.map (fun r => r.rotate m) ∧
      o'.dWx = o.dWx.map (fun r => r.rotate m) ∧ o'.scales = o.scales ∧ o'.freqs = o.freqs ∧
      ∀ r, ∀ j < x.length, o'.Tx r j = o.Tx r ((j + m) % x.length) := by
  rcases Nat.eq_zero_or_pos x.length with h0 | hx
  · have hx : x = [] := List.length_eq_zero_iff.1 h0
    subst hx
    obtain ⟨fs, dt, st, na, nv, -, -, h3, -⟩ := ssqCwt_ok h
    have e := C145_cwt_shift [] (a.cwtArgs fs o.scales) ha m
    rw [List.rotate_nil, h3] at e
    simp only [Except.map, Except.ok.injEq, Prod.mk.injEq, true_and] at e
    exact ⟨o, by rw [List.rotate_nil]; exact h, e.1, e.2, rfl, rfl, fun r j hj => by simp at hj⟩
  obtain ⟨d1, d2, d3⟩ := ssqCwt_dims ha hx h
  have hWr : ∀ i < o.scales.length, ∀ j < x.length, ent (o.Wx.map fun r => r.rotate m) i j = ent o.Wx i ((j + m) % x.length) :=
    fun i hi j hj => ent_rotate _ _ _ _ _ (by omega) (d3 i hi).1 hj
  have hdWr : ∀ i < o.scales.length, ∀ j < x.length, ent (o.dWx.map fun r => r.rotate m) i j = ent o.dWx i ((j + m) % x.length) :=
    fun i hi j hj => ent_rotate _ _ _ _ _ (by omega) (d3 i hi).2 hj
  have hV := applySqueezing_cols (W := ent o.Wx) (W' := ent (o.Wx.map fun r => r.rotate m)) (σ := fun j => (j + m) % x.length) (φ := id) (hf o.scales.length) (fun _ => rfl) (fun _ => rfl) hWr
  refine ssqCwt_cols x (x.rotate m) (by simp) a a.gamma (fun W => W.map fun r => r.rotate m) (fun W => W.map fun r => r.rotate m)
    ?_ (AddMonoidHom.id ℂ) (fun _ _ => rfl) (fun j => (j + m) % x.length) (fun j _ => Nat.mod_lt _ hx) h hV ?_ ?_
  · intro fs sc W s dW hW
    rw [C145_cwt_shift x (a.cwtArgs fs sc) ha m, hW]
    rfl
  · intro _ i hi j hj
    unfold phaseCwt
    rw [hWr i hi j hj, hdWr i hi j hj]
  · intro _ i hi j hj
    rw [hV i hi j hj, hdWr i hi j hj]
    exact ⟨Iff.rfl, rfl⟩

example : ∃ o, ssqCwt [3, 1, 4, 1] (exSsq none) = .ok o := by
  obtain ⟨o, h, -⟩ := exSsq_ok none [3, 1, 4, 1] (by simp)
  exact ⟨o, h⟩
example : (exSsq none).padtype = none ∧ ∀ f, (exSsq none).squeezing ≠ .fn f := ⟨rfl, by simp [exSsq]⟩

/-! ## Reversing time -/

theorem cwtRun_reverse (a : CwtArgs) (ha : a.padtype = none) (hre : ∀ w, (a.wavelet.fn.eval w).im = 0) (dt : ℝ) (scales : List ℝ)
    (x : List ℝ) :
    cwtRun a dt scales x.length x.reverse 0 =
      ((cwtRun a dt scales x.length x 0).1.map fun r => (r.map fun z => (starRingEnd ℂ) z).reverse,
       (cwtRun a dt scales x.length x 0).2.map fun r => (r.map fun z => -(starRingEnd ℂ) z).reverse) := by
  have h1 := cwtRun_unpadded a ha dt scales x.reverse
  rw [List.length_reverse] at h1
  rw [h1, cwtRun_unpadded a ha dt scales x, psihRows_real a.wavelet.fn hre]
  have hd : ∀ k, dft x.length (fun q => ((x.reverse.getD q 0 : ℝ) : ℂ)) k =
      tw x.length k * (starRingEnd ℂ) (dft x.length (fun q => ((x.getD q 0 : ℝ) : ℂ)) k) := by
    intro k
    rw [← dft_reverse]
    exact dft_congr (fun q hq => by rw [getD_rev _ _ hq]) k
  have hreal : ∀ s k, (starRingEnd ℂ) ((halveNyquist (sampleRow a.wavelet.fn x.length s)).getD k 0) =
      (halveNyquist (sampleRow a.wavelet.fn x.length s)).getD k 0 := by
    intro s k
    rw [conj_eq_iff_im]
    by_cases hk : k < (halveNyquist (sampleRow a.wavelet.fn x.length s)).length
    · rw [List.getD_eq_getElem _ _ hk]
      exact psihRow_real a.wavelet.fn hre x.length s _ (List.getElem_mem hk)
    · rw [List.getD_eq_default _ _ (by omega)]; rfl
  have hgen : ∀ (g : ℂ → ℂ) (A B : ℝ → List ℂ → ℕ → ℂ),
      (∀ s j, j < x.length → A s (halveNyquist (sampleRow a.wavelet.fn x.length s)) j =
        g (B s (halveNyquist (sampleRow a.wavelet.fn x.length s)) (x.length - 1 - j))) →
      List.zipWith (fun (s : ℝ) (p : List ℂ) => (List.range x.length).map (A s p)) scales
        (scales.map fun s => halveNyquist (sampleRow a.wavelet.fn x.length s)) =
      (List.zipWith (fun (s : ℝ) (p : List ℂ) => (List.range x.length).map (B s p)) scales
        (scales.map fun s => halveNyquist (sampleRow a.wavelet.fn x.length s))).map fun r => (r.map g).reverse := by
    intro g A B hAB
    apply List.ext_getElem
    · simp
    · intro i h1 h2
      simp only [List.getElem_zipWith, List.getElem_map, List.map_map]
      rw [range_map_reverse]
      refine List.map_congr_left fun j hj => ?_
      exact hAB _ j (List.mem_range.1 hj)
  congr 1
  · refine hgen _ _ _ fun s j hj => ?_
    simp only [hd]
    rw [map_mul, conj_ofReal, ← idft_reverse _ hj]
    congr 1
    refine idft_congr (fun k _ => ?_) j
    rw [map_mul, hreal]; ring
  · refine hgen _ _ _ fun s j hj => ?_
    simp only [hd]
    rw [map_mul, conj_ofReal, ← idft_reverse _ hj, ← mul_neg, neg_eq_neg_one_mul (idft _ _ _)]
    congr 1
    rw [← idft_smul]
    refine idft_congr (fun k _ => ?_) j
    rw [map_mul, map_mul, map_div₀, map_mul, hreal, conj_I, conj_ofReal, conj_ofReal]; ring

/-- C146, `cwt`. Without padding and for a wavelet real in the frequency domain, reversing the signal reverses and conjugates the
transform, and does so with the derivative up to its sign. -/
theorem C146_cwt_reverse (x : List ℝ) (a : CwtArgs) (ha : a.padtype = none) (hre : ∀ w, (a.wavelet.fn.eval w).im = 0) :
    cwt x.reverse a = (cwt x a).map fun r => (r.1.map fun row => (row.map fun z => (starRingEnd ℂ) z).reverse, r.2.1,
      r.2.2.map fun row => (row.map fun z => -(starRingEnd ℂ) z).reverse) := by
  rw [cwt_unpadded _ a ha, cwt_unpadded _ a ha, List.length_reverse]
  cases cwtDt a.fs a.t x.length with
  | error e => rfl
  | ok r =>
    cases checkGmw a.wavelet.gmw a.l1Norm with
    | error e => rfl
    | ok u =>
      cases processScales a.scales x.length (some a.wavelet.sw) (cwtNv a) true a.downsample with
      | error e => rfl
      | ok sc =>
        simp only [Except.bind, Except.map, cwtRun_reverse a ha hre]

theorem cwtFreq_conj (W dW : ℂ) : cwtFreq ((starRingEnd ℂ) W) (-(starRingEnd ℂ) dW) = cwtFreq W dW := by
  unfold cwtFreq
  congr 1
  simp only [conj_re, conj_im, neg_re, neg_im]
  ring

/-- C146, `ssq_cwt`. Under the same conditions reversing the signal reverses and conjugates the synchrosqueezed transform, over
the same frequencies. -/
theorem C146_ssq_cwt_reverse (x : List ℝ) (a : SsqCwtArgs) (ha : a.padtype = none) (hre : ∀ w, (a.wavelet.fn.eval w).im = 0)
    (hf : ∀ M f, a.squeezing = .fn f → Spec.Respects M x.length (fun j => x.length - 1 - j) (starRingEnd ℂ) f)
    (o : SsqCwtOut) (h : ssqCwt x a = .ok o) :
    ∃ o', ssqCwt x.reverse a = .ok o' ∧ o'.scales = o.scales ∧ o'.freqs = o.freqs ∧
      (∀ r, ∀ j < x.length, o'.Tx r j = (starRingEnd ℂ) (o.Tx r (x.length - 1 - j))) ∧
      (∀ i < o.scales.length, ∀ j < x.length, ent o'.Wx i j = (starRingEnd ℂ) (ent o.Wx i (x.length - 1 - j)) ∧
        ent o'.dWx i j = -(starRingEnd ℂ) (ent o.dWx i (x.length - 1 - j))) := by
  rcases Nat.eq_zero_or_pos x.length with h0 | hx
  · have hx : x = [] := List.length_eq_zero_iff.1 h0
    subst hx
    exact ⟨o, h, rfl, rfl, fun r j hj => by simp at hj, fun i _ j hj => by simp at hj⟩
  obtain ⟨d1, d2, d3⟩ := ssqCwt_dims ha hx h
  have hWr : ∀ i < o.scales.length, ∀ j < x.length, ent (o.Wx.map fun r => (r.map fun z => (starRingEnd ℂ) z).reverse) i j =
      (starRingEnd ℂ) (ent o.Wx i (x.length - 1 - j)) :=
    fun i hi j hj => ent_reverse _ _ _ _ _ (by omega) (d3 i hi).1 hj
  have hdWr : ∀ i < o.scales.length, ∀ j < x.length, ent (o.dWx.map fun r => (r.map fun z => -(starRingEnd ℂ) z).reverse) i j =
      -(starRingEnd ℂ) (ent o.dWx i (x.length - 1 - j)) :=
    fun i hi j hj => ent_reverse _ (fun z => -(starRingEnd ℂ) z) _ _ _ (by omega) (d3 i hi).2 hj
  have hV := applySqueezing_cols (σ := fun j => x.length - 1 - j) (φ := starRingEnd ℂ) (hf o.scales.length) (fun z => norm_conj z) (fun r => conj_ofReal r) hWr
  obtain ⟨o', k1, k2, k3, k4, k5, k6⟩ := ssqCwt_cols x x.reverse (by simp) a a.gamma
    (fun W => W.map fun r => (r.map fun z => (starRingEnd ℂ) z).reverse)
    (fun W => W.map fun r => (r.map fun z => -(starRingEnd ℂ) z).reverse)
    (by
      intro fs sc W s dW hW
      rw [C146_cwt_reverse x (a.cwtArgs fs sc) ha hre, hW]
      rfl)
    (starRingEnd ℂ : ℂ →+* ℂ).toAddMonoidHom
    (by
      intro z r
      show (starRingEnd ℂ) (z * r) = (starRingEnd ℂ) z * r
      rw [map_mul, conj_ofReal])
    (fun j => x.length - 1 - j) (fun j _ => by omega) h hV
    (by
      intro _ i hi j hj
      unfold phaseCwt
      rw [hWr i hi j hj, hdWr i hi j hj, norm_conj, cwtFreq_conj])
    (by
      intro _ i hi j hj
      rw [hV i hi j hj, hdWr i hi j hj]
      exact ⟨by rw [norm_conj], cwtFreq_conj _ _⟩)
  refine ⟨o', k1, k4, k5, k6, fun i hi j hj => ?_⟩
  rw [k2, k3]
  exact ⟨hWr i hi j hj, hdWr i hi j hj⟩

example : ∀ w, ((exSsq none).wavelet.fn.eval w).im = 0 := fun w => by simp [exSsq, WFn.eval]

/-! ## Multiplying the signal by a number -/

theorem zipWith_self_map {α β : Type} (f : α → α → β) (l : List α) : List.zipWith f l l = l.map fun a => f a a := by
  induction l with
  | nil => rfl
  | cons a l ih => simp [ih]

theorem cwt_scale (x : List ℝ) (hx : 0 < x.length) (c : ℝ) (a : CwtArgs) (t : Option PadType) (ht : a.padtype = t.map padName)
    (W : List (List ℂ)) (s : List ℝ) (dW : List (List ℂ)) (h : cwt x a = .ok (W, s, dW)) :
    cwt (x.map fun u => c * u) a = .ok (W.map fun r => r.map fun z => (c : ℂ) * z, s, dW.map fun r => r.map fun z => (c : ℂ) * z) := by
  obtain ⟨V, dV, h1, h2⟩ := C36_linear x x rfl hx c 0 a t ht W s dW h
  rw [h] at h1
  simp only [Except.ok.injEq, Prod.mk.injEq, true_and] at h1
  obtain ⟨rfl, rfl⟩ := h1
  simp only [zipWith_self_map, zero_mul, add_zero, ofReal_zero] at h2
  exact h2

theorem ent_smul (W : List (List ℂ)) (c : ℂ) (i j : ℕ) : ent (W.map fun r => r.map fun z => c * z) i j = c * ent W i j := by
  by_cases hi : i < W.length
  · rw [ent_map_rows W _ i j hi]
    unfold ent
    by_cases hj : j < (W.getD i []).length
    · rw [List.getD_eq_getElem _ _ (by rw [List.length_map]; exact hj), List.getD_eq_getElem (W.getD i []) _ hj, List.getElem_map]
    · rw [List.getD_eq_default _ _ (by rw [List.length_map]; omega), List.getD_eq_default (W.getD i []) _ (by omega), mul_zero]
  · unfold ent
    rw [List.getD_eq_default (W.map fun r => r.map fun z => c * z) [] (by rw [List.length_map]; omega), List.getD_eq_default W _ (by omega)]
    simp

theorem cwtFreq_smul (k c : ℝ) (hc : c ≠ 0) (hk : |k| = |c|) (V dW : ℂ) : cwtFreq (k * V) (c * dW) = cwtFreq V dW := by
  have hk0 : k ≠ 0 := fun h => hc (by rw [h, abs_zero] at hk; exact abs_eq_zero.1 hk.symm)
  unfold cwtFreq
  simp only [re_ofReal_mul, im_ofReal_mul]
  have : (c * dW.im * (k * V.re) - c * dW.re * (k * V.im)) / (((k * V.re) ^ 2 + (k * V.im) ^ 2) * (2 * Real.pi)) =
      c / k * ((dW.im * V.re - dW.re * V.im) / ((V.re ^ 2 + V.im ^ 2) * (2 * Real.pi))) := by
    rw [div_mul_div_comm, show ((k * V.re) ^ 2 + (k * V.im) ^ 2) * (2 * Real.pi) = k * (k * ((V.re ^ 2 + V.im ^ 2) * (2 * Real.pi))) by ring,
      show c * dW.im * (k * V.re) - c * dW.re * (k * V.im) = k * (c * (dW.im * V.re - dW.re * V.im)) by ring,
      mul_div_mul_left _ _ hk0]
  rw [this, abs_mul, abs_div, hk, div_self (abs_ne_zero.2 hc), one_mul]

/-- C147 as one would have it: if signal and threshold are multiplied by the same number, the transforms are multiplied by it, the
synchrosqueezed transform too, for each of the named measures (the modulus for `'abs'`; nothing for `'lebesgue'`, which counts). -/
def C147_full : Prop :=
  ∀ (x : List ℝ) (a : SsqCwtArgs) (t : Option PadType) (c g k : ℝ) (o : SsqCwtOut), 0 < x.length → a.padtype = t.map padName → c ≠ 0 →
    a.gamma = some g → Spec.measureFactor c a.squeezing = some k → ssqCwt x a = .ok o →
    ∃ o', ssqCwt (x.map fun u => c * u) { a with gamma := some (|c| * g) } = .ok o' ∧ o'.scales = o.scales ∧ o'.freqs = o.freqs ∧
      (∀ i j, ent o'.Wx i j = c * ent o.Wx i j ∧ ent o'.dWx i j = c * ent o.dWx i j) ∧
      ∀ r, ∀ j < x.length, o'.Tx r j = k * o.Tx r j

/-- C147, except for `'lebesgue'` without `get_w`. -/
theorem C147_partial (x : List ℝ) (a : SsqCwtArgs) (t : Option PadType) (c g k : ℝ) (o : SsqCwtOut) (hx : 0 < x.length)
    (ht : a.padtype = t.map padName) (hc : c ≠ 0) (hg : a.gamma = some g) (hk : Spec.measureFactor c a.squeezing = some k)
    (hl : a.squeezing = .lebesgue → a.getW = true) (h : ssqCwt x a = .ok o) :
    ∃ o', ssqCwt (x.map fun u => c * u) { a with gamma := some (|c| * g) } = .ok o' ∧ o'.scales = o.scales ∧ o'.freqs = o.freqs ∧
      (∀ i j, ent o'.Wx i j = c * ent o.Wx i j ∧ ent o'.dWx i j = c * ent o.dWx i j) ∧
      ∀ r, ∀ j < x.length, o'.Tx r j = k * o.Tx r j := by
  have hn : ∀ z : ℂ, ‖(c : ℂ) * z‖ = |c| * ‖z‖ := fun z => by rw [norm_mul, norm_real, Real.norm_eq_abs]
  have hV : ∀ M i j, applySqueezing a.squeezing M (ent (o.Wx.map fun r => r.map fun z => (c : ℂ) * z)) i j =
      (k : ℂ) * applySqueezing a.squeezing M (ent o.Wx) i j := by
    intro M i j
    cases hs : a.squeezing with
    | sum =>
      rw [hs] at hk
      simp only [Spec.measureFactor, Option.some.injEq] at hk
      rw [← hk]
      exact ent_smul _ _ _ _
    | abs =>
      rw [hs] at hk
      simp only [Spec.measureFactor, Option.some.injEq] at hk
      rw [← hk]
      show ((‖ent (o.Wx.map fun r => r.map fun z => (c : ℂ) * z) i j‖ : ℝ) : ℂ) = _ * ((‖ent o.Wx i j‖ : ℝ) : ℂ)
      rw [ent_smul, hn]; push_cast; rfl
    | lebesgue =>
      rw [hs] at hk
      simp only [Spec.measureFactor, Option.some.injEq] at hk
      rw [← hk, ofReal_one, one_mul]
      rfl
    | fn f => rw [hs] at hk; simp [Spec.measureFactor] at hk
    | otherStr => rw [hs] at hk; simp [Spec.measureFactor] at hk
    | other => rw [hs] at hk; simp [Spec.measureFactor] at hk
  have hc0 := abs_pos.2 hc
  obtain ⟨o', k1, k2, k3, k4, k5, k6⟩ := ssqCwt_cols x (x.map fun u => c * u) (by simp) a (some (|c| * g))
    (fun W => W.map fun r => r.map fun z => (c : ℂ) * z) (fun W => W.map fun r => r.map fun z => (c : ℂ) * z)
    (fun fs sc W s dW hW => cwt_scale x hx c (a.cwtArgs fs sc) t ht W s dW hW)
    (AddMonoidHom.mulLeft (k : ℂ)) (fun z r => (mul_assoc _ _ _).symm) (fun j => j) (fun j hj => hj) h
    (fun i _ j _ => hV _ i j)
    (by
      intro _ i _ j _
      unfold phaseCwt
      rw [ent_smul, ent_smul, hn, hg, cwtFreq_smul c c hc rfl]
      simp only [Option.getD_some, mul_lt_mul_iff_right₀ hc0])
    (by
      intro hw i _ j _
      have hkc : |k| = |c| := by
        cases hs : a.squeezing with
        | sum => rw [hs] at hk; simp only [Spec.measureFactor, Option.some.injEq] at hk; rw [hk]
        | abs => rw [hs] at hk; simp only [Spec.measureFactor, Option.some.injEq] at hk; rw [← hk, abs_abs]
        | lebesgue => rw [hl hs] at hw; simp at hw
        | fn f => rw [hs] at hk; simp [Spec.measureFactor] at hk
        | otherStr => rw [hs] at hk; simp [Spec.measureFactor] at hk
        | other => rw [hs] at hk; simp [Spec.measureFactor] at hk
      rw [hV, ent_smul, cwtFreq_smul k c hc hkc, norm_mul, norm_real, Real.norm_eq_abs, hkc, hg]
      simp only [Option.getD_some, mul_lt_mul_iff_right₀ hc0, and_self])
  refine ⟨o', k1, k4, k5, fun i j => ?_, k6⟩
  rw [k2, k3]
  exact ⟨ent_smul _ _ _ _, ent_smul _ _ _ _⟩

example : (exSsq (some .reflect)).gamma = some (1 / 100) ∧ Spec.measureFactor (-3) (exSsq (some .reflect)).squeezing = some (-3) := ⟨rfl, rfl⟩

/-- `exSsq` with the measure that counts. -/
noncomputable def exLeb (g : ℝ) : SsqCwtArgs := { exSsq none with squeezing := .lebesgue, gamma := some g }

theorem ssqueeze_exLeb (g : ℝ) (N : ℕ) (W dW : List (List ℂ)) :
    ∃ Tx, ssqueeze ((exLeb g).ssqArgs 8 .log [1, 2, 4] N W dW) = .ok (Tx, [4, 2, 1]) := by
  set a := (exLeb g).ssqArgs 8 .log [1, 2, 4] N W dW with ha
  have h1 : ssqProcessArgs a = .ok (1 / 8) := by
    have hc : checkSsqueezingArgs false .lebesgue .maximal true none none false .cwt = .ok none := rfl
    unfold ssqProcessArgs
    rw [if_neg (by simp [ha, SsqCwtArgs.ssqArgs, exLeb, exSsq]), if_neg]
    · simp only [ha, SsqCwtArgs.ssqArgs, exLeb, exSsq, Option.isSome_some, hc, ok_bind, Option.isNone_some, Bool.false_eq_true,
        false_and, if_false, processFsT]
      norm_num
    · rintro ⟨w, hw, -⟩
      simp [ha, SsqCwtArgs.ssqArgs, exLeb, exSsq] at hw
  have h2 : ssqScales a = .ok (some [1, 2, 4], some (.log, .int 1)) := by
    have hp : positiveInteger ((1 : ℤ) : ℚ) = .ok 1 := by rfl
    simp only [ha, SsqCwtArgs.ssqArgs, exLeb, exSsq, ssqScales, processScales, infer124, ok_bind, pure_eq_ok, ne_eq,
      not_true_eq_false, false_and, if_false, hp]
    rfl
  have h3 : ssqFreqsOf a (1 / 8) (some [1, 2, 4]) (some (.log, .int 1)) = .ok ([1, 2, 4], .known .log) := by
    simp only [ssqFreqsOf, ha, SsqCwtArgs.ssqArgs, exLeb, exSsq, reduceCtorEq, if_false, infer124, ok_bind]
  have h4 : ∀ v, ssqConst a.transform (some [1, 2, 4]) (some (.log, .int 1)) v = .ok (.scalar (Real.log 2 / ((1 : ℤ) : ℝ))) :=
    fun v => rfl
  have h6 : ∃ T, ssqKernel a (applySqueezing a.squeezing a.M a.Wx) [1, 2, 4] (.scalar (Real.log 2 / ((1 : ℤ) : ℝ))) true = .ok T := by
    obtain ⟨T, hT⟩ := ssqueeze_exSsq none N W dW
    obtain ⟨dt, sc, fr, const, ls, k1, k2, k3, k4, k5, k6, k7⟩ := ssqueeze_ok hT
    rw [kernel_eq _ _ _ _ _ (Or.inr (Or.inl rfl))] at k6 ⊢
    unfold indexedSumOnfly onflyBody at k6 ⊢
    obtain ⟨body, hb, k6⟩ := bind_ok k6
    obtain ⟨c, hcc, hb⟩ := bind_ok hb
    obtain ⟨p, hp, hb⟩ := bind_ok hb
    have hfr : fr.1 = [1, 2, 4] := by
      have : ssqReverses ((exSsq none).ssqArgs 8 .log [1, 2, 4] N W dW).transform
          ((exSsq none).ssqArgs 8 .log [1, 2, 4] N W dW).flipud = true := rfl
      rw [this, if_pos rfl] at k7
      have := congrArg List.reverse k7
      simpa using this.symm
    have hls : ls = true := by
      have : fr.2 = .known .log := by
        have e : ssqFreqsOf ((exSsq none).ssqArgs 8 .log [1, 2, 4] N W dW) dt sc.1 sc.2 = .ok ([1, 2, 4], .known .log) := by
          simp only [ssqFreqsOf, SsqCwtArgs.ssqArgs, exSsq, reduceCtorEq, if_false, infer124, ok_bind]
        rw [e] at k3
        simp only [Except.ok.injEq] at k3
        rw [← k3]
      rw [this] at k5
      simp only [SsqType.isLog, Except.ok.injEq] at k5
      exact k5.symm
    rw [hfr, hls] at hp
    have hM : a.M ≠ 1 := by simp [ha, SsqCwtArgs.ssqArgs]
    have hp' : processSsqParams a.th [1, 2, 4] true = .ok p := hp
    simp only [constArr, if_neg hM, ok_bind, hp', pure_eq_ok]
    exact ⟨_, rfl⟩
  obtain ⟨T, h6⟩ := h6
  refine ⟨T, ?_⟩
  have hr : ssqReverses a.transform a.flipud = true := rfl
  unfold ssqueeze
  simp only [h1, ok_bind, h2, h3, h4, SsqType.isLog, h6, pure_eq_ok, hr, if_true]
  rfl

theorem exLeb_ok (g : ℝ) (x : List ℝ) (hx : 0 < x.length) : ∃ o, ssqCwt x (exLeb g) = .ok o ∧ o.scales = [1, 2, 4] ∧ o.freqs = [4, 2, 1] := by
  obtain ⟨o, ho, hs, hf⟩ := exSsq_ok none x hx
  unfold ssqCwt at ho
  obtain ⟨_, _, ho⟩ := bind_ok ho
  obtain ⟨r, hr, ho⟩ := bind_ok ho
  obtain ⟨sc, hsc, ho⟩ := bind_ok ho
  obtain ⟨⟨W, s, dW⟩, hW, ho⟩ := bind_ok ho
  obtain ⟨T, hT, ho⟩ := bind_ok ho
  simp only [Except.ok.injEq] at ho
  subst ho
  simp only at hs
  subst hs
  have hr8 : r = (8, 1 / 8) := by
    have : cwtDt (exSsq none).fs (exSsq none).t x.length = .ok (8, 1 / 8) := by
      simp only [cwtDt, exSsq, processFsT]; rw [if_neg (by norm_num)]; rfl
    rw [this] at hr
    simpa using hr.symm
  have hsc' : sc = ([1, 2, 4], .log, 3, .int 1) := by
    have : processScales (exSsq none).scales x.length (some (exSsq none).wavelet.sw) (ssqCwtNv (exSsq none)) true
      (exSsq none).downsample = .ok ([1, 2, 4], .log, 3, .int 1) := process124 _ _ _ _
    rw [this] at hsc
    simpa using hsc.symm
  obtain ⟨T', hT'⟩ := ssqueeze_exLeb g x.length W dW
  refine ⟨⟨T', W, [4, 2, 1], [1, 2, 4], dW⟩, ?_, rfl, rfl⟩
  have hc : checkSsqueezingArgs false (exLeb g).squeezing (exLeb g).maprange true (some .trig)
      (exLeb g).difforder (exLeb g).getW .cwt = .ok none := rfl
  have hd' : cwtDt (exLeb g).fs (exLeb g).t x.length = .ok r := hr
  have hsc'' : processScales (exLeb g).scales x.length (some (exLeb g).wavelet.sw) (ssqCwtNv (exLeb g)) true
    (exLeb g).downsample = .ok sc := hsc
  have hW' : cwt x ((exLeb g).cwtArgs r.1 sc.1) = .ok (W, [1, 2, 4], dW) := hW
  unfold ssqCwt
  rw [hc, ok_bind, hd', ok_bind, hsc'', ok_bind, hW', ok_bind, hr8, hsc']
  simp only
  rw [hT', ok_bind]

theorem exLeb_rows {g : ℝ} {x : List ℝ} {o : SsqCwtOut} (h : ssqCwt x (exLeb g) = .ok o) (hs : o.scales = [1, 2, 4]) (hf : o.freqs = [4, 2, 1]) :
    ∃ row : ℝ → ℕ, (∀ y, 0 ≤ y → row y < 3) ∧ ∀ r : ℕ, r < 3 → ∀ j < x.length, o.Tx r j =
      if g < 1 / 3 then ∑ i ∈ range 3, (if row (cwtFreq (1 / 3) (ent o.dWx i j)) = r then (1 / 3 : ℂ) * ((Real.log 2 : ℝ) : ℂ) else 0) else 0 := by
  obtain ⟨fs, dt, st, na, nv, -, -, -, h4⟩ := ssqCwt_ok h
  rw [hs, hf] at h4
  obtain ⟨row, hr1, hr0, hT⟩ := C27_log_partial ((exLeb g).ssqArgs fs st [1, 2, 4] x.length o.Wx o.dWx) o.Tx [4, 2, 1] h4
    ⟨rfl, .log, .int 1, infer124, by simp⟩ rfl rfl (Or.inr rfl) (by norm_num [SsqCwtArgs.ssqArgs, exLeb, exSsq]) loggrid124 rfl
    [3] .f64 [1, 2, 4] rfl .log (.int 1) infer124 rfl (by simp)
  refine ⟨row, fun y hy => ?_, fun r hr j hj => ?_⟩
  · rcases hy.eq_or_lt with rfl | hy
    · rw [hr0]; simp [SsqCwtArgs.ssqArgs]
    · obtain ⟨hk, -⟩ := hr1 y hy
      simpa using hk
  · rw [hT r hr j hj]
    have hn : ‖(1 / ((3 : ℕ) : ℂ))‖ = 1 / 3 := by norm_num
    by_cases hg : g < 1 / 3
    · rw [if_pos hg]
      unfold Spec.squeezed Spec.usedPhase
      refine sum_congr rfl fun i _ => ?_
      have hk : ((exLeb g).ssqArgs fs st [1, 2, 4] x.length o.Wx o.dWx).gamma.getD 0 < ‖(1 / ((3 : ℕ) : ℂ))‖ := by
        rw [hn]; exact hg
      simp only [SsqCwtArgs.ssqArgs, exLeb, exSsq, applySqueezing, List.length_cons, List.length_nil, zero_add, Nat.reduceAdd,
        Bool.false_eq_true, if_false, Option.getD_some] at hk ⊢
      rw [if_pos hk]
      simp only [Spec.scaleMeasure, Int.cast_one, div_one, Nat.cast_ofNat]
    · rw [if_neg hg]
      unfold Spec.squeezed Spec.usedPhase
      refine sum_eq_zero fun i _ => ?_
      have hk : ¬ ((exLeb g).ssqArgs fs st [1, 2, 4] x.length o.Wx o.dWx).gamma.getD 0 < ‖(1 / ((3 : ℕ) : ℂ))‖ := by
        rw [hn]; exact hg
      simp only [SsqCwtArgs.ssqArgs, exLeb, exSsq, applySqueezing, List.length_cons, List.length_nil, zero_add, Nat.reduceAdd,
        Bool.false_eq_true, if_false, Option.getD_some] at hk ⊢
      rw [if_neg hk]

/-- C147 is false of the code: with `'lebesgue'` and without `get_w`, the threshold is compared with one over the number of scales,
whatever the signal. Multiplying signal and threshold by 100 loses everything. -/
theorem C147_refuted : ¬ C147_full := by
  intro H
  obtain ⟨o, ho, hs, hf⟩ := exLeb_ok (1 / 100) [3, 1, 4, 1] (by simp)
  obtain ⟨o', ho', hs', hf', -, hT⟩ := H [3, 1, 4, 1] (exLeb (1 / 100)) none 100 (1 / 100) 1 o (by simp) rfl (by norm_num) rfl rfl ho
  have e : ({ exLeb (1 / 100) with gamma := some (|(100 : ℝ)| * (1 / 100)) } : SsqCwtArgs) = exLeb 1 := by
    unfold exLeb; norm_num
  rw [e] at ho'
  obtain ⟨row, hlt, hrow⟩ := exLeb_rows ho hs hf
  obtain ⟨row', -, hrow'⟩ := exLeb_rows ho' (hs'.trans hs) (hf'.trans hf)
  have hpos : 0 ≤ cwtFreq (1 / 3) (ent o.dWx 0 0) := abs_nonneg _
  have h0 := hlt _ hpos
  have h1 := hT (row (cwtFreq (1 / 3) (ent o.dWx 0 0)) : ℕ) 0 (by simp)
  rw [hrow' _ h0 0 (by simp), hrow _ h0 0 (by simp), if_neg (by norm_num), if_pos (by norm_num), ofReal_one, one_mul,
    sum_range_succ, sum_range_succ, sum_range_one, if_pos rfl] at h1
  have hl : 0 < Real.log 2 := Real.log_pos (by norm_num)
  have h2 := congrArg Complex.re h1
  have h3 : ((1 / 3 : ℂ) * ((Real.log 2 : ℝ) : ℂ)).re = Real.log 2 / 3 := by
    rw [show (1 / 3 : ℂ) = ((1 / 3 : ℝ) : ℂ) by push_cast; rfl, ← ofReal_mul, ofReal_re]; ring
  have hb : ∀ (p : Prop) [Decidable p], 0 ≤ (if p then (1 / 3 : ℂ) * ((Real.log 2 : ℝ) : ℂ) else 0).re := by
    intro p _
    split
    · rw [h3]; linarith
    · simp
  rw [add_re, add_re, h3, zero_re] at h2
  have b1 := hb (row (cwtFreq (1 / 3) (ent o.dWx 1 0)) = row (cwtFreq (1 / 3) (ent o.dWx 0 0)))
  have b2 := hb (row (cwtFreq (1 / 3) (ent o.dWx 2 0)) = row (cwtFreq (1 / 3) (ent o.dWx 0 0)))
  linarith

end Ssq
