import Verif.Props.SsqCwtEx
import Verif.Props.IcwtName

/-!
# `ssq_cwt` returns the transform `cwt` returns (C76); the default of `x_len` (C40)
-/
namespace Ssq

theorem processScales_str_eq {s : List Char} {N : ℕ} {wv : Option ScaleWavelet} {ds : ℕ} (nv : Option ℚ) :
    processScales (.str s) N wv nv true ds = processScales (.str s) N wv (some (nv.getD 32)) true ds := by
  unfold processScales
  simp

theorem processScales_arr_none {sh : List ℕ} {d : FDtype} {v : List ℝ} {N : ℕ} {wv : Option ScaleWavelet}
    {ds : ℕ} {nv : Option ℚ} {r : List ℝ × ScaleType × ℕ × Nv}
    (h : processScales (.arr sh d v) N wv nv true ds = .ok r) :
    r.1 = v ∧ ∃ r', processScales (.arr sh d v) N wv none true ds = .ok r' ∧ r'.1 = v := by
  unfold processScales at h ⊢
  simp only at h ⊢
  split at h
  · simp at h
  · rename_i hsh
    rw [if_neg hsh]
    obtain ⟨p, hp, h⟩ := bind_ok h
    rw [hp]
    obtain ⟨st, n⟩ := p
    simp only [ok_bind] at h ⊢
    cases st <;> cases n <;> simp only [pure_eq_ok, ne_eq, not_true_eq_false, false_and, if_false] at h ⊢
    all_goals first
      | (split at h
         · simp at h
         · obtain ⟨m, hm, h⟩ := bind_ok h
           simp only [Except.ok.injEq] at h
           rw [hm]
           simp [← h])
      | (cases nv with
         | none => simp only [Except.ok.injEq] at h; simp [← h]
         | some q =>
           obtain ⟨m, hm, h⟩ := bind_ok h
           simp only [Except.ok.injEq] at h
           simp [← h])
      | (simp only [Except.ok.injEq] at h; simp [← h])

/-- The arguments of `cwt` that correspond to those of `ssq_cwt`. -/
def Spec.plainCwt (a : SsqCwtArgs) : CwtArgs where
  wavelet := a.wavelet
  scales := a.scales
  fs := a.fs
  t := a.t
  nv := some (a.nv.getD 32)
  l1Norm := true
  padtype := a.padtype
  rpadded := false
  vectorized := a.vectorized
  downsample := a.downsample

/-- **C76.** The transform, its derivative and the scales `ssq_cwt` returns are those `cwt` returns for the same signal,
wavelet, scales, voices, sampling and padding (L1 norm); each row has as many columns as the signal has samples. -/
theorem C76_same_cwt (x : List ℝ) (a : SsqCwtArgs) (t : Option PadType) (ht : a.padtype = t.map padName)
    (hx : 0 < x.length) (o : SsqCwtOut) (h : ssqCwt x a = .ok o) :
    cwt x (Spec.plainCwt a) = .ok (o.Wx, o.scales, o.dWx) ∧
      o.Wx.length = o.scales.length ∧ o.dWx.length = o.scales.length ∧
      (∀ row ∈ o.Wx, row.length = x.length) ∧ ∀ row ∈ o.dWx, row.length = x.length := by
  obtain ⟨fs, dt, st, na, nv, h1, h2, h3, -⟩ := ssqCwt_ok h
  obtain ⟨r, p, sc, hr, hg, hp, hsc, hsc', hW⟩ := (cwt_ok_iff _ _ _ _ _).1 h3
  have hr' : r = (fs, dt) := by
    have hr2 := cwtDt_fin hr
    have hfs : dt = 1 / fs := by
      unfold processFsT at h1
      simp only at h1
      split at h1
      · split at h1 <;> try simp at h1
        split at h1 <;> try simp at h1
        split at h1 <;> try simp at h1
        split at h1 <;> simp at h1
        rw [← h1.1, ← h1.2]; simp
      · split at h1
        · simp at h1; rw [← h1.1, ← h1.2]; simp
        · split at h1 <;> simp at h1
          rw [← h1.1, ← h1.2]; simp
    simp only [SsqCwtArgs.cwtArgs, processFsT] at hr2
    split at hr2
    · simp at hr2
    · simp only [Except.ok.injEq, Rate.fin.injEq] at hr2
      rw [← hfs] at hr2
      exact Prod.ext hr2.1.symm hr2.2.symm
  have hcwt : cwt x (Spec.plainCwt a) = .ok (o.Wx, o.scales, o.dWx) := by
    have hrun : cwtRun (a.cwtArgs fs o.scales) r.2 o.scales x.length p.1 p.2 = (o.Wx, o.dWx) := hW
    have hdt : cwtDt a.fs a.t x.length = .ok (fs, dt) := by
      unfold cwtDt; rw [h1]; rfl
    rw [cwt_ok_iff]
    cases hs : a.scales with
    | str s =>
      refine ⟨(fs, dt), p, (o.scales, st, na, nv), hdt, hg, hp, ?_, rfl, ?_⟩
      · rw [← h2]
        unfold cwtNv ssqCwtNv Spec.plainCwt
        simp only [hs]
        cases a.nv <;> rfl
      · rw [hr'] at hrun
        rw [← hrun]; rfl
    | arr sh d v =>
      rw [hs] at h2
      obtain ⟨e1, r', e2, e3⟩ := processScales_arr_none h2
      refine ⟨(fs, dt), p, r', hdt, hg, hp, by
        unfold cwtNv Spec.plainCwt; simp only [hs]; exact e2, by rw [e3, ← e1], ?_⟩
      rw [hr'] at hrun
      rw [← hrun]; rfl
    | other =>
      rw [hs] at h2
      simp [processScales] at h2
  refine ⟨hcwt, ?_⟩
  obtain ⟨xp, n1, hp1, hp2, hp3⟩ := cwtPad_ok t x hx
  have hpp : p = (xp, (n1 : ℤ)) := by
    have : cwtPad x a.padtype = .ok p := hp
    rw [ht, hp1] at this
    exact (Except.ok.inj this).symm
  rw [hpp] at hW
  simp only at hW
  rw [cwtRun_eq _ _ _ _ _ _ hp3] at hW
  have hcols : (a.cwtArgs fs o.scales).cols x.length xp.length = x.length := by
    cases t with
    | none =>
      have : xp = x := hp2.1
      rw [this]; unfold CwtArgs.cols; simp
    | some t => unfold CwtArgs.cols CwtArgs.trimmed SsqCwtArgs.cwtArgs; simp [ht]
  simp only [Prod.mk.injEq, hcols] at hW
  have hrow : ∀ (f : ℝ → List ℂ → List ℂ), (∀ s p, (f s p).length = x.length) → ∀ (l : List ℝ) (m : List (List ℂ)),
      ∀ row ∈ List.zipWith f l m, row.length = x.length := by
    intro f hf l m row hm
    rw [List.mem_iff_getElem] at hm
    obtain ⟨i, hi, rfl⟩ := hm
    rw [List.getElem_zipWith]
    exact hf _ _
  rw [← hW.1, ← hW.2]
  refine ⟨by simp [psihRows_length], by simp [psihRows_length], hrow _ (by simp) _ _, hrow _ (by simp) _ _⟩

theorem icwtArr_xlen (a : IcwtArgs) (q q' : Option ℕ) (n : ℕ)
    (hq : icwtArr.orElseN q n = icwtArr.orElseN q' n) : ∀ (v : List ℝ) (W : List (List ℂ)),
    icwtArr { a with xLen := q } n W v = icwtArr { a with xLen := q' } n W v := by
  intro v
  induction hk : v.length using Nat.strong_induction_on generalizing v with
  | _ k ih =>
    intro W
    rw [icwtArr, icwtArr]
    simp only [hq]
    split
    · rfl
    · split
      · rfl
      · split
        · split
          · rfl
          · rfl
          · split
            · rename_i idx _ h
              rw [ih _ (by simp; omega) (v.take idx) rfl, ih _ (by simp; omega) (v.drop idx) rfl]
            · rfl
        · rfl

/-- **C40, the default length.** `x_len=0` is taken as not given, and giving the number of columns of the transform is the
default. -/
theorem C40_xlen_default (n : ℕ) (hn : n ≠ 0) (W : List (List ℂ)) (sc : ScalesArg) (a : IcwtArgs) :
    icwt n W sc { a with xLen := some 0 } = icwt n W sc { a with xLen := none } ∧
      icwt n W sc { a with xLen := some n } = icwt n W sc { a with xLen := none } := by
  have key : ∀ q : Option ℕ, icwtArr.orElseN q n = icwtArr.orElseN none n →
      icwt n W sc { a with xLen := q } = icwt n W sc { a with xLen := none } := by
    intro q hq
    have hA := icwtArr_xlen a q none n hq
    unfold icwt icwt.icwtTop
    simp only [hq, hA]
    rfl
  refine ⟨key _ rfl, key _ ?_⟩
  cases n with
  | zero => exact absurd rfl hn
  | succ n => rfl

/-- `C76_same_cwt` applies to a padded call that succeeds. -/
example : ∃ o, ssqCwt [1, 2, 0, 5, 1] (exSsq (some .reflect)) = .ok o ∧
    cwt [1, 2, 0, 5, 1] (Spec.plainCwt (exSsq (some .reflect))) = .ok (o.Wx, o.scales, o.dWx) ∧
    ∀ row ∈ o.Wx, row.length = 5 := by
  obtain ⟨o, h, -⟩ := exSsq_ok (some .reflect) [1, 2, 0, 5, 1] (by simp)
  obtain ⟨h1, -, -, h2, -⟩ := C76_same_cwt _ _ (some .reflect) rfl (by simp) o h
  exact ⟨o, h, h1, h2⟩

end Ssq
