import Verif.Lemmas.Covariance
import Verif.Props.SsqCwt

/-! Helper lemmas: the value of a squeezed transform, cell by cell. -/
namespace Ssq
open Finset

namespace Spec

/-- What a cell with phase `w` and value `v`, weighted by `k`, adds to row `r`, when frequency `x` belongs to row `row x`. -/
noncomputable def cellTerm (row : ℝ → ℤ) (k : ℝ) (w : Phase) (v : ℂ) (r : ℤ) : ℂ :=
  match w with
  | .inf => 0
  | .fin x => if row x = r then v * (k : ℂ) else 0

end Spec

theorem onfly_values {dev : Device} {th : ℝ} {M N : ℕ} {W : ℕ → ℕ → ℂ} {w : ℕ → ℕ → Phase} {v : List ℝ} {const : ConstArg}
    {ls fl : Bool} {T : ℤ → ℕ → ℂ} (h : indexedSumOnfly dev th M N (fun _ _ => 0) W w v const ls fl = .ok T) :
    ∃ (row : ℝ → ℤ) (k : ℕ → ℝ), (∃ c, constArr M const = .ok c ∧ k = fun i => c.getD i 0) ∧
      ∀ (W' : ℕ → ℕ → ℂ) (w' : ℕ → ℕ → Phase), ∃ T',
      indexedSumOnfly dev th M N (fun _ _ => 0) W' w' v const ls fl = .ok T' ∧
      ∀ r, ∀ j < N, T' r j = ∑ i ∈ range M, Spec.cellTerm row (k i) (w' i j) (W' i j) r := by
  unfold indexedSumOnfly onflyBody at h ⊢
  obtain ⟨body, hb, h⟩ := bind_ok h
  obtain ⟨c, hc, hb⟩ := bind_ok hb
  obtain ⟨p, hp, hb⟩ := bind_ok hb
  refine ⟨fun x => flipRow fl ((M : ℤ) - 1) (binTP dev p ((M : ℤ) - 1) x), fun i => c.getD i 0, ⟨c, hc, rfl⟩, fun W' w' =>
    ⟨_, by simp only [hc, ok_bind, hp, pure_eq_ok]; rfl, fun r j hj => ?_⟩⟩
  rw [runOps_serial _ (indexedSumBody_cols _ _ _ _ _ _ _) _ _ _ hj, zero_add]
  refine sum_congr rfl fun i hi => ?_
  unfold indexedSumBody Spec.cellTerm
  cases w' i j with
  | inf => simp [contrib]
  | fin x => simp only [contrib]

theorem ssqueeze_values_w (a : SsqArgs) (hS : a.Sfs = none ∨ (a.transform = .stft ∧ ∃ d v, a.ssqFreqs = .arr d v))
    {T : ℤ → ℕ → ℂ} {f : List ℝ} (h : ssqueeze a = .ok (T, f)) :
    ∃ (row : ℝ → ℤ) (k : ℕ → ℝ),
      (∃ sc v const c, ssqScales a = .ok sc ∧ ssqConst a.transform sc.1 sc.2 v = .ok const ∧ constArr a.M const = .ok c ∧
        f = (if ssqReverses a.transform a.flipud then v.reverse else v) ∧ k = fun i => c.getD i 0) ∧
      ∀ (Wx' : ℕ → ℕ → ℂ) (w' : Option (ℕ → ℕ → Phase)) (dWx' : Option (ℕ → ℕ → ℂ)) (gamma' : Option ℝ),
      w'.isNone = a.w.isNone → dWx'.isNone = a.dWx.isNone → gamma'.isNone = a.gamma.isNone →
      (∀ w, w' = some w → ¬ hasNegative a.M a.N w) →
      ∃ T', ssqueeze { a with Wx := Wx', w := w', dWx := dWx', gamma := gamma' } = .ok (T', f) ∧
        ∀ r, ∀ j < a.N, T' r j = ∑ i ∈ range a.M, Spec.cellTerm row (k i)
          (Spec.usedPhase { a with Wx := Wx', w := w', dWx := dWx', gamma := gamma' } (applySqueezing a.squeezing a.M Wx') i j)
          (applySqueezing a.squeezing a.M Wx' i j) r := by
  unfold ssqueeze at h
  obtain ⟨dt, hdt, h⟩ := bind_ok h
  obtain ⟨sc, hsc, h⟩ := bind_ok h
  obtain ⟨fr, hfr, h⟩ := bind_ok h
  obtain ⟨c, hc, h⟩ := bind_ok h
  obtain ⟨ls, hls, h⟩ := bind_ok h
  obtain ⟨Tx, hT, h⟩ := bind_ok h
  simp only [pure_eq_ok, Except.ok.injEq, Prod.mk.injEq] at h
  obtain ⟨rfl, rfl⟩ := h
  have hk : a.Sfs = none ∨ ls = false := by
    rcases hS with hS | ⟨h1, d, v, h2⟩
    · exact Or.inl hS
    · right
      unfold ssqFreqsOf at hfr
      simp only [h2, h1, if_true, Except.ok.injEq] at hfr
      rw [← hfr] at hls
      simpa [SsqType.isLog] using hls.symm
  rw [kernel_eq _ _ _ _ _ (Or.inr hk)] at hT
  obtain ⟨row, k, ⟨c', hc', hk'⟩, hall⟩ := onfly_values hT
  refine ⟨row, k, ⟨sc, fr.1, c, c', hsc, hc, hc', rfl, hk'⟩, fun Wx' w' dWx' gamma' hwS hdS hgS hneg => ?_⟩
  obtain ⟨T', hT', hT'e⟩ := hall (applySqueezing a.squeezing a.M Wx')
    (Spec.usedPhase { a with Wx := Wx', w := w', dWx := dWx', gamma := gamma' } (applySqueezing a.squeezing a.M Wx'))
  refine ⟨T', ?_, hT'e⟩
  have hp : ssqProcessArgs { a with Wx := Wx', w := w', dWx := dWx', gamma := gamma' } = .ok dt := by
    unfold ssqProcessArgs at hdt ⊢
    simp only [hwS, hdS, hgS]
    split at hdt
    · simp at hdt
    next h1 =>
    rw [if_neg h1]
    split at hdt
    · simp at hdt
    next h2 =>
    rw [if_neg (fun ⟨w, hw, hn⟩ => hneg w hw hn)]
    exact hdt
  have hs : ssqScales { a with Wx := Wx', w := w', dWx := dWx', gamma := gamma' } = .ok sc := hsc
  have hf : ssqFreqsOf { a with Wx := Wx', w := w', dWx := dWx', gamma := gamma' } dt sc.1 sc.2 = .ok fr := hfr
  unfold ssqueeze
  rw [hp, ok_bind, hs, ok_bind, hf, ok_bind, hc, ok_bind, hls, ok_bind,
    kernel_eq { a with Wx := Wx', w := w', dWx := dWx', gamma := gamma' } _ _ _ _ (Or.inr hk), hT', ok_bind]
  rfl

theorem ssqueeze_values (a : SsqArgs) (hS : a.Sfs = none ∨ (a.transform = .stft ∧ ∃ d v, a.ssqFreqs = .arr d v))
    {T : ℤ → ℕ → ℂ} {f : List ℝ} (h : ssqueeze a = .ok (T, f)) :
    ∃ (row : ℝ → ℤ) (k : ℕ → ℝ), ∀ (Wx' : ℕ → ℕ → ℂ) (w' : Option (ℕ → ℕ → Phase)) (dWx' : Option (ℕ → ℕ → ℂ)) (gamma' : Option ℝ),
      w'.isNone = a.w.isNone → dWx'.isNone = a.dWx.isNone → gamma'.isNone = a.gamma.isNone →
      (∀ w, w' = some w → ¬ hasNegative a.M a.N w) →
      ∃ T', ssqueeze { a with Wx := Wx', w := w', dWx := dWx', gamma := gamma' } = .ok (T', f) ∧
        ∀ r, ∀ j < a.N, T' r j = ∑ i ∈ range a.M, Spec.cellTerm row (k i)
          (Spec.usedPhase { a with Wx := Wx', w := w', dWx := dWx', gamma := gamma' } (applySqueezing a.squeezing a.M Wx') i j)
          (applySqueezing a.squeezing a.M Wx' i j) r := by
  obtain ⟨row, k, -, hall⟩ := ssqueeze_values_w a hS h
  exact ⟨row, k, hall⟩

/-- The phase of a cell of `ssq_cwt` with transform `z`, derivative `d` and measure `v`. -/
noncomputable def cwtCellPhase (a : SsqCwtArgs) (z d v : ℂ) : Phase :=
  open Classical in
  if a.getW then (if ‖z‖ < a.gamma.getD (10 * a.eps) then .inf else .fin (cwtFreq z d))
  else if a.gamma.getD (10 * a.eps) < ‖v‖ then .fin (cwtFreq v d) else .inf

/-- `ssq_cwt` of all signals of one length, cell by cell. -/
theorem ssqCwt_values (x : List ℝ) (hx : 0 < x.length) (a : SsqCwtArgs) (t : Option PadType) (ht : a.padtype = t.map padName) {o : SsqCwtOut}
    (h : ssqCwt x a = .ok o) :
    ∃ (row : ℝ → ℤ) (k : ℕ → ℝ) (fs : ℝ) (sc : List ℝ), ∀ y : List ℝ, y.length = x.length → ∃ p, ssqCwt y a = .ok p ∧
      cwt y (a.cwtArgs fs sc) = .ok (p.Wx, o.scales, p.dWx) ∧ p.scales = o.scales ∧ p.freqs = o.freqs ∧
      ∀ r, ∀ j < x.length, p.Tx r j = ∑ i ∈ range o.scales.length, Spec.cellTerm row (k i)
        (cwtCellPhase a (ent p.Wx i j) (ent p.dWx i j) (applySqueezing a.squeezing o.scales.length (ent p.Wx) i j))
        (applySqueezing a.squeezing o.scales.length (ent p.Wx) i j) r := by
  unfold ssqCwt at h
  obtain ⟨c, hc, h⟩ := bind_ok h
  obtain ⟨r, hr, h⟩ := bind_ok h
  obtain ⟨sc, hsc, h⟩ := bind_ok h
  obtain ⟨⟨W, s, dW⟩, hW, h⟩ := bind_ok h
  obtain ⟨⟨T, f⟩, hT, h⟩ := bind_ok h
  simp only [Except.ok.injEq] at h
  subst h
  simp only at hT
  obtain ⟨row, k, hall⟩ := ssqueeze_values _ (Or.inl rfl) hT
  refine ⟨row, k, r.1, sc.1, fun y hy => ?_⟩
  obtain ⟨V, dV, hV, -⟩ := C36_linear x y hy.symm hx 1 1 (a.cwtArgs r.1 sc.1) t ht W s dW hW
  obtain ⟨T', hT', hval⟩ := hall (a.ssqArgs r.1 sc.2.1 s x.length V dV).Wx (a.ssqArgs r.1 sc.2.1 s x.length V dV).w
    (a.ssqArgs r.1 sc.2.1 s x.length V dV).dWx (a.ssqArgs r.1 sc.2.1 s x.length V dV).gamma
    (by simp only [SsqCwtArgs.ssqArgs]; split <;> rfl) (by simp only [SsqCwtArgs.ssqArgs]; split <;> rfl) rfl
    (by
      rintro w hw ⟨i, hi, j, hj, z, hz, hneg⟩
      simp only [SsqCwtArgs.ssqArgs] at hw
      split at hw
      · simp only [Option.some.injEq] at hw
        rw [← hw] at hz
        unfold phaseCwt at hz
        split at hz
        · simp at hz
        · simp only [Phase.fin.injEq] at hz
          rw [← hz] at hneg
          exact absurd (cwtFreq_nonneg _ _) (not_le.2 hneg)
      · simp at hw)
  refine ⟨⟨T', V, f, s, dV⟩, ?_, hV, rfl, rfl, fun r' j hj => ?_⟩
  · unfold ssqCwt
    rw [hy, hc, ok_bind, hr, ok_bind, hsc, ok_bind, hV, ok_bind]
    have he : a.ssqArgs r.1 sc.2.1 s x.length V dV = { a.ssqArgs r.1 sc.2.1 s x.length W dW with
        Wx := (a.ssqArgs r.1 sc.2.1 s x.length V dV).Wx, w := (a.ssqArgs r.1 sc.2.1 s x.length V dV).w
        dWx := (a.ssqArgs r.1 sc.2.1 s x.length V dV).dWx, gamma := (a.ssqArgs r.1 sc.2.1 s x.length V dV).gamma } := rfl
    simp only
    rw [he, hT', ok_bind]
  · simp only at hval ⊢
    rw [hval r' j hj]
    refine sum_congr rfl fun i _ => ?_
    have : Spec.usedPhase { a.ssqArgs r.1 sc.2.1 s x.length W dW with
        Wx := (a.ssqArgs r.1 sc.2.1 s x.length V dV).Wx, w := (a.ssqArgs r.1 sc.2.1 s x.length V dV).w
        dWx := (a.ssqArgs r.1 sc.2.1 s x.length V dV).dWx, gamma := (a.ssqArgs r.1 sc.2.1 s x.length V dV).gamma }
        (applySqueezing a.squeezing s.length (ent V)) i j =
        cwtCellPhase a (ent V i j) (ent dV i j) (applySqueezing a.squeezing s.length (ent V) i j) := by
      unfold Spec.usedPhase cwtCellPhase
      cases hg : a.getW
      · simp [SsqCwtArgs.ssqArgs, hg, ent]
      · simp [SsqCwtArgs.ssqArgs, hg, ent, phaseCwt]
    exact congrArg (fun w => Spec.cellTerm row (k i) w (applySqueezing a.squeezing s.length (ent V) i j) r') this

end Ssq
