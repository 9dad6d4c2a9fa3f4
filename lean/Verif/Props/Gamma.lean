import Verif.Props.Contract
import Verif.Props.SuperposeStft
import Verif.Props.IssqCwt
import Verif.Props.StftTone

/-!
# C198: raising the threshold `gamma`
-/
namespace Ssq
open Finset

/-- Dropping cells changes a column by at most the moduli of what is dropped. -/
theorem drop_le (M : ℕ) (row : ℝ → ℤ) (k : ℕ → ℝ) (v : ℕ → ℂ) (φ φ' : ℕ → Phase) (B : ℕ → ℝ) (hB : ∀ i < M, 0 ≤ B i)
    (hd : ∀ i < M, φ' i = φ i ∨ (φ' i = .inf ∧ ‖v i‖ * |k i| ≤ B i)) :
    ∑ r ∈ range M, ‖(∑ i ∈ range M, Spec.cellTerm row (k i) (φ i) (v i) (r : ℤ)) - ∑ i ∈ range M, Spec.cellTerm row (k i) (φ' i) (v i) (r : ℤ)‖ ≤
      ∑ i ∈ range M, B i := by
  have h1 : ∀ r ∈ range M, ‖(∑ i ∈ range M, Spec.cellTerm row (k i) (φ i) (v i) (r : ℤ)) - ∑ i ∈ range M, Spec.cellTerm row (k i) (φ' i) (v i) (r : ℤ)‖ ≤
      ∑ i ∈ range M, ‖Spec.cellTerm row (k i) (φ i) (v i) (r : ℤ) - Spec.cellTerm row (k i) (φ' i) (v i) (r : ℤ)‖ := by
    intro r _
    rw [← sum_sub_distrib]
    exact norm_sum_le _ _
  refine (sum_le_sum h1).trans ?_
  rw [sum_comm]
  refine sum_le_sum fun i hi => ?_
  have hi := mem_range.1 hi
  rcases hd i hi with e | ⟨e, hb⟩
  · rw [e]; simpa using hB i hi
  · rw [e]
    cases φ i with
    | inf => simpa [Spec.cellTerm] using hB i hi
    | fin z =>
      simp only [Spec.cellTerm, sub_zero]
      by_cases he : ∃ r ∈ range M, row z = ((r : ℕ) : ℤ)
      · obtain ⟨r, hr, he⟩ := he
        rw [sum_eq_single r]
        · rw [if_pos he, norm_mul, Complex.norm_real, Real.norm_eq_abs]; exact hb
        · intro b _ hb'
          rw [if_neg, norm_zero]
          rw [he]; intro h'; exact hb' (by exact_mod_cast h'.symm)
        · intro h'; exact (h' hr).elim
      · rw [sum_eq_zero]
        · exact hB i hi
        · intro r hr
          rw [if_neg fun h' => he ⟨r, hr, h'⟩, norm_zero]

/-- `ssq_cwt` with another threshold. -/
theorem ssqCwt_gamma (x : List ℝ) (a : SsqCwtArgs) {o : SsqCwtOut} (h : ssqCwt x a = .ok o) :
    ∃ (row : ℝ → ℤ) (k : ℕ → ℝ) (st : ScaleType) (nv : Nv), inferScaletype a.dtype o.scales = .ok (st, nv) ∧
      (∀ i < o.scales.length, k i = Spec.scaleMeasure st nv o.scales i) ∧ ∀ g : Option ℝ, ∃ p,
      ssqCwt x { a with gamma := g } = .ok p ∧ p.Wx = o.Wx ∧ p.dWx = o.dWx ∧ p.scales = o.scales ∧ p.freqs = o.freqs ∧
      ∀ r, ∀ j < x.length, p.Tx r j = ∑ i ∈ range o.scales.length, Spec.cellTerm row (k i)
        (cwtCellPhase { a with gamma := g } (ent o.Wx i j) (ent o.dWx i j) (applySqueezing a.squeezing o.scales.length (ent o.Wx) i j))
        (applySqueezing a.squeezing o.scales.length (ent o.Wx) i j) r := by
  unfold ssqCwt at h
  obtain ⟨c, hc, h⟩ := bind_ok h
  obtain ⟨r, hr, h⟩ := bind_ok h
  obtain ⟨sc, hsc, h⟩ := bind_ok h
  obtain ⟨⟨W, s, dW⟩, hW, h⟩ := bind_ok h
  obtain ⟨⟨T, f⟩, hT, h⟩ := bind_ok h
  simp only [Except.ok.injEq] at h
  subst h
  simp only at hT
  obtain ⟨st', nv', hinf⟩ := ssqueeze_scales hT rfl rfl
  obtain ⟨row, k, ⟨sc', v, const, c', k1, k2, k3, k4, rfl⟩, hall⟩ := ssqueeze_values_w _ (Or.inl rfl) hT
  refine ⟨row, _, st', nv', hinf, const_cwt rfl rfl hinf rfl (fun l hl => (inferScaletype_nv_length hinf).2 l hl) k1 k2 k3, fun g => ?_⟩
  set b : SsqCwtArgs := { a with gamma := g } with hb
  obtain ⟨T', hT', hval⟩ := hall (b.ssqArgs r.1 sc.2.1 s x.length W dW).Wx (b.ssqArgs r.1 sc.2.1 s x.length W dW).w
    (b.ssqArgs r.1 sc.2.1 s x.length W dW).dWx (b.ssqArgs r.1 sc.2.1 s x.length W dW).gamma
    (by simp only [SsqCwtArgs.ssqArgs, hb]; split <;> rfl) (by simp only [SsqCwtArgs.ssqArgs, hb]) rfl
    (by
      rintro w hw ⟨i, hi, j, hj, z, hz, hneg⟩
      simp only [SsqCwtArgs.ssqArgs] at hw
      split at hw
      · simp only [Option.some.injEq] at hw
        rw [← hw] at hz
        unfold phaseCwt at hz
        split at hz
        · simp at hz
        · simp only [Phase.fin.injEq] at hz
          rw [← hz] at hneg
          exact absurd (cwtFreq_nonneg _ _) (not_le.2 hneg)
      · simp at hw)
  refine ⟨⟨T', W, f, s, dW⟩, ?_, rfl, rfl, rfl, rfl, fun r' j hj => ?_⟩
  · unfold ssqCwt
    have e1 : checkSsqueezingArgs false b.squeezing b.maprange true (some .trig) b.difforder b.getW .cwt = .ok c := hc
    have e2 : cwtDt b.fs b.t x.length = .ok r := hr
    have e3 : processScales b.scales x.length (some b.wavelet.sw) (ssqCwtNv b) true b.downsample = .ok sc := hsc
    have e4 : cwt x (b.cwtArgs r.1 sc.1) = .ok (W, s, dW) := hW
    rw [e1, ok_bind, e2, ok_bind, e3, ok_bind, e4, ok_bind]
    have he : b.ssqArgs r.1 sc.2.1 s x.length W dW = { a.ssqArgs r.1 sc.2.1 s x.length W dW with
        Wx := (b.ssqArgs r.1 sc.2.1 s x.length W dW).Wx, w := (b.ssqArgs r.1 sc.2.1 s x.length W dW).w
        dWx := (b.ssqArgs r.1 sc.2.1 s x.length W dW).dWx, gamma := (b.ssqArgs r.1 sc.2.1 s x.length W dW).gamma } := rfl
    simp only
    rw [he, hT', ok_bind]
  · simp only at hval ⊢
    rw [hval r' j hj]
    refine sum_congr rfl fun i _ => ?_
    have : Spec.usedPhase { a.ssqArgs r.1 sc.2.1 s x.length W dW with
        Wx := (b.ssqArgs r.1 sc.2.1 s x.length W dW).Wx, w := (b.ssqArgs r.1 sc.2.1 s x.length W dW).w
        dWx := (b.ssqArgs r.1 sc.2.1 s x.length W dW).dWx, gamma := (b.ssqArgs r.1 sc.2.1 s x.length W dW).gamma }
        (applySqueezing a.squeezing s.length (ent W)) i j =
        cwtCellPhase b (ent W i j) (ent dW i j) (applySqueezing a.squeezing s.length (ent W) i j) := by
      unfold Spec.usedPhase cwtCellPhase
      cases hg : a.getW
      · simp [SsqCwtArgs.ssqArgs, hg, ent, hb]
      · simp [SsqCwtArgs.ssqArgs, hg, ent, phaseCwt, hb]
    exact congrArg (fun w => Spec.cellTerm row _ w (applySqueezing a.squeezing s.length (ent W) i j) r') this

theorem squeezing_norm {sq : Squeezing} (hsq : sq = .sum ∨ sq = .abs) (M : ℕ) (W : ℕ → ℕ → ℂ) (i j : ℕ) :
    ‖applySqueezing sq M W i j‖ = ‖W i j‖ := by
  rcases hsq with h | h <;> rw [h] <;> simp [applySqueezing]

open Classical in
/-- The phase of a cell of modulus `n` with a greater threshold: the same, or infinite. -/
theorem phase_raise (gw : Bool) (γ g n y z : ℝ) (h : γ ≤ g) :
    (if gw then (if n < g then Phase.inf else .fin y) else if g < n then .fin z else .inf) =
      (if gw then (if n < γ then Phase.inf else .fin y) else if γ < n then .fin z else .inf) ∨
    ((if gw then (if n < g then Phase.inf else .fin y) else if g < n then .fin z else .inf) = .inf ∧ γ ≤ n ∧ n ≤ g) := by
  cases gw
  · simp only [Bool.false_eq_true, if_false]
    split_ifs with h1 h2 h2
    · left; rfl
    · exact absurd (lt_of_le_of_lt h h1) h2
    · right; exact ⟨rfl, h2.le, not_lt.1 h1⟩
    · left; rfl
  · simp only [if_true]
    split_ifs with h1 h2 h2
    · left; rfl
    · right; exact ⟨rfl, not_lt.1 h2, h1.le⟩
    · exact absurd (lt_of_lt_of_le h2 h) h1
    · left; rfl

open Classical in
/-- **C198.** Raising `gamma` of `ssq_cwt` to `g` leaves transform, derivative, scales and frequencies as they are, and changes
a column of `Tx`, all rows together, by at most the cells with moduli between the two thresholds, each times its
`d(scale)/scale`. -/
theorem C198_gamma_cwt (x : List ℝ) (a : SsqCwtArgs) (o : SsqCwtOut) (h : ssqCwt x a = .ok o) (hsq : a.squeezing = .sum ∨ a.squeezing = .abs)
    (g : ℝ) (hg : a.gamma.getD (10 * a.eps) ≤ g) :
    ∃ p st nv, ssqCwt x { a with gamma := some g } = .ok p ∧ p.Wx = o.Wx ∧ p.dWx = o.dWx ∧ p.scales = o.scales ∧ p.freqs = o.freqs ∧
      inferScaletype a.dtype o.scales = .ok (st, nv) ∧ ∀ j < x.length,
      ∑ r ∈ range o.scales.length, ‖o.Tx r j - p.Tx r j‖ ≤ ∑ i ∈ range o.scales.length,
        if a.gamma.getD (10 * a.eps) ≤ ‖ent o.Wx i j‖ ∧ ‖ent o.Wx i j‖ ≤ g
          then ‖ent o.Wx i j‖ * |Spec.scaleMeasure st nv o.scales i| else 0 := by
  obtain ⟨row, k, st, nv, hinf, hk, hall⟩ := ssqCwt_gamma x a h
  obtain ⟨p, hp, e1, e2, e3, e4, hT⟩ := hall (some g)
  obtain ⟨o', ho', -, -, -, -, hTo⟩ := hall a.gamma
  have hoo : o' = o := by
    have : ssqCwt x a = .ok o' := ho'
    rw [h] at this
    simpa using this.symm
  subst hoo
  refine ⟨p, st, nv, hp, e1, e2, e3, e4, hinf, fun j hj => ?_⟩
  rw [sum_congr rfl fun r _ => by rw [hT r j hj, hTo r j hj]]
  refine drop_le _ _ _ _ _ _ _ (fun i _ => by split_ifs <;> positivity) fun i hi => ?_
  have hv := squeezing_norm hsq o'.scales.length (ent o'.Wx) i j
  rw [hv, hk i hi]
  unfold cwtCellPhase
  simp only [hv, Option.getD_some]
  rcases phase_raise a.getW (a.gamma.getD (10 * a.eps)) g ‖ent o'.Wx i j‖ (cwtFreq (ent o'.Wx i j) (ent o'.dWx i j))
    (cwtFreq (applySqueezing a.squeezing o'.scales.length (ent o'.Wx) i j) (ent o'.dWx i j)) hg with e | ⟨e, hb⟩
  · exact Or.inl e
  · exact Or.inr ⟨e, by rw [if_pos hb]⟩

theorem issq_change (N : ℕ) (o p : SsqCwtOut) (hs : p.scales = o.scales) (css : ℝ) (B : ℕ → ℝ)
    (hB : ∀ j < N, ∑ r ∈ range o.scales.length, ‖o.Tx r j - p.Tx r j‖ ≤ B j) :
    ∃ y y', issqOf N o css = .ok (.full y) ∧ issqOf N p css = .ok (.full y') ∧ ∀ j < N, |y.getD j 0 - y'.getD j 0| ≤ |2 / css| * B j := by
  refine ⟨(realColSum o.scales.length N (fun r j => o.Tx r j)).map (· * (2 / css)),
    (realColSum p.scales.length N (fun r j => p.Tx r j)).map (· * (2 / css)), rfl, rfl, fun j hj => ?_⟩
  unfold realColSum
  rw [List.map_map, List.map_map, getD_map_range _ _ hj, getD_map_range _ _ hj, hs]
  simp only [Function.comp]
  rw [← sub_mul, abs_mul, mul_comm]
  refine mul_le_mul_of_nonneg_left (le_trans ?_ (hB j hj)) (abs_nonneg _)
  rw [← sum_sub_distrib]
  refine (abs_sum_le_sum_abs _ _).trans (sum_le_sum fun r _ => ?_)
  rw [← Complex.sub_re]
  exact Complex.abs_re_le_norm _

open Classical in
/-- **C198**, inverse: the signals that `issq_cwt` makes of the two results differ, sample by sample, by at most `2/css` times the
cells with moduli between the two thresholds, each times its `d(scale)/scale`. -/
theorem C198_inverse (x : List ℝ) (a : SsqCwtArgs) (o : SsqCwtOut) (h : ssqCwt x a = .ok o) (hsq : a.squeezing = .sum)
    (g : ℝ) (hg : a.gamma.getD (10 * a.eps) ≤ g) (css : ℝ) :
    ∃ p st nv y y', ssqCwt x { a with gamma := some g } = .ok p ∧ inferScaletype a.dtype o.scales = .ok (st, nv) ∧
      issqOf x.length o css = .ok (.full y) ∧ issqOf x.length p css = .ok (.full y') ∧
      ∀ j < x.length, |y.getD j 0 - y'.getD j 0| ≤ |2 / css| * ∑ i ∈ range o.scales.length,
        if a.gamma.getD (10 * a.eps) ≤ ‖ent o.Wx i j‖ ∧ ‖ent o.Wx i j‖ ≤ g
          then ‖ent o.Wx i j‖ * |Spec.scaleMeasure st nv o.scales i| else 0 := by
  obtain ⟨p, st, nv, hp, -, -, hs, -, hi, hB⟩ := C198_gamma_cwt x a o h (Or.inl hsq) g hg
  obtain ⟨y, y', h1, h2, h3⟩ := issq_change x.length o p hs css _ hB
  exact ⟨p, st, nv, y, y', hp, hi, h1, h2, h3⟩

/-- `ssq_stft` with another threshold. -/
theorem ssqStft_gamma {lib : WinLib} {tiny : ℝ} {x : List ℝ} {a : SsqStftArgs} {Tx : ℤ → ℕ → ℂ} {S : List (List ℂ)} {f Sfs : List ℝ}
    (h : ssqStft lib tiny x a = .ok (Tx, S, f, Sfs)) :
    ∃ (row : ℝ → ℤ) (k : ℕ → ℝ) (dS : List (List ℂ)), (∀ i < Sfs.length, k i =
        (if a.flipud then f.reverse else f).getD 1 0 - (if a.flipud then f.reverse else f).getD 0 0) ∧
      ∀ g : Option ℝ, ∃ T', ssqStft lib tiny x { a with gamma := g } = .ok (T', S, f, Sfs) ∧
      ∀ r, ∀ j < S.length, T' r j = ∑ i ∈ range Sfs.length, Spec.cellTerm row (k i)
        (stftCellPhase { a with gamma := g } (Sfs.getD i 0) (entC S i j) (entC dS i j) (applySqueezing a.squeezing Sfs.length (entC S) i j))
        (applySqueezing a.squeezing Sfs.length (entC S) i j) r := by
  obtain ⟨fs, dt, m, dS, h1, ⟨u, h2⟩, h3, h4, rfl, h6⟩ := ssqStft_ok h
  have hl : (makeSfs (m / 2 + 1) fs).length = m / 2 + 1 := by unfold makeSfs; exact linspace_length _ _ _
  rw [hl]
  obtain ⟨row, k, ⟨sc', v, const, c', k1, k2, k3, k4, rfl⟩, hall⟩ := ssqueeze_values_w _ (Or.inr ⟨rfl, by
        simp only [ssqStftCall]
        cases a.ssqFreqs with
        | none => exact ⟨_, _, rfl⟩
        | some p => exact ⟨p.1, p.2, rfl⟩⟩) h6
  refine ⟨row, fun i => c'.getD i 0, dS, fun i hi => ?_, fun g => ?_⟩
  · have e := const_stft (sc := sc') (rfl : (ssqStftCall a fs (m / 2 + 1) S dS).transform = .stft) k2
    subst e
    have hrev : ssqReverses (ssqStftCall a fs (m / 2 + 1) S dS).transform (ssqStftCall a fs (m / 2 + 1) S dS).flipud = a.flipud := by
      simp only [ssqStftCall, ssqReverses]; cases a.flipud <;> rfl
    have hv : (if a.flipud then f.reverse else f) = v := by
      rw [k4, hrev]; cases a.flipud <;> simp
    rw [hv]
    exact constArr_scalar k3 i hi
  set b : SsqStftArgs := { a with gamma := g } with hb
  set A := ssqStftCall a fs (m / 2 + 1) S dS with hA
  set A' := ssqStftCall b fs (m / 2 + 1) S dS with hA'
  have he : A' = { A with Wx := A'.Wx, w := A'.w, dWx := A'.dWx, gamma := A'.gamma } := by
    simp only [hA, hA', ssqStftCall, hb]
  obtain ⟨T', hT', hval⟩ := hall A'.Wx A'.w A'.dWx A'.gamma
    (by simp only [hA, hA', ssqStftCall, hb]; split <;> rfl) (by simp only [hA, hA', ssqStftCall, hb]) rfl
    (by
      intro w hw hn
      simp only [hA', ssqStftCall] at hw
      split at hw
      · simp only [Option.some.injEq] at hw
        rw [← hw] at hn
        exact phaseStft_not_neg hn
      · simp at hw)
  rw [← he] at hT' hval
  refine ⟨T', ?_, fun r j hj => ?_⟩
  · unfold ssqStft
    have e1 : processFsT b.fs b.t x.length = .ok (.fin fs dt) := h1
    have e2 : checkSsqueezingArgs false b.squeezing .none false none none false .cwt = .ok u := h2
    have e3 : checkLinearFreqs b.ssqFreqs = .ok () := h3
    have e4 : stft lib tiny x { b.stft with fs := fs } = .ok (m, S, dS) := h4
    rw [e1, ok_bind]
    simp only
    rw [e2, ok_bind, e3, ok_bind, e4, ok_bind]
    simp only
    rw [hT', ok_bind]
  · rw [hval r j hj]
    refine sum_congr rfl fun i _ => ?_
    have : Spec.usedPhase A' (applySqueezing A.squeezing A.M A'.Wx) i j =
        stftCellPhase b ((makeSfs (m / 2 + 1) fs).getD i 0) (entC S i j) (entC dS i j) (applySqueezing a.squeezing (m / 2 + 1) (entC S) i j) := by
      unfold Spec.usedPhase stftCellPhase
      cases hg : a.getW
      · simp [hA', hA, ssqStftCall, hg, entC, hb]
        rfl
      · simp [hA', hA, ssqStftCall, hg, entC, phaseStft, hb]
    rw [this]
    rfl

open Classical in
/-- **C198**, `ssq_stft`: the same, each cell times the step of the frequencies. -/
theorem C198_gamma_stft (lib : WinLib) (tiny : ℝ) (x : List ℝ) (a : SsqStftArgs) (Tx : ℤ → ℕ → ℂ) (S : List (List ℂ)) (f Sfs : List ℝ)
    (h : ssqStft lib tiny x a = .ok (Tx, S, f, Sfs)) (hsq : a.squeezing = .sum ∨ a.squeezing = .abs)
    (g : ℝ) (hg : a.gamma.getD (10 * a.eps) ≤ g) :
    ∃ Tx', ssqStft lib tiny x { a with gamma := some g } = .ok (Tx', S, f, Sfs) ∧ ∀ j < S.length,
      ∑ r ∈ range Sfs.length, ‖Tx r j - Tx' r j‖ ≤ ∑ i ∈ range Sfs.length,
        if a.gamma.getD (10 * a.eps) ≤ ‖entC S i j‖ ∧ ‖entC S i j‖ ≤ g then ‖entC S i j‖ *
          |(if a.flipud then f.reverse else f).getD 1 0 - (if a.flipud then f.reverse else f).getD 0 0| else 0 := by
  obtain ⟨row, k, dS, hk, hall⟩ := ssqStft_gamma h
  obtain ⟨T', hp, hT⟩ := hall (some g)
  obtain ⟨T0, ho', hTo⟩ := hall a.gamma
  have hoo : T0 = Tx := by
    have : ssqStft lib tiny x a = .ok (T0, S, f, Sfs) := ho'
    rw [h] at this
    simp only [Except.ok.injEq, Prod.mk.injEq, and_true] at this
    exact this.symm
  subst hoo
  refine ⟨T', hp, fun j hj => ?_⟩
  rw [sum_congr rfl fun r _ => by rw [hT r j hj, hTo r j hj]]
  refine drop_le _ _ _ _ _ _ _ (fun i _ => by split_ifs <;> positivity) fun i hi => ?_
  have hv := squeezing_norm hsq Sfs.length (entC S) i j
  rw [hv, hk i hi]
  unfold stftCellPhase
  simp only [hv, Option.getD_some]
  rcases phase_raise a.getW (a.gamma.getD (10 * a.eps)) g ‖entC S i j‖ (stftFreq (Sfs.getD i 0) (entC S i j) (entC dS i j))
    (stftFreq (Sfs.getD i 0) (applySqueezing a.squeezing Sfs.length (entC S) i j) (entC dS i j)) hg with e | ⟨e, hb⟩
  · exact Or.inl e
  · exact Or.inr ⟨e, by rw [if_pos hb]⟩

example : ∃ o p, ssqCwt [3, 1, 4, 1] (exSsq none) = .ok o ∧ ssqCwt [3, 1, 4, 1] { exSsq none with gamma := some 1 } = .ok p ∧
    p.Wx = o.Wx ∧ p.freqs = o.freqs := by
  obtain ⟨o, h, -⟩ := exSsq_ok none [3, 1, 4, 1] (by simp)
  obtain ⟨p, st, nv, hp, h1, -, -, h2, -⟩ := C198_gamma_cwt _ _ o h (Or.inl rfl) 1 (by norm_num [exSsq])
  exact ⟨o, p, h, hp, h1, h2⟩

example : ∃ Tx Tx' S f Sfs, ssqStft onesLib 0 [3, 1, 4, 1, 5] ex160 = .ok (Tx, S, f, Sfs) ∧
    ssqStft onesLib 0 [3, 1, 4, 1, 5] { ex160 with gamma := some 1 } = .ok (Tx', S, f, Sfs) := by
  obtain ⟨Tx, S, f, Sfs, h⟩ := ex160_run [3, 1, 4, 1, 5] (by simp)
  obtain ⟨Tx', h', -⟩ := C198_gamma_stft _ _ _ _ _ _ _ _ h (Or.inl rfl) 1 (by norm_num [ex160])
  exact ⟨Tx, Tx', S, f, Sfs, h, h'⟩

end Ssq
