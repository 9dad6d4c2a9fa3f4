import Verif.Props.StftSym
import Verif.Props.LocalStft

/-!
# A longer hop only skips columns (C174)
-/
namespace Ssq
open Finset

namespace Spec

/-- Every `h`-th of the columns of `S`, `n` in all. -/
def everyHop (h n : ℕ) (S : List (List ℂ)) : List (List ℂ) := (List.range n).map fun j => S.getD (j * h) []

/-- A user's own squeezing function treats the columns it is given one by one: on every `h`-th column it gives every `h`-th column. -/
def SkipsColumns (M h n : ℕ) (f : (ℕ → ℕ → ℂ) → ℕ → ℕ → ℂ) : Prop :=
  ∀ W W' : ℕ → ℕ → ℂ, (∀ i < M, ∀ j < n, W' i j = W i (j * h)) → ∀ i < M, ∀ j < n, f W' i j = f W i (j * h)

end Spec

theorem winCols_hop (xp w : List ℝ) (m h : ℕ) (b : Bool) (hh : 0 < h) :
    (winCols xp w m h b).map rfftL = Spec.everyHop h ((xp.length - m) / h + 1) ((winCols xp w m 1 b).map rfftL) := by
  unfold Spec.everyHop
  refine List.ext_getElem (by simp [winCols, frames]) fun j h1 h2 => ?_
  have hj : j < (xp.length - m) / h + 1 := by simpa using h2
  have hlt : j * h < (xp.length - m) / 1 + 1 := by
    have : j ≤ (xp.length - m) / h := by omega
    have := (Nat.le_div_iff_mul_le hh).1 this
    omega
  rw [List.getElem_map, List.getElem_map, List.getElem_range, List.getD_eq_getElem _ _ (by simpa [winCols, frames] using hlt), List.getElem_map]
  simp [winCols, frames, srcIdx]

/-- **C174, `stft`.** With the FFT length given, the transform with hop `h` consists of the columns `0, h, 2h, …` of the transform with hop 1, and so does the derivative. -/
theorem C174_stft {lib : WinLib} {tiny : ℝ} {x : List ℝ} {a : StftArgs} {m : ℕ} {w dw : List ℝ} {t : PadType} (h : StftValid lib tiny x { a with hop := 1 } m w dw t) (hn : a.nFft = some m)
    (hh : 0 < a.hop) :
    ∃ S dS, stft lib tiny x { a with hop := 1 } = .ok (m, S, dS) ∧ S.length = x.length ∧ dS.length = x.length ∧
      stft lib tiny x a = .ok (m, Spec.everyHop a.hop ((x.length - 1) / a.hop + 1) S, Spec.everyHop a.hop ((x.length - 1) / a.hop + 1) dS) := by
  have hv : StftValid lib tiny x a m w dw t :=
    { hx := h.hx, hhop := hh, hm := h.hm
      hnfft := by
        have := h.hm
        obtain ⟨k, rfl⟩ : ∃ k, m = k + 1 := ⟨m - 1, by omega⟩
        unfold stftNfft
        rw [hn]
      hwin := h.hwin, hw := h.hw, hpad := h.hpad, hsym := h.hsym }
  have hx := h.hx
  have hm := h.hm
  obtain ⟨E, hE⟩ := exists_extension t x hx
  obtain ⟨xp, h1, h2, h3⟩ := stft_run h
  obtain ⟨xp', k1, k2, k3⟩ := stft_run hv
  have he : xp' = xp := by
    refine List.ext_getElem (by rw [h1, k1]) fun p p1 p2 => ?_
    rw [h2 E hE p p2, k2 E hE p p1]
  subst he
  have hsub : xp'.length - m = x.length - 1 := by omega
  refine ⟨_, _, h3, by simp [winCols, frames, hsub]; omega, by simp [winCols, frames, hsub]; omega, ?_⟩
  rw [k3, winCols_hop _ _ _ _ _ hh, winCols_hop _ _ _ _ _ hh, hsub]

theorem onfly_select {dev : Device} {th : ℝ} {M N N' : ℕ} {W W' : ℕ → ℕ → ℂ} {w w' : ℕ → ℕ → Phase} {v : List ℝ} {const : ConstArg} {ls fl : Bool} (σ : ℕ → ℕ) (hσ : ∀ j < N', σ j < N)
    (hW : ∀ i < M, ∀ j < N', W' i j = W i (σ j)) (hw : ∀ i < M, ∀ j < N', w' i j = w i (σ j)) {T : ℤ → ℕ → ℂ}
    (h : indexedSumOnfly dev th M N (fun _ _ => 0) W w v const ls fl = .ok T) :
    ∃ T', indexedSumOnfly dev th M N' (fun _ _ => 0) W' w' v const ls fl = .ok T' ∧ ∀ r, ∀ j < N', T' r j = T r (σ j) := by
  unfold indexedSumOnfly onflyBody at h ⊢
  obtain ⟨body, hb, h⟩ := bind_ok h
  obtain ⟨c, hc, hb⟩ := bind_ok hb
  obtain ⟨p, hp, hb⟩ := bind_ok hb
  simp only [pure_eq_ok, Except.ok.injEq] at hb h
  refine ⟨_, by simp only [hc, ok_bind, hp, pure_eq_ok]; rfl, fun r j hj => ?_⟩
  rw [← h, ← hb]
  rw [runOps_serial _ (indexedSumBody_cols _ _ _ _ _ _ _) _ _ _ hj, runOps_serial _ (indexedSumBody_cols _ _ _ _ _ _ _) _ _ _ (hσ j hj), zero_add, zero_add]
  refine sum_congr rfl fun i hi => ?_
  have hi := mem_range.1 hi
  unfold indexedSumBody
  rw [hw i hi j hj, hW i hi j hj]
  cases w i (σ j) with
  | inf => simp [contrib]
  | fin x => simp only [contrib]

theorem applySqueezing_select {sq : Squeezing} {M h n : ℕ} (hf : ∀ f, sq = .fn f → Spec.SkipsColumns M h n f) {W W' : ℕ → ℕ → ℂ} (hW : ∀ i < M, ∀ j < n, W' i j = W i (j * h)) :
    ∀ i < M, ∀ j < n, applySqueezing sq M W' i j = applySqueezing sq M W i (j * h) := by
  intro i hi j hj
  cases sq with
  | fn f => exact hf f rfl _ _ hW i hi j hj
  | lebesgue => rfl
  | abs => simp only [applySqueezing, hW i hi j hj]
  | _ => exact hW i hi j hj

/-- **C174, `ssq_stft`.** With the FFT length given, the synchrosqueezed transform with hop `h` consists of the columns `0, h, 2h, …` of that with hop 1, at the same frequencies. A user's own squeezing
function must treat columns one by one. -/
theorem C174_ssq_stft {lib : WinLib} {tiny : ℝ} {x : List ℝ} {a : SsqStftArgs} {m : ℕ} {w dw : List ℝ} {t : PadType} (h : StftValid lib tiny x { a.stft with hop := 1 } m w dw t)
    (hn : a.stft.nFft = some m) (hh : 0 < a.stft.hop)
    (hf : ∀ f, a.squeezing = .fn f → Spec.SkipsColumns (m / 2 + 1) a.stft.hop ((x.length - 1) / a.stft.hop + 1) f)
    {Tx : ℤ → ℕ → ℂ} {S : List (List ℂ)} {f Sfs : List ℝ} (hrun : ssqStft lib tiny x { a with stft := { a.stft with hop := 1 } } = .ok (Tx, S, f, Sfs)) :
    S.length = x.length ∧ ∃ Tx', ssqStft lib tiny x a = .ok (Tx', Spec.everyHop a.stft.hop ((x.length - 1) / a.stft.hop + 1) S, f, Sfs) ∧
      ∀ r, ∀ j < (x.length - 1) / a.stft.hop + 1, Tx' r j = Tx r (j * a.stft.hop) := by
  have hx := h.hx
  have hm := h.hm
  set n := (x.length - 1) / a.stft.hop + 1 with hndef
  have hσ : ∀ j < n, j * a.stft.hop < x.length := by
    intro j hj
    have : j ≤ (x.length - 1) / a.stft.hop := by omega
    have := (Nat.le_div_iff_mul_le hh).1 this
    omega
  unfold ssqStft at hrun
  obtain ⟨rt, hrt, hrun⟩ := bind_ok hrun
  cases rt with
  | infinite => simp at hrun
  | fin fs dt =>
    simp only at hrun
    obtain ⟨c, hc, hrun⟩ := bind_ok hrun
    obtain ⟨u, hu, hrun⟩ := bind_ok hrun
    obtain ⟨⟨m', S0, dS⟩, hS, hrun⟩ := bind_ok hrun
    obtain ⟨⟨T, f0⟩, hT, hrun⟩ := bind_ok hrun
    simp only [Except.ok.injEq, Prod.mk.injEq] at hrun
    obtain ⟨rfl, rfl, rfl, rfl⟩ := hrun
    simp only at hT hS
    obtain ⟨S1, dS1, e1, l1, l2, e2⟩ := C174_stft (a := { a.stft with fs := fs }) (validFs h fs) hn hh
    simp only at e1 e2
    rw [hS] at e1
    simp only [Except.ok.injEq, Prod.mk.injEq] at e1
    obtain ⟨em, rfl, rfl⟩ := e1
    have em := em.symm
    subst em
    rw [← hndef] at e2
    refine ⟨l1, ?_⟩
    have hent : ∀ Z : List (List ℂ), ∀ i, ∀ j < n, entC (Spec.everyHop a.stft.hop n Z) i j = entC Z i (j * a.stft.hop) := by
      intro Z i j hj
      unfold entC Spec.everyHop
      rw [List.getD_eq_getElem ((List.range n).map _) _ (by simpa using hj)]
      simp
    set A := ssqStftCall { a with stft := { a.stft with hop := 1 } } fs (m / 2 + 1) S0 dS with hA
    set A' := ssqStftCall a fs (m / 2 + 1) (Spec.everyHop a.stft.hop n S0) (Spec.everyHop a.stft.hop n dS) with hA'
    have hV : ∀ i < m / 2 + 1, ∀ j < n, applySqueezing a.squeezing (m / 2 + 1) A'.Wx i j = applySqueezing a.squeezing (m / 2 + 1) A.Wx i (j * a.stft.hop) := by
      intro i hi j hj
      have hW : ∀ i < m / 2 + 1, ∀ j < n, A'.Wx i j = A.Wx i (j * a.stft.hop) := fun i _ j hj => hent S0 i j hj
      exact applySqueezing_select hf hW i hi j hj
    have hP : ∀ i < m / 2 + 1, ∀ j < n, Spec.usedPhase A' (applySqueezing a.squeezing (m / 2 + 1) A'.Wx) i j =
        Spec.usedPhase A (applySqueezing a.squeezing (m / 2 + 1) A.Wx) i (j * a.stft.hop) := by
      intro i hi j hj
      unfold Spec.usedPhase
      have e := hV i hi j hj
      have hd := hent dS i j hj
      have hs := hent S0 i j hj
      unfold entC at hd hs
      cases hw : a.getW
      · simp only [hA, hA', ssqStftCall, hw, Bool.false_eq_true, if_false, Option.getD_some] at e ⊢
        rw [e, hd]
      · simp only [hA, hA', ssqStftCall, hw, if_true, phaseStft]
        rw [hs, hd]
    unfold ssqueeze at hT
    obtain ⟨d, hd, hT⟩ := bind_ok hT
    obtain ⟨sc, hsc, hT⟩ := bind_ok hT
    obtain ⟨fr, hfr, hT⟩ := bind_ok hT
    obtain ⟨co, hco, hT⟩ := bind_ok hT
    obtain ⟨ls, hls, hT⟩ := bind_ok hT
    obtain ⟨T0, hT0, hT⟩ := bind_ok hT
    simp only [pure_eq_ok, Except.ok.injEq, Prod.mk.injEq] at hT
    obtain ⟨rfl, rfl⟩ := hT
    have hls' : ls = false := by
      have : ∃ d v, A.ssqFreqs = .arr d v := by
        simp only [hA, ssqStftCall]
        cases a.ssqFreqs with
        | none => exact ⟨_, _, rfl⟩
        | some p => exact ⟨p.1, p.2, rfl⟩
      obtain ⟨dd, v, hv⟩ := this
      unfold ssqFreqsOf at hfr
      rw [hv] at hfr
      have ht : A.transform = .stft := rfl
      simp only [ht, if_true, Except.ok.injEq] at hfr
      rw [← hfr] at hls
      simpa [SsqType.isLog] using hls.symm
    rw [kernel_eq _ _ _ _ _ (Or.inr (Or.inr hls'))] at hT0
    have hAN : A.N = x.length := l1
    have hAN' : A'.N = n := by simp [hA', ssqStftCall, Spec.everyHop]
    obtain ⟨T', hT', hTe⟩ := onfly_select (N' := n) (fun j => j * a.stft.hop) (fun j hj => by rw [hAN]; exact hσ j hj) hV hP hT0
    refine ⟨T', ?_, hTe⟩
    have q1 : ssqProcessArgs A' = .ok d := by
      unfold ssqProcessArgs at hd ⊢
      have i1 : A'.w.isNone = A.w.isNone := by simp only [hA, hA', ssqStftCall]; split <;> rfl
      have i2 : A'.dWx.isNone = A.dWx.isNone := by simp only [hA, hA', ssqStftCall]; split <;> rfl
      have i3 : A'.gamma.isNone = A.gamma.isNone := rfl
      rw [i1, i2, i3]
      split at hd
      · simp at hd
      next h1 =>
      rw [if_neg h1]
      split at hd
      · simp at hd
      next h2 =>
      rw [if_neg (by
        rintro ⟨w, hw, hn⟩
        simp only [hA', ssqStftCall] at hw
        split at hw
        · simp only [Option.some.injEq] at hw
          rw [← hw] at hn
          exact phaseStft_not_neg hn
        · simp at hw)]
      exact hd
    have q2 : ssqScales A' = .ok sc := hsc
    have q3 : ssqFreqsOf A' d sc.1 sc.2 = .ok fr := by
      rw [← hfr]
      unfold ssqFreqsOf
      have : A'.ssqFreqs = A.ssqFreqs := rfl
      rw [this]
      have : ∃ d v, A.ssqFreqs = .arr d v := by
        simp only [hA, ssqStftCall]
        cases a.ssqFreqs with
        | none => exact ⟨_, _, rfl⟩
        | some p => exact ⟨p.1, p.2, rfl⟩
      obtain ⟨dd, v, hv⟩ := this
      rw [hv]
      rfl
    have q6 : ssqKernel A' (applySqueezing A'.squeezing A'.M A'.Wx) fr.1 co ls = .ok T' := by
      rw [kernel_eq _ _ _ _ _ (Or.inr (Or.inr hls')), hAN']
      exact hT'
    unfold ssqStft
    simp only
    rw [hrt, ok_bind]
    simp only
    rw [hc, ok_bind, hu, ok_bind, e2, ok_bind]
    simp only
    have q7 : ssqueeze A' = .ok (T', if ssqReverses A.transform A.flipud then fr.1.reverse else fr.1) := by
      unfold ssqueeze
      rw [q1, ok_bind, q2, ok_bind, q3, ok_bind]
      have q4 := hco
      rw [show ssqConst A'.transform sc.1 sc.2 fr.1 = ssqConst A.transform sc.1 sc.2 fr.1 from rfl, q4, ok_bind, hls, ok_bind, q6, ok_bind]
      rfl
    rw [q7, ok_bind]

/-- Non-vacuity of `C174_stft`: four samples, hop 3: columns 0 and 3. -/
example : ∃ S dS, stft onesLib 0 [1, 2, 3, 4] exArgs = .ok (3, S, dS) ∧ stft onesLib 0 [1, 2, 3, 4] { exArgs with hop := 3 } = .ok (3, [S.getD 0 [], S.getD 3 []], [dS.getD 0 [], dS.getD 3 []]) := by
  obtain ⟨S, dS, h1, -, -, h2⟩ := C174_stft (a := { exArgs with hop := 3 }) exValid rfl (by simp)
  exact ⟨S, dS, h1, h2⟩

/-- Non-vacuity of `C174_ssq_stft`: twelve samples, hop 5. -/
example : ∃ Tx Tx' S S' f Sfs, ssqStft onesLib 0 exSwitch exGate = .ok (Tx, S, f, Sfs) ∧ ssqStft onesLib 0 exSwitch { exGate with stft := { exGate.stft with hop := 5 } } = .ok (Tx', S', f, Sfs) ∧
    S'.length = 3 ∧ ∀ r, ∀ j < 3, Tx' r j = Tx r (j * 5) := by
  have hl : exSwitch.length = 12 := by simp [exSwitch]
  obtain ⟨Tx, S, f, Sfs, h⟩ := exGate_run exSwitch (by omega)
  obtain ⟨-, Tx', h1, h2⟩ := C174_ssq_stft (a := { exGate with stft := { exGate.stft with hop := 5 } }) (ex160_valid exSwitch (by omega)) rfl (by simp) (by simp [exGate, ex160]) h
  rw [hl] at h1 h2
  exact ⟨Tx, Tx', S, _, f, Sfs, h, h1, by simp [Spec.everyHop], h2⟩

end Ssq
