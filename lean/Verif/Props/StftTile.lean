import Verif.Props.Hop
import Verif.Props.Tile
import Mathlib.Algebra.Ring.Periodic

/-!
# C215: the STFT of a periodic signal (ssqueezepy/_stft.py:13-180, ssqueezepy/_ssq_stft.py:13-140)
-/
namespace Ssq
open Finset

namespace Spec

/-- A user's own squeezing function treats the columns it is given one by one: on repeated columns it gives repeated columns. -/
def RepeatsColumns (M c n : ℕ) (f : (ℕ → ℕ → ℂ) → ℕ → ℕ → ℂ) : Prop :=
  ∀ W W' : ℕ → ℕ → ℂ, (∀ i < M, ∀ j < n, W' i j = W i (j % c)) → ∀ i < M, ∀ j < n, f W' i j = f W i (j % c)

end Spec

theorem applySqueezing_repeat {sq : Squeezing} {M c n : ℕ} (hf : ∀ f, sq = .fn f → Spec.RepeatsColumns M c n f) {W W' : ℕ → ℕ → ℂ} (hW : ∀ i < M, ∀ j < n, W' i j = W i (j % c)) :
    ∀ i < M, ∀ j < n, applySqueezing sq M W' i j = applySqueezing sq M W i (j % c) := by
  intro i hi j hj
  cases sq with
  | fn f => exact hf f rfl _ _ hW i hi j hj
  | lebesgue => rfl
  | abs => simp only [applySqueezing, hW i hi j hj]
  | _ => exact hW i hi j hj

theorem cols_dvd {N h : ℕ} (hN : 0 < N) (hh : 0 < h) (hd : h ∣ N) : (N - 1) / h + 1 = N / h := by
  obtain ⟨c, rfl⟩ := hd
  have hc : 0 < c := Nat.pos_of_ne_zero fun h0 => by rw [h0, mul_zero] at hN; omega
  obtain ⟨c, rfl⟩ : ∃ d, c = d + 1 := ⟨c - 1, by omega⟩
  have e : h * (c + 1) - 1 = (h - 1) + h * c := by
    have : h * (c + 1) = h * c + h := by ring
    omega
  rw [e, Nat.add_mul_div_left _ _ hh, Nat.div_eq_of_lt (by omega), Nat.mul_div_cancel_left _ hh]
  omega

theorem wrap_int_mul {x : List ℝ} {E : ℤ → ℝ} (hE : Spec.IsExtension .wrap x E) (i k : ℤ) : E (i + k * (x.length : ℤ)) = E i :=
  Function.Periodic.int_mul (f := E) (c := (x.length : ℤ)) hE.2 k i

/-- The periodic extension of a repeated signal is that of the signal. -/
theorem ext_tile {x : List ℝ} (hx : 0 < x.length) {E : ℤ → ℝ} (hE : Spec.IsExtension .wrap x E) (q : ℕ) : Spec.IsExtension .wrap (Spec.tile q x) E := by
  refine ⟨fun i h => ?_, fun i => ?_⟩
  · have hi : i < q * x.length := by rwa [tile_length] at h
    have h0 : i % x.length < x.length := Nat.mod_lt _ hx
    rw [← List.getD_eq_getElem _ 0 h, tile_getD _ _ _ _ hi, List.getD_eq_getElem _ _ h0, ← hE.1 _ h0, ← wrap_int_mul hE ((i % x.length : ℕ) : ℤ) ((i / x.length : ℕ) : ℤ)]
    congr 1
    have := Nat.mod_add_div' i x.length
    exact_mod_cast this.symm
  · rw [tile_length]
    push_cast
    exact wrap_int_mul hE i q

theorem specStft_period {x : List ℝ} {E : ℤ → ℝ} (hE : Spec.IsExtension .wrap x E) (m h c : ℕ) (hc : c * h = x.length) (v : ℕ → ℝ) (md : Bool) (k j : ℕ) :
    Spec.stft m h v E md k j = Spec.stft m h v E md k (j % c) := by
  unfold Spec.stft
  refine sum_congr rfl fun r _ => ?_
  have e : E ((j : ℤ) * h + r - (m / 2 : ℕ)) = E (((j % c : ℕ) : ℤ) * h + r - (m / 2 : ℕ)) := by
    have e1 : (j : ℤ) * h + r - (m / 2 : ℕ) = (((j % c : ℕ) : ℤ) * h + r - (m / 2 : ℕ)) + ((j / c : ℕ) : ℤ) * (x.length : ℤ) := by
      have h1 : (j : ℤ) = (c : ℤ) * ((j / c : ℕ) : ℤ) + ((j % c : ℕ) : ℤ) := by
        have := Nat.div_add_mod j c
        exact_mod_cast this.symm
      have h2 : (x.length : ℤ) = (c : ℤ) * h := by exact_mod_cast hc.symm
      rw [h2]
      nlinarith [h1]
    rw [e1, wrap_int_mul hE]
  rw [e]

/-- **C215, `stft`.** With periodic padding, the FFT length given and a hop that divides the length, the transform of a signal repeated `q` times is the transform of the signal repeated `q` times, derivative
included. -/
theorem C215_stft {lib : WinLib} {tiny : ℝ} {x : List ℝ} {a : StftArgs} {m : ℕ} {w dw : List ℝ} (h : StftValid lib tiny x a m w dw .wrap) (hn : a.nFft = some m) (hd : a.hop ∣ x.length) (q : ℕ)
    (hq : 0 < q) :
    ∃ S dS, stft lib tiny x a = .ok (m, S, dS) ∧ S.length = x.length / a.hop ∧ dS.length = S.length ∧ stft lib tiny (Spec.tile q x) a = .ok (m, Spec.tile q S, Spec.tile q dS) := by
  have hx := h.hx
  have hh := h.hhop
  have hxq : 0 < q * x.length := Nat.mul_pos hq hx
  have h' : StftValid lib tiny (Spec.tile q x) a m w dw .wrap :=
    ⟨by rw [tile_length]; exact hxq, h.hhop, h.hm, by
      have := h.hm
      obtain ⟨k, rfl⟩ : ∃ k, m = k + 1 := ⟨m - 1, by omega⟩
      unfold stftNfft
      rw [hn], h.hwin, h.hw, h.hpad, by simp⟩
  obtain ⟨E, hE⟩ := exists_extension .wrap x hx
  obtain ⟨S, dS, h1, h2, h3, h4, h5⟩ := C07_stft_entries h E hE
  obtain ⟨S', dS', k1, k2, k3, k4, k5⟩ := C07_stft_entries h' E (ext_tile hx hE q)
  rw [tile_length, cols_dvd hxq hh (Dvd.dvd.mul_left hd q)] at k2 k3
  rw [cols_dvd hx hh hd] at h2 h3
  obtain ⟨c, hc⟩ := hd
  have hc1 : x.length / a.hop = c := by rw [hc, Nat.mul_div_cancel_left _ hh]
  have hc2 : q * x.length / a.hop = q * c := by rw [hc, Nat.mul_left_comm, Nat.mul_div_cancel_left _ hh]
  rw [hc1] at h2 h3
  rw [hc2] at k2 k3
  have hcp : 0 < c := Nat.pos_of_ne_zero fun h0 => by rw [h0, mul_zero] at hc; omega
  refine ⟨S, dS, h1, by rw [h2, hc1], by omega, ?_⟩
  rw [k1]
  have hgen : ∀ (A B : List (List ℂ)) (v : ℕ → ℝ), A.length = c → B.length = q * c →
      (∀ j (hj : j < A.length), A[j].length = m / 2 + 1 ∧ ∀ k, k < m / 2 + 1 → A[j].getD k 0 = Spec.stft m a.hop v E a.modulated k j) →
      (∀ j (hj : j < B.length), B[j].length = m / 2 + 1 ∧ ∀ k, k < m / 2 + 1 → B[j].getD k 0 = Spec.stft m a.hop v E a.modulated k j) → B = Spec.tile q A := by
    intro A B v hA hB eA eB
    apply List.ext_getElem
    · rw [tile_length, hA, hB]
    · intro j hj1 hj2
      have hj' : j % A.length < A.length := Nat.mod_lt _ (by omega)
      rw [← List.getD_eq_getElem (Spec.tile q A) [] hj2, tile_getD _ _ _ _ (by rw [hA, ← hB]; exact hj1), List.getD_eq_getElem _ _ hj']
      obtain ⟨a1, a2⟩ := eA _ hj'
      obtain ⟨b1, b2⟩ := eB _ hj1
      apply List.ext_getElem
      · rw [a1, b1]
      · intro k hk1 hk2
        rw [← List.getD_eq_getElem _ (0 : ℂ) hk1, ← List.getD_eq_getElem _ (0 : ℂ) hk2, b2 k (by omega), a2 k (by omega), specStft_period hE m a.hop c (by rw [hc]; ring), hA]
  rw [hgen S S' _ h2 k2 h4 k4, hgen dS dS' _ h3 k3 h5 k5]

/-- **C215, `ssq_stft`.** Likewise the synchrosqueezed transform, over the same frequencies. A user's own squeezing function must treat columns one by one. -/
theorem C215_ssq_stft {lib : WinLib} {tiny : ℝ} {x : List ℝ} {a : SsqStftArgs} {m : ℕ} {w dw : List ℝ} (h : StftValid lib tiny x a.stft m w dw .wrap) (hn : a.stft.nFft = some m)
    (hd : a.stft.hop ∣ x.length) (q : ℕ) (hq : 0 < q) (ht : a.t = none)
    (hf : ∀ f, a.squeezing = .fn f → Spec.RepeatsColumns (m / 2 + 1) (x.length / a.stft.hop) (q * (x.length / a.stft.hop)) f)
    {Tx : ℤ → ℕ → ℂ} {S : List (List ℂ)} {f Sfs : List ℝ} (hrun : ssqStft lib tiny x a = .ok (Tx, S, f, Sfs)) :
    S.length = x.length / a.stft.hop ∧ ∃ Tx', ssqStft lib tiny (Spec.tile q x) a = .ok (Tx', Spec.tile q S, f, Sfs) ∧
      ∀ r, ∀ j < q * S.length, Tx' r j = Tx r (j % S.length) := by
  have hx := h.hx
  have hm := h.hm
  set c := x.length / a.stft.hop with hcdef
  have hcp : 0 < c := Nat.div_pos (Nat.le_of_dvd hx hd) h.hhop
  unfold ssqStft at hrun
  obtain ⟨rt, hrt, hrun⟩ := bind_ok hrun
  cases rt with
  | infinite => simp at hrun
  | fin fs dt =>
    simp only at hrun
    obtain ⟨cc, hc, hrun⟩ := bind_ok hrun
    obtain ⟨u, hu, hrun⟩ := bind_ok hrun
    obtain ⟨⟨m', S0, dS⟩, hS, hrun⟩ := bind_ok hrun
    obtain ⟨⟨T, f0⟩, hT, hrun⟩ := bind_ok hrun
    simp only [Except.ok.injEq, Prod.mk.injEq] at hrun
    obtain ⟨rfl, rfl, rfl, rfl⟩ := hrun
    simp only at hT hS
    obtain ⟨S1, dS1, e1, l1, l2, e2⟩ := C215_stft (a := { a.stft with fs := fs }) (validFs h fs) hn hd q hq
    simp only at e1 e2
    rw [hS] at e1
    simp only [Except.ok.injEq, Prod.mk.injEq] at e1
    obtain ⟨em, rfl, rfl⟩ := e1
    have em := em.symm
    subst em
    have l1 : S0.length = c := l1
    refine ⟨l1, ?_⟩
    rw [l1]
    have hent : ∀ Z : List (List ℂ), Z.length = c → ∀ i, ∀ j < q * c, entC (Spec.tile q Z) i j = entC Z i (j % c) := by
      intro Z hZ i j hj
      unfold entC
      rw [tile_getD _ _ _ _ (by rw [hZ]; exact hj), hZ]
    set A := ssqStftCall a fs (m / 2 + 1) S0 dS with hA
    set A' := ssqStftCall a fs (m / 2 + 1) (Spec.tile q S0) (Spec.tile q dS) with hA'
    have hV : ∀ i < m / 2 + 1, ∀ j < q * c, applySqueezing a.squeezing (m / 2 + 1) A'.Wx i j = applySqueezing a.squeezing (m / 2 + 1) A.Wx i (j % c) := by
      intro i hi j hj
      have hW : ∀ i < m / 2 + 1, ∀ j < q * c, A'.Wx i j = A.Wx i (j % c) := fun i _ j hj => hent S0 l1 i j hj
      exact applySqueezing_repeat hf hW i hi j hj
    have hP : ∀ i < m / 2 + 1, ∀ j < q * c, Spec.usedPhase A' (applySqueezing a.squeezing (m / 2 + 1) A'.Wx) i j =
        Spec.usedPhase A (applySqueezing a.squeezing (m / 2 + 1) A.Wx) i (j % c) := by
      intro i hi j hj
      unfold Spec.usedPhase
      have e := hV i hi j hj
      have hd := hent dS (l2.trans l1) i j hj
      have hs := hent S0 l1 i j hj
      unfold entC at hd hs
      cases hw : a.getW
      · simp only [hA, hA', ssqStftCall, hw, Bool.false_eq_true, if_false, Option.getD_some] at e ⊢
        rw [e, hd]
      · simp only [hA, hA', ssqStftCall, hw, if_true, phaseStft]
        rw [hs, hd]
    unfold ssqueeze at hT
    obtain ⟨d, hd, hT⟩ := bind_ok hT
    obtain ⟨sc, hsc, hT⟩ := bind_ok hT
    obtain ⟨fr, hfr, hT⟩ := bind_ok hT
    obtain ⟨co, hco, hT⟩ := bind_ok hT
    obtain ⟨ls, hls, hT⟩ := bind_ok hT
    obtain ⟨T0, hT0, hT⟩ := bind_ok hT
    simp only [pure_eq_ok, Except.ok.injEq, Prod.mk.injEq] at hT
    obtain ⟨rfl, rfl⟩ := hT
    have hls' : ls = false := by
      have : ∃ d v, A.ssqFreqs = .arr d v := by
        simp only [hA, ssqStftCall]
        cases a.ssqFreqs with
        | none => exact ⟨_, _, rfl⟩
        | some p => exact ⟨p.1, p.2, rfl⟩
      obtain ⟨dd, v, hv⟩ := this
      unfold ssqFreqsOf at hfr
      rw [hv] at hfr
      have ht : A.transform = .stft := rfl
      simp only [ht, if_true, Except.ok.injEq] at hfr
      rw [← hfr] at hls
      simpa [SsqType.isLog] using hls.symm
    rw [kernel_eq _ _ _ _ _ (Or.inr (Or.inr hls'))] at hT0
    have hAN : A.N = c := l1
    have hAN' : A'.N = q * c := by simp only [hA', ssqStftCall, tile_length, l1]
    obtain ⟨T', hT', hTe⟩ := onfly_select (N' := q * c) (fun j => j % c) (fun j hj => by rw [hAN]; exact Nat.mod_lt _ hcp) hV hP hT0
    refine ⟨T', ?_, hTe⟩
    have q1 : ssqProcessArgs A' = .ok d := by
      unfold ssqProcessArgs at hd ⊢
      have i1 : A'.w.isNone = A.w.isNone := by simp only [hA, hA', ssqStftCall]; split <;> rfl
      have i2 : A'.dWx.isNone = A.dWx.isNone := by simp only [hA, hA', ssqStftCall]; split <;> rfl
      have i3 : A'.gamma.isNone = A.gamma.isNone := rfl
      rw [i1, i2, i3]
      split at hd
      · simp at hd
      next h1 =>
      rw [if_neg h1]
      split at hd
      · simp at hd
      next h2 =>
      rw [if_neg (by
        rintro ⟨w, hw, hn⟩
        simp only [hA', ssqStftCall] at hw
        split at hw
        · simp only [Option.some.injEq] at hw
          rw [← hw] at hn
          exact phaseStft_not_neg hn
        · simp at hw)]
      exact hd
    have q2 : ssqScales A' = .ok sc := hsc
    have q3 : ssqFreqsOf A' d sc.1 sc.2 = .ok fr := by
      rw [← hfr]
      unfold ssqFreqsOf
      have : A'.ssqFreqs = A.ssqFreqs := rfl
      rw [this]
      have : ∃ d v, A.ssqFreqs = .arr d v := by
        simp only [hA, ssqStftCall]
        cases a.ssqFreqs with
        | none => exact ⟨_, _, rfl⟩
        | some p => exact ⟨p.1, p.2, rfl⟩
      obtain ⟨dd, v, hv⟩ := this
      rw [hv]
      rfl
    have q6 : ssqKernel A' (applySqueezing A'.squeezing A'.M A'.Wx) fr.1 co ls = .ok T' := by
      rw [kernel_eq _ _ _ _ _ (Or.inr (Or.inr hls')), hAN']
      exact hT'
    unfold ssqStft
    have hrt' : processFsT a.fs a.t (Spec.tile q x).length = .ok (.fin fs dt) := by
      rw [← hrt, ht]
      rfl
    simp only
    rw [hrt', ok_bind]
    simp only
    rw [hc, ok_bind, hu, ok_bind, e2, ok_bind]
    simp only
    have q7 : ssqueeze A' = .ok (T', if ssqReverses A.transform A.flipud then fr.1.reverse else fr.1) := by
      unfold ssqueeze
      rw [q1, ok_bind, q2, ok_bind, q3, ok_bind]
      have q4 := hco
      rw [show ssqConst A'.transform sc.1 sc.2 fr.1 = ssqConst A.transform sc.1 sc.2 fr.1 from rfl, q4, ok_bind, hls, ok_bind, q6, ok_bind]
      rfl
    rw [q7, ok_bind]

/-- Non-vacuity: six samples in three columns, played twice. -/
example : ∃ S dS, stft onesLib 0 [3, 1, 4, 1, 5, 9] { exArgs with hop := 2, padtype := "wrap" } = .ok (3, S, dS) ∧ S.length = 3 ∧
    stft onesLib 0 [3, 1, 4, 1, 5, 9, 3, 1, 4, 1, 5, 9] { exArgs with hop := 2, padtype := "wrap" } = .ok (3, S ++ S, dS ++ dS) := by
  obtain ⟨S, dS, h1, h2, -, h3⟩ := C215_stft exWrap rfl ⟨3, rfl⟩ 2 (by norm_num)
  refine ⟨S, dS, h1, h2, ?_⟩
  simpa [Spec.tile, List.replicate] using h3

/-- Non-vacuity of `C215_ssq_stft`: twelve samples, played twice. -/
example : ∃ Tx Tx' S f Sfs, ssqStft onesLib 0 exSwitch exGate = .ok (Tx, S, f, Sfs) ∧ ssqStft onesLib 0 (exSwitch ++ exSwitch) exGate = .ok (Tx', S ++ S, f, Sfs) ∧ S.length = 12 ∧
    ∀ r, ∀ j < 24, Tx' r j = Tx r (j % 12) := by
  have hl : exSwitch.length = 12 := by simp [exSwitch]
  obtain ⟨Tx, S, f, Sfs, h⟩ := exGate_run exSwitch (by omega)
  obtain ⟨h0, Tx', h1, h2⟩ := C215_ssq_stft (a := exGate) (ex160_valid exSwitch (by omega)) rfl ⟨exSwitch.length, by simp [exGate, ex160]⟩ 2 (by norm_num) (by simp [exGate, ex160]) (by simp [exGate, ex160]) h
  have hS : S.length = 12 := by rw [h0, hl]; rfl
  rw [hS] at h2
  exact ⟨Tx, Tx', S, f, Sfs, h, by simpa [Spec.tile, List.replicate] using h1, hS, h2⟩

end Ssq
