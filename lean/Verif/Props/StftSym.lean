import Verif.Props.SsqStft
import Verif.Props.Covariance

/-!
# Symmetries of the STFT and of `ssq_stft` (C149–C150)
-/
namespace Ssq
open Finset Complex

/-- Entry `(i, j)` of a transform stored by columns. -/
def entC (S : List (List ℂ)) (i j : ℕ) : ℂ := (S.getD j []).getD i 0

/-! ## Shifts -/

theorem validShift {lib : WinLib} {tiny : ℝ} {x : List ℝ} {a : StftArgs} {m : ℕ} {w dw : List ℝ} {t : PadType}
    (h : StftValid lib tiny x a m w dw t) (x' : List ℝ) (hl : x'.length = x.length) : StftValid lib tiny x' a m w dw t where
  hx := hl ▸ h.hx
  hhop := h.hhop
  hm := h.hm
  hnfft := hl ▸ h.hnfft
  hwin := h.hwin
  hw := h.hw
  hpad := h.hpad
  hsym := hl ▸ h.hsym

theorem wrap_mul {x : List ℝ} {E : ℤ → ℝ} (hE : Spec.IsExtension .wrap x E) (i : ℤ) (k : ℕ) : E (i + k * x.length) = E i := by
  induction k with
  | zero => simp
  | succ k ih => rw [← ih, ← hE.2 (i + k * x.length)]; congr 1; push_cast; ring

theorem wrap_rotate {x : List ℝ} {E : ℤ → ℝ} (hE : Spec.IsExtension .wrap x E) (n : ℕ) :
    Spec.IsExtension .wrap (x.rotate n) (fun i => E (i + n)) := by
  refine ⟨fun i h => ?_, fun i => ?_⟩
  · rw [List.getElem_rotate]
    rw [List.length_rotate] at h
    rw [← hE.1]
    have h1 := wrap_mul hE (((i + n) % x.length : ℕ) : ℤ) ((i + n) / x.length)
    rw [← h1]
    show E _ = E _
    congr 1
    have := Nat.mod_add_div (i + n) x.length
    have h2 : ((i + n : ℕ) : ℤ) = (((i + n) % x.length : ℕ) : ℤ) + (x.length : ℤ) * (((i + n) / x.length : ℕ) : ℤ) := by
      exact_mod_cast this.symm
    push_cast at h2 ⊢
    linear_combination h2
  · rw [List.length_rotate]
    show E (i + x.length + n) = E (i + n)
    rw [← hE.2 (i + n)]
    congr 1; ring

theorem stft_spec_period {x : List ℝ} {E : ℤ → ℝ} (hE : Spec.IsExtension .wrap x E) (m hop cols : ℕ) (hc : cols * hop = x.length)
    (w : ℕ → ℝ) (b : Bool) (k j q : ℕ) :
    Spec.stft m hop w (fun i => E (i + (q * hop : ℕ))) b k j = Spec.stft m hop w E b k ((j + q) % cols) := by
  unfold Spec.stft
  refine sum_congr rfl fun r _ => ?_
  congr 4
  show E _ = E _
  rw [← wrap_mul hE ((((j + q) % cols : ℕ) : ℤ) * hop + r - (m / 2 : ℕ)) ((j + q) / cols)]
  congr 1
  have := Nat.mod_add_div (j + q) cols
  have h2 : ((j + q : ℕ) : ℤ) = (((j + q) % cols : ℕ) : ℤ) + (cols : ℤ) * (((j + q) / cols : ℕ) : ℤ) := by
    exact_mod_cast this.symm
  have h3 : (cols : ℤ) * hop = x.length := by exact_mod_cast hc
  rw [← h3]
  push_cast at h2 ⊢
  have h4 : ((j : ℤ) + q) * hop = (((j : ℤ) + q) % cols + cols * (((j : ℤ) + q) / cols)) * hop := by rw [← h2]
  linear_combination h4

/-- **C149, `stft`.** With periodic padding and a hop that divides the length, shifting the signal circularly by `q` hops shifts
the transform and its derivative circularly by `q` columns. -/
theorem C149_stft_shift {lib : WinLib} {tiny : ℝ} {x : List ℝ} {a : StftArgs} {m : ℕ} {w dw : List ℝ}
    (h : StftValid lib tiny x a m w dw .wrap) (hd : a.hop ∣ x.length) (q : ℕ) :
    ∃ S dS, stft lib tiny x a = .ok (m, S, dS) ∧ S.length = x.length / a.hop ∧ dS.length = S.length ∧
      stft lib tiny (x.rotate (q * a.hop)) a = .ok (m, S.rotate q, dS.rotate q) := by
  have hx := h.hx
  have hh := h.hhop
  obtain ⟨cols, hc⟩ := hd
  have hcols : (x.length - 1) / a.hop + 1 = cols := by
    have : 0 < cols := Nat.pos_of_ne_zero fun h0 => by rw [h0, mul_zero] at hc; omega
    obtain ⟨c, rfl⟩ : ∃ c, cols = c + 1 := ⟨cols - 1, by omega⟩
    have : a.hop * (c + 1) = a.hop * c + a.hop := by ring
    have : x.length - 1 = (a.hop - 1) + a.hop * c := by omega
    rw [this, Nat.add_mul_div_left _ _ hh, Nat.div_eq_of_lt (by omega)]; omega
  obtain ⟨E, hE⟩ := exists_extension .wrap x hx
  obtain ⟨S, dS, h1, h2, h3, h4, h5⟩ := C07_stft_entries h E hE
  obtain ⟨S', dS', k1, k2, k3, k4, k5⟩ := C07_stft_entries (validShift h (x.rotate (q * a.hop)) (by simp)) _ (wrap_rotate hE (q * a.hop))
  rw [List.length_rotate, hcols] at k2 k3
  rw [hcols] at h2 h3
  have hcm : cols * a.hop = x.length := by rw [hc]; ring
  have hpos : 0 < cols := Nat.pos_of_ne_zero fun h0 => by rw [h0, mul_zero] at hc; omega
  refine ⟨S, dS, h1, by rw [h2, hc, Nat.mul_div_cancel_left _ hh], by omega, ?_⟩
  rw [k1]
  have hgen : ∀ (A B : List (List ℂ)) (v : ℕ → ℝ), A.length = cols → B.length = cols →
      (∀ j (hj : j < A.length), A[j].length = m / 2 + 1 ∧ ∀ k, k < m / 2 + 1 → A[j].getD k 0 = Spec.stft m a.hop v E a.modulated k j) →
      (∀ j (hj : j < B.length), B[j].length = m / 2 + 1 ∧ ∀ k, k < m / 2 + 1 →
        B[j].getD k 0 = Spec.stft m a.hop v (fun i => E (i + (q * a.hop : ℕ))) a.modulated k j) → B = A.rotate q := by
    intro A B v hA hB eA eB
    apply List.ext_getElem
    · simp [hA, hB]
    · intro j hj1 hj2
      rw [List.getElem_rotate]
      have hj' : (j + q) % A.length < A.length := Nat.mod_lt _ (by omega)
      obtain ⟨a1, a2⟩ := eA _ hj'
      obtain ⟨b1, b2⟩ := eB _ hj1
      apply List.ext_getElem
      · rw [a1, b1]
      · intro k hk1 hk2
        rw [← List.getD_eq_getElem _ (0 : ℂ) hk1, ← List.getD_eq_getElem _ (0 : ℂ) hk2, b2 k (by omega), a2 k (by omega),
          stft_spec_period hE m a.hop cols hcm]
        rw [hA]
  rw [hgen S S' _ h2 k2 h4 k4, hgen dS dS' _ h3 k3 h5 k5]

/-- Non-vacuity: six samples, hop 2, three columns. -/
theorem exWrap : StftValid onesLib 0 [3, 1, 4, 1, 5, 9] { exArgs with hop := 2, padtype := "wrap" } 3 [1, 2, 1]
    (zeroDenormals 0 (diffWindow [1, 2, 1])) .wrap where
  hx := by simp
  hhop := by simp
  hm := by simp
  hnfft := rfl
  hwin := by
    unfold getWindowD getWindowRaw
    simp [exArgs, stftWinLen]
    simp [zeroDenormals]
  hw := rfl
  hpad := rfl
  hsym := by simp

example : ∃ S dS, stft onesLib 0 [3, 1, 4, 1, 5, 9] { exArgs with hop := 2, padtype := "wrap" } = .ok (3, S, dS) ∧ S.length = 3 := by
  obtain ⟨S, dS, h1, h2, -⟩ := C149_stft_shift exWrap ⟨3, rfl⟩ 1
  exact ⟨S, dS, h1, h2⟩

/-! ## `ssq_stft` acts column by column -/

theorem phaseStft_not_neg {M N : ℕ} {g : ℝ} {f : ℕ → ℝ} {W dW : ℕ → ℕ → ℂ} : ¬ hasNegative M N (phaseStft g f W dW) := by
  rintro ⟨i, _, j, _, z, hz, hneg⟩
  unfold phaseStft at hz
  split at hz
  · simp at hz
  · simp only [Phase.fin.injEq] at hz
    rw [← hz] at hneg
    exact absurd (stftFreq_nonneg _ _ _) (not_le.mpr hneg)

/-- `ssq_stft` of two signals whose transforms have the same phases up to moving columns. -/
theorem ssqStft_cols {lib : WinLib} {tiny : ℝ} (x x' : List ℝ) (hl : x'.length = x.length) (a : SsqStftArgs) (g' : Option ℝ)
    (F G : List (List ℂ) → List (List ℂ)) (hF : ∀ S, (F S).length = S.length)
    (hst : ∀ fs m S dS, stft lib tiny x { a.stft with fs := fs } = .ok (m, S, dS) →
      stft lib tiny x' { a.stft with fs := fs } = .ok (m, F S, G dS))
    (φ : ℂ →+ ℂ) (hφ : ∀ (z : ℂ) (r : ℝ), φ (z * r) = φ z * r) (σ : ℕ → ℕ)
    {Tx : ℤ → ℕ → ℂ} {S : List (List ℂ)} {f Sfs : List ℝ} (h : ssqStft lib tiny x a = .ok (Tx, S, f, Sfs)) (hσ : ∀ j < S.length, σ j < S.length)
    (hV : ∀ M, ∀ i < M, ∀ j < S.length, applySqueezing a.squeezing M (entC (F S)) i j = φ (applySqueezing a.squeezing M (entC S) i (σ j)))
    (hPw : a.getW = true → ∀ fs m dS, stft lib tiny x { a.stft with fs := fs } = .ok (m, S, dS) → ∀ F0 i, ∀ j < S.length,
      phaseStft (g'.getD (10 * a.eps)) F0 (entC (F S)) (entC (G dS)) i j = phaseStft (a.gamma.getD (10 * a.eps)) F0 (entC S) (entC dS) i (σ j))
    (hPf : a.getW = false → ∀ fs m dS, stft lib tiny x { a.stft with fs := fs } = .ok (m, S, dS) → ∀ M, ∀ i < M, ∀ j < S.length,
      (g'.getD (10 * a.eps) < ‖applySqueezing a.squeezing M (entC (F S)) i j‖ ↔
        a.gamma.getD (10 * a.eps) < ‖applySqueezing a.squeezing M (entC S) i (σ j)‖) ∧
      ∀ f0, stftFreq f0 (applySqueezing a.squeezing M (entC (F S)) i j) (entC (G dS) i j) =
        stftFreq f0 (applySqueezing a.squeezing M (entC S) i (σ j)) (entC dS i (σ j))) :
    ∃ Tx', ssqStft lib tiny x' { a with gamma := g' } = .ok (Tx', F S, f, Sfs) ∧
      ∀ r, ∀ j < S.length, Tx' r j = φ (Tx r (σ j)) := by
  unfold ssqStft at h
  obtain ⟨rt, hrt, h⟩ := bind_ok h
  cases rt with
  | infinite => simp at h
  | fin fs dt =>
    simp only at h
    obtain ⟨c, hc, h⟩ := bind_ok h
    obtain ⟨u, hu, h⟩ := bind_ok h
    obtain ⟨⟨m, S0, dS⟩, hS, h⟩ := bind_ok h
    obtain ⟨⟨T, f0⟩, hT, h⟩ := bind_ok h
    simp only [Except.ok.injEq, Prod.mk.injEq] at h
    obtain ⟨rfl, rfl, rfl, rfl⟩ := h
    simp only at hT hS
    have hS' := hst fs m S0 dS hS
    set A := ssqStftCall a fs (m / 2 + 1) S0 dS with hA
    set A' := ssqStftCall { a with gamma := g' } fs (m / 2 + 1) (F S0) (G dS) with hA'
    have he : A' = { A with Wx := A'.Wx, w := A'.w, dWx := A'.dWx, gamma := A'.gamma } := by
      simp only [hA, hA', ssqStftCall, hF]
    obtain ⟨T', hT', hTe⟩ := ssqueeze_cols A (Or.inr ⟨rfl, by
        simp only [hA, ssqStftCall]
        cases a.ssqFreqs with
        | none => exact ⟨_, _, rfl⟩
        | some p => exact ⟨p.1, p.2, rfl⟩⟩)
      A'.Wx A'.w A'.dWx A'.gamma
      (by simp only [hA, hA', ssqStftCall]; split <;> rfl) (by simp only [hA, hA', ssqStftCall]; split <;> rfl) rfl φ hφ σ hσ
      (by
        rintro ⟨w, hw, hn⟩
        exfalso
        simp only [hA', ssqStftCall] at hw
        split at hw
        · simp only [Option.some.injEq] at hw
          rw [← hw] at hn
          exact phaseStft_not_neg hn
        · simp at hw)
      (fun i hi j hj => hV (m / 2 + 1) i hi j hj)
      (by
        intro i hi j hj
        rw [← he]
        unfold Spec.usedPhase
        cases hw : a.getW
        · have := hPf hw fs m dS hS (m / 2 + 1) i hi j hj
          simp only [hA, hA', ssqStftCall, hw, Bool.false_eq_true, if_false, Option.getD_some]
          by_cases hk : a.gamma.getD (10 * a.eps) < ‖applySqueezing a.squeezing (m / 2 + 1) (entC S0) i (σ j)‖
          · exact (if_pos (this.1.2 hk)).trans ((congrArg Phase.fin (this.2 _)).trans (if_pos hk).symm)
          · exact (if_neg fun h => hk (this.1.1 h)).trans (if_neg hk).symm
        · simp only [hA, hA', ssqStftCall, hw, if_true]
          exact hPw hw fs m dS hS _ i j hj)
      hT
    refine ⟨T', ?_, hTe⟩
    rw [← he] at hT'
    unfold ssqStft
    rw [hl]
    simp only
    rw [hrt, ok_bind]
    simp only
    rw [hc, ok_bind, hu, ok_bind, hS', ok_bind]
    simp only
    rw [hT', ok_bind]

theorem entC_rotate (S : List (List ℂ)) (q i j : ℕ) (hj : j < S.length) : entC (S.rotate q) i j = entC S i ((j + q) % S.length) := by
  unfold entC
  rw [List.getD_eq_getElem (S.rotate q) _ (by simpa using hj), List.getElem_rotate,
    List.getD_eq_getElem S _ (show (j + q) % S.length < _ from Nat.mod_lt _ (by omega))]

/-- **C149, `ssq_stft`.** With periodic padding and a hop that divides the length, shifting the signal by `q` hops shifts the
synchrosqueezed transform by `q` columns, over the same frequencies. A user's own squeezing function must commute with the shift. -/
theorem C149_ssq_stft_shift {lib : WinLib} {tiny : ℝ} {x : List ℝ} {a : SsqStftArgs} {m : ℕ} {w dw : List ℝ}
    (h : StftValid lib tiny x a.stft m w dw .wrap) (hd : a.stft.hop ∣ x.length) (q : ℕ)
    (hf : ∀ M f, a.squeezing = .fn f → Spec.Respects M (x.length / a.stft.hop) (fun j => (j + q) % (x.length / a.stft.hop)) id f)
    {Tx : ℤ → ℕ → ℂ} {S : List (List ℂ)} {f Sfs : List ℝ} (hrun : ssqStft lib tiny x a = .ok (Tx, S, f, Sfs)) :
    S.length = x.length / a.stft.hop ∧ ∃ Tx', ssqStft lib tiny (x.rotate (q * a.stft.hop)) a = .ok (Tx', S.rotate q, f, Sfs) ∧
      ∀ r, ∀ j < S.length, Tx' r j = Tx r ((j + q) % S.length) := by
  have hsh : ∀ fs, ∃ S dS, stft lib tiny x { a.stft with fs := fs } = .ok (m, S, dS) ∧ S.length = x.length / a.stft.hop ∧
      dS.length = S.length ∧ stft lib tiny (x.rotate (q * a.stft.hop)) { a.stft with fs := fs } = .ok (m, S.rotate q, dS.rotate q) :=
    fun fs => C149_stft_shift (validFs h fs) hd q
  have hall : ∀ fs m' S dS, stft lib tiny x { a.stft with fs := fs } = .ok (m', S, dS) → S.length = x.length / a.stft.hop ∧
      dS.length = S.length ∧ stft lib tiny (x.rotate (q * a.stft.hop)) { a.stft with fs := fs } = .ok (m', S.rotate q, dS.rotate q) := by
    intro fs m' S dS h'
    obtain ⟨S1, dS1, h1, h2, h3, h4⟩ := hsh fs
    rw [h'] at h1
    simp only [Except.ok.injEq, Prod.mk.injEq] at h1
    obtain ⟨rfl, rfl, rfl⟩ := h1
    exact ⟨h2, h3, h4⟩
  have hSl : S.length = x.length / a.stft.hop := by
    unfold ssqStft at hrun
    obtain ⟨rt, -, hrun⟩ := bind_ok hrun
    cases rt with
    | infinite => simp at hrun
    | fin fs dt =>
      simp only at hrun
      obtain ⟨_, -, hrun⟩ := bind_ok hrun
      obtain ⟨_, -, hrun⟩ := bind_ok hrun
      obtain ⟨s, hs, hrun⟩ := bind_ok hrun
      obtain ⟨_, -, hrun⟩ := bind_ok hrun
      simp only [Except.ok.injEq, Prod.mk.injEq] at hrun
      rw [← hrun.2.1]
      exact (hall fs s.1 s.2.1 s.2.2 hs).1
  refine ⟨hSl, ?_⟩
  have hVW : ∀ M, ∀ i < M, ∀ j < S.length, entC (S.rotate q) i j = id (entC S i ((j + q) % S.length)) :=
    fun M i _ j hj => entC_rotate S q i j hj
  have hV : ∀ M, ∀ i < M, ∀ j < S.length, applySqueezing a.squeezing M (entC (S.rotate q)) i j =
      id (applySqueezing a.squeezing M (entC S) i ((j + q) % S.length)) :=
    fun M => applySqueezing_cols (σ := fun j => (j + q) % S.length) (φ := id) (by rw [hSl]; exact hf M) (fun _ => rfl) (fun _ => rfl) (hVW M)
  exact ssqStft_cols x (x.rotate (q * a.stft.hop)) (by simp) a a.gamma (fun S => S.rotate q) (fun S => S.rotate q) (by simp)
    (fun fs m' S dS h' => (hall fs m' S dS h').2.2) (AddMonoidHom.id ℂ) (fun _ _ => rfl) (fun j => (j + q) % S.length) hrun
    (fun j hj => Nat.mod_lt _ (by omega)) hV
    (by
      intro _ fs m' dS hs F0 i j hj
      have hdl := (hall fs m' S dS hs).2.1
      unfold phaseStft
      rw [entC_rotate S q i j hj, entC_rotate dS q i j (by omega), hdl])
    (by
      intro _ fs m' dS hs M i hi j hj
      have hdl := (hall fs m' S dS hs).2.1
      simp only [hV M i hi j hj, entC_rotate dS q i j (hdl ▸ hj), hdl, id]
      exact ⟨trivial, fun _ => trivial⟩)

/-! ## Multiplying the signal by a number -/

theorem ext_smul {x : List ℝ} {t : PadType} {E : ℤ → ℝ} (hE : Spec.IsExtension t x E) (c : ℝ) :
    Spec.IsExtension t (x.map fun u => c * u) (fun i => c * E i) := by
  obtain ⟨h1, h2⟩ := hE
  refine ⟨fun i h => ?_, ?_⟩
  · rw [List.getElem_map, ← h1 i (by simpa using h)]
  · cases t <;> simp only [List.length_map] at h2 ⊢
    · exact fun i hi => by rw [h2 i hi, mul_zero]
    all_goals first
      | exact fun i => by rw [h2 i]
      | exact ⟨fun i hi => by rw [h2.1 i hi], fun i hi => by rw [h2.2 i hi]⟩
      | exact ⟨fun i => by rw [h2.1 i], fun i => by rw [h2.2.1 i], fun h i => by rw [h2.2.2 h i]⟩
      | exact ⟨fun i => by rw [h2.1 i], fun i => by rw [h2.2 i]⟩

/-- **C150, `stft`.** The transform and its derivative are homogeneous in the signal. -/
theorem C150_stft_scale {lib : WinLib} {tiny : ℝ} {x : List ℝ} {a : StftArgs} {m : ℕ} {w dw : List ℝ} {t : PadType}
    (h : StftValid lib tiny x a m w dw t) (c : ℝ) :
    ∃ S dS, stft lib tiny x a = .ok (m, S, dS) ∧ stft lib tiny (x.map fun u => c * u) a =
      .ok (m, S.map fun r => r.map fun z => (c : ℂ) * z, dS.map fun r => r.map fun z => (c : ℂ) * z) := by
  obtain ⟨E, hE⟩ := exists_extension t x h.hx
  obtain ⟨S, dS, h1, h2, h3, h4, h5⟩ := C07_stft_entries h E hE
  obtain ⟨S', dS', k1, k2, k3, k4, k5⟩ := C07_stft_entries (validShift h (x.map fun u => c * u) (by simp)) _ (ext_smul hE c)
  rw [List.length_map] at k2 k3
  refine ⟨S, dS, h1, ?_⟩
  rw [k1]
  have hs : ∀ v k j, Spec.stft m a.hop v (fun i => c * E i) a.modulated k j = c * Spec.stft m a.hop v E a.modulated k j := by
    intro v k j
    unfold Spec.stft
    rw [mul_sum]
    refine sum_congr rfl fun r _ => ?_
    push_cast; ring
  have hgen : ∀ (A B : List (List ℂ)) (v : ℕ → ℝ), A.length = B.length →
      (∀ j (hj : j < A.length), A[j].length = m / 2 + 1 ∧ ∀ k, k < m / 2 + 1 → A[j].getD k 0 = Spec.stft m a.hop v E a.modulated k j) →
      (∀ j (hj : j < B.length), B[j].length = m / 2 + 1 ∧ ∀ k, k < m / 2 + 1 →
        B[j].getD k 0 = Spec.stft m a.hop v (fun i => c * E i) a.modulated k j) → B = A.map fun r => r.map fun z => (c : ℂ) * z := by
    intro A B v hAB eA eB
    apply List.ext_getElem
    · simp [hAB]
    · intro j hj1 hj2
      rw [List.getElem_map]
      obtain ⟨a1, a2⟩ := eA j (by omega)
      obtain ⟨b1, b2⟩ := eB j hj1
      apply List.ext_getElem
      · rw [b1, List.length_map, a1]
      · intro k hk1 hk2
        rw [List.getElem_map, ← List.getD_eq_getElem _ (0 : ℂ) hk1, ← List.getD_eq_getElem (A[j]'(by omega)) (0 : ℂ) (by simpa using hk2),
          b2 k (by omega), a2 k (by omega), hs]
  rw [hgen S S' _ (by omega) h4 k4, hgen dS dS' _ (by omega) h5 k5]

theorem entC_smul (S : List (List ℂ)) (c : ℂ) (i j : ℕ) : entC (S.map fun r => r.map fun z => c * z) i j = c * entC S i j :=
  ent_smul S c j i

theorem stftFreq_smul (k c : ℝ) (hc : c ≠ 0) (hk : k = c) (f0 : ℝ) (V dW : ℂ) : stftFreq f0 (k * V) (c * dW) = stftFreq f0 V dW := by
  subst hk
  unfold stftFreq
  simp only [re_ofReal_mul, im_ofReal_mul]
  congr 2
  rw [show ((k * V.re) ^ 2 + (k * V.im) ^ 2) * (2 * Real.pi) = k ^ 2 * ((V.re ^ 2 + V.im ^ 2) * (2 * Real.pi)) by ring,
      show k * dW.im * (k * V.re) - k * dW.re * (k * V.im) = k ^ 2 * (dW.im * V.re - dW.re * V.im) by ring,
      mul_div_mul_left _ _ (pow_ne_zero 2 hc)]

/-- C150 as one would have it: if signal and threshold are multiplied by the same number, the transform is multiplied by it, the
synchrosqueezed transform too (the modulus for `'abs'`; nothing for `'lebesgue'`, which counts), over the same frequencies. -/
def C150_full : Prop :=
  ∀ (lib : WinLib) (tiny : ℝ) (x : List ℝ) (a : SsqStftArgs) (m : ℕ) (w dw : List ℝ) (t : PadType) (c g k : ℝ) (Tx : ℤ → ℕ → ℂ)
    (S : List (List ℂ)) (f Sfs : List ℝ), StftValid lib tiny x a.stft m w dw t → c ≠ 0 → a.gamma = some g →
    Spec.measureFactor c a.squeezing = some k → ssqStft lib tiny x a = .ok (Tx, S, f, Sfs) →
    ∃ Tx', ssqStft lib tiny (x.map fun u => c * u) { a with gamma := some (|c| * g) } =
        .ok (Tx', S.map fun r => r.map fun z => (c : ℂ) * z, f, Sfs) ∧
      ∀ r, ∀ j < S.length, Tx' r j = k * Tx r j

/-- C150 with `get_w`, and without it for `'sum'`, and for `'abs'` when the factor is positive. -/
theorem C150_partial {lib : WinLib} {tiny : ℝ} {x : List ℝ} {a : SsqStftArgs} {m : ℕ} {w dw : List ℝ} {t : PadType} (c g k : ℝ)
    {Tx : ℤ → ℕ → ℂ} {S : List (List ℂ)} {f Sfs : List ℝ} (h : StftValid lib tiny x a.stft m w dw t) (hc : c ≠ 0) (hg : a.gamma = some g)
    (hk : Spec.measureFactor c a.squeezing = some k)
    (hl : a.getW = true ∨ a.squeezing = .sum ∨ (a.squeezing = .abs ∧ 0 < c))
    (hrun : ssqStft lib tiny x a = .ok (Tx, S, f, Sfs)) :
    ∃ Tx', ssqStft lib tiny (x.map fun u => c * u) { a with gamma := some (|c| * g) } =
        .ok (Tx', S.map fun r => r.map fun z => (c : ℂ) * z, f, Sfs) ∧
      ∀ r, ∀ j < S.length, Tx' r j = k * Tx r j := by
  have hn : ∀ z : ℂ, ‖(c : ℂ) * z‖ = |c| * ‖z‖ := fun z => by rw [norm_mul, norm_real, Real.norm_eq_abs]
  have hc0 := abs_pos.2 hc
  have hV : ∀ M i j, applySqueezing a.squeezing M (entC (S.map fun r => r.map fun z => (c : ℂ) * z)) i j =
      (k : ℂ) * applySqueezing a.squeezing M (entC S) i j := by
    intro M i j
    cases hs : a.squeezing with
    | sum =>
      rw [hs] at hk
      simp only [Spec.measureFactor, Option.some.injEq] at hk
      rw [← hk]
      exact entC_smul _ _ _ _
    | abs =>
      rw [hs] at hk
      simp only [Spec.measureFactor, Option.some.injEq] at hk
      rw [← hk]
      show ((‖entC (S.map fun r => r.map fun z => (c : ℂ) * z) i j‖ : ℝ) : ℂ) = _ * ((‖entC S i j‖ : ℝ) : ℂ)
      rw [entC_smul, hn]; push_cast; rfl
    | lebesgue =>
      rw [hs] at hk
      simp only [Spec.measureFactor, Option.some.injEq] at hk
      rw [← hk, ofReal_one, one_mul]
      rfl
    | fn f => rw [hs] at hk; simp [Spec.measureFactor] at hk
    | otherStr => rw [hs] at hk; simp [Spec.measureFactor] at hk
    | other => rw [hs] at hk; simp [Spec.measureFactor] at hk
  refine ssqStft_cols x (x.map fun u => c * u) (by simp) a (some (|c| * g))
    (fun W => W.map fun r => r.map fun z => (c : ℂ) * z) (fun W => W.map fun r => r.map fun z => (c : ℂ) * z) (by simp)
    ?_ (AddMonoidHom.mulLeft (k : ℂ)) (fun z r => (mul_assoc _ _ _).symm) (fun j => j) hrun (fun j hj => hj)
    (fun M i _ j _ => hV M i j) ?_ ?_
  · intro fs m' S dS h'
    obtain ⟨S1, dS1, h1, h2⟩ := C150_stft_scale (validFs h fs) c
    rw [h'] at h1
    simp only [Except.ok.injEq, Prod.mk.injEq] at h1
    obtain ⟨rfl, rfl, rfl⟩ := h1
    exact h2
  · intro _ fs m' dS hs F0 i j hj
    unfold phaseStft
    rw [entC_smul, entC_smul, hn, hg, stftFreq_smul c c hc rfl]
    simp only [Option.getD_some, mul_lt_mul_iff_right₀ hc0]
  · intro hw fs m' dS hs M i hi j hj
    have hkc : k = c := by
      rcases hl with hl | hl | ⟨hl, hp⟩
      · rw [hw] at hl; simp at hl
      · rw [hl] at hk; simpa [Spec.measureFactor] using hk.symm
      · rw [hl] at hk; simpa [Spec.measureFactor, abs_of_pos hp] using hk.symm
    rw [hV, entC_smul, norm_mul, norm_real, Real.norm_eq_abs, hkc, hg]
    refine ⟨by simp only [Option.getD_some, mul_lt_mul_iff_right₀ hc0], fun f0 => stftFreq_smul c c hc rfl f0 _ _⟩

end Ssq
