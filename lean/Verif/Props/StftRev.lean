import Verif.Props.StftSym
import Verif.Lemmas.StftTone

/-!
# Reversing the signal reverses its STFT (C182)
-/
namespace Ssq
open Finset Complex

namespace Spec

/-- A window of `m` taps is symmetric about its centre tap `m/2`; the first tap of an even number of taps, which has no mirror image, is zero. -/
def SymWindow (m : ℕ) (w : ℕ → ℝ) : Prop := ∀ r < m, w r = if m / 2 * 2 - r < m then w (m / 2 * 2 - r) else 0

end Spec

/-- The tap opposite to `r`. -/
def mir (m r : ℕ) : ℕ := if m / 2 * 2 - r < m then m / 2 * 2 - r else 0

theorem mir_lt {m r : ℕ} (h : r < m) : mir m r < m := by unfold mir; split <;> omega
theorem mir_mir {m r : ℕ} (h : r < m) : mir m (mir m r) = r := by
  unfold mir
  by_cases h1 : m / 2 * 2 - r < m
  · rw [if_pos h1]
    by_cases h2 : m / 2 * 2 - (m / 2 * 2 - r) < m
    · rw [if_pos h2]; omega
    · omega
  · rw [if_neg h1, if_neg (by omega)]; omega
theorem mir_cases {m r : ℕ} (h : r < m) : (mir m r + r = m / 2 * 2) ∨ (r = 0 ∧ mir m r = 0 ∧ m / 2 * 2 = m) := by unfold mir; split <;> omega

theorem sum_mir {M : Type} [AddCommMonoid M] (m : ℕ) (f : ℕ → M) : ∑ r ∈ range m, f (mir m r) = ∑ r ∈ range m, f r :=
  sum_nbij' (mir m) (mir m) (fun _ h => mem_range.2 (mir_lt (mem_range.1 h))) (fun _ h => mem_range.2 (mir_lt (mem_range.1 h)))
    (fun _ h => mir_mir (mem_range.1 h)) (fun _ h => mir_mir (mem_range.1 h)) (fun _ _ => rfl)

/-- Even (`s = 1`) or odd (`s = -1`) about the centre tap. -/
def Parity (m : ℕ) (s : ℝ) (w : ℕ → ℝ) : Prop := ∀ r < m, w (mir m r) = s * w r ∧ (mir m r + r ≠ m / 2 * 2 → w r = 0)

theorem parity_of_sym {m : ℕ} {w : ℕ → ℝ} (h : Spec.SymWindow m w) : Parity m 1 w := by
  intro r hr
  have h1 := h r hr
  unfold mir
  constructor
  · rw [one_mul]
    split at h1
    · rename_i hc; rw [if_pos hc, ← h1]
    · rename_i hc
      rw [if_neg hc, h1]
      have := h 0 (by omega)
      rw [if_neg (by omega)] at this
      exact this
  · intro hne
    split at h1
    · rename_i hc; rw [if_pos hc] at hne; omega
    · exact h1

/-- The transform of the mirrored signal. -/
theorem dft_mir {m : ℕ} (f : ℕ → ℝ) (k : ℕ) :
    dft m (fun r => ((f (mir m r) : ℝ) : ℂ)) k = tw m (-((m / 2 * 2 : ℕ) * k)) * (starRingEnd ℂ) (dft m (fun r => ((f r : ℝ) : ℂ)) k) := by
  rcases Nat.eq_zero_or_pos m with rfl | hm
  · simp [dft]
  unfold dft
  rw [map_sum, mul_sum, ← sum_mir m]
  refine sum_congr rfl fun r hr => ?_
  have hr := mem_range.1 hr
  show ((f (mir m (mir m r)) : ℝ) : ℂ) * _ = _
  rw [mir_mir hr, map_mul, conj_ofReal, tw_conj, mul_left_comm, ← tw_add]
  congr 1
  rcases mir_cases hr with h | ⟨h1, h2, h3⟩
  · congr 1
    have : ((m / 2 * 2 : ℕ) : ℤ) = mir m r + r := by exact_mod_cast h.symm
    rw [this]; ring
  · rw [h1] at h2 ⊢
    rw [h2, h3]
    have := tw_mul_n (n := m) (by omega) (-(k : ℤ))
    simp only [Nat.cast_zero, zero_mul, neg_zero, add_zero, tw_zero, mul_neg] at this ⊢
    exact this.symm

theorem dft_inj {n : ℕ} {f g : ℕ → ℂ} (h : ∀ k < n, dft n f k = dft n g k) {j : ℕ} (hj : j < n) : f j = g j := by
  rw [← idft_dft f hj, ← idft_dft g hj]
  exact idft_congr h j

/-- The derivative of an even window is odd. -/
theorem diffWindow_odd (w : List ℝ) (h : Parity w.length 1 fun r => w.getD r 0) : Parity w.length (-1) fun r => (diffWindow w).getD r 0 := by
  set m := w.length with hm
  have key : ∀ r < m, (diffWindow w).getD (mir m r) 0 = -(diffWindow w).getD r 0 := by
    intro r hr
    have := dft_inj (n := m) (f := fun r => (((diffWindow w).getD (mir m r) 0 : ℝ) : ℂ)) (g := fun r => (-1 : ℂ) * (((diffWindow w).getD r 0 : ℝ) : ℂ)) (by
      intro k hk
      have e1 := dft_mir (m := m) (fun r => (diffWindow w).getD r 0) k
      have e2 := dft_mir (m := m) (fun r => w.getD r 0) k
      rw [e1, dft_smul, hm, diffWindow_dft w k (by omega), ← hm, map_mul, map_mul, conj_I, conj_ofReal]
      have e3 : dft m (fun r => ((w.getD (mir m r) 0 : ℝ) : ℂ)) k = dft m (fun r => ((w.getD r 0 : ℝ) : ℂ)) k :=
        dft_congr (fun j hj => by have := (h j hj).1; simp only [one_mul] at this; rw [this]) k
      rw [e3] at e2
      conv_rhs => rw [e2]
      ring) hr
    have h2 : (((diffWindow w).getD (mir m r) 0 : ℝ) : ℂ) = ((-(diffWindow w).getD r 0 : ℝ) : ℂ) := by
      push_cast; rw [← neg_one_mul]; exact this
    exact_mod_cast h2
  intro r hr
  refine ⟨by simp only; rw [key r hr]; ring, fun hne => ?_⟩
  rcases mir_cases hr with h' | ⟨h1, h2, -⟩
  · exact absurd h' hne
  · have := key r hr
    rw [h1] at h2 this ⊢
    rw [h2] at this
    linarith

theorem parity_zero {m : ℕ} {s tiny : ℝ} (hs : s = 1 ∨ s = -1) {w : List ℝ} (hw : w.length = m) (h : Parity m s fun r => w.getD r 0) :
    Parity m s fun r => (zeroDenormals tiny w).getD r 0 := by
  have hg : ∀ r < m, (zeroDenormals tiny w).getD r 0 = if w.getD r 0 < tiny ∧ w.getD r 0 > -tiny then 0 else w.getD r 0 := by
    intro r hr
    unfold zeroDenormals
    rw [List.getD_eq_getElem _ _ (by simpa [hw] using hr), List.getElem_map, List.getD_eq_getElem w _ (by omega)]
  intro r hr
  obtain ⟨h1, h2⟩ := h r hr
  simp only at h1 h2 ⊢
  refine ⟨?_, fun hne => by rw [hg r hr, h2 hne]; simp⟩
  rw [hg r hr, hg _ (mir_lt hr), h1]
  rcases hs with rfl | rfl
  · simp
  · by_cases hc : w.getD r 0 < tiny ∧ w.getD r 0 > -tiny
    · rw [if_pos hc, if_pos ⟨by linarith, by linarith⟩]; simp
    · rw [if_neg hc, if_neg (by rintro ⟨h3, h4⟩; exact hc ⟨by linarith, by linarith⟩)]

/-- The reversed signal is extended by the reversed extension. -/
theorem ext_reverse {x : List ℝ} {t : PadType} {E : ℤ → ℝ} (hE : Spec.IsExtension t x E) :
    Spec.IsExtension t x.reverse (fun i => E ((x.length : ℤ) - 1 - i)) := by
  obtain ⟨h1, h2⟩ := hE
  refine ⟨fun i hi => ?_, ?_⟩
  · rw [List.length_reverse] at hi
    show E _ = _
    rw [List.getElem_reverse, ← h1 _ (by omega)]
    congr 1; omega
  · rw [List.length_reverse]
    cases t with
    | zero => exact fun i hi => h2 _ (by omega)
    | wrap =>
      intro i
      show E _ = E _
      rw [← h2]; congr 1; ring
    | replicate =>
      obtain ⟨a, b⟩ := h2
      refine ⟨fun i hi => ?_, fun i hi => ?_⟩
      · show E _ = E _
        rw [b _ (by omega)]; congr 1; ring
      · show E _ = E _
        rw [a _ (by omega)]; congr 1; ring
    | reflect =>
      obtain ⟨a, b, c⟩ := h2
      refine ⟨fun i => ?_, fun i => ?_, fun h i => ?_⟩
      · show E _ = E _
        rw [sub_neg_eq_add]; exact b i
      · show E _ = E _
        rw [show (x.length : ℤ) - 1 - (x.length - 1 + i) = -i by ring, a]; congr 1; ring
      · show E _ = E _
        rw [c h, c h (_ - 0)]
    | symmetric =>
      obtain ⟨a, b⟩ := h2
      refine ⟨fun i => ?_, fun i => ?_⟩
      · show E _ = E _
        rw [show (x.length : ℤ) - 1 - (-1 - i) = x.length + i by ring]; exact b i
      · show E _ = E _
        rw [show (x.length : ℤ) - 1 - (x.length + i) = -1 - i by ring, a]; congr 1; ring

/-- Coefficients of the reversed signal. -/
theorem spec_stft_reverse {m hop n : ℕ} {s : ℝ} {w : ℕ → ℝ} (h : Parity m s w) (E : ℤ → ℝ) (k j j' : ℕ) (hj : j * hop + j' * hop + 1 = n) :
    Spec.stft m hop w (fun i => E ((n : ℤ) - 1 - i)) true k j = (s : ℂ) * (starRingEnd ℂ) (Spec.stft m hop w E true k j') := by
  unfold Spec.stft
  rw [map_sum, mul_sum, ← sum_mir m]
  refine sum_congr rfl fun r hr => ?_
  have hr := mem_range.1 hr
  obtain ⟨h1, h2⟩ := h r hr
  rw [h1, map_mul, conj_ofReal, ← Complex.exp_conj, ← mul_assoc, ← ofReal_mul, ← mul_assoc]
  by_cases hc : mir m r + r = m / 2 * 2
  · have hi : ((mir m r : ℕ) : ℤ) = 2 * ((m / 2 : ℕ) : ℤ) - r := by omega
    have hcx : ((mir m r : ℕ) : ℂ) = 2 * ((m / 2 : ℕ) : ℂ) - r := by
      have : ((mir m r : ℤ) : ℂ) = ((2 * ((m / 2 : ℕ) : ℤ) - r : ℤ) : ℂ) := by rw [hi]
      generalize m / 2 = c at *
      push_cast at this
      exact this
    congr 1
    · have : (n : ℤ) = j * hop + j' * hop + 1 := by exact_mod_cast hj.symm
      have hE : (n : ℤ) - 1 - ((j : ℤ) * hop + mir m r - (m / 2 : ℕ)) = (j' : ℤ) * hop + r - (m / 2 : ℕ) := by rw [hi, this]; ring
      show ((s * w r * E _ : ℝ) : ℂ) = _
      rw [hE]
    · congr 1
      simp only [if_true]
      rw [hcx]
      generalize m / 2 = c
      simp only [map_neg, map_div₀, map_mul, map_sub, conj_I, conj_ofReal, map_natCast, map_ofNat]
      ring
  · rw [h2 hc]; simp

/-- **C182, `stft`.** With a window symmetric about its centre tap, `modulated=True` (the default) and a hop that divides the distance from the first to the last sample
(as hop 1 does), for every padding: reversing the signal reverses the order of the columns of the transform and of its derivative, and conjugates them (the derivative
with a minus sign). -/
theorem C182_stft_reverse {lib : WinLib} {tiny : ℝ} {x : List ℝ} {a : StftArgs} {m : ℕ} {w dw : List ℝ} {t : PadType}
    (h : StftValid lib tiny x a m w dw t) (hmod : a.modulated = true) (hd : a.hop ∣ x.length - 1)
    (hsym : ∀ r, getWindowRaw lib a.window (stftWinLen m a) (some m) = .ok r → Spec.SymWindow m fun i => r.getD i 0) :
    ∃ S dS, stft lib tiny x a = .ok (m, S, dS) ∧ S.length = (x.length - 1) / a.hop + 1 ∧ dS.length = S.length ∧
      stft lib tiny x.reverse a = .ok (m, (S.map fun c => c.map fun z => (starRingEnd ℂ) z).reverse, (dS.map fun c => c.map fun z => -(starRingEnd ℂ) z).reverse) := by
  have hx := h.hx
  have hh := h.hhop
  obtain ⟨p1, p2⟩ : (Parity m 1 fun r => w.getD r 0) ∧ Parity m (-1) fun r => (if a.modulated then a.fs else 1) * dw.getD r 0 := by
    have h1 := h.hwin
    unfold getWindowD at h1
    cases hraw : getWindowRaw lib a.window (stftWinLen m a) (some m) with
    | error e => rw [hraw] at h1; simp at h1
    | ok r =>
      rw [hraw] at h1
      simp only [ok_bind, pure_eq_ok, Except.ok.injEq, Prod.mk.injEq] at h1
      obtain ⟨h2, h3⟩ := h1
      have hlr : r.length = m := by
        have := h.hw
        rw [← h2, length_zeroDenormals] at this
        exact this
      have hp := parity_of_sym (hsym r hraw)
      refine ⟨by rw [← h2]; exact parity_zero (Or.inl rfl) hlr hp, ?_⟩
      have hdp : Parity m (-1) fun i => (diffWindow r).getD i 0 := by
        have := diffWindow_odd r (by rw [hlr]; exact hp)
        rwa [hlr] at this
      have := parity_zero (tiny := tiny) (Or.inr rfl) (by rw [length_diffWindow, hlr]) hdp
      rw [h3] at this
      intro i hi
      obtain ⟨q1, q2⟩ := this i hi
      simp only at q1 q2 ⊢
      exact ⟨by rw [q1]; ring, fun hne => by rw [q2 hne, mul_zero]⟩
  obtain ⟨q, hq⟩ := hd
  have hcols : (x.length - 1) / a.hop + 1 = q + 1 := by rw [hq, Nat.mul_div_cancel_left _ hh]
  obtain ⟨E, hE⟩ := exists_extension t x hx
  obtain ⟨S, dS, h1, h2, h3, h4, h5⟩ := C07_stft_entries h E hE
  obtain ⟨S', dS', k1, k2, k3, k4, k5⟩ := C07_stft_entries (validShift h x.reverse (by simp)) _ (ext_reverse hE)
  rw [List.length_reverse, hcols] at k2 k3
  rw [hcols] at h2 h3
  refine ⟨S, dS, h1, by omega, by omega, ?_⟩
  rw [k1]
  have hgen : ∀ (A B : List (List ℂ)) (v : ℕ → ℝ) (s : ℝ), Parity m s v → A.length = q + 1 → B.length = q + 1 →
      (∀ j (hj : j < A.length), A[j].length = m / 2 + 1 ∧ ∀ k, k < m / 2 + 1 → A[j].getD k 0 = Spec.stft m a.hop v E a.modulated k j) →
      (∀ j (hj : j < B.length), B[j].length = m / 2 + 1 ∧ ∀ k, k < m / 2 + 1 →
        B[j].getD k 0 = Spec.stft m a.hop v (fun i => E ((x.length : ℤ) - 1 - i)) a.modulated k j) →
      B = (A.map fun c => c.map fun z => (s : ℂ) * (starRingEnd ℂ) z).reverse := by
    intro A B v s hv hA hB eA eB
    apply List.ext_getElem
    · simp [hA, hB]
    · intro j hj1 hj2
      rw [List.getElem_reverse, List.getElem_map]
      obtain ⟨b1, b2⟩ := eB _ hj1
      have hj' : (A.map fun c => c.map fun z => (s : ℂ) * (starRingEnd ℂ) z).length - 1 - j < A.length := by simp; omega
      obtain ⟨a1, a2⟩ := eA _ hj'
      apply List.ext_getElem
      · rw [b1, List.length_map, a1]
      · intro k hk1 hk2
        rw [List.getElem_map, ← List.getD_eq_getElem _ (0 : ℂ) hk1, b2 k (by omega), ← List.getD_eq_getElem _ (0 : ℂ), a2 k (by omega), hmod]
        refine spec_stft_reverse hv E k j _ ?_
        rw [List.length_map, hA, ← Nat.add_mul]
        have : j + (q + 1 - 1 - j) = q := by omega
        rw [this, mul_comm]
        omega
  have g1 := hgen S S' _ 1 p1 h2 k2 h4 k4
  have g2 := hgen dS dS' _ (-1) p2 h3 k3 h5 k5
  rw [g1, g2]
  simp

theorem entC_reverse (S : List (List ℂ)) (g : ℂ → ℂ) (hg : g 0 = 0) (i j : ℕ) (hj : j < S.length) :
    entC (S.map fun c => c.map g).reverse i j = g (entC S i (S.length - 1 - j)) := by
  unfold entC
  rw [List.getD_eq_getElem (S.map fun c => c.map g).reverse _ (by simpa using hj), List.getElem_reverse, List.getElem_map,
    List.getD_eq_getElem S _ (show S.length - 1 - j < _ by omega)]
  have : S.length - 1 - j = (S.map fun c => c.map g).length - 1 - j := by simp
  simp only [this]
  generalize S[(S.map fun c => c.map g).length - 1 - j]'_ = c
  by_cases h : i < c.length
  · rw [List.getD_eq_getElem _ _ (by simpa using h), List.getElem_map, List.getD_eq_getElem _ _ h]
  · rw [List.getD_eq_default _ _ (by simpa using h), List.getD_eq_default _ _ (by simpa using h), hg]

theorem stftFreq_conj (f : ℝ) (W dW : ℂ) : stftFreq f ((starRingEnd ℂ) W) (-(starRingEnd ℂ) dW) = stftFreq f W dW := by
  unfold stftFreq
  simp only [conj_re, conj_im, neg_re, neg_im]
  congr 1
  ring

/-- **C182, `ssq_stft`.** Under the same conditions reversing the signal reverses and conjugates the synchrosqueezed transform, over the same frequencies. A user's own
squeezing function must commute with reversal and conjugation. -/
theorem C182_ssq_stft_reverse {lib : WinLib} {tiny : ℝ} {x : List ℝ} {a : SsqStftArgs} {m : ℕ} {w dw : List ℝ} {t : PadType}
    (h : StftValid lib tiny x a.stft m w dw t) (hmod : a.stft.modulated = true) (hd : a.stft.hop ∣ x.length - 1)
    (hsym : ∀ r, getWindowRaw lib a.stft.window (stftWinLen m a.stft) (some m) = .ok r → Spec.SymWindow m fun i => r.getD i 0)
    (hf : ∀ M f, a.squeezing = .fn f → Spec.Respects M ((x.length - 1) / a.stft.hop + 1) (fun j => (x.length - 1) / a.stft.hop - j) (starRingEnd ℂ) f)
    {Tx : ℤ → ℕ → ℂ} {S : List (List ℂ)} {f Sfs : List ℝ} (hrun : ssqStft lib tiny x a = .ok (Tx, S, f, Sfs)) :
    S.length = (x.length - 1) / a.stft.hop + 1 ∧ ∃ Tx', ssqStft lib tiny x.reverse a =
        .ok (Tx', (S.map fun c => c.map fun z => (starRingEnd ℂ) z).reverse, f, Sfs) ∧
      ∀ r, ∀ j < S.length, Tx' r j = (starRingEnd ℂ) (Tx r (S.length - 1 - j)) := by
  have hall : ∀ fs m' S dS, stft lib tiny x { a.stft with fs := fs } = .ok (m', S, dS) → S.length = (x.length - 1) / a.stft.hop + 1 ∧
      dS.length = S.length ∧ stft lib tiny x.reverse { a.stft with fs := fs } =
        .ok (m', (S.map fun c => c.map fun z => (starRingEnd ℂ) z).reverse, (dS.map fun c => c.map fun z => -(starRingEnd ℂ) z).reverse) := by
    intro fs m' S dS h'
    obtain ⟨S1, dS1, h1, h2, h3, h4⟩ := C182_stft_reverse (validFs h fs) hmod hd hsym
    rw [h'] at h1
    simp only [Except.ok.injEq, Prod.mk.injEq] at h1
    obtain ⟨rfl, rfl, rfl⟩ := h1
    exact ⟨h2, h3, h4⟩
  have hSl : S.length = (x.length - 1) / a.stft.hop + 1 := by
    unfold ssqStft at hrun
    obtain ⟨rt, -, hrun⟩ := bind_ok hrun
    cases rt with
    | infinite => simp at hrun
    | fin fs dt =>
      simp only at hrun
      obtain ⟨_, -, hrun⟩ := bind_ok hrun
      obtain ⟨_, -, hrun⟩ := bind_ok hrun
      obtain ⟨s, hs, hrun⟩ := bind_ok hrun
      obtain ⟨_, -, hrun⟩ := bind_ok hrun
      simp only [Except.ok.injEq, Prod.mk.injEq] at hrun
      rw [← hrun.2.1]
      exact (hall fs s.1 s.2.1 s.2.2 hs).1
  refine ⟨hSl, ?_⟩
  have hVW : ∀ M, ∀ i < M, ∀ j < S.length, entC (S.map fun c => c.map fun z => (starRingEnd ℂ) z).reverse i j = (starRingEnd ℂ) (entC S i (S.length - 1 - j)) :=
    fun M i _ j hj => entC_reverse S (fun z => (starRingEnd ℂ) z) (by simp) i j hj
  have hV : ∀ M, ∀ i < M, ∀ j < S.length, applySqueezing a.squeezing M (entC (S.map fun c => c.map fun z => (starRingEnd ℂ) z).reverse) i j =
      (starRingEnd ℂ) (applySqueezing a.squeezing M (entC S) i (S.length - 1 - j)) :=
    fun M => applySqueezing_cols (σ := fun j => S.length - 1 - j) (φ := starRingEnd ℂ) (by rw [hSl]; exact hf M) (fun z => norm_conj z) (fun r => conj_ofReal r) (hVW M)
  exact ssqStft_cols x x.reverse (by simp) a a.gamma (fun S => (S.map fun c => c.map fun z => (starRingEnd ℂ) z).reverse)
    (fun S => (S.map fun c => c.map fun z => -(starRingEnd ℂ) z).reverse) (by simp)
    (fun fs m' S dS h' => (hall fs m' S dS h').2.2) (starRingEnd ℂ : ℂ →+* ℂ).toAddMonoidHom
    (by
      intro z r
      show (starRingEnd ℂ) (z * r) = (starRingEnd ℂ) z * r
      rw [map_mul, conj_ofReal])
    (fun j => S.length - 1 - j) hrun (fun j hj => by omega) hV
    (by
      intro _ fs m' dS hs F0 i j hj
      have hdl := (hall fs m' S dS hs).2.1
      unfold phaseStft
      rw [entC_reverse S _ (by simp) i j hj, entC_reverse dS (fun z => -(starRingEnd ℂ) z) (by simp) i j (by omega), hdl, norm_conj, stftFreq_conj])
    (by
      intro _ fs m' dS hs M i hi j hj
      have hdl := (hall fs m' S dS hs).2.1
      rw [hV M i hi j hj, entC_reverse dS (fun z => -(starRingEnd ℂ) z) (by simp) i j (hdl ▸ hj), hdl, norm_conj]
      exact ⟨Iff.rfl, fun f0 => stftFreq_conj _ _ _⟩)

/-! ### The hypotheses are met -/

/-- Three taps, an odd number: the whole window is symmetric. -/
theorem sym121 : Spec.SymWindow 3 fun i => ([1, 2, 1] : List ℝ).getD i 0 := by
  intro r hr
  interval_cases r <;> simp

/-- Four taps: the first, without mirror image, is zero (as in a periodic Hann window). -/
example : Spec.SymWindow 4 fun i => ([0, 1, 2, 1] : List ℝ).getD i 0 := by
  intro r hr
  interval_cases r <;> simp

theorem raw121 : getWindowRaw onesLib exArgs.window (stftWinLen 3 exArgs) (some 3) = .ok [1, 2, 1] := by
  unfold getWindowRaw
  simp [exArgs, stftWinLen]

example : ∃ S dS, stft onesLib 0 [1, 2, 3, 4] exArgs = .ok (3, S, dS) ∧
    stft onesLib 0 [4, 3, 2, 1] exArgs = .ok (3, (S.map fun c => c.map fun z => (starRingEnd ℂ) z).reverse, (dS.map fun c => c.map fun z => -(starRingEnd ℂ) z).reverse) := by
  obtain ⟨S, dS, h1, -, -, h2⟩ := C182_stft_reverse exValid rfl (by simp [exArgs]) (by
    intro r hr
    rw [raw121] at hr
    simp only [Except.ok.injEq] at hr
    rw [← hr]
    exact sym121)
  exact ⟨S, dS, h1, h2⟩

end Ssq
