import Verif.Lemmas.Cwt
import Verif.Lemmas.Dft
import Verif.Props.Ssqueeze
import Mathlib.Algebra.Group.Hom.Basic
import Mathlib.Data.List.Rotate

/-! Helper lemmas about shifting, reversing and scaling signals. -/
namespace Ssq
open Finset Complex

/-! ### The discrete Fourier transform of a shifted or reversed signal -/

theorem tw_mod {n : ℕ} (hn : n ≠ 0) (q k : ℕ) : tw n ((q % n : ℕ) * k) = tw n (q * k) := by
  have h : (q : ℤ) * k = ((q % n : ℕ) : ℤ) * k + n * ((q / n : ℕ) * k) := by
    have := Nat.mod_add_div q n
    have h2 : (q : ℤ) = ((q % n : ℕ) : ℤ) + (n : ℤ) * ((q / n : ℕ) : ℤ) := by exact_mod_cast this.symm
    rw [h2]
    have : ((((q % n : ℕ) : ℤ) + (n : ℤ) * ((q / n : ℕ) : ℤ))) * (k : ℤ) = ((q % n : ℕ) : ℤ) * k + n * (((q / n : ℕ) : ℤ) * k) := by
      ring
    exact this
  rw [h, tw_add, tw_mul_n hn, mul_one]

/-- A sum over a period does not depend on where it starts. -/
theorem sum_period {n : ℕ} (hn : n ≠ 0) (m : ℕ) (g : ℕ → ℂ) :
    ∑ q ∈ range n, g ((q + m) % n) = ∑ q ∈ range n, g q := by
  refine sum_nbij' (fun q => (q + m) % n) (fun q => (q + (n - m % n)) % n) ?_ ?_ ?_ ?_ ?_
  · intro q _; exact mem_range.2 (Nat.mod_lt _ (by omega))
  · intro q _; exact mem_range.2 (Nat.mod_lt _ (by omega))
  · intro q hq
    have hq := mem_range.1 hq
    have hm := Nat.mod_lt m (show 0 < n by omega)
    show _ = q
    rw [Nat.mod_add_mod, show q + m + (n - m % n) = q + n * (m / n) + n from by
      have := Nat.mod_add_div m n; omega, Nat.add_mod_right, Nat.add_mul_mod_self_left, Nat.mod_eq_of_lt hq]
  · intro q hq
    have hq := mem_range.1 hq
    have hm := Nat.mod_lt m (show 0 < n by omega)
    show _ = q
    rw [Nat.mod_add_mod, show q + (n - m % n) + m = q + n * (m / n) + n from by
      have := Nat.mod_add_div m n; omega, Nat.add_mod_right, Nat.add_mul_mod_self_left, Nat.mod_eq_of_lt hq]
  · intro q _; rfl

theorem dft_rotate {n : ℕ} (hn : n ≠ 0) (m : ℕ) (f : ℕ → ℂ) (k : ℕ) :
    dft n (fun q => f ((q + m) % n)) k = tw n (m * k) * dft n f k := by
  unfold dft
  rw [mul_sum, ← sum_period hn m (fun q => tw n (m * k) * (f q * tw n (-(q * k))))]
  refine sum_congr rfl fun q _ => ?_
  show f ((q + m) % n) * tw n (-(q * k)) = tw n (m * k) * (f ((q + m) % n) * tw n (-(((q + m) % n : ℕ) * k)))
  have h : tw n (-(((q + m) % n : ℕ) * k)) = tw n (-((q + m : ℕ) * k)) := by
    rw [tw_neg, tw_neg, tw_mod hn]
  rw [h, mul_left_comm, ← tw_add]
  congr 2
  push_cast; ring

theorem idft_rotate {n : ℕ} (hn : n ≠ 0) (m : ℕ) (F : ℕ → ℂ) (j : ℕ) :
    idft n (fun k => tw n (m * k) * F k) j = idft n F ((j + m) % n) := by
  unfold idft
  congr 1
  refine sum_congr rfl fun k _ => ?_
  show tw n (m * k) * F k * tw n (j * k) = _
  rw [tw_mod hn, mul_comm (tw n _) (F k), mul_assoc, ← tw_add]
  congr 2
  push_cast; ring

theorem dft_reverse {n : ℕ} (f : ℕ → ℝ) (k : ℕ) :
    dft n (fun q => ((f (n - 1 - q) : ℝ) : ℂ)) k =
      tw n k * (starRingEnd ℂ) (dft n (fun q => ((f q : ℝ) : ℂ)) k) := by
  rcases Nat.eq_zero_or_pos n with rfl | hn
  · simp [dft]
  unfold dft
  rw [map_sum, mul_sum, ← sum_range_reflect]
  refine sum_congr rfl fun q hq => ?_
  have hq := mem_range.1 hq
  show ((f (n - 1 - (n - 1 - q)) : ℝ) : ℂ) * _ = _
  rw [show n - 1 - (n - 1 - q) = q by omega, map_mul, conj_ofReal, tw_conj, mul_left_comm, ← tw_add]
  congr 1
  have h : -(((n - 1 - q : ℕ) : ℤ) * (k : ℤ)) = (k : ℤ) + - -((q : ℤ) * k) + n * (-(k : ℤ)) := by
    have : ((n - 1 - q : ℕ) : ℤ) = n - 1 - q := by omega
    rw [this]; ring
  rw [h, tw_add, tw_mul_n (by omega), mul_one]

theorem idft_reverse {n : ℕ} (F : ℕ → ℂ) {j : ℕ} (hj : j < n) :
    idft n (fun k => tw n k * (starRingEnd ℂ) (F k)) j = (starRingEnd ℂ) (idft n F (n - 1 - j)) := by
  unfold idft
  rw [map_div₀, map_sum, map_natCast]
  congr 1
  refine sum_congr rfl fun k _ => ?_
  show tw n k * (starRingEnd ℂ) (F k) * tw n (j * k) = _
  rw [map_mul, tw_conj, mul_comm (tw n _), mul_assoc, ← tw_add]
  congr 1
  have h : (k : ℤ) + (j : ℤ) * k = -(((n - 1 - j : ℕ) : ℤ) * (k : ℤ)) + n * k := by
    have : ((n - 1 - j : ℕ) : ℤ) = n - 1 - j := by omega
    rw [this]; ring
  rw [h, tw_add, tw_mul_n (by omega), mul_one]

/-! ### Kernels act column by column -/

theorem onfly_cols {dev : Device} {th : ℝ} {M N : ℕ} {W W' : ℕ → ℕ → ℂ} {w w' : ℕ → ℕ → Phase} {v : List ℝ} {const : ConstArg}
    {ls fl : Bool} (φ : ℂ →+ ℂ) (hφ : ∀ (z : ℂ) (r : ℝ), φ (z * r) = φ z * r) (σ : ℕ → ℕ) (hσ : ∀ j < N, σ j < N)
    (hW : ∀ i < M, ∀ j < N, W' i j = φ (W i (σ j))) (hw : ∀ i < M, ∀ j < N, w' i j = w i (σ j)) {T : ℤ → ℕ → ℂ}
    (h : indexedSumOnfly dev th M N (fun _ _ => 0) W w v const ls fl = .ok T) :
    ∃ T', indexedSumOnfly dev th M N (fun _ _ => 0) W' w' v const ls fl = .ok T' ∧
      ∀ r, ∀ j < N, T' r j = φ (T r (σ j)) := by
  unfold indexedSumOnfly onflyBody at h ⊢
  obtain ⟨body, hb, h⟩ := bind_ok h
  obtain ⟨c, hc, hb⟩ := bind_ok hb
  obtain ⟨p, hp, hb⟩ := bind_ok hb
  simp only [pure_eq_ok, Except.ok.injEq] at hb h
  refine ⟨_, by simp only [hc, ok_bind, hp, pure_eq_ok]; rfl, fun r j hj => ?_⟩
  rw [← h, ← hb]
  rw [runOps_serial _ (indexedSumBody_cols _ _ _ _ _ _ _) _ _ _ hj, runOps_serial _ (indexedSumBody_cols _ _ _ _ _ _ _) _ _ _ (hσ j hj),
    zero_add, zero_add, map_sum]
  refine sum_congr rfl fun i hi => ?_
  have hi := mem_range.1 hi
  unfold indexedSumBody
  rw [hw i hi j hj, hW i hi j hj]
  cases w i (σ j) with
  | inf => simp [contrib]
  | fin x =>
    simp only [contrib]
    split
    · rw [hφ]
    · rw [map_zero]

/-- `ssqueeze` acts column by column: what happens to the columns of its input happens to those of its output. -/
theorem ssqueeze_cols (a : SsqArgs) (hS : a.Sfs = none ∨ (a.transform = .stft ∧ ∃ d v, a.ssqFreqs = .arr d v)) (Wx' : ℕ → ℕ → ℂ) (w' : Option (ℕ → ℕ → Phase))
    (dWx' : Option (ℕ → ℕ → ℂ)) (gamma' : Option ℝ) (hwS : w'.isNone = a.w.isNone) (hdS : dWx'.isNone = a.dWx.isNone)
    (hgS : gamma'.isNone = a.gamma.isNone) (φ : ℂ →+ ℂ) (hφ : ∀ (z : ℂ) (r : ℝ), φ (z * r) = φ z * r)
    (σ : ℕ → ℕ) (hσ : ∀ j < a.N, σ j < a.N)
    (hneg : (∃ w, w' = some w ∧ hasNegative a.M a.N w) → ∃ w, a.w = some w ∧ hasNegative a.M a.N w)
    (hV : ∀ i < a.M, ∀ j < a.N, applySqueezing a.squeezing a.M Wx' i j = φ (applySqueezing a.squeezing a.M a.Wx i (σ j)))
    (hP : ∀ i < a.M, ∀ j < a.N,
      Spec.usedPhase { a with Wx := Wx', w := w', dWx := dWx', gamma := gamma' } (applySqueezing a.squeezing a.M Wx') i j =
        Spec.usedPhase a (applySqueezing a.squeezing a.M a.Wx) i (σ j))
    {T : ℤ → ℕ → ℂ} {f : List ℝ} (h : ssqueeze a = .ok (T, f)) :
    ∃ T', ssqueeze { a with Wx := Wx', w := w', dWx := dWx', gamma := gamma' } = .ok (T', f) ∧
      ∀ r, ∀ j < a.N, T' r j = φ (T r (σ j)) := by
  unfold ssqueeze at h
  obtain ⟨dt, hdt, h⟩ := bind_ok h
  obtain ⟨sc, hsc, h⟩ := bind_ok h
  obtain ⟨fr, hfr, h⟩ := bind_ok h
  obtain ⟨c, hc, h⟩ := bind_ok h
  obtain ⟨ls, hls, h⟩ := bind_ok h
  obtain ⟨Tx, hT, h⟩ := bind_ok h
  simp only [pure_eq_ok, Except.ok.injEq, Prod.mk.injEq] at h
  obtain ⟨rfl, rfl⟩ := h
  have hk : a.Sfs = none ∨ ls = false := by
    rcases hS with hS | ⟨h1, d, v, h2⟩
    · exact Or.inl hS
    · right
      unfold ssqFreqsOf at hfr
      simp only [h2, h1, if_true, Except.ok.injEq] at hfr
      rw [← hfr] at hls
      simpa [SsqType.isLog] using hls.symm
  rw [kernel_eq _ _ _ _ _ (Or.inr hk)] at hT
  obtain ⟨T', hT', hT'e⟩ := onfly_cols φ hφ σ hσ hV hP hT
  refine ⟨T', ?_, hT'e⟩
  have hp : ssqProcessArgs { a with Wx := Wx', w := w', dWx := dWx', gamma := gamma' } = .ok dt := by
    unfold ssqProcessArgs at hdt ⊢
    simp only [hwS, hdS, hgS]
    split at hdt
    · simp at hdt
    next h1 =>
    rw [if_neg h1]
    split at hdt
    · simp at hdt
    next h2 =>
    rw [if_neg (fun h => h2 (hneg h))]
    exact hdt
  have hs : ssqScales { a with Wx := Wx', w := w', dWx := dWx', gamma := gamma' } = .ok sc := hsc
  have hf : ssqFreqsOf { a with Wx := Wx', w := w', dWx := dWx', gamma := gamma' } dt sc.1 sc.2 = .ok fr := hfr
  unfold ssqueeze
  rw [hp, ok_bind, hs, ok_bind, hf, ok_bind, hc, ok_bind, hls, ok_bind,
    kernel_eq { a with Wx := Wx', w := w', dWx := dWx', gamma := gamma' } _ _ _ _ (Or.inr hk), hT', ok_bind]
  rfl

/-! ### `cwt` without padding -/

theorem cwt_unpadded (x : List ℝ) (a : CwtArgs) (ha : a.padtype = none) :
    cwt x a = (cwtDt a.fs a.t x.length).bind fun r => (checkGmw a.wavelet.gmw a.l1Norm).bind fun _ =>
      (processScales a.scales x.length (some a.wavelet.sw) (cwtNv a) true a.downsample).bind fun sc =>
      .ok ((cwtRun a r.2 sc.1 x.length x 0).1, sc.1, (cwtRun a r.2 sc.1 x.length x 0).2) := by
  unfold cwt
  rw [ha]
  rfl

theorem cwtRun_unpadded (a : CwtArgs) (ha : a.padtype = none) (dt : ℝ) (scales : List ℝ) (x : List ℝ) :
    cwtRun a dt scales x.length x 0 =
      (List.zipWith (fun (s : ℝ) (p : List ℂ) => (List.range x.length).map fun j : ℕ =>
          ((a.norm s : ℝ) : ℂ) * idft x.length (fun k => p.getD k 0 * dft x.length (fun q => ((x.getD q 0 : ℝ) : ℂ)) k) j)
        scales (psihRows a.wavelet.fn a.vectorized x.length scales),
       List.zipWith (fun (s : ℝ) (p : List ℂ) => (List.range x.length).map fun j : ℕ =>
          ((a.norm s : ℝ) : ℂ) * idft x.length (fun k => I * ((Spec.xi x.length k : ℝ) : ℂ) / (dt : ℂ) *
            (p.getD k 0 * dft x.length (fun q => ((x.getD q 0 : ℝ) : ℂ)) k)) j)
        scales (psihRows a.wavelet.fn a.vectorized x.length scales)) := by
  have h := cwtRun_eq a dt scales x.length x 0 (by omega)
  have h1 : a.cols x.length x.length = x.length := by unfold CwtArgs.cols; split <;> rfl
  have h2 : ∀ j, a.first 0 + j = j := by intro j; unfold CwtArgs.first; split <;> simp
  rw [h1] at h
  simp only [h2] at h
  exact h

end Ssq
