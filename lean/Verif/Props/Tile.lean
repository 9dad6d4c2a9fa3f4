import Verif.Props.Cwt
import Verif.Props.Covariance
import Verif.Props.SsqCwtFull

/-!
# C194: periodic signals, and padding before the transform
-/
namespace Ssq
open Complex Finset

namespace Spec

/-- `np.tile(l, m)`: `m` copies one after the other. -/
def tile {α : Type} (m : ℕ) (l : List α) : List α := (List.replicate m l).flatten

end Spec

theorem tile_length {α : Type} (m : ℕ) (l : List α) : (Spec.tile m l).length = m * l.length := by
  simp [Spec.tile]

theorem tile_getD {α : Type} (d : α) (m : ℕ) (l : List α) (i : ℕ) (hi : i < m * l.length) :
    (Spec.tile m l).getD i d = l.getD (i % l.length) d := by
  induction m generalizing i with
  | zero => omega
  | succ m ih =>
    have hpos : 0 < l.length := by
      rcases Nat.eq_zero_or_pos l.length with h | h
      · rw [h] at hi; simp at hi
      · exact h
    have e : Spec.tile (m + 1) l = l ++ Spec.tile m l := by simp [Spec.tile, List.replicate_succ]
    rw [e]
    by_cases h : i < l.length
    · rw [List.getD_append _ _ _ _ h, Nat.mod_eq_of_lt h]
    · rw [List.getD_append_right _ _ _ _ (by omega), ih _ (by rw [Nat.succ_mul] at hi; omega)]
      congr 1
      rw [Nat.mod_eq_sub_mod (by omega : i ≥ l.length)]

theorem tile_range_map (m N : ℕ) (g : ℕ → ℂ) :
    Spec.tile m ((List.range N).map g) = (List.range (m * N)).map fun j => g (j % N) := by
  apply List.ext_getElem
  · simp [tile_length]
  · intro j h1 h2
    have hj : j < m * N := by simpa using h2
    have hN : 0 < N := by
      rcases Nat.eq_zero_or_pos N with h | h
      · rw [h] at hj; simp at hj
      · exact h
    rw [← List.getD_eq_getElem _ 0 h1, tile_getD _ _ _ _ (by simpa using hj)]
    simp only [List.length_map, List.length_range, List.getElem_map, List.getElem_range]
    rw [getD_map_range _ _ (Nat.mod_lt _ hN)]

theorem tw_mul_cancel {m N : ℕ} (hm : m ≠ 0) (a : ℤ) : tw (m * N) (m * a) = tw N a := by
  unfold tw
  congr 1
  push_cast
  have : (m : ℂ) ≠ 0 := by exact_mod_cast hm
  rcases Nat.eq_zero_or_pos N with h | h
  · simp [h]
  · have : (N : ℂ) ≠ 0 := by exact_mod_cast h.ne'
    field_simp

/-- Sum over `m` blocks of length `N`. -/
theorem sum_blocks (m N : ℕ) (F : ℕ → ℂ) : ∑ j ∈ range (m * N), F j = ∑ q ∈ range N, ∑ r ∈ range m, F (q + r * N) := by
  rw [sum_comm]
  induction m with
  | zero => simp
  | succ m ih =>
    rw [Nat.succ_mul, sum_range_add, ih, sum_range_succ]
    congr 1
    exact sum_congr rfl fun q _ => by rw [add_comm]

/-- The spectrum of a repeated signal: `m` times the signal's at the multiples of `m`, and zero elsewhere. -/
theorem dft_tile {m N : ℕ} (hm : m ≠ 0) (hN : N ≠ 0) (f : ℕ → ℂ) (k : ℕ) :
    dft (m * N) (fun q => f (q % N)) k = if m ∣ k then m * dft N f (k / m) else 0 := by
  have hmN : m * N ≠ 0 := Nat.mul_ne_zero hm hN
  have key : dft (m * N) (fun q => f (q % N)) k =
      ∑ q ∈ range N, f q * tw (m * N) (-(q * k)) * ∑ r ∈ range m, tw m (r * (-(k : ℤ))) := by
    unfold dft
    rw [sum_blocks]
    refine sum_congr rfl fun q hq => ?_
    rw [mul_sum]
    refine sum_congr rfl fun r _ => ?_
    have e : (-(((q + r * N : ℕ) : ℤ) * k)) = -(q * k) + N * (r * (-(k : ℤ))) := by push_cast; ring
    simp only []
    rw [Nat.add_mul_mod_self_right, Nat.mod_eq_of_lt (mem_range.1 hq), e, tw_add, Nat.mul_comm m N, tw_mul_cancel hN,
      mul_assoc]
  have hs := sum_tw hm (-(k : ℤ))
  have hdiv : (m : ℤ) ∣ -(k : ℤ) ↔ m ∣ k := by rw [dvd_neg, Int.natCast_dvd_natCast]
  rw [key]
  simp only [hdiv] at hs
  simp only [hs]
  split
  · next h =>
    obtain ⟨c, rfl⟩ := h
    rw [Nat.mul_div_cancel_left _ (Nat.pos_of_ne_zero hm)]
    unfold dft
    rw [mul_sum]
    refine sum_congr rfl fun q _ => ?_
    have e : (-((q : ℤ) * ((m * c : ℕ) : ℤ))) = m * (-(q * c)) := by push_cast; ring
    rw [e, tw_mul_cancel hm]
    ring
  · simp

theorem idft_tile {m N : ℕ} (hm : m ≠ 0) (hN : N ≠ 0) (G f : ℕ → ℂ) (j : ℕ) :
    idft (m * N) (fun k => G k * dft (m * N) (fun q => f (q % N)) k) j = idft N (fun k => G (m * k) * dft N f k) (j % N) := by
  unfold idft
  rw [Nat.mul_comm m N, sum_blocks N m]
  have hmC : (m : ℂ) ≠ 0 := by exact_mod_cast hm
  have hNC : (N : ℂ) ≠ 0 := by exact_mod_cast hN
  have key : ∀ q ∈ range m, ∑ r ∈ range N, G (q + r * m) * dft (N * m) (fun q => f (q % N)) (q + r * m) * tw (N * m) (j * ((q + r * m : ℕ) : ℤ)) =
      if q = 0 then m * ∑ r ∈ range N, G (m * r) * dft N f r * tw N (((j % N : ℕ) : ℤ) * r) else 0 := by
    intro q hq
    have hq' := mem_range.1 hq
    split
    · next h =>
      subst h
      rw [mul_sum]
      refine sum_congr rfl fun r _ => ?_
      have e : ((j : ℤ) * ((0 + r * m : ℕ) : ℤ)) = m * (j * r) := by push_cast; ring
      rw [e, Nat.mul_comm N m, dft_tile hm hN, zero_add, if_pos (Nat.dvd_mul_left _ _), Nat.mul_div_cancel _ (Nat.pos_of_ne_zero hm),
        tw_mul_cancel hm, tw_mod hN, Nat.mul_comm r m]
      ring
    · next h =>
      refine sum_eq_zero fun r _ => ?_
      have : ¬ m ∣ q + r * m := by
        rw [Nat.dvd_add_left (Nat.dvd_mul_left _ _)]
        exact fun hd => h (Nat.eq_zero_of_dvd_of_lt hd hq')
      rw [Nat.mul_comm N m, dft_tile hm hN, if_neg this]
      ring
  rw [sum_congr rfl key, sum_ite_eq' (range m) 0, if_pos (mem_range.2 (Nat.pos_of_ne_zero hm))]
  push_cast
  field_simp

theorem xi_tile {m N k : ℕ} (hm : m ≠ 0) (hN : N ≠ 0) : Spec.xi (m * N) (m * k) = Spec.xi N k := by
  unfold Spec.xi
  have hmR : (m : ℝ) ≠ 0 := by exact_mod_cast hm
  have hNR : (N : ℝ) ≠ 0 := by exact_mod_cast hN
  have hc : 2 * (m * k) ≤ m * N ↔ 2 * k ≤ N := by
    rw [show 2 * (m * k) = m * (2 * k) by ring]
    exact Nat.mul_le_mul_left_iff (Nat.pos_of_ne_zero hm)
  simp only [hc]
  split <;> (push_cast; field_simp)

theorem wavSample_tile {m N k : ℕ} (hm : m ≠ 0) (hN : N ≠ 0) (f : ℝ → ℂ) (s : ℝ) :
    Spec.wavSample f (m * N) s (m * k) = Spec.wavSample f N s k := by
  unfold Spec.wavSample
  have hc : 2 * (m * k) = m * N ↔ 2 * k = N := by
    rw [show 2 * (m * k) = m * (2 * k) by ring]
    exact Nat.mul_right_inj hm
  simp only [hc, xi_tile hm hN]

/-- The transform of an unpadded signal with a real wavelet. -/
theorem cwtRun_unpadded_real (a : CwtArgs) (ha : a.padtype = none) (hre : ∀ w, (a.wavelet.fn.eval w).im = 0) (dt : ℝ)
    (scales : List ℝ) (x : List ℝ) :
    cwtRun a dt scales x.length x 0 =
      (scales.map fun s => (List.range x.length).map fun j : ℕ => ((a.norm s : ℝ) : ℂ) *
          idft x.length (fun k => Spec.wavSample a.wavelet.fn.eval x.length s k * dft x.length (fun q => ((x.getD q 0 : ℝ) : ℂ)) k) j,
       scales.map fun s => (List.range x.length).map fun j : ℕ => ((a.norm s : ℝ) : ℂ) *
          idft x.length (fun k => (I * ((Spec.xi x.length k : ℝ) : ℂ) / (dt : ℂ) * Spec.wavSample a.wavelet.fn.eval x.length s k) *
            dft x.length (fun q => ((x.getD q 0 : ℝ) : ℂ)) k) j) := by
  rw [cwtRun_unpadded a ha, psihRows_real _ hre, List.zipWith_map_right, List.zipWith_map_right, zipWith_self_map, zipWith_self_map]
  refine Prod.ext ?_ ?_
  · refine List.map_congr_left fun s _ => List.map_congr_left fun j _ => ?_
    refine congrArg _ (idft_congr (fun k hk => ?_) j)
    rw [psihRow_getD _ _ _ _ hk]
  · refine List.map_congr_left fun s _ => List.map_congr_left fun j _ => ?_
    refine congrArg _ (idft_congr (fun k hk => ?_) j)
    rw [psihRow_getD _ _ _ _ hk, mul_assoc]

/-- What `cwt` computes of a repeated signal, row by row. -/
theorem cwtRun_tile (a : CwtArgs) (ha : a.padtype = none) (hre : ∀ w, (a.wavelet.fn.eval w).im = 0) (dt : ℝ) (scales : List ℝ)
    (x : List ℝ) (hx : 0 < x.length) (m : ℕ) (hm : 0 < m) :
    cwtRun a dt scales (Spec.tile m x).length (Spec.tile m x) 0 =
      ((cwtRun a dt scales x.length x 0).1.map (Spec.tile m), (cwtRun a dt scales x.length x 0).2.map (Spec.tile m)) := by
  have hm' : m ≠ 0 := hm.ne'
  have hN : x.length ≠ 0 := hx.ne'
  rw [cwtRun_unpadded_real a ha hre, cwtRun_unpadded_real a ha hre, tile_length, List.map_map, List.map_map]
  have hd : ∀ k, dft (m * x.length) (fun q => (((Spec.tile m x).getD q 0 : ℝ) : ℂ)) k =
      dft (m * x.length) (fun q => ((x.getD (q % x.length) 0 : ℝ) : ℂ)) k :=
    fun k => dft_congr (fun q hq => by rw [tile_getD _ _ _ _ hq]) k
  refine Prod.ext ?_ ?_
  · refine List.map_congr_left fun s _ => ?_
    rw [Function.comp_apply, tile_range_map]
    refine List.map_congr_left fun j _ => ?_
    refine congrArg _ ?_
    have e := idft_tile hm' hN (Spec.wavSample a.wavelet.fn.eval (m * x.length) s) (fun q => ((x.getD q 0 : ℝ) : ℂ)) j
    refine (idft_congr (fun k _ => by rw [hd]) j).trans (e.trans (idft_congr (fun k _ => ?_) _))
    rw [wavSample_tile hm' hN]
  · refine List.map_congr_left fun s _ => ?_
    rw [Function.comp_apply, tile_range_map]
    refine List.map_congr_left fun j _ => ?_
    refine congrArg _ ?_
    have e := idft_tile hm' hN (fun k => I * ((Spec.xi (m * x.length) k : ℝ) : ℂ) / (dt : ℂ) *
      Spec.wavSample a.wavelet.fn.eval (m * x.length) s k) (fun q => ((x.getD q 0 : ℝ) : ℂ)) j
    refine (idft_congr (fun k _ => by rw [hd]) j).trans (e.trans (idft_congr (fun k _ => ?_) _))
    rw [wavSample_tile hm' hN, xi_tile hm' hN]

/-- **C194.** Without padding, with an array of scales and a real wavelet, the transform of a signal repeated `m` times is the
transform of the signal repeated `m` times, derivative included; the two calls fail alike. -/
theorem C194_tile (x : List ℝ) (hx : 0 < x.length) (m : ℕ) (hm : 0 < m) (a : CwtArgs) (ha : a.padtype = none)
    (hre : ∀ w, (a.wavelet.fn.eval w).im = 0) (ht : a.t = none) (shape : List ℕ) (dty : FDtype) (v : List ℝ)
    (hsc : a.scales = .arr shape dty v) :
    cwt (Spec.tile m x) a =
      (cwt x a).map fun r => (r.1.map (Spec.tile m), r.2.1, r.2.2.map (Spec.tile m)) := by
  rw [cwt_unpadded _ a ha, cwt_unpadded _ a ha, ht, hsc]
  have e1 : ∀ N, cwtDt a.fs none N = cwtDt a.fs none x.length := fun N => rfl
  have e2 : ∀ N, processScales (.arr shape dty v) N (some a.wavelet.sw) (cwtNv a) true a.downsample =
    processScales (.arr shape dty v) x.length (some a.wavelet.sw) (cwtNv a) true a.downsample := fun N => rfl
  rw [e1, e2]
  cases cwtDt a.fs none x.length with
  | error e => rfl
  | ok r =>
    cases checkGmw a.wavelet.gmw a.l1Norm with
    | error e => rfl
    | ok u =>
      cases processScales (.arr shape dty v) x.length (some a.wavelet.sw) (cwtNv a) true a.downsample with
      | error e => rfl
      | ok sc =>
        simp only [Except.bind, Except.map, cwtRun_tile a ha hre _ _ x hx m hm]

theorem l2Scale_slice (b : Bool) (sc : List ℝ) (rows : List (List ℂ)) (n1 N : ℕ) :
    l2Scale b sc (rows.map fun row => (row.drop n1).take N) = (l2Scale b sc rows).map fun row => (row.drop n1).take N := by
  unfold l2Scale
  split
  · rfl
  · rw [List.zipWith_map_right, List.map_zipWith]
    simp only [List.map_drop, List.map_take]

/-- **C194.** With an array of scales, `cwt` with padding returns what `cwt` without padding returns for the padded signal:
all of it with `rpadded=True`, otherwise the samples from `n1` to `n1 + N`. -/
theorem C194_pad (x : List ℝ) (hx : 0 < x.length) (t : PadType) (a : CwtArgs) (ha : a.padtype = some (padName t))
    (ht : a.t = none) (shape : List ℕ) (dty : FDtype) (v : List ℝ) (hsc : a.scales = .arr shape dty v) :
    ∃ xp, ∃ n1 : ℕ, ∃ nUp n2 : ℤ, padsignal true x (padName t) none = .ok (xp, nUp, n1, n2) ∧
      Spec.Padded (some t) x xp n1 ∧
      cwt x a = (cwt xp { a with padtype := none }).map fun r => if a.rpadded then r else
        (r.1.map fun row => (row.drop n1).take x.length, r.2.1, r.2.2.map fun row => (row.drop n1).take x.length) := by
  obtain ⟨xp, n1, hpad, hp, -⟩ := cwtPad_ok (some t) x hx
  have hsig : ∃ nUp n2 : ℤ, padsignal true x (padName t) none = .ok (xp, nUp, n1, n2) := by
    have h : cwtPad x (some (padName t)) = .ok (xp, (n1 : ℤ)) := hpad
    unfold cwtPad at h
    obtain ⟨r, hr, h⟩ := bind_ok h
    simp only [Except.ok.injEq, Prod.mk.injEq] at h
    refine ⟨r.2.1, r.2.2.2, ?_⟩
    rw [hr, ← h.1, ← h.2]
  obtain ⟨nUp, n2, hsig⟩ := hsig
  refine ⟨xp, n1, nUp, n2, hsig, hp, ?_⟩
  have hpad' : cwtPad x a.padtype = .ok (xp, (n1 : ℤ)) := by rw [ha]; exact hpad
  have hrun : ∀ dt sc, cwtRun a dt sc x.length xp n1 =
      if a.rpadded then cwtRun { a with padtype := none } dt sc xp.length xp 0 else
        ((cwtRun { a with padtype := none } dt sc xp.length xp 0).1.map fun row => (row.drop n1).take x.length,
         (cwtRun { a with padtype := none } dt sc xp.length xp 0).2.map fun row => (row.drop n1).take x.length) := by
    intro dt sc
    have u0 : ∀ N (M : ℤ), cwtUnpad { a with padtype := none } M N = id := by
      intro N M; funext row; unfold cwtUnpad; simp
    have u1 : cwtUnpad a n1 x.length = if a.rpadded then id else fun row => (row.drop n1).take x.length := by
      funext row
      unfold cwtUnpad
      rw [ha]
      cases a.rpadded <;> simp [unpad_take]
    unfold cwtRun
    simp only [u0, u1, List.map_id]
    cases a.rpadded
    · simp only [Bool.false_eq_true, if_false, l2Scale_slice]
    · simp only [if_true, List.map_id]
  have hL : cwt x a = (cwtDt a.fs a.t x.length).bind fun r => (checkGmw a.wavelet.gmw a.l1Norm).bind fun _ =>
      (processScales a.scales x.length (some a.wavelet.sw) (cwtNv a) true a.downsample).bind fun sc =>
      .ok ((cwtRun a r.2 sc.1 x.length xp n1).1, sc.1, (cwtRun a r.2 sc.1 x.length xp n1).2) := by
    unfold cwt
    rw [hpad']
    rfl
  have hR := cwt_unpadded xp { a with padtype := none } rfl
  have e1 : cwtDt a.fs a.t xp.length = cwtDt a.fs a.t x.length := by rw [ht]; rfl
  have e2 : processScales a.scales xp.length (some a.wavelet.sw) (cwtNv { a with padtype := none }) true a.downsample =
      processScales a.scales x.length (some a.wavelet.sw) (cwtNv a) true a.downsample := by
    unfold cwtNv
    rw [hsc]
    rfl
  rw [hL, hR]
  simp only [e1, e2]
  cases cwtDt a.fs a.t x.length with
  | error e => rfl
  | ok r =>
    cases checkGmw a.wavelet.gmw a.l1Norm with
    | error e => rfl
    | ok u =>
      cases processScales a.scales x.length (some a.wavelet.sw) (cwtNv a) true a.downsample with
      | error e => rfl
      | ok sc =>
        simp only [Except.bind, Except.map, hrun]
        cases a.rpadded <;> rfl

example (t : PadType) : ∃ shape dty v, (argsR (some t)).scales = .arr shape dty v ∧ (argsR (some t)).t = none :=
  ⟨_, _, _, rfl, rfl⟩

example : ∃ W dW, cwt [3, 1, 4, 1, 5] (argsR none) = .ok (W, [1, 2, 4], dW) ∧
    cwt [3, 1, 4, 1, 5, 3, 1, 4, 1, 5] (argsR none) = .ok (W.map (Spec.tile 2), [1, 2, 4], dW.map (Spec.tile 2)) := by
  obtain ⟨W, dW, h⟩ := argsR_ok [3, 1, 4, 1, 5] (by simp) none
  refine ⟨W, dW, h, ?_⟩
  have := C194_tile [3, 1, 4, 1, 5] (by simp) 2 (by norm_num) (argsR none) rfl (fun w => by simp [argsR, WFn.eval]) rfl _ _ _ rfl
  rw [h] at this
  exact this

end Ssq
