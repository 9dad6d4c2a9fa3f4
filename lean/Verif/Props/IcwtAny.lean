import Verif.Props.Icwt

/-!
# C40 for every wavelet and every array of scales
-/
namespace Ssq
open Complex

namespace Spec

/-- The imaginary parts of all samples of the wavelet at the scales `v` add up to next to nothing beside the real parts: the ratio of the sums (not of the moduli) is below `1e-8`,
with signs, and with `-1/0` taken as minus infinity. -/
def ImagNegligible (f : ℝ → ℂ) (L : ℕ) (v : List ℝ) : Prop :=
  let re := ∑ i ∈ Finset.range v.length, ∑ k ∈ Finset.range L, (wavSample f L (v.getD i 0) k).re
  let im := ∑ i ∈ Finset.range v.length, ∑ k ∈ Finset.range L, (wavSample f L (v.getD i 0) k).im
  if re = 0 then im < 0 else im / re < 1 / 10 ^ 8

/-- Where imaginary parts are dropped: never for a wavelet of real dtype, else at all scales or none if vectorised, at each scale for itself if not. -/
def Dropped (cplx vec : Bool) (f : ℝ → ℂ) (L : ℕ) (v : List ℝ) (i : ℕ) : Prop :=
  cplx = true ∧ ImagNegligible f L (if vec then v else [v.getD i 0])

open Classical in
/-- Sample `k` of the wavelet at scale `s` as `cwt` uses it: with the Nyquist sample halved, and without imaginary part where that was dropped (`D`). -/
noncomputable def usedSample (f : ℝ → ℂ) (L : ℕ) (D : Prop) (s : ℝ) (k : ℕ) : ℂ :=
  if D then (((wavSample f L s k).re : ℝ) : ℂ) else wavSample f L s k

/-- The frequency response: the samples of the wavelets at all scales with weights `w`, over the admissibility constant `C`, times 2 for the analytic part. -/
noncomputable def gain (cplx vec : Bool) (f : ℝ → ℂ) (L : ℕ) (C : ℝ) (w : ℕ → ℝ) (v : List ℝ) (k : ℕ) : ℂ :=
  ∑ i ∈ Finset.range v.length, ((2 / C * w i : ℝ) : ℂ) * usedSample f L (Dropped cplx vec f L v i) (v.getD i 0) k

end Spec

/-- Whether the wavelet's values have a complex dtype. -/
def WFn.isCplx : WFn → Bool
  | .real _ => false
  | .cplx _ => true

/-- What `icwt` does to the transform: a sum over the scales with weights `w`, and `c` times the mean. -/
def SumsWith (v : List ℝ) (w : ℕ → ℝ) (c : ℕ) (a : IcwtArgs) (n : ℕ) (W : List (List ℂ)) (xh : List ℝ) : Prop :=
  W.length = v.length ∧ xh.length = n ∧ (∀ i < v.length, 0 < w i) ∧ ∀ j < n, xh.getD j 0 =
    ∑ i ∈ Finset.range v.length, 2 / a.admSsq * w i * ((ent W i j).re / (if a.l1Norm then 1 else Real.sqrt (v.getD i 0))) + c * a.xMean

theorem process_log_pos {sh : List ℕ} {d : FDtype} {v : List ℝ} {N : ℕ} {wv : Option ScaleWavelet}
    {q : Option ℚ} {up : Bool} {ds : ℕ} {r : List ℝ × ScaleType × ℕ × Nv} {m : ℤ}
    (hi : inferScaletype d v = .ok (.log, .int m))
    (h : processScales (.arr sh d v) N wv q up ds = .ok r) : 0 < m := by
  unfold processScales at h
  simp only at h
  split at h
  · simp at h
  · simp only [hi, ok_bind] at h
    split at h
    · simp at h
    · obtain ⟨k, hk, h⟩ := bind_ok h
      unfold positiveInteger at hk
      split at hk
      · rename_i hc
        have h0 : (0 : ℚ) < m := hc.1
        exact_mod_cast h0
      · simp at hk

/-- One piece. -/
theorem leaf_sums {sh : List ℕ} {d : FDtype} {v : List ℝ} {N : ℕ} {wv : Option ScaleWavelet}
    {q : Option ℚ} {up : Bool} {ds : ℕ} {r : List ℝ × ScaleType × ℕ × Nv} {st : ScaleType} {nv : Nv}
    (hi : inferScaletype d v = .ok (st, nv)) (hst : st ≠ .logPiecewise) (h : processScales (.arr sh d v) N wv q up ds = .ok r)
    (hpos : ∀ s ∈ v, 0 < s) (a : IcwtArgs) (n : ℕ) (W : List (List ℂ)) (hlen : v.length = W.length) :
    SumsWith v (Spec.icwtWeight st nv v) 1 a n W (icwtLeaf a n W v r.2.1 r.2.2.2) := by
  obtain ⟨e1, e2, e3⟩ := process_kind hi h
  have hs : ∀ i < v.length, 0 < v.getD i 0 := fun i hi => by
    rw [List.getD_eq_getElem _ _ hi]; exact hpos _ (List.getElem_mem _)
  refine ⟨hlen.symm, icwtLeaf_length _ _ _ _ _ _, ?_, ?_⟩
  · intro i hi'
    have := hs i hi'
    have hpi := Real.pi_pos
    have hl : 0 < Real.log 2 := Real.log_pos (by norm_num)
    rcases infer_kind hi with ⟨rfl, m, rfl⟩ | ⟨rfl, rfl⟩ | ⟨rfl, -⟩
    · have hm : 0 < m := process_log_pos hi h
      have : (0 : ℝ) < m := by exact_mod_cast hm
      simp only [Spec.icwtWeight]
      positivity
    · simp only [Spec.icwtWeight]
      positivity
    · exact absurd rfl hst
  · intro j hj
    rcases infer_kind hi with ⟨rfl, m, rfl⟩ | ⟨rfl, rfl⟩ | ⟨rfl, -⟩
    · rw [e2, e3 (by simp), icwtLeaf_value a n W v .log (.int m) hlen hpos (Or.inl ⟨rfl, m, rfl⟩) hj]
      simp
    · rw [e2, icwtLeaf_value a n W v .linear r.2.2.2 hlen hpos (Or.inr rfl) hj]
      have : ∀ i, Spec.icwtWeight .linear r.2.2.2 v i = Spec.icwtWeight .linear .none v i := by
        intro i; unfold Spec.icwtWeight; cases r.2.2.2 <;> rfl
      simp [this]
    · exact absurd rfl hst

/-- Two pieces. -/
theorem join_sums (v : List ℝ) (p : ℕ) (hp : p ≤ v.length) (w0 w1 : ℕ → ℝ) (c0 c1 : ℕ) (a : IcwtArgs) (n : ℕ) (W : List (List ℂ))
    (hW : v.length = W.length) (x y : List ℝ) (h0 : SumsWith (v.take p) w0 c0 a n (W.take p) x) (h1 : SumsWith (v.drop p) w1 c1 a n (W.drop p) y) :
    SumsWith v (fun i => if i < p then w0 i else w1 (i - p)) (c0 + c1) a n W (List.zipWith (fun u v : ℝ => u + v) x y) := by
  obtain ⟨-, l0, p0, v0⟩ := h0
  obtain ⟨-, l1, p1, v1⟩ := h1
  have hl0 : (v.take p).length = p := by simp; omega
  have hl1 : (v.drop p).length = v.length - p := by simp
  rw [hl0] at p0 v0
  rw [hl1] at p1 v1
  refine ⟨hW.symm, by simp [l0, l1], ?_, ?_⟩
  · intro i hi
    simp only
    split
    · rename_i h; exact p0 i h
    · exact p1 _ (by omega)
  · intro j hj
    rw [List.getD_eq_getElem _ _ (by simp [l0, l1, hj]), List.getElem_zipWith, ← List.getD_eq_getElem _ 0, ← List.getD_eq_getElem _ 0,
      v0 j hj, v1 j hj]
    have hsplit : v.length = p + (v.length - p) := by omega
    conv_rhs => rw [hsplit, Finset.sum_range_add]
    have hA : ∀ i ∈ Finset.range p, 2 / a.admSsq * w0 i * ((ent (W.take p) i j).re / (if a.l1Norm then 1 else Real.sqrt ((v.take p).getD i 0))) =
        2 / a.admSsq * (if i < p then w0 i else w1 (i - p)) * ((ent W i j).re / (if a.l1Norm then 1 else Real.sqrt (v.getD i 0))) := by
      intro i hi
      rw [Finset.mem_range] at hi
      have g1 : (v.take p).getD i 0 = v.getD i 0 := by
        rw [List.getD_eq_getElem _ _ (by omega), List.getD_eq_getElem _ _ (by omega), List.getElem_take]
      have g2 : ent (W.take p) i j = ent W i j := by
        unfold ent
        rw [List.getD_eq_getElem (W.take p) [] (by simp; omega), List.getD_eq_getElem W [] (by omega), List.getElem_take]
      rw [g1, g2, if_pos hi]
    have hB : ∀ i ∈ Finset.range (v.length - p),
        2 / a.admSsq * w1 i * ((ent (W.drop p) i j).re / (if a.l1Norm then 1 else Real.sqrt ((v.drop p).getD i 0))) =
        2 / a.admSsq * (if p + i < p then w0 (p + i) else w1 (p + i - p)) * ((ent W (p + i) j).re / (if a.l1Norm then 1 else Real.sqrt (v.getD (p + i) 0))) := by
      intro i hi
      rw [Finset.mem_range] at hi
      have g1 : (v.drop p).getD i 0 = v.getD (p + i) 0 := by
        rw [List.getD_eq_getElem _ _ (by omega), List.getD_eq_getElem _ _ (by omega), List.getElem_drop]
      have g2 : ent (W.drop p) i j = ent W (p + i) j := by
        unfold ent
        rw [List.getD_eq_getElem (W.drop p) [] (by simp; omega), List.getD_eq_getElem W [] (by omega), List.getElem_drop]
      rw [g1, g2, if_neg (show ¬ p + i < p by omega), Nat.add_sub_cancel_left]
    rw [Finset.sum_congr rfl hA, Finset.sum_congr rfl hB]
    push_cast
    ring

theorem processScales_infer {sh : List ℕ} {d : FDtype} {v : List ℝ} {N : ℕ} {wv : Option ScaleWavelet}
    {q : Option ℚ} {up : Bool} {ds : ℕ} {r : List ℝ × ScaleType × ℕ × Nv} (h : processScales (.arr sh d v) N wv q up ds = .ok r) :
    ∃ st nv, inferScaletype d v = .ok (st, nv) ∧ r.1 = v ∧ r.2.1 = st := by
  obtain ⟨e1, st, nv, hi⟩ := processScales_arr_infer h
  obtain ⟨-, e2, -⟩ := process_kind hi h
  exact ⟨st, nv, hi, e1, e2⟩

/-- The recursion sums with weights that depend on the scales only. -/
theorem icwtArr_sums : ∀ v : List ℝ, (∀ s ∈ v, 0 < s) → ∃ w c, ∀ a n W x, icwtArr a n W v = .ok x → SumsWith v w c a n W x := by
  intro v
  induction hk : v.length using Nat.strong_induction_on generalizing v with
  | _ k ih =>
    intro hpos
    cases hinf : inferScaletype .f64 v with
    | error e =>
      refine ⟨0, 0, fun a n W x h => ?_⟩
      rw [icwtArr] at h
      split at h
      · simp at h
      · rename_i hp
        obtain ⟨st, nv, hi, -⟩ := processScales_infer hp
        rw [hinf] at hi
        simp at hi
    | ok sn =>
      obtain ⟨st, nv⟩ := sn
      by_cases hst : st = .logPiecewise
      · have hno : ∀ a n W x, icwtArr a n W v = .ok x → ∃ idx, logscaleTransitionIdx (thTr .f64) v = .ok (some idx) ∧ (0 < idx ∧ idx < v.length) ∧
            v.length = W.length ∧ ∃ y z, icwtArr a n (W.take idx) (v.take idx) = .ok y ∧ icwtArr a n (W.drop idx) (v.drop idx) = .ok z ∧
              x = List.zipWith (fun u v : ℝ => u + v) y z := by
          intro a n W x h
          rw [icwtArr] at h
          split at h
          · simp at h
          · rename_i r1 st' r3 nv' hp
            obtain ⟨st2, nv2, hi, -, e2⟩ := processScales_infer hp
            rw [hinf] at hi
            simp only [Except.ok.injEq, Prod.mk.injEq] at hi e2
            split at h
            · simp at h
            · rename_i hlen
              rw [if_pos (by rw [e2, ← hi.1]; exact hst)] at h
              split at h
              · simp at h
              · simp at h
              · rename_i idx htr
                split at h
                · rename_i hidx
                  split at h
                  · rename_i x0 y0 hx0 hy0
                    simp only [Except.ok.injEq] at h
                    exact ⟨idx, htr, hidx, not_not.1 hlen, x0, y0, hx0, hy0, h.symm⟩
                  · simp at h
                  · simp at h
                · simp at h
        by_cases hex : ∃ idx, logscaleTransitionIdx (thTr .f64) v = .ok (some idx) ∧ (0 < idx ∧ idx < v.length)
        · obtain ⟨idx, htr, hidx⟩ := hex
          obtain ⟨w0, c0, h0⟩ := ih _ (by rw [← hk]; simp; omega) (v.take idx) rfl fun s hs => hpos s (List.mem_of_mem_take hs)
          obtain ⟨w1, c1, h1⟩ := ih _ (by rw [← hk]; simp; omega) (v.drop idx) rfl fun s hs => hpos s (List.mem_of_mem_drop hs)
          refine ⟨fun i => if i < idx then w0 i else w1 (i - idx), c0 + c1, fun a n W x h => ?_⟩
          obtain ⟨idx', htr', -, hlen, y, z, hy, hz, rfl⟩ := hno a n W x h
          rw [htr] at htr'
          simp only [Except.ok.injEq, Option.some.injEq] at htr'
          subst htr'
          exact join_sums v idx hidx.2.le w0 w1 c0 c1 a n W hlen y z (h0 _ _ _ _ hy) (h1 _ _ _ _ hz)
        · refine ⟨0, 0, fun a n W x h => ?_⟩
          obtain ⟨idx, htr, hidx, -⟩ := hno a n W x h
          exact absurd ⟨idx, htr, hidx⟩ hex
      · refine ⟨Spec.icwtWeight st nv v, 1, fun a n W x h => ?_⟩
        rw [icwtArr] at h
        split at h
        · simp at h
        · rename_i r1 st' r3 nv' hp
          obtain ⟨st2, nv2, hi, -, e2⟩ := processScales_infer hp
          rw [hinf] at hi
          simp only [Except.ok.injEq, Prod.mk.injEq] at hi e2
          split at h
          · simp at h
          · rename_i hlen
            rw [if_neg (by rw [e2, ← hi.1]; exact hst)] at h
            simp only [Except.ok.injEq] at h
            rw [← h]
            exact leaf_sums hinf hst hp hpos a n W (not_not.1 hlen)

theorem sums_double (v : List ℝ) (w : ℕ → ℝ) (c : ℕ) (a : IcwtArgs) (n : ℕ) (W : List (List ℂ)) (x y : List ℝ) (hx : SumsWith v w c a n W x)
    (hy : SumsWith v w c a n W y) : SumsWith v (fun i => 2 * w i) (2 * c) a n W (List.zipWith (fun u v : ℝ => u + v) x y) := by
  obtain ⟨l, l0, p0, v0⟩ := hx
  obtain ⟨-, l1, -, v1⟩ := hy
  refine ⟨l, by simp [l0, l1], fun i hi => by have := p0 i hi; simp only; linarith, ?_⟩
  intro j hj
  rw [List.getD_eq_getElem _ _ (by simp [l0, l1, hj]), List.getElem_zipWith, ← List.getD_eq_getElem _ 0, ← List.getD_eq_getElem _ 0,
    v0 j hj, v1 j hj]
  rw [show ∀ A B : ℝ, A + B + (A + B) = 2 * A + 2 * B by intro A B; ring, Finset.mul_sum]
  congr 1
  · exact Finset.sum_congr rfl fun i _ => by ring
  · push_cast; ring

theorem icwt_unfold_arr {n : ℕ} {W : List (List ℂ)} {sh : List ℕ} {d : FDtype} {v : List ℝ} {a : IcwtArgs} {xh : List ℝ}
    (h : icwt n W (.arr sh d v) a = .ok xh) : ∃ r, processScales (.arr sh d v) (icwtArr.orElseN a.xLen n) (some a.wavelet.sw) a.nv true a.downsample = .ok r ∧
      icwt.icwtTop a n W r = .ok xh := by
  unfold icwt at h
  obtain ⟨_, _, h'⟩ := bind_ok h
  simp only at h'
  obtain ⟨r, hr, h2⟩ := bind_ok h'
  exact ⟨r, hr, h2⟩

/-- `icwt` of an array of scales, whatever it is recognised as: weights that depend on the scales only. For log, linear and two-segment scales they are the usual ones. -/
theorem icwt_sums (d : FDtype) (v : List ℝ) (hpos : ∀ s ∈ v, 0 < s) : ∃ w c,
    (∀ st nv c', Spec.IcwtScales d v st nv c' → w = Spec.icwtWeight st nv v ∧ c = c') ∧
    ∀ a n W sh xh, icwt n W (.arr sh d v) a = .ok xh → SumsWith v w c a n W xh := by
  cases hinf : inferScaletype d v with
  | error e =>
    refine ⟨0, 0, fun st nv c' hs => by have := hs.1; rw [hinf] at this; simp at this, fun a n W sh xh h => ?_⟩
    obtain ⟨r, hr, -⟩ := icwt_unfold_arr h
    obtain ⟨st, nv, hi, -⟩ := processScales_infer hr
    rw [hinf] at hi
    simp at hi
  | ok sn =>
    obtain ⟨st, nv⟩ := sn
    have huniq : ∀ st' nv' c', Spec.IcwtScales d v st' nv' c' → st' = st ∧ nv' = nv := by
      intro st' nv' c' hs
      have := hs.1
      rw [hinf] at this
      simp only [Except.ok.injEq, Prod.mk.injEq] at this
      exact ⟨this.1.symm, this.2.symm⟩
    by_cases hst : st = .logPiecewise
    · obtain ⟨w0, c0, h0⟩ := icwtArr_sums v hpos
      -- the general case
      have hgen : ∃ w c, ∀ a n W sh xh, icwt n W (.arr sh d v) a = .ok xh → SumsWith v w c a n W xh := by
        cases htr : logscaleTransitionIdx (thTr .f64) v with
        | error e =>
          refine ⟨0, 0, fun a n W sh xh h => ?_⟩
          obtain ⟨r, hr, h⟩ := icwt_unfold_arr h
          obtain ⟨st2, nv2, hi, e1, e2⟩ := processScales_infer hr
          rw [hinf] at hi
          simp only [Except.ok.injEq, Prod.mk.injEq] at hi
          unfold icwt.icwtTop at h
          rw [e1, e2, ← hi.1, htr] at h
          split at h
          · simp at h
          · try rw [if_pos hst] at h
            obtain ⟨o, ho, _⟩ := bind_ok h
            simp at ho
        | ok o =>
          cases o with
          | none =>
            refine ⟨fun i => 2 * w0 i, 2 * c0, fun a n W sh xh h => ?_⟩
            · obtain ⟨r, hr, h⟩ := icwt_unfold_arr h
              obtain ⟨st2, nv2, hi, e1, e2⟩ := processScales_infer hr
              rw [hinf] at hi
              simp only [Except.ok.injEq, Prod.mk.injEq] at hi
              unfold icwt.icwtTop at h
              rw [e1, e2, ← hi.1, htr] at h
              split at h
              · simp at h
              · try rw [if_pos hst] at h
                simp only [ok_bind] at h
                obtain ⟨x, hx, h⟩ := bind_ok h
                obtain ⟨y, hy, h⟩ := bind_ok h
                simp only [Except.ok.injEq] at h
                rw [← h]
                exact sums_double v w0 c0 a n W x y (h0 _ _ _ _ hx) (h0 _ _ _ _ hy)
          | some idx =>
            by_cases hidx : idx ≤ v.length
            · obtain ⟨w1, c1, h1⟩ := icwtArr_sums (v.take idx) fun s hs => hpos s (List.mem_of_mem_take hs)
              obtain ⟨w2, c2, h2⟩ := icwtArr_sums (v.drop idx) fun s hs => hpos s (List.mem_of_mem_drop hs)
              refine ⟨fun i => if i < idx then w1 i else w2 (i - idx), c1 + c2, fun a n W sh xh h => ?_⟩
              · obtain ⟨r, hr, h⟩ := icwt_unfold_arr h
                obtain ⟨st2, nv2, hi, e1, e2⟩ := processScales_infer hr
                rw [hinf] at hi
                simp only [Except.ok.injEq, Prod.mk.injEq] at hi
                unfold icwt.icwtTop at h
                rw [e1, e2, ← hi.1, htr] at h
                split at h
                · simp at h
                · rename_i hlen
                  try rw [if_pos hst] at h
                  simp only [ok_bind] at h
                  obtain ⟨x, hx, h⟩ := bind_ok h
                  obtain ⟨y, hy, h⟩ := bind_ok h
                  simp only [Except.ok.injEq] at h
                  rw [← h]
                  exact join_sums v idx hidx w1 w2 c1 c2 a n W (not_not.1 hlen) x y (h1 _ _ _ _ hx) (h2 _ _ _ _ hy)
            · -- the second half would be empty, which is refused
              obtain ⟨w2, c2, h2⟩ := icwtArr_sums [] (by simp)
              refine ⟨0, 0, fun a n W sh xh h => ?_⟩
              exfalso
              obtain ⟨r, hr, h⟩ := icwt_unfold_arr h
              obtain ⟨st2, nv2, hi, e1, e2⟩ := processScales_infer hr
              rw [hinf] at hi
              simp only [Except.ok.injEq, Prod.mk.injEq] at hi
              unfold icwt.icwtTop at h
              rw [e1, e2, ← hi.1, htr] at h
              split at h
              · simp at h
              · try rw [if_pos hst] at h
                simp only [ok_bind] at h
                obtain ⟨x, hx, h⟩ := bind_ok h
                obtain ⟨y, hy, h⟩ := bind_ok h
                rw [List.drop_eq_nil_of_le (by omega : v.length ≤ idx), icwtArr] at hy
                simp [processScales, inferScaletype, Bind.bind, Except.bind] at hy
      by_cases hex : ∃ c, Spec.IcwtScales d v st nv c
      · obtain ⟨c, hc⟩ := hex
        obtain ⟨w1, c1, h1⟩ := hgen
        refine ⟨Spec.icwtWeight st nv v, c, ?_, fun a n W sh xh h => ?_⟩
        · intro st' nv' c' hs
          obtain ⟨rfl, rfl⟩ := huniq _ _ _ hs
          refine ⟨rfl, ?_⟩
          rcases hc.2 with ⟨h, -⟩ | ⟨-, rfl, -⟩
          · exact absurd hst h
          · rcases hs.2 with ⟨h, -⟩ | ⟨-, rfl, -⟩
            · exact absurd hst h
            · rfl
        · obtain ⟨e1, e2, e3⟩ := icwt_value a n W sh d v xh h st nv c hc hpos
          refine ⟨e1, e2, ?_, e3⟩
          rcases hc.2 with ⟨h, -⟩ | ⟨-, -, p, b, n0, n1, g0, g1, hne, htwo, hp2, hp4⟩
          · exact absurd hst h
          · subst hst
            have hl : 0 < Real.log 2 := Real.log_pos (by norm_num)
            have hnv : nv = .arr (nvTwo v.length p (1 / (n0 : ℝ)) (1 / (n1 : ℝ))) := by
              have hd : (1 : ℝ) / n0 ≠ 1 / n1 := by
                rw [one_div, one_div, Ne, inv_inj]; exact_mod_cast hne
              have hi' := hinf
              unfold inferScaletype at hi'
              have hdt : d ≠ .other := by
                intro e; rw [if_pos e] at hi'; simp at hi'
              rw [if_neg hdt] at hi'
              split at hi'
              · simp at hi'
              · split at hi'
                · simp only at hi'
                  split at hi' <;> simp at hi'
                · split at hi'
                  · simp at hi'
                  · have hth : 0 < thTr d := by cases d <;> norm_num [thTr]
                    simp only [transition_two hth htwo hd, nvFromScales_two hth htwo hd, ok_bind,
                      pure_eq_ok, Except.ok.injEq, Prod.mk.injEq, true_and] at hi'
                    exact hi'.symm
            have hn0 : (0 : ℝ) < n0 := by exact_mod_cast g0
            have hn1 : (0 : ℝ) < n1 := by exact_mod_cast g1
            intro i hi
            rw [hnv]
            simp only [Spec.icwtWeight, nvTwo]
            rw [getD_map_range _ _ hi]
            split <;> positivity
      · obtain ⟨w, c, h⟩ := hgen
        refine ⟨w, c, fun st' nv' c' hs => ?_, h⟩
        obtain ⟨rfl, rfl⟩ := huniq _ _ _ hs
        exact absurd ⟨c', hs⟩ hex
    · refine ⟨Spec.icwtWeight st nv v, 1, ?_, fun a n W sh xh h => ?_⟩
      · intro st' nv' c' hs
        obtain ⟨rfl, rfl⟩ := huniq _ _ _ hs
        rcases hs.2 with ⟨-, rfl⟩ | ⟨h, -⟩
        · exact ⟨rfl, rfl⟩
        · exact absurd h hst
      · obtain ⟨r, hr, h⟩ := icwt_unfold_arr h
        obtain ⟨st2, nv2, hi, e1, e2⟩ := processScales_infer hr
        rw [hinf] at hi
        simp only [Except.ok.injEq, Prod.mk.injEq] at hi
        unfold icwt.icwtTop at h
        split at h
        · simp at h
        · rename_i hlen
          rw [if_neg (by rw [e2, ← hi.1]; exact hst)] at h
          simp only [Except.ok.injEq] at h
          rw [← h, e1]
          rw [e1] at hlen
          exact leaf_sums hinf hst hr hpos a n W (not_not.1 hlen)

/-! ### The rows of `cwt` for every wavelet -/

theorem flatten_map_sum (g : ℂ → ℝ) (f : WFn) (L : ℕ) (l : List ℝ) :
    (((l.map fun s => halveNyquist (sampleRow f L s)).flatten).map g).sum =
      ∑ i ∈ Finset.range l.length, ∑ k ∈ Finset.range L, g (Spec.wavSample f.eval L (l.getD i 0) k) := by
  induction l with
  | nil => simp
  | cons s l ih =>
    rw [List.map_cons, List.flatten_cons, List.map_append, List.sum_append, ih, List.length_cons, Finset.sum_range_succ', add_comm]
    congr 1
    have hlen : (halveNyquist (sampleRow f L s)).length = L := by rw [halveNyquist_length, sampleRow_length]
    rw [list_sum_range, List.length_map, hlen]
    refine Finset.sum_congr rfl fun k hk => ?_
    rw [Finset.mem_range] at hk
    rw [List.getD_eq_getElem _ _ (by rw [List.length_map, hlen]; exact hk), List.getElem_map, ← List.getD_eq_getElem _ 0 (by omega),
      psihRow_getD _ _ _ _ hk]
    rfl

/-- The samples of either code path. -/
theorem psihRows_used (f : WFn) (vec : Bool) (L : ℕ) (scales : List ℝ) (i : ℕ) (hi : i < scales.length) (k : ℕ) (hk : k < L) :
    ((psihRows f vec L scales).getD i []).getD k 0 = Spec.usedSample f.eval L (Spec.Dropped f.isCplx vec f.eval L scales i) (scales.getD i 0) k := by
  classical
  have hrow : ∀ (l : List ℝ) (i : ℕ) (hi : i < l.length), ∀ k < L,
      ((l.map fun s => halveNyquist (sampleRow f L s)).getD i []).getD k 0 = Spec.wavSample f.eval L (l.getD i 0) k := by
    intro l i hi k hk
    rw [List.getD_eq_getElem (l.map fun s => halveNyquist (sampleRow f L s)) [] (by simpa using hi), List.getElem_map, psihRow_getD _ _ _ _ hk, List.getD_eq_getElem _ _ hi]
  have hdrop : ∀ l : List ℝ, ∀ i (hi : i < l.length), ∀ k < L,
      ((psihCall f L l).getD i []).getD k 0 = Spec.usedSample f.eval L (f.isCplx = true ∧ Spec.ImagNegligible f.eval L l) (l.getD i 0) k := by
    intro l
    have hre := flatten_map_sum Complex.re f L l
    have him := flatten_map_sum Complex.im f L l
    unfold psihCall dropImag
    cases f with
    | real g => exact fun i hi k hk => by rw [hrow l i hi k hk]; simp [Spec.usedSample, WFn.isCplx]
    | cplx g =>
      simp only
      have hiff : ImagSmall (((l.map fun s => halveNyquist (sampleRow (.cplx g) L s)).flatten).map fun z : ℂ => z.im).sum
          (((l.map fun s => halveNyquist (sampleRow (.cplx g) L s)).flatten).map fun z : ℂ => z.re).sum ↔ Spec.ImagNegligible (WFn.cplx g).eval L l := by
        rw [ImagSmall, Spec.ImagNegligible, ← hre, ← him]
      split
      · rename_i hc
        intro i hi k hk
        have h1 := hrow l i hi k hk
        rw [List.getD_eq_getElem (l.map fun s => halveNyquist (sampleRow (.cplx g) L s)) [] (by simpa using hi), List.getElem_map] at h1
        rw [List.getD_eq_getElem _ [] (by simpa using hi), List.getElem_map, List.getElem_map, getD_map_c _ _ _ 0 (by
          rw [halveNyquist_length, sampleRow_length]; exact hk), h1, Spec.usedSample, if_pos ⟨rfl, hiff.1 hc⟩]
      · rename_i hc
        intro i hi k hk
        rw [hrow l i hi k hk, Spec.usedSample, if_neg (fun h => hc (hiff.2 h.2))]
  cases vec with
  | true =>
    have := hdrop scales i hi k hk
    simpa [psihRows, Spec.Dropped] using this
  | false =>
    have := hdrop [scales.getD i 0] 0 (by simp) k hk
    simp only [psihRows, Bool.false_eq_true, if_false, Spec.Dropped]
    rw [List.getD_eq_getElem (scales.map (psihOne f L)) [] (by simpa using hi), List.getElem_map, psihOne]
    rw [← List.getD_eq_getElem _ 0 hi]
    simpa using this

/-- C37, rows, for every wavelet: row `i` is the inverse transform of the samples used times the transform of the padded signal. -/
theorem C37_rows_any (x : List ℝ) (a : CwtArgs) (t : Option PadType) (ht : a.padtype = t.map padName) (hx : 0 < x.length)
    (W : List (List ℂ)) (scales : List ℝ) (dW : List (List ℂ)) (h : cwt x a = .ok (W, scales, dW)) :
    ∃ xp, ∃ n1 : ℕ, ∃ fs dt : ℝ, Spec.Padded t x xp n1 ∧ processFsT a.fs a.t x.length = .ok (.fin fs dt) ∧ fs * dt = 1 ∧
      W.length = scales.length ∧ dW.length = scales.length ∧
      ∀ i, i < scales.length →
        (W.getD i []).length = (if a.rpadded = false ∧ t.isSome then x.length else xp.length) ∧
        (dW.getD i []).length = (if a.rpadded = false ∧ t.isSome then x.length else xp.length) ∧
        ∀ j < (if a.rpadded = false ∧ t.isSome then x.length else xp.length),
          ent W i j = (if a.l1Norm then 1 else ((Real.sqrt (scales.getD i 0) : ℝ) : ℂ)) *
            idft xp.length (fun k => Spec.usedSample a.wavelet.fn.eval xp.length
                (Spec.Dropped a.wavelet.fn.isCplx a.vectorized a.wavelet.fn.eval xp.length scales i) (scales.getD i 0) k *
              dft xp.length (fun q => ((xp.getD q 0 : ℝ) : ℂ)) k)
              (if a.rpadded = false ∧ t.isSome then n1 + j else j) ∧
          ent dW i j = (if a.l1Norm then 1 else ((Real.sqrt (scales.getD i 0) : ℝ) : ℂ)) *
            idft xp.length (fun k => I * ((Spec.xi xp.length k * fs : ℝ) : ℂ) * (Spec.usedSample a.wavelet.fn.eval xp.length
                (Spec.Dropped a.wavelet.fn.isCplx a.vectorized a.wavelet.fn.eval xp.length scales i) (scales.getD i 0) k *
              dft xp.length (fun q => ((xp.getD q 0 : ℝ) : ℂ)) k))
              (if a.rpadded = false ∧ t.isSome then n1 + j else j) := by
  obtain ⟨xp, n1, r, h1, h2, hr, h4⟩ := cwt_ok ht hx h
  rw [cwtRun_eq a _ _ _ _ _ h2] at h4
  simp only [Prod.mk.injEq] at h4
  have hcols : a.cols x.length xp.length = (if a.rpadded = false ∧ t.isSome then x.length else xp.length) := by
    unfold CwtArgs.cols CwtArgs.trimmed; rw [ht]
    cases a.rpadded <;> cases t <;> simp
  have hfirst : ∀ j, a.first n1 + j = (if a.rpadded = false ∧ t.isSome then n1 + j else j) := by
    intro j
    unfold CwtArgs.first CwtArgs.trimmed; rw [ht]
    cases a.rpadded <;> cases t <;> simp
  have hnorm : ∀ s, ((a.norm s : ℝ) : ℂ) = (if a.l1Norm then 1 else ((Real.sqrt s : ℝ) : ℂ)) := by
    intro s; unfold CwtArgs.norm; split <;> simp
  refine ⟨xp, n1, r.1, r.2, h1, cwtDt_fin hr, (cwtDt_mul hr).1, by rw [h4.1]; simp [psihRows_length], by rw [h4.2]; simp [psihRows_length], ?_⟩
  intro i hi
  have e1 := fun g => zipWith_getD (γ := List ℂ) g scales
    (psihRows a.wavelet.fn a.vectorized xp.length scales) i (0 : ℝ) ([] : List ℂ) [] hi
    (by rw [psihRows_length]; exact hi)
  rw [← hcols]
  refine ⟨by rw [h4.1, e1]; simp, by rw [h4.2, e1]; simp, fun j hj => ⟨?_, ?_⟩⟩
  · rw [ent, h4.1, e1, getD_map_range _ _ hj, hnorm, hfirst]
    congr 1
    refine idft_congr (fun k hk => ?_) _
    rw [psihRows_used _ _ _ _ i hi k hk]
  · rw [ent, h4.2, e1, getD_map_range _ _ hj, hnorm, hfirst]
    congr 1
    refine idft_congr (fun k hk => ?_) _
    rw [psihRows_used _ _ _ _ i hi k hk, (cwtDt_mul hr).2.2.2]
    have := (cwtDt_mul hr).2.1
    push_cast
    simp only [div_eq_mul_inv, one_mul, inv_inv]
    ring

/-! ### C40 -/

/-- **C40, filter, for every wavelet, signal, pad type, norm, code path, sampling rate, and every array of positive scales that `icwt` accepts**, with the padding trimmed or
kept (`n` is the number of columns of the transform): the inverse is the padded signal filtered by the sum of the wavelets as sampled, with positive weights that depend on
the scales alone (the usual measure `d(scale)/scale` for log, linear and two-segment scales), over the admissibility constant; real part, plus `c` times the mean. -/
theorem C40_filter_any (d : FDtype) (scales : List ℝ) (hpos : ∀ s ∈ scales, 0 < s) (hne : scales ≠ []) : ∃ (w : ℕ → ℝ) (c : ℕ),
    (∀ st nv c', Spec.IcwtScales d scales st nv c' → w = Spec.icwtWeight st nv scales ∧ c = c') ∧
    ∀ (x : List ℝ) (a : CwtArgs) (t : Option PadType) (_ : a.padtype = t.map padName) (_ : 0 < x.length) (W dW : List (List ℂ))
      (_ : cwt x a = .ok (W, scales, dW)) (b : IcwtArgs) (_ : b.l1Norm = a.l1Norm) (sh : List ℕ) (n : ℕ) (_ : ∀ r ∈ W, r.length = n)
      (xh : List ℝ) (_ : icwt n W (.arr sh d scales) b = .ok xh),
      (∀ i < scales.length, 0 < w i) ∧ ∃ (xp : List ℝ) (n1 : ℕ), Spec.Padded t x xp n1 ∧
        n = (if a.rpadded = false ∧ t.isSome then x.length else xp.length) ∧ xh.length = n ∧
        ∀ j < n, xh.getD j 0 = (idft xp.length (fun k => Spec.gain a.wavelet.fn.isCplx a.vectorized a.wavelet.fn.eval xp.length b.admSsq w scales k *
          dft xp.length (fun q => ((xp.getD q 0 : ℝ) : ℂ)) k) (if a.rpadded = false ∧ t.isSome then n1 + j else j)).re + c * b.xMean := by
  obtain ⟨w, c, hw, hsum⟩ := icwt_sums d scales hpos
  refine ⟨w, c, hw, fun x a t ht hx W dW h b hb sh n hn xh hi => ?_⟩
  obtain ⟨hlW, hl, hwp, hv⟩ := hsum b n W sh xh hi
  obtain ⟨xp, n1, fs, dt, hpad, -, -, -, -, hrow⟩ := C37_rows_any x a t ht hx W scales dW h
  have hlen : 0 < scales.length := List.length_pos_iff.2 hne
  have hn' : n = (if a.rpadded = false ∧ t.isSome then x.length else xp.length) := by
    rw [← (hrow 0 hlen).1]
    rw [List.getD_eq_getElem _ _ (by omega : 0 < W.length)]
    exact (hn _ (List.getElem_mem _)).symm
  refine ⟨hwp, xp, n1, hpad, hn', hl, fun j hj => ?_⟩
  rw [hv j hj]
  congr 1
  have hfun : (fun k => Spec.gain a.wavelet.fn.isCplx a.vectorized a.wavelet.fn.eval xp.length b.admSsq w scales k *
      dft xp.length (fun q => ((xp.getD q 0 : ℝ) : ℂ)) k) = fun k => ∑ i ∈ Finset.range scales.length,
        (((2 / b.admSsq * w i : ℝ) : ℂ) * (Spec.usedSample a.wavelet.fn.eval xp.length
            (Spec.Dropped a.wavelet.fn.isCplx a.vectorized a.wavelet.fn.eval xp.length scales i) (scales.getD i 0) k *
          dft xp.length (fun q => ((xp.getD q 0 : ℝ) : ℂ)) k)) := by
    funext k
    unfold Spec.gain
    rw [Finset.sum_mul]
    exact Finset.sum_congr rfl fun i _ => by ring
  rw [hfun, idft_sum, re_sum]
  refine Finset.sum_congr rfl fun i hir => ?_
  rw [Finset.mem_range] at hir
  rw [idft_smul, re_ofReal_mul]
  congr 1
  rw [((hrow i hir).2.2 j (by rw [← hn']; exact hj)).1, hb]
  have hq : 0 < Real.sqrt (scales.getD i 0) := Real.sqrt_pos.2 (by
    rw [List.getD_eq_getElem _ _ hir]; exact hpos _ (List.getElem_mem _))
  cases a.l1Norm
  · simp only [Bool.false_eq_true, if_false]
    rw [re_ofReal_mul]
    field_simp
  · simp

/-- Filtering a real signal by a gain whose values at opposite frequencies add up to 2, one of them conjugated. -/
theorem filter_flat_any (L : ℕ) (hL : 0 < L) (x : ℕ → ℝ) (g : ℕ → ℂ)
    (hflat : ∀ k, 0 < k → k < L → g k + (starRingEnd ℂ) (g (L - k)) = 2) (m : ℕ) (hm : m < L) :
    (idft L (fun k => g k * dft L (fun q => (x q : ℂ)) k) m).re =
      x m + ((g 0).re - 1) * ((∑ q ∈ Finset.range L, x q) / L) := by
  set X := dft L (fun q => (x q : ℂ)) with hX
  have hL0 : L ≠ 0 := by omega
  set u : ℕ → ℂ := fun k => X k * tw L ((m : ℤ) * k) with hu
  have husym : ∀ k ≤ L, u (L - k) = (starRingEnd ℂ) (u k) := by
    intro k hk
    have e1 : X (L - k) = (starRingEnd ℂ) (X k) := dft_real_symm x hk hL0
    have e2 : tw L ((m : ℤ) * ((L - k : ℕ) : ℤ)) = (starRingEnd ℂ) (tw L ((m : ℤ) * k)) := by
      rw [tw_conj, show (m : ℤ) * ((L - k : ℕ) : ℤ) = (L : ℤ) * m + -((m : ℤ) * k) by
        push_cast [Nat.cast_sub hk]; ring, tw_add, tw_mul_n hL0, one_mul]
    simp only [hu]
    rw [e1, e2, ← map_mul]
  have hre : ∀ F : ℕ → ℂ, (idft L (fun k => F k * X k) m).re = (∑ k ∈ Finset.range L, (F k * u k).re) / L := by
    intro F
    unfold idft
    rw [show ((L : ℕ) : ℂ) = ((L : ℝ) : ℂ) by simp, div_ofReal_re, re_sum]
    congr 1
    exact Finset.sum_congr rfl fun k _ => by rw [mul_assoc]
  have hone : (∑ k ∈ Finset.range L, (u k).re) / L = x m := by
    have h1 := hre (fun _ => 1)
    have h2 : idft L (fun k => (1 : ℂ) * X k) m = (x m : ℂ) := by
      simp only [one_mul]
      exact idft_dft (fun q => (x q : ℂ)) hm
    rw [h2] at h1
    simpa using h1.symm
  rw [hre g, ← hone]
  obtain ⟨n, rfl⟩ : ∃ n, L = n + 1 := ⟨L - 1, by omega⟩
  have hX0 : u 0 = ((∑ q ∈ Finset.range (n + 1), x q : ℝ) : ℂ) := by
    simp only [hu, hX, dft]
    simp
  rw [Finset.sum_range_succ', Finset.sum_range_succ']
  have h00 : (g 0 * u 0).re = (g 0).re * ∑ q ∈ Finset.range (n + 1), x q := by
    rw [hX0, Complex.re_mul_ofReal]
  have h01 : (u 0).re = ∑ q ∈ Finset.range (n + 1), x q := by rw [hX0, Complex.ofReal_re]
  have hA : ∑ k ∈ Finset.range n, (g (k + 1) * u (k + 1)).re = ∑ k ∈ Finset.range n, (u (k + 1)).re := by
    have hr : ∑ k ∈ Finset.range n, (g (k + 1) * u (k + 1)).re =
        ∑ k ∈ Finset.range n, ((starRingEnd ℂ) (g (n + 1 - (k + 1))) * u (k + 1)).re := by
      rw [← Finset.sum_range_reflect]
      refine Finset.sum_congr rfl fun k hk => ?_
      rw [Finset.mem_range] at hk
      rw [show n - 1 - k + 1 = n + 1 - (k + 1) by omega, husym (k + 1) (by omega), ← Complex.conj_re, map_mul, Complex.conj_conj]
    have hs : ∑ k ∈ Finset.range n, (g (k + 1) * u (k + 1)).re +
        ∑ k ∈ Finset.range n, ((starRingEnd ℂ) (g (n + 1 - (k + 1))) * u (k + 1)).re = 2 * ∑ k ∈ Finset.range n, (u (k + 1)).re := by
      rw [← Finset.sum_add_distrib, Finset.mul_sum]
      refine Finset.sum_congr rfl fun k hk => ?_
      rw [Finset.mem_range] at hk
      rw [← Complex.add_re, ← add_mul, hflat (k + 1) (by omega) (by omega)]
      simp
    linarith
  rw [hA, h00, h01]
  ring

/-- The response is flat: its values at every two opposite nonzero frequencies, one conjugated, add up to 2. -/
def Spec.Flat (L : ℕ) (g : ℕ → ℂ) : Prop := ∀ k, 0 < k → k < L → g k + (starRingEnd ℂ) (g (L - k)) = 2

/-- **C40, exactness, for every wavelet and array of scales.** If the response is flat, `icwt(cwt(x))` is `x` on the samples of the signal (with `rpadded`, it is the padded signal), up to the mean of
the padded signal (whose factor is the response at zero) and `x_mean`. -/
theorem C40_exact_any (d : FDtype) (scales : List ℝ) (hpos : ∀ s ∈ scales, 0 < s) (hne : scales ≠ []) : ∃ (w : ℕ → ℝ) (c : ℕ),
    (∀ st nv c', Spec.IcwtScales d scales st nv c' → w = Spec.icwtWeight st nv scales ∧ c = c') ∧
    ∀ (x : List ℝ) (a : CwtArgs) (t : Option PadType) (_ : a.padtype = t.map padName) (_ : 0 < x.length) (W dW : List (List ℂ))
      (_ : cwt x a = .ok (W, scales, dW)) (b : IcwtArgs) (_ : b.l1Norm = a.l1Norm) (sh : List ℕ) (n : ℕ) (_ : ∀ r ∈ W, r.length = n)
      (xh : List ℝ) (_ : icwt n W (.arr sh d scales) b = .ok xh) (L : ℕ) (_ : L = if t = none then x.length else (p2up x.length).1)
      (g : ℕ → ℂ) (_ : g = Spec.gain a.wavelet.fn.isCplx a.vectorized a.wavelet.fn.eval L b.admSsq w scales) (_ : Spec.Flat L g),
      ∃ (xp : List ℝ) (n1 : ℕ), Spec.Padded t x xp n1 ∧ xp.length = L ∧ xh.length = n ∧
        ∀ j < n, xh.getD j 0 = (if a.rpadded = false then x.getD j 0 else xp.getD j 0) + ((g 0).re - 1) * (xp.sum / L) + c * b.xMean := by
  obtain ⟨w, c, hw, hf⟩ := C40_filter_any d scales hpos hne
  refine ⟨w, c, hw, fun x a t ht hx W dW h b hb sh n hn xh hi L hL g hg hflat => ?_⟩
  obtain ⟨-, xp, n1, hpad, hn', hl, hv⟩ := hf x a t ht hx W dW h b hb sh n hn xh hi
  have hlen : xp.length = L := by
    rw [hL]
    cases t with
    | none => obtain ⟨rfl, rfl⟩ := hpad; simp
    | some t => simpa using hpad.1
  have hle : n1 + x.length ≤ xp.length := by
    cases t with
    | none => obtain ⟨rfl, rfl⟩ := hpad; simp
    | some t => exact hpad.2.2.1
  refine ⟨xp, n1, hpad, hlen, hl, fun j hj => ?_⟩
  have hpos' : (if a.rpadded = false ∧ t.isSome then n1 + j else j) < L := by
    rw [hn'] at hj
    split
    · rename_i hc; rw [if_pos hc] at hj; omega
    · rename_i hc; rw [if_neg hc] at hj; omega
  rw [hv j hj, hlen, ← hg, filter_flat_any L (by omega) (fun q => xp.getD q 0) g hflat _ hpos', list_sum_range, hlen]
  congr 2
  cases t with
  | none =>
    obtain ⟨rfl, rfl⟩ := hpad
    simp
  | some t =>
    cases hr : a.rpadded
    · rw [hr] at hn'
      simp only [Option.isSome_some, and_self, if_true] at hn' ⊢
      rw [padded_keeps hx hpad j (by omega)]
    · simp

theorem tone_dft (N k : ℕ) (hk0 : 0 < k) (hk : k < N) (A φ : ℝ) (m : ℕ) (hm : m < N) :
    dft N (fun q => (((Spec.tone N k A φ).getD q 0 : ℝ) : ℂ)) m =
      (if m = k then (N : ℂ) * (A / 2 * exp (I * φ)) else 0) + (if m = N - k then (N : ℂ) * (A / 2 * exp (-(I * φ))) else 0) := by
  have hN : N ≠ 0 := by omega
  rw [dft_congr (fun q hq => tone_eq N k A φ q hq), dft_add, dft_smul, dft_smul]
  have h1 : dft N (fun j => tw N ((j : ℤ) * k)) m = if m = k then (N : ℂ) else 0 := by
    unfold dft
    rw [Finset.sum_congr rfl (g := fun j : ℕ => tw N ((j : ℤ) * ((k : ℤ) - m)))
      (fun j _ => by rw [← tw_add]; congr 1; ring), sum_tw hN]
    by_cases e : m = k
    · simp [e]
    · rw [if_neg e, if_neg]
      rw [dvd_sub_iff (by omega) (by omega)]
      omega
  have h2 : dft N (fun j => tw N (-((j : ℤ) * k))) m = if m = N - k then (N : ℂ) else 0 := by
    unfold dft
    rw [Finset.sum_congr rfl (g := fun j : ℕ => tw N ((j : ℤ) * (-((k : ℤ) + m))))
      (fun j _ => by rw [← tw_add]; congr 1; ring), sum_tw hN]
    by_cases e : m = N - k
    · rw [if_pos e, if_pos]
      rw [Int.dvd_neg]
      exact ⟨1, by omega⟩
    · rw [if_neg e, if_neg]
      rw [Int.dvd_neg]
      intro hd
      have hd' : (N : ℤ) ∣ (k : ℤ) + m - N := dvd_sub_self_right.2 hd
      have := Int.eq_zero_of_abs_lt_dvd hd' (by rw [abs_lt]; omega)
      omega
  rw [h1, h2]
  split <;> split <;> ring

/-- **C40, necessity, for every wavelet.** If filtering gives back the first sample of the cosine and of the sine of `k` cycles, the response is flat at their frequency. -/
theorem C40_necessary_any (N k : ℕ) (hk0 : 0 < k) (hk : k < N) (g : ℕ → ℂ)
    (h : ∀ φ : ℝ, (idft N (fun m => g m * dft N (fun q => (((Spec.tone N k 1 φ).getD q 0 : ℝ) : ℂ)) m) 0).re = (Spec.tone N k 1 φ).getD 0 0) :
    g k + (starRingEnd ℂ) (g (N - k)) = 2 := by
  have hN : N ≠ 0 := by omega
  have hN' : (N : ℂ) ≠ 0 := by exact_mod_cast hN
  have hval : ∀ φ : ℝ, idft N (fun m => g m * dft N (fun q => (((Spec.tone N k 1 φ).getD q 0 : ℝ) : ℂ)) m) 0 =
      (g k * exp (I * φ) + g (N - k) * exp (-(I * φ))) / 2 := by
    intro φ
    rw [idft_congr (g := fun m => (if m = k then g m * ((N : ℂ) * (1 / 2 * exp (I * φ))) else 0) +
      (if m = N - k then g m * ((N : ℂ) * (1 / 2 * exp (-(I * φ)))) else 0)) (fun m hm => by
        rw [tone_dft N k hk0 hk 1 φ m hm]; split <;> split <;> simp <;> ring), idft]
    simp only [Nat.cast_zero, zero_mul, tw_zero, mul_one]
    rw [Finset.sum_add_distrib, Finset.sum_ite_eq' (Finset.range N) k, Finset.sum_ite_eq' (Finset.range N) (N - k),
      if_pos (Finset.mem_range.2 hk), if_pos (Finset.mem_range.2 (by omega))]
    field_simp
  have htone : ∀ φ : ℝ, (Spec.tone N k 1 φ).getD 0 0 = Real.cos φ := by
    intro φ
    rw [Spec.tone, getD_map_range _ _ (by omega)]; simp
  have h0 := h 0
  have h1 := h (-(Real.pi / 2))
  rw [hval, htone] at h0 h1
  have e1 : exp (I * ((-(Real.pi / 2) : ℝ) : ℂ)) = -I := by
    rw [show I * ((-(Real.pi / 2) : ℝ) : ℂ) = -(Real.pi / 2 * I) by push_cast; ring, Complex.exp_neg, Complex.exp_pi_div_two_mul_I, Complex.inv_I]
  have e2 : exp (-(I * ((-(Real.pi / 2) : ℝ) : ℂ))) = I := by
    rw [show -(I * ((-(Real.pi / 2) : ℝ) : ℂ)) = Real.pi / 2 * I by push_cast; ring, Complex.exp_pi_div_two_mul_I]
  rw [e1, e2, Real.cos_neg, Real.cos_pi_div_two] at h1
  simp at h0
  simp at h1
  apply Complex.ext
  · simp; linarith
  · simp; linarith

theorem wavC (s : ℝ) : Spec.wavSample (WFn.cplx fnC).eval 2 s 0 = 0 ∧ Spec.wavSample (WFn.cplx fnC).eval 2 s 1 = fnC (s * Real.pi) / 2 := by
  have h0 := psihRow_getD (.cplx fnC) 2 s 0 (by norm_num)
  have h1 := psihRow_getD (.cplx fnC) 2 s 1 (by norm_num)
  rw [rowC] at h0 h1
  exact ⟨by rw [← h0]; simp [fnC0], by rw [← h1]; simp⟩

theorem negC : Spec.ImagNegligible (WFn.cplx fnC).eval 2 [1, 2, 4] := by
  simp only [Spec.ImagNegligible, List.length_cons, List.length_nil, Finset.sum_range_succ, Finset.sum_range_zero, List.getD_cons_succ, List.getD_cons_zero,
    (wavC _).1, (wavC _).2, one_mul, fnCpi, fnC2, fnC4]
  norm_num

/-- The hypotheses of the theorems above hold for a complex wavelet whose imaginary parts (`1`, `-3` halved) are dropped: `icwt` gives `[1, -1]` back, plus the `x_mean` passed. -/
example : ∃ W dW xh, cwt [1, -1] argsC = .ok (W, [1, 2, 4], dW) ∧
    icwt 2 W sc124 { wavelet := argsC.wavelet, admSsq := 2 * Real.log 2, xMean := 5 } = .ok xh ∧ xh.getD 0 0 = 6 ∧ xh.getD 1 0 = 4 := by
  obtain ⟨dW, hW⟩ := argsC_call true
  have hv : ({ argsC with vectorized := true } : CwtArgs) = argsC := rfl
  rw [hv] at hW
  set W := (cwtRun argsC 1 [1, 2, 4] 2 [1, -1] ((0 : ℕ) : ℤ)).1 with hWd
  obtain ⟨xp, n1, _, _, hp, -, -, hl, -, hr⟩ := C37_rows_any [1, -1] argsC none rfl (by simp) W _ dW hW
  obtain ⟨rfl, rfl⟩ := hp
  obtain ⟨xh, hx⟩ := icwt_runs { wavelet := argsC.wavelet, admSsq := 2 * Real.log 2, xMean := 5 } 2 W [3] .f64 [1, 2, 4]
    rfl hl _ _ _ icwtScales_124 ⟨_, process124 _ _ _ _⟩
  refine ⟨W, dW, xh, hW, hx, ?_⟩
  have hlog : 0 < Real.log 2 := Real.log_pos (by norm_num)
  obtain ⟨w, c, hw, hex⟩ := C40_exact_any .f64 [1, 2, 4] (by intro s hs; fin_cases hs <;> norm_num) (by simp)
  obtain ⟨rfl, rfl⟩ := hw _ _ _ icwtScales_124
  have hg : Spec.gain true true (WFn.cplx fnC).eval 2 (2 * Real.log 2) (Spec.icwtWeight .log (.int 1) [1, 2, 4]) [1, 2, 4] 1 = 1 := by
    have hD : ∀ i, Spec.Dropped true true (WFn.cplx fnC).eval 2 [1, 2, 4] i := fun i => ⟨rfl, by simpa using negC⟩
    simp only [Spec.gain, List.length_cons, List.length_nil, Finset.sum_range_succ, Finset.sum_range_zero, List.getD_cons_succ, List.getD_cons_zero,
      Spec.usedSample, if_pos (hD _), (wavC _).2, one_mul, fnCpi, fnC2, fnC4, Spec.icwtWeight]
    have hlog' : ((Real.log 2 : ℝ) : ℂ) ≠ 0 := by exact_mod_cast hlog.ne'
    simp
    rw [← ofReal_ofNat, ← ofReal_log (by norm_num)]
    field_simp
    norm_num
  obtain ⟨xp, n1, hp, -, -, hv⟩ := hex [1, -1] argsC none rfl (by simp) W dW hW { wavelet := argsC.wavelet, admSsq := 2 * Real.log 2, xMean := 5 } rfl [3] 2 (by
      intro r hrm
      obtain ⟨i, hi, rfl⟩ := List.getElem_of_mem hrm
      have := (hr i (by rw [← hl]; exact hi)).1
      rw [List.getD_eq_getElem _ _ hi] at this
      simpa using this) xh hx 2 (by simp) _ rfl (by
      intro k h0 h1
      obtain rfl : k = 1 := by omega
      have : argsC.wavelet.fn = .cplx fnC := rfl
      rw [this]
      show Spec.gain true true (WFn.cplx fnC).eval 2 (2 * Real.log 2) (Spec.icwtWeight .log (.int 1) [1, 2, 4]) [1, 2, 4] 1 +
        (starRingEnd ℂ) (Spec.gain true true (WFn.cplx fnC).eval 2 (2 * Real.log 2) (Spec.icwtWeight .log (.int 1) [1, 2, 4]) [1, 2, 4] 1) = 2
      rw [hg]; norm_num)
  obtain ⟨rfl, rfl⟩ := hp
  have h0 := hv 0 (by simp)
  have h1 := hv 1 (by simp)
  have hrp : argsC.rpadded = false := rfl
  simp [hrp] at h0 h1
  norm_num at h0 h1
  exact ⟨h0, h1⟩

end Ssq
