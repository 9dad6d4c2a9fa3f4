import Verif.Props.SsqCwt
import Verif.Lemmas.Icwt
import Verif.Model.Components

/-!
# Inverse CWT (C40, C41, C42, C72)
-/
namespace Ssq
open Complex

namespace Spec

/-- The measure `d(scale)/scale` that `icwt` gives to scale `i`: `ln 2 / nv` for logarithmic scales, with
the `nv` of the scale's own segment for piecewise ones, and `(π/4)/scale` for linear ones. -/
noncomputable def icwtWeight (st : ScaleType) (nv : Nv) (v : List ℝ) (i : ℕ) : ℝ :=
  match st, nv with
  | .linear, _ => Real.pi / 4 / v.getD i 0
  | _, .int n => Real.log 2 / n
  | _, .arr l => Real.log 2 / l.getD i 0
  | _, .none => 0

/-- The array of scales `v` of dtype `d` is recognised as type `st` with `nv` voices; a piecewise one has
two segments, with different whole numbers of voices, of three scales or more. `c` is the number of
pieces. -/
def IcwtScales (d : FDtype) (v : List ℝ) (st : ScaleType) (nv : Nv) (c : ℕ) : Prop :=
  inferScaletype d v = .ok (st, nv) ∧
    ((st ≠ .logPiecewise ∧ c = 1) ∨
      (st = .logPiecewise ∧ c = 2 ∧ ∃ p : ℕ, ∃ a : ℝ, ∃ n0 n1 : ℕ, 1 ≤ n0 ∧ 1 ≤ n1 ∧ n0 ≠ n1 ∧
        TwoSegment v p a (1 / (n0 : ℝ)) (1 / (n1 : ℝ)) ∧ 2 ≤ p ∧ p + 4 ≤ v.length))

end Spec

/-! ### The value returned -/

theorem zipWith_sum {α β : Type} (f : α → β → ℝ) (l1 : List α) (l2 : List β) (a : α) (b : β)
    (h : l1.length = l2.length) :
    (List.zipWith f l1 l2).sum = ∑ i ∈ Finset.range l1.length, f (l1.getD i a) (l2.getD i b) := by
  induction l1 generalizing l2 with
  | nil => simp
  | cons x l ih =>
    cases l2 with
    | nil => simp at h
    | cons y l2 =>
      simp only [List.zipWith_cons_cons, List.sum_cons, List.length_cons]
      rw [Finset.sum_range_succ', ih l2 (by simpa using h)]
      simp only [List.getD_cons_succ, List.getD_cons_zero]
      ring

theorem icwtLeaf_length (a : IcwtArgs) (n : ℕ) (W : List (List ℂ)) (v : List ℝ) (st : ScaleType) (nv : Nv) :
    (icwtLeaf a n W v st nv).length = n := by simp [icwtLeaf, icwt1int]

/-- One piece of the inverse. -/
theorem icwtLeaf_value (a : IcwtArgs) (n : ℕ) (W : List (List ℂ)) (v : List ℝ) (st : ScaleType) (nv : Nv)
    (hlen : v.length = W.length) (hpos : ∀ s ∈ v, 0 < s)
    (hst : (st = .log ∧ ∃ m, nv = .int m) ∨ st = .linear) {j : ℕ} (hj : j < n) :
    (icwtLeaf a n W v st nv).getD j 0 =
      ∑ i ∈ Finset.range v.length, 2 / a.admSsq * Spec.icwtWeight st nv v i *
        ((ent W i j).re / (if a.l1Norm then 1 else Real.sqrt (v.getD i 0))) + a.xMean := by
  have h1 : (icwtLeaf a n W v st nv).getD j 0 =
      (List.zipWith (fun (s : ℝ) (row : List ℂ) =>
        (row.getD j 0).re / (icwtNorm st a.l1Norm s).getD 0) v W).sum * icwtFactor a.admSsq st nv + a.xMean := by
    unfold icwtLeaf icwt1int
    rw [List.map_map, getD_map_range _ _ hj]
    rfl
  rw [h1, zipWith_sum _ v W 0 [] hlen, Finset.sum_mul]
  congr 1
  refine Finset.sum_congr rfl fun i hi => ?_
  rw [Finset.mem_range] at hi
  have hs : 0 < v.getD i 0 := by
    rw [List.getD_eq_getElem _ _ hi]; exact hpos _ (List.getElem_mem _)
  have hq : 0 < Real.sqrt (v.getD i 0) := Real.sqrt_pos.2 hs
  unfold ent
  rcases hst with ⟨rfl, m, rfl⟩ | rfl
  · simp only [icwtNorm, icwtFactor, Spec.icwtWeight]
    rw [Real.log_rpow two_pos]
    cases a.l1Norm <;> simp <;> ring
  · have hf : icwtFactor a.admSsq .linear nv = 2 / a.admSsq * Real.pi / 4 := by
      unfold icwtFactor; cases nv <;> rfl
    rw [hf]
    have hw : Spec.icwtWeight .linear nv v i = Real.pi / 4 / v.getD i 0 := by
      unfold Spec.icwtWeight; cases nv <;> rfl
    rw [hw]
    simp only [icwtNorm]
    cases a.l1Norm
    · simp only [Bool.false_eq_true, if_false, Option.getD_some]; field_simp
    · simp only [if_true, reduceCtorEq, if_false, Option.getD_some]; field_simp

theorem icwtArr_geometric (a : IcwtArgs) (n : ℕ) (W : List (List ℂ)) {v : List ℝ} {b : ℝ} {m : ℕ}
    (hm : 1 ≤ m) (h : Spec.Geometric v b (1 / (m : ℝ))) (h3 : 3 ≤ v.length) (hlen : v.length = W.length) :
    icwtArr a n W v = .ok (icwtLeaf a n W v .log (.int m)) := by
  unfold icwtArr
  have hsh : ((([v.length, 1] : List ℕ)).filter (· ≠ 1)).length = 1 := by
    rw [List.filter_cons_of_pos (by simp; omega)]; simp
  simp only [process_geometric (dt := .f64) (by decide) hm h h3 hsh]
  rw [if_neg (not_not.2 hlen)]
  simp only [reduceCtorEq, if_false]

/-- Positivity of recognised scales. -/
theorem infer_pos {d : FDtype} {v : List ℝ} {st : ScaleType} {nv : Nv} (h : inferScaletype d v = .ok (st, nv))
    (hst : st ≠ .linear) : ∀ s ∈ v, 0 < s := by
  unfold inferScaletype at h
  split at h
  · simp at h
  · split at h
    · simp at h
    · split at h
      · rename_i hc; exact hc.1
      · split at h
        · simp only [Except.ok.injEq, Prod.mk.injEq] at h; exact absurd h.1.symm hst
        · split at h
          · simp at h
          · rename_i hc; exact not_not.1 hc

/-- Recognised types come with the right kind of `nv`. -/
theorem infer_kind {d : FDtype} {v : List ℝ} {st : ScaleType} {nv : Nv} (h : inferScaletype d v = .ok (st, nv)) :
    (st = .log ∧ ∃ m, nv = .int m) ∨ (st = .linear ∧ nv = .none) ∨ (st = .logPiecewise ∧ ∃ l, nv = .arr l) := by
  unfold inferScaletype at h
  split at h
  · simp at h
  · split at h
    · simp at h
    · split at h
      · simp only at h
        split at h
        · simp at h
        · simp only [Except.ok.injEq, Prod.mk.injEq] at h
          exact Or.inl ⟨h.1.symm, _, h.2.symm⟩
      · split at h
        · simp only [Except.ok.injEq, Prod.mk.injEq] at h
          exact Or.inr (Or.inl ⟨h.1.symm, h.2.symm⟩)
        · split at h
          · simp at h
          · obtain ⟨o, ho, h⟩ := bind_ok h
            cases o with
            | none => simp [throw, throwThe, MonadExceptOf.throw] at h
            | some i =>
              simp only at h
              obtain ⟨l', hl', h⟩ := bind_ok h
              simp only [pure_eq_ok, Except.ok.injEq, Prod.mk.injEq] at h
              exact Or.inr (Or.inr ⟨h.1.symm, _, h.2.symm⟩)

theorem process_kind {sh : List ℕ} {d : FDtype} {v : List ℝ} {N : ℕ} {wv : Option ScaleWavelet}
    {q : Option ℚ} {up : Bool} {ds : ℕ} {r : List ℝ × ScaleType × ℕ × Nv} {st : ScaleType} {nv : Nv}
    (hi : inferScaletype d v = .ok (st, nv))
    (h : processScales (.arr sh d v) N wv q up ds = .ok r) :
    r.1 = v ∧ r.2.1 = st ∧ (st ≠ .linear → r.2.2.2 = nv) := by
  unfold processScales at h
  simp only at h
  split at h
  · simp at h
  · simp only [hi, ok_bind] at h
    rcases infer_kind hi with ⟨rfl, m, rfl⟩ | ⟨rfl, rfl⟩ | ⟨rfl, l, rfl⟩
    · simp only at h
      split at h
      · simp at h
      · obtain ⟨k, hk, h⟩ := bind_ok h
        simp only [pure_eq_ok, Except.ok.injEq] at h
        subst h
        refine ⟨rfl, rfl, fun _ => ?_⟩
        unfold positiveInteger at hk
        split at hk
        · rename_i hc
          simp only [Except.ok.injEq] at hk
          have h0 : (0 : ℚ) < m := hc.1
          have : 0 < m := by exact_mod_cast h0
          simp only [Rat.floor_intCast, Rat.num_intCast] at hk
          subst hk
          simp
          omega
        · simp at hk
    · simp only at h
      cases q with
      | none =>
        simp only [pure_eq_ok, Except.ok.injEq] at h
        subst h
        exact ⟨rfl, rfl, fun hc => absurd rfl hc⟩
      | some q =>
        simp only at h
        obtain ⟨k, hk, h⟩ := bind_ok h
        simp only [pure_eq_ok, Except.ok.injEq] at h
        subst h
        exact ⟨rfl, rfl, fun hc => absurd rfl hc⟩
    · simp only [pure_eq_ok, Except.ok.injEq] at h
      subst h
      exact ⟨rfl, rfl, fun _ => rfl⟩

/-- **The one-integral inverse, exactly.** For every recognised array of scales. -/
theorem icwt_value (a : IcwtArgs) (n : ℕ) (W : List (List ℂ)) (sh : List ℕ) (d : FDtype) (v : List ℝ)
    (xh : List ℝ) (h : icwt n W (.arr sh d v) a = .ok xh) (st : ScaleType) (nv : Nv) (c : ℕ)
    (hs : Spec.IcwtScales d v st nv c) (hpos : ∀ s ∈ v, 0 < s) :
    W.length = v.length ∧ xh.length = n ∧ ∀ j < n, xh.getD j 0 =
      ∑ i ∈ Finset.range v.length, 2 / a.admSsq * Spec.icwtWeight st nv v i *
        ((ent W i j).re / (if a.l1Norm then 1 else Real.sqrt (v.getD i 0))) + c * a.xMean := by
  obtain ⟨hi, hc⟩ := hs
  unfold icwt at h
  obtain ⟨_, _, h'⟩ := bind_ok h
  clear h
  simp only at h'
  obtain ⟨r, hr, h⟩ := bind_ok h'
  clear h'
  obtain ⟨e1, e2, e3⟩ := process_kind hi hr
  obtain ⟨r1, r2, r3, r4⟩ := r
  simp only at e1 e2 e3
  subst e1 e2
  unfold icwt.icwtTop at h
  split at h
  · simp at h
  · rename_i hlen
    rw [not_not] at hlen
    change r1.length = W.length at hlen
    refine ⟨hlen.symm, ?_⟩
    rcases hc with ⟨hne, rfl⟩ | ⟨hp, rfl, p, b, n0, n1, h0, h1, hne, htwo, hp2, hp4⟩
    · rw [if_neg hne] at h
      simp only [Except.ok.injEq] at h
      subst h
      refine ⟨icwtLeaf_length _ _ _ _ _ _, fun j hj => ?_⟩
      rcases infer_kind hi with ⟨rfl, m, rfl⟩ | ⟨rfl, rfl⟩ | ⟨rfl, -⟩
      · rw [e3 (by simp), icwtLeaf_value a n W r1 .log (.int m) hlen hpos (Or.inl ⟨rfl, m, rfl⟩) hj]
        simp
      · rw [icwtLeaf_value a n W r1 .linear r4 hlen hpos (Or.inr rfl) hj]
        have : ∀ i, Spec.icwtWeight .linear r4 r1 i = Spec.icwtWeight .linear .none r1 i := by
          intro i; unfold Spec.icwtWeight; cases r4 <;> rfl
        simp [this]
      · exact absurd rfl hne
    · subst hp
      have hn0 : (0 : ℝ) < n0 := by exact_mod_cast h0
      have hn1 : (0 : ℝ) < n1 := by exact_mod_cast h1
      have hd : (1 : ℝ) / n0 ≠ 1 / n1 := by
        rw [one_div, one_div, Ne, inv_inj]; exact_mod_cast hne
      have htr : logscaleTransitionIdx (thTr .f64) r1 = .ok (some (p + 1)) :=
        transition_two (by norm_num [thTr]) htwo hd
      have hg0 := two_take htwo
      have hg1 := two_drop htwo
      have hl0 : (r1.take (p + 1)).length = (W.take (p + 1)).length := by simp; omega
      have hl1 : (r1.drop (p + 1)).length = (W.drop (p + 1)).length := by simp; omega
      simp only [if_true, htr, ok_bind, icwtArr_geometric a n _ h0 hg0 (by simp; omega) hl0,
        icwtArr_geometric a n _ h1 hg1 (by simp; omega) hl1, Except.ok.injEq] at h
      subst h
      refine ⟨by simp [icwtLeaf_length], fun j hj => ?_⟩
      have hz : ∀ x y : List ℝ, x.length = n → y.length = n →
          (List.zipWith (fun u v : ℝ => u + v) x y).getD j 0 = x.getD j 0 + y.getD j 0 := by
        intro x y hx hy
        rw [List.getD_eq_getElem _ _ (by simp [hx, hy, hj]), List.getElem_zipWith,
          List.getD_eq_getElem _ _ (by omega), List.getD_eq_getElem _ _ (by omega)]
      have hpos0 : ∀ s ∈ r1.take (p + 1), 0 < s := fun s hs => hpos s (List.mem_of_mem_take hs)
      have hpos1 : ∀ s ∈ r1.drop (p + 1), 0 < s := fun s hs => hpos s (List.mem_of_mem_drop hs)
      rw [hz _ _ (icwtLeaf_length _ _ _ _ _ _) (icwtLeaf_length _ _ _ _ _ _),
        icwtLeaf_value a n _ _ .log (.int n0) hl0 hpos0 (Or.inl ⟨rfl, _, rfl⟩) hj,
        icwtLeaf_value a n _ _ .log (.int n1) hl1 hpos1 (Or.inl ⟨rfl, _, rfl⟩) hj]
      have hnv : nv = .arr (nvTwo r1.length p (1 / (n0 : ℝ)) (1 / (n1 : ℝ))) := by
        have hi' := hi
        unfold inferScaletype at hi'
        have hdt : d ≠ .other := by
          intro e; rw [if_pos e] at hi'; simp at hi'
        rw [if_neg hdt] at hi'
        split at hi'
        · simp at hi'
        · split at hi'
          · simp only at hi'
            split at hi' <;> simp at hi'
          · split at hi'
            · simp at hi'
            · · have hth : 0 < thTr d := by cases d <;> norm_num [thTr]
                simp only [transition_two hth htwo hd, nvFromScales_two hth htwo hd, ok_bind,
                  pure_eq_ok, Except.ok.injEq, Prod.mk.injEq, true_and] at hi'
                exact hi'.symm
      have hsplit : r1.length = (p + 1) + (r1.length - (p + 1)) := by omega
      conv_rhs => rw [hsplit, Finset.sum_range_add]
      have hl0' : (r1.take (p + 1)).length = p + 1 := by simp; omega
      have hl1' : (r1.drop (p + 1)).length = r1.length - (p + 1) := by simp
      rw [hl0', hl1']
      have hA : ∀ i ∈ Finset.range (p + 1),
          2 / a.admSsq * Spec.icwtWeight .log (.int n0) (r1.take (p + 1)) i *
            ((ent (W.take (p + 1)) i j).re /
              (if a.l1Norm then 1 else Real.sqrt ((r1.take (p + 1)).getD i 0))) =
          2 / a.admSsq * Spec.icwtWeight .logPiecewise nv r1 i *
            ((ent W i j).re / (if a.l1Norm then 1 else Real.sqrt (r1.getD i 0))) := by
        intro i hi
        rw [Finset.mem_range] at hi
        have g1 : (r1.take (p + 1)).getD i 0 = r1.getD i 0 := by
          rw [List.getD_eq_getElem _ _ (by omega), List.getD_eq_getElem _ _ (by omega), List.getElem_take]
        have g2 : ent (W.take (p + 1)) i j = ent W i j := by
          unfold ent
          rw [List.getD_eq_getElem (W.take (p + 1)) [] (by simp; omega),
            List.getD_eq_getElem W [] (by omega), List.getElem_take]
        rw [g1, g2, hnv]
        simp only [Spec.icwtWeight, nvTwo]
        rw [getD_map_range _ _ (by omega : i < r1.length), if_pos (show i ≤ p by omega), one_div_one_div]
        simp
      have hB : ∀ i ∈ Finset.range (r1.length - (p + 1)),
          2 / a.admSsq * Spec.icwtWeight .log (.int n1) (r1.drop (p + 1)) i *
            ((ent (W.drop (p + 1)) i j).re /
              (if a.l1Norm then 1 else Real.sqrt ((r1.drop (p + 1)).getD i 0))) =
          2 / a.admSsq * Spec.icwtWeight .logPiecewise nv r1 (p + 1 + i) *
            ((ent W (p + 1 + i) j).re / (if a.l1Norm then 1 else Real.sqrt (r1.getD (p + 1 + i) 0))) := by
        intro i hi
        rw [Finset.mem_range] at hi
        have g1 : (r1.drop (p + 1)).getD i 0 = r1.getD (p + 1 + i) 0 := by
          rw [List.getD_eq_getElem _ _ (by omega), List.getD_eq_getElem _ _ (by omega), List.getElem_drop]
        have g2 : ent (W.drop (p + 1)) i j = ent W (p + 1 + i) j := by
          unfold ent
          rw [List.getD_eq_getElem (W.drop (p + 1)) [] (by simp; omega),
            List.getD_eq_getElem W [] (by omega), List.getElem_drop]
        rw [g1, g2, hnv]
        simp only [Spec.icwtWeight, nvTwo]
        rw [getD_map_range _ _ (by omega : p + 1 + i < r1.length), if_neg (show ¬ p + 1 + i ≤ p by omega),
          one_div_one_div]
        simp
      rw [Finset.sum_congr rfl hA, Finset.sum_congr rfl hB]
      push_cast; ring

/-- With array scales that `process_scales` accepts, `icwt` of a transform with a row per scale succeeds. -/
theorem icwt_runs (a : IcwtArgs) (n : ℕ) (W : List (List ℂ)) (sh : List ℕ) (d : FDtype) (v : List ℝ)
    (hg : checkGmw a.wavelet.gmw a.l1Norm = .ok ()) (hlen : W.length = v.length) (st : ScaleType) (nv : Nv)
    (c : ℕ) (hs : Spec.IcwtScales d v st nv c)
    (hp : ∃ r, processScales (.arr sh d v) (icwtArr.orElseN a.xLen n) (some a.wavelet.sw) a.nv true a.downsample =
      .ok r) :
    ∃ xh, icwt n W (.arr sh d v) a = .ok xh := by
  obtain ⟨r, hr⟩ := hp
  obtain ⟨hi, hc⟩ := hs
  obtain ⟨e1, e2, -⟩ := process_kind hi hr
  obtain ⟨r1, r2, r3, r4⟩ := r
  simp only at e1 e2
  subst e1 e2
  unfold icwt
  simp only [hg, hr, ok_bind, icwt.icwtTop]
  rw [if_neg (not_not.2 hlen.symm)]
  rcases hc with ⟨hne, rfl⟩ | ⟨rfl, rfl, p, b, n0, n1, h0, h1, hne, htwo, hp2, hp4⟩
  · rw [if_neg hne]; exact ⟨_, rfl⟩
  · have hd : (1 : ℝ) / n0 ≠ 1 / n1 := by
      rw [one_div, one_div, Ne, inv_inj]; exact_mod_cast hne
    have htr : logscaleTransitionIdx (thTr .f64) r1 = .ok (some (p + 1)) :=
      transition_two (by norm_num [thTr]) htwo hd
    have hl0 : (r1.take (p + 1)).length = (W.take (p + 1)).length := by simp; omega
    have hl1 : (r1.drop (p + 1)).length = (W.drop (p + 1)).length := by simp; omega
    simp only [if_true, htr, ok_bind, icwtArr_geometric a n _ h0 (two_take htwo) (by simp; omega) hl0,
      icwtArr_geometric a n _ h1 (two_drop htwo) (by simp; omega) hl1]
    exact ⟨_, rfl⟩

/-! ### C42: the mean -/

theorem icwtLeaf_mean (a : IcwtArgs) (n : ℕ) (W : List (List ℂ)) (v : List ℝ) (st : ScaleType) (nv : Nv) (m : ℝ) :
    icwtLeaf { a with xMean := m } n W v st nv =
      (icwtLeaf { a with xMean := 0 } n W v st nv).map (· + ((1 : ℕ) : ℝ) * m) := by
  unfold icwtLeaf
  rw [List.map_map]
  apply List.map_congr_left
  intro u _
  simp

theorem zip_mean (x y : List ℝ) (c e : ℕ) (m : ℝ) :
    List.zipWith (fun u v : ℝ => u + v) (x.map (· + (c : ℝ) * m)) (y.map (· + (e : ℝ) * m)) =
      (List.zipWith (fun u v : ℝ => u + v) x y).map (· + ((c + e : ℕ) : ℝ) * m) := by
  rw [List.zipWith_map, List.map_zipWith]
  congr 1
  funext u v
  push_cast; ring

/-- The recursion on an array of scales adds the mean once per piece. -/
theorem icwtArr_mean (a : IcwtArgs) (n : ℕ) : ∀ (v : List ℝ) (W : List (List ℂ)) (x : List ℝ),
    icwtArr { a with xMean := 0 } n W v = .ok x →
    ∃ c : ℕ, 1 ≤ c ∧ ∀ m, icwtArr { a with xMean := m } n W v = .ok (x.map (· + (c : ℝ) * m)) := by
  intro v
  induction hk : v.length using Nat.strong_induction_on generalizing v with
  | _ k ih =>
    intro W x h
    rw [icwtArr] at h
    simp only at h
    split at h
    · simp at h
    · rename_i r1 st r3 nv hp
      split at h
      · simp at h
      · rename_i hlen
        split at h
        · rename_i hst
          split at h
          · simp at h
          · simp at h
          · rename_i idx htr
            split at h
            · rename_i hidx
              split at h
              · rename_i x0 y0 hx0 hy0
                simp only [Except.ok.injEq] at h
                subst h
                obtain ⟨c, hc, hx⟩ := ih _ (by rw [← hk]; simp; omega) (v.take idx) rfl _ _ hx0
                obtain ⟨e, he, hy⟩ := ih _ (by rw [← hk]; simp; omega) (v.drop idx) rfl _ _ hy0
                refine ⟨c + e, by omega, fun m => ?_⟩
                rw [icwtArr]
                simp only [hp]
                rw [if_neg hlen, if_pos hst]
                simp only [htr]
                rw [dif_pos hidx]
                simp only [hx m, hy m, zip_mean]
              · simp at h
              · simp at h
            · simp at h
        · rename_i hst
          simp only [Except.ok.injEq] at h
          subst h
          refine ⟨1, le_rfl, fun m => ?_⟩
          rw [icwtArr]
          simp only [hp]
          rw [if_neg hlen, if_neg hst, icwtLeaf_mean]

namespace Spec

/-- The scales are of the piecewise-logarithmic type: named so, or recognised as such. -/
def PiecewiseArg : ScalesArg → Prop
  | .str s => ∃ preset, parseScalesStr s = .ok (.logPiecewise, preset)
  | .arr _ d v => ∃ nv, inferScaletype d v = .ok (.logPiecewise, nv)
  | .other => False

end Spec

theorem process_piecewise {scales : ScalesArg} {N : ℕ} {wv : Option ScaleWavelet} {q : Option ℚ} {up : Bool}
    {ds : ℕ} {r : List ℝ × ScaleType × ℕ × Nv} (h : processScales scales N wv q up ds = .ok r) :
    r.2.1 = .logPiecewise ↔ Spec.PiecewiseArg scales := by
  cases scales with
  | other => simp [processScales] at h
  | arr sh d v =>
    obtain ⟨e1, st, nv, hi⟩ := processScales_arr_infer h
    obtain ⟨-, e2, -⟩ := process_kind hi h
    simp only [Spec.PiecewiseArg, e2, hi, Except.ok.injEq, Prod.mk.injEq]
    constructor
    · rintro rfl; exact ⟨nv, rfl, rfl⟩
    · rintro ⟨_, h, _⟩; exact h
  | str s =>
    simp only [processScales] at h
    obtain ⟨p, hp, h⟩ := bind_ok h
    obtain ⟨st, preset⟩ := p
    have : r.2.1 = st := by
      simp only at h
      cases wv with
      | none => simp [throw, throwThe, MonadExceptOf.throw] at h
      | some wv =>
        simp only at h
        obtain ⟨_, _, h⟩ := bind_ok h
        obtain ⟨_, _, h⟩ := bind_ok h
        obtain ⟨_, _, h⟩ := bind_ok h
        obtain ⟨_, _, h⟩ := bind_ok h
        simp only [pure_eq_ok, Except.ok.injEq] at h
        rw [← h]
    simp only [Spec.PiecewiseArg, this, hp, Except.ok.injEq, Prod.mk.injEq]
    constructor
    · rintro rfl; exact ⟨preset, rfl, rfl⟩
    · rintro ⟨_, h, _⟩; exact h

theorem icwtTop_mean (a : IcwtArgs) (n : ℕ) (W : List (List ℂ)) (r : List ℝ × ScaleType × ℕ × Nv) (x : List ℝ)
    (h : icwt.icwtTop { a with xMean := 0 } n W r = .ok x) :
    ∃ c : ℕ, (∀ m, icwt.icwtTop { a with xMean := m } n W r = .ok (x.map (· + (c : ℝ) * m))) ∧
      (r.2.1 ≠ .logPiecewise → c = 1) ∧ (r.2.1 = .logPiecewise → 2 ≤ c) := by
  unfold icwt.icwtTop at h ⊢
  split at h
  · simp at h
  · rename_i hlen
    simp only [if_neg hlen]
    split at h
    · rename_i hst
      simp only [if_pos hst]
      obtain ⟨o, ho, h'⟩ := bind_ok h
      clear h
      cases o with
      | none =>
        simp only at h'
        obtain ⟨x0, hx0, h'⟩ := bind_ok h'
        obtain ⟨y0, hy0, h'⟩ := bind_ok h'
        simp only [Except.ok.injEq] at h'
        subst h'
        obtain ⟨c, hc, hx⟩ := icwtArr_mean a n _ _ _ hx0
        obtain ⟨e, he, hy⟩ := icwtArr_mean a n _ _ _ hy0
        refine ⟨c + e, fun m => ?_, fun hn => absurd hst hn, fun _ => by omega⟩
        simp only [ho, ok_bind, hx m]
        have := hy m
        rw [hx m] at this
        simp only [Except.ok.injEq] at this
        rw [this] 
        rw [← zip_mean]
        rw [this]
      | some idx =>
        simp only at h'
        obtain ⟨x0, hx0, h'⟩ := bind_ok h'
        obtain ⟨y0, hy0, h'⟩ := bind_ok h'
        simp only [Except.ok.injEq] at h'
        subst h'
        obtain ⟨c, hc, hx⟩ := icwtArr_mean a n _ _ _ hx0
        obtain ⟨e, he, hy⟩ := icwtArr_mean a n _ _ _ hy0
        refine ⟨c + e, fun m => ?_, fun hn => absurd hst hn, fun _ => by omega⟩
        simp only [ho, ok_bind, hx m, hy m, zip_mean]
    · rename_i hst
      simp only [Except.ok.injEq] at h
      subst h
      refine ⟨1, fun m => ?_, fun _ => rfl, fun hp => absurd hp hst⟩
      simp only [if_neg hst]
      rw [icwtLeaf_mean]

/-- **C42, what the code does.** For every transform, scales argument (string or array), normalisation and
mean: `x_mean` is added a whole number of times, independent of the mean: once if the scales are not
piecewise, at least twice if they are. -/
theorem C42_count (a : IcwtArgs) (n : ℕ) (W : List (List ℂ)) (scales : ScalesArg) (x : List ℝ)
    (h : icwt n W scales { a with xMean := 0 } = .ok x) :
    ∃ c : ℕ, (∀ m, icwt n W scales { a with xMean := m } = .ok (x.map (· + (c : ℝ) * m))) ∧
      (¬ Spec.PiecewiseArg scales → c = 1) ∧ (Spec.PiecewiseArg scales → 2 ≤ c) := by
  unfold icwt at h ⊢
  obtain ⟨_, hg, h'⟩ := bind_ok h
  clear h
  simp only at hg
  cases scales with
  | arr sh d v =>
    simp only at h'
    obtain ⟨r, hr, h'⟩ := bind_ok h'
    obtain ⟨c, h1, h2, h3⟩ := icwtTop_mean a n W r x h'
    refine ⟨c, fun m => ?_, fun hn => h2 fun e => hn ((process_piecewise hr).1 e),
      fun hp => h3 ((process_piecewise hr).2 hp)⟩
    simp only [hg, hr, ok_bind, h1 m]
  | str s =>
    simp only at h'
    obtain ⟨r, hr, h'⟩ := bind_ok h'
    obtain ⟨c, h1, h2, h3⟩ := icwtTop_mean a n W r x h'
    refine ⟨c, fun m => ?_, fun hn => h2 fun e => hn ((process_piecewise hr).1 e),
      fun hp => h3 ((process_piecewise hr).2 hp)⟩
    simp only [hg, hr, ok_bind, h1 m]
  | other =>
    simp only at h'
    obtain ⟨r, hr, h'⟩ := bind_ok h'
    simp [processScales] at hr

/-- **C42**, as stated: giving the mean adds it to the inverse, whatever the scales. -/
def C42_full : Prop := ∀ (a : IcwtArgs) (n : ℕ) (W : List (List ℂ)) (scales : ScalesArg) (x : List ℝ),
  icwt n W scales { a with xMean := 0 } = .ok x →
    ∀ m, icwt n W scales { a with xMean := m } = .ok (x.map (· + m))

/-- **C42 for log and linear scales** (missing: piecewise scales, for which it is false). -/
theorem C42_mean_partial (a : IcwtArgs) (n : ℕ) (W : List (List ℂ)) (scales : ScalesArg) (x : List ℝ)
    (h : icwt n W scales { a with xMean := 0 } = .ok x) (hs : ¬ Spec.PiecewiseArg scales) (m : ℝ) :
    icwt n W scales { a with xMean := m } = .ok (x.map (· + m)) := by
  obtain ⟨c, h1, h2, -⟩ := C42_count a n W scales x h
  rw [h1 m, h2 hs]
  simp

/-! ### A concrete piecewise array -/

/-- Six scales: two voices per octave, then one. -/
noncomputable def v6 : List ℝ := [1, (2 : ℝ) ^ ((1 : ℝ) / 2), 2, 4, 8, 16]

theorem two_v6 : Spec.TwoSegment v6 2 0 (1 / (2 : ℕ)) (1 / (1 : ℕ)) := by
  refine ⟨by norm_num, by simp [v6], ?_⟩
  have hl : ∀ k : ℝ, Real.logb 2 ((2 : ℝ) ^ k) = k := fun k => Real.logb_rpow (by norm_num) (by norm_num)
  have h1 : Real.logb 2 2 = 1 := by simpa using hl 1
  have h2 : Real.logb 2 4 = 2 := by
    have := hl 2
    rwa [show (2 : ℝ) ^ (2 : ℝ) = 4 by norm_num] at this
  have h3 : Real.logb 2 8 = 3 := by
    have := hl 3
    rwa [show (2 : ℝ) ^ (3 : ℝ) = 8 by norm_num] at this
  have h4 : Real.logb 2 16 = 4 := by
    have := hl 4
    rwa [show (2 : ℝ) ^ (4 : ℝ) = 16 by norm_num] at this
  intro i hi
  simp only [v6, List.length_cons, List.length_nil] at hi
  unfold v6
  interval_cases i
  · simp
  · refine ⟨by simp; positivity, ?_⟩
    simp only [List.getElem_cons_succ, List.getElem_cons_zero, hl]
    norm_num
  · simp [h1]
  · simp [h2]; norm_num
  · simp [h3]; norm_num
  · simp [h4]; norm_num

theorem meanAbsDiff2_ge (l : List ℝ) (i : ℕ) (hi : i + 2 < l.length) :
    |(l.getD (i + 2) 0 - l.getD (i + 1) 0) - (l.getD (i + 1) 0 - l.getD i 0)| / (l.length - 2 : ℕ) ≤
      meanAbsDiff2 l := by
  unfold meanAbsDiff2
  apply div_le_div_of_nonneg_right _ (Nat.cast_nonneg _)
  refine List.single_le_sum (fun x hx => ?_) _ (List.mem_map.2 ⟨i, List.mem_range.2 (by omega), rfl⟩)
  obtain ⟨k, -, rfl⟩ := List.mem_map.1 hx
  exact abs_nonneg _

theorem infer_v6 : inferScaletype .f64 v6 = .ok (.logPiecewise, .arr (nvTwo 6 2 (1 / (2 : ℕ)) (1 / (1 : ℕ)))) := by
  apply infer_two (by decide) two_v6 (by norm_num)
  · rw [not_lt]
    have h4 : Real.log 4 = 2 * Real.log 2 := by
      rw [show (4 : ℝ) = 2 ^ 2 by norm_num, Real.log_pow]; norm_num
    have hs : Real.log ((2 : ℝ) ^ ((1 : ℝ) / 2)) = 1 / 2 * Real.log 2 := Real.log_rpow (by norm_num) _
    have hl2 := Real.log_two_gt_d9
    refine le_trans ?_ (meanAbsDiff2_ge _ 1 (by simp [v6]))
    simp only [v6, List.map_cons, List.map_nil, List.length_cons, List.length_nil, thLog, List.getD_cons_succ,
      List.getD_cons_zero]
    rw [h4, hs, show 2 * Real.log 2 - Real.log 2 - (Real.log 2 - 1 / 2 * Real.log 2) = 1 / 2 * Real.log 2 by ring,
      abs_of_nonneg (by linarith)]
    norm_num
    linarith
  · rw [not_lt]
    refine le_trans ?_ (meanAbsDiff2_ge _ 3 (by simp [v6]))
    simp only [v6, List.length_cons, List.length_nil, thLog, List.getD_cons_succ, List.getD_cons_zero]
    norm_num

theorem icwtScales_v6 :
    Spec.IcwtScales .f64 v6 .logPiecewise (.arr (nvTwo 6 2 (1 / (2 : ℕ)) (1 / (1 : ℕ)))) 2 :=
  ⟨infer_v6, Or.inr ⟨rfl, rfl, 2, 0, 2, 1, by norm_num, by norm_num, by norm_num, two_v6, le_rfl, by simp [v6]⟩⟩

theorem process_v6 (N : ℕ) (wv : Option ScaleWavelet) (q : Option ℚ) (up : Bool) (ds : ℕ) {sh : List ℕ}
    (hsh : (sh.filter (· ≠ 1)).length = 1) :
    processScales (.arr sh .f64 v6) N wv q up ds =
      .ok (v6, .logPiecewise, 6, .arr (nvTwo 6 2 (1 / (2 : ℕ)) (1 / (1 : ℕ)))) := by
  unfold processScales
  simp only [hsh, ne_eq, not_true_eq_false, if_false, infer_v6, ok_bind, pure_eq_ok]
  rfl

/-- Arguments of `icwt` with any mean. -/
noncomputable def exIcwt (m : ℝ) : IcwtArgs := { wavelet := ⟨.real fnR, sw0, none⟩, admSsq := 2, xMean := m }

theorem v6_pos : ∀ s ∈ v6, 0 < s := infer_pos infer_v6 (by simp)

theorem exIcwt_ok (n : ℕ) (W : List (List ℂ)) (hW : W.length = 6) (m : ℝ) :
    ∃ xh, icwt n W (.arr [6] .f64 v6) (exIcwt m) = .ok xh :=
  icwt_runs (exIcwt m) n W [6] .f64 v6 rfl (by rw [hW]; rfl) _ _ 2 icwtScales_v6
    ⟨_, process_v6 _ _ _ _ _ rfl⟩

/-- **C42 is false** for piecewise scales: over the scales `v6`, the inverse of a zero transform with mean 1
is 2. -/
theorem C42_refuted : ¬ C42_full := by
  intro h
  set W : List (List ℂ) := List.replicate 6 [0] with hW
  obtain ⟨x0, h0⟩ := exIcwt_ok 1 W (by simp [hW]) 0
  obtain ⟨x1, h1⟩ := exIcwt_ok 1 W (by simp [hW]) 1
  have e := h (exIcwt 0) 1 W (.arr [6] .f64 v6) x0 h0 1
  have h1' : icwt 1 W (.arr [6] .f64 v6) { exIcwt 0 with xMean := 1 } = .ok x1 := h1
  rw [h1'] at e
  simp only [Except.ok.injEq] at e
  obtain ⟨-, l0, v0⟩ := icwt_value _ _ _ _ _ _ _ h0 _ _ _ icwtScales_v6 v6_pos
  obtain ⟨-, l1, v1⟩ := icwt_value _ _ _ _ _ _ _ h1 _ _ _ icwtScales_v6 v6_pos
  have hz : ∀ i ∈ Finset.range v6.length, ent W i 0 = 0 := by
    intro i hi
    have : i < 6 := by simpa [v6] using hi
    unfold ent
    rw [hW]
    interval_cases i <;> simp
  have a0 := v0 0 (by norm_num)
  have a1 := v1 0 (by norm_num)
  rw [Finset.sum_eq_zero (fun i hi => by rw [hz i hi]; simp)] at a0 a1
  have : x1.getD 0 0 = x0.getD 0 0 + 1 := by
    rw [e, List.getD_eq_getElem _ _ (by simp [l0]), List.getElem_map, List.getD_eq_getElem _ _ (by omega)]
  rw [this, a0] at a1
  norm_num [exIcwt] at a1

/-- The hypotheses of `C42_count` are met by piecewise scales and by those of `C42_mean_partial` by log ones. -/
example : (∃ x, icwt 2 [[1, 2], [3, 4], [5, I], [1, 2], [3, 4], [5, I]] (.arr [6] .f64 v6) (exIcwt 0) = .ok x) ∧
    Spec.PiecewiseArg (.arr [6] .f64 v6) ∧ ¬ Spec.PiecewiseArg sc124 ∧
    ∃ x, icwt 2 [[1, 2], [3, 4], [5, I]] sc124 (exIcwt 0) = .ok x := by
  refine ⟨exIcwt_ok _ _ rfl 0, ⟨_, infer_v6⟩, ?_, ?_⟩
  · rintro ⟨nv, h⟩
    rw [infer124] at h
    simp at h
  · exact icwt_runs (exIcwt 0) 2 _ [3] .f64 [1, 2, 4] rfl rfl .log (.int 1) 1
      ⟨infer124, Or.inl ⟨by simp, rfl⟩⟩ ⟨_, process124 _ _ _ _⟩

/-! ### C40: the inverse is a filter -/

namespace Spec

/-- The frequency response of `icwt ∘ cwt`: the sampled wavelets of all scales, weighted and summed, over
the admissibility constant `C` (times 2 for the analytic part). -/
noncomputable def icwtGain (f : ℝ → ℂ) (L : ℕ) (C : ℝ) (st : ScaleType) (nv : Nv) (v : List ℝ) (k : ℕ) : ℂ :=
  ∑ i ∈ Finset.range v.length, ((2 / C * icwtWeight st nv v i : ℝ) : ℂ) * wavSample f L (v.getD i 0) k

end Spec

/-- **C40, filter.** For every real-valued wavelet, signal, pad type, normalisation, code path, sampling rate and
positive recognised scales (log, linear, two-segment): `icwt(cwt(x))` is `x` (padded) filtered with the sum of
the sampled wavelets over the admissibility constant, real part, restricted to the original samples — plus the
mean once per piece. -/
theorem C40_filter (x : List ℝ) (a : CwtArgs) (t : Option PadType) (ht : a.padtype = t.map padName)
    (hx : 0 < x.length) (hreal : ∀ w, (a.wavelet.fn.eval w).im = 0) (hrp : a.rpadded = false)
    (W : List (List ℂ)) (scales : List ℝ) (dW : List (List ℂ)) (h : cwt x a = .ok (W, scales, dW))
    (b : IcwtArgs) (hb : b.l1Norm = a.l1Norm) (sh : List ℕ) (d : FDtype) (xh : List ℝ)
    (hi : icwt x.length W (.arr sh d scales) b = .ok xh) (st : ScaleType) (nv : Nv) (c : ℕ)
    (hs : Spec.IcwtScales d scales st nv c) (hpos : ∀ s ∈ scales, 0 < s) :
    ∃ xp, ∃ n1 : ℕ, Spec.Padded t x xp n1 ∧ n1 + x.length ≤ xp.length ∧ xh.length = x.length ∧
      ∀ j < x.length, xh.getD j 0 =
        (idft xp.length (fun k => Spec.icwtGain a.wavelet.fn.eval xp.length b.admSsq st nv scales k *
          dft xp.length (fun q => ((xp.getD q 0 : ℝ) : ℂ)) k) (n1 + j)).re + c * b.xMean := by
  obtain ⟨xp, n1, fs, dt, hpad, -, -, -, -, hrow⟩ := C37_rows_partial x a t ht hx hreal W scales dW h
  obtain ⟨-, hl, hv⟩ := icwt_value b _ W sh d scales xh hi st nv c hs hpos
  have hle : n1 + x.length ≤ xp.length := by
    cases t with
    | none => obtain ⟨rfl, rfl⟩ := hpad; simp
    | some t => exact hpad.2.2.1
  refine ⟨xp, n1, hpad, hle, hl, fun j hj => ?_⟩
  rw [hv j hj]
  congr 1
  have hj' : j < (if a.rpadded = false ∧ t.isSome then x.length else xp.length) := by
    split <;> omega
  have hidx : (if a.rpadded = false ∧ t.isSome then n1 + j else j) = n1 + j := by
    cases t with
    | none => obtain ⟨rfl, rfl⟩ := hpad; simp
    | some t => simp [hrp]
  have hfun : (fun k => Spec.icwtGain a.wavelet.fn.eval xp.length b.admSsq st nv scales k *
      dft xp.length (fun q => ((xp.getD q 0 : ℝ) : ℂ)) k) = fun k => ∑ i ∈ Finset.range scales.length,
        (((2 / b.admSsq * Spec.icwtWeight st nv scales i : ℝ) : ℂ) *
          (Spec.wavSample a.wavelet.fn.eval xp.length (scales.getD i 0) k *
          dft xp.length (fun q => ((xp.getD q 0 : ℝ) : ℂ)) k)) := by
    funext k
    unfold Spec.icwtGain
    rw [Finset.sum_mul]
    exact Finset.sum_congr rfl fun i _ => by ring
  rw [hfun, idft_sum, re_sum]
  refine Finset.sum_congr rfl fun i hir => ?_
  rw [Finset.mem_range] at hir
  have hsi : scales.getD i 0 = scales[i] := List.getD_eq_getElem _ _ hir
  rw [idft_smul, re_ofReal_mul]
  congr 1
  rw [(((hrow i hir).2.2 j hj').1), hidx, hb, hsi]
  have hq : 0 < Real.sqrt scales[i] := Real.sqrt_pos.2 (hpos _ (List.getElem_mem _))
  cases a.l1Norm
  · simp only [Bool.false_eq_true, if_false]
    rw [re_ofReal_mul]
    field_simp
  · simp

/-- Filtering a real signal with a real gain whose values at opposite frequencies add up to 2. -/
theorem filter_flat (L : ℕ) (hL : 0 < L) (x : ℕ → ℝ) (g : ℕ → ℂ) (hg : ∀ k < L, (g k).im = 0)
    (hflat : ∀ k, 0 < k → k < L → g k + g (L - k) = 2) (m : ℕ) (hm : m < L) :
    (idft L (fun k => g k * dft L (fun q => (x q : ℂ)) k) m).re =
      x m + ((g 0).re - 1) * ((∑ q ∈ Finset.range L, x q) / L) := by
  set X := dft L (fun q => (x q : ℂ)) with hX
  have hL0 : L ≠ 0 := by omega
  set u : ℕ → ℝ := fun k => (X k * tw L ((m : ℤ) * k)).re with hu
  have husym : ∀ k ≤ L, u (L - k) = u k := by
    intro k hk
    have e1 : X (L - k) = (starRingEnd ℂ) (X k) := dft_real_symm x hk hL0
    have e2 : tw L ((m : ℤ) * ((L - k : ℕ) : ℤ)) = (starRingEnd ℂ) (tw L ((m : ℤ) * k)) := by
      rw [tw_conj, show (m : ℤ) * ((L - k : ℕ) : ℤ) = (L : ℤ) * m + -((m : ℤ) * k) by
        push_cast [Nat.cast_sub hk]; ring, tw_add, tw_mul_n hL0, one_mul]
    simp only [hu]
    rw [e1, e2, ← map_mul, conj_re]
  have hre : ∀ F : ℕ → ℂ, (∀ k < L, (F k).im = 0) →
      (idft L (fun k => F k * X k) m).re = (∑ k ∈ Finset.range L, (F k).re * u k) / L := by
    intro F hF
    unfold idft
    rw [show ((L : ℕ) : ℂ) = ((L : ℝ) : ℂ) by simp, div_ofReal_re, re_sum]
    congr 1
    refine Finset.sum_congr rfl fun k hk => ?_
    have : F k = (((F k).re : ℝ) : ℂ) := by
      apply Complex.ext <;> simp [hF k (Finset.mem_range.1 hk)]
    rw [mul_assoc, this, re_ofReal_mul, ofReal_re]
  have hone : (∑ k ∈ Finset.range L, u k) / L = x m := by
    have h1 := hre (fun _ => 1) (by simp)
    have h2 : idft L (fun k => (1 : ℂ) * X k) m = (x m : ℂ) := by
      simp only [one_mul]
      exact idft_dft (fun q => (x q : ℂ)) hm
    rw [h2] at h1
    simpa using h1.symm
  rw [hre g hg, ← hone]
  obtain ⟨n, rfl⟩ : ∃ n, L = n + 1 := ⟨L - 1, by omega⟩
  have hX0 : u 0 = ∑ q ∈ Finset.range (n + 1), x q := by
    simp only [hu, hX, dft]
    simp
  rw [Finset.sum_range_succ', Finset.sum_range_succ', ← hX0]
  have hA : ∑ k ∈ Finset.range n, (g (k + 1)).re * u (k + 1) = ∑ k ∈ Finset.range n, u (k + 1) := by
    have hr : ∑ k ∈ Finset.range n, (g (k + 1)).re * u (k + 1) =
        ∑ k ∈ Finset.range n, (g (n + 1 - (k + 1))).re * u (k + 1) := by
      rw [← Finset.sum_range_reflect]
      refine Finset.sum_congr rfl fun k hk => ?_
      rw [Finset.mem_range] at hk
      rw [show n - 1 - k + 1 = n + 1 - (k + 1) by omega, husym (k + 1) (by omega)]
    have hs : ∑ k ∈ Finset.range n, (g (k + 1)).re * u (k + 1) +
        ∑ k ∈ Finset.range n, (g (n + 1 - (k + 1))).re * u (k + 1) = 2 * ∑ k ∈ Finset.range n, u (k + 1) := by
      rw [← Finset.sum_add_distrib, Finset.mul_sum]
      refine Finset.sum_congr rfl fun k hk => ?_
      rw [Finset.mem_range] at hk
      have := congrArg Complex.re (hflat (k + 1) (by omega) (by omega))
      simp only [add_re] at this
      rw [← add_mul, this]
      simp
    linarith
  rw [hA]
  ring

theorem wavSample_im {f : ℝ → ℂ} (hf : ∀ w, (f w).im = 0) (L : ℕ) (s : ℝ) (k : ℕ) :
    (Spec.wavSample f L s k).im = 0 := by
  unfold Spec.wavSample
  split
  · rw [show (2 : ℂ) = ((2 : ℝ) : ℂ) by simp, div_ofReal_im, hf]; simp
  · exact hf _

theorem icwtGain_im {f : ℝ → ℂ} (hf : ∀ w, (f w).im = 0) (L : ℕ) (C : ℝ) (st : ScaleType) (nv : Nv) (v : List ℝ)
    (k : ℕ) : (Spec.icwtGain f L C st nv v k).im = 0 := by
  unfold Spec.icwtGain
  rw [im_sum]
  exact Finset.sum_eq_zero fun i _ => by rw [im_ofReal_mul, wavSample_im hf, mul_zero]

theorem padded_keeps {t : Option PadType} {x xp : List ℝ} {n1 : ℕ} (hx : 0 < x.length)
    (h : Spec.Padded t x xp n1) (j : ℕ) (hj : j < x.length) : xp.getD (n1 + j) 0 = x.getD j 0 := by
  cases t with
  | none => obtain ⟨rfl, rfl⟩ := h; simp
  | some t =>
    obtain ⟨E, hE⟩ := Ssq.exists_extension t x hx
    have h1 := h.2.2.2 E hE (n1 + j) (by have := h.2.2.1; omega)
    rw [List.getD_eq_getElem _ _ (by have := h.2.2.1; omega), List.getD_eq_getElem _ _ hj, h1,
      show ((n1 + j : ℕ) : ℤ) - n1 = (j : ℕ) by push_cast; ring, hE.1 j hj]

theorem list_sum_range (l : List ℝ) : l.sum = ∑ q ∈ Finset.range l.length, l.getD q 0 := by
  induction l with
  | nil => simp
  | cons x l ih =>
    rw [List.sum_cons, List.length_cons, Finset.sum_range_succ', ih]
    simp only [List.getD_cons_succ, List.getD_cons_zero]
    ring

/-- **C40, exactness.** If the response is flat — its values at every two opposite nonzero frequencies add up to
2 — then `icwt(cwt(x))` is `x`, up to the mean of the padded signal (whose factor is the response at zero) and
`x_mean`. -/
theorem C40_exact (x : List ℝ) (a : CwtArgs) (t : Option PadType) (ht : a.padtype = t.map padName)
    (hx : 0 < x.length) (hreal : ∀ w, (a.wavelet.fn.eval w).im = 0) (hrp : a.rpadded = false)
    (W : List (List ℂ)) (scales : List ℝ) (dW : List (List ℂ)) (h : cwt x a = .ok (W, scales, dW))
    (b : IcwtArgs) (hb : b.l1Norm = a.l1Norm) (sh : List ℕ) (d : FDtype) (xh : List ℝ)
    (hi : icwt x.length W (.arr sh d scales) b = .ok xh) (st : ScaleType) (nv : Nv) (c : ℕ)
    (hs : Spec.IcwtScales d scales st nv c) (hpos : ∀ s ∈ scales, 0 < s)
    (L : ℕ) (hL : L = if t = none then x.length else (p2up x.length).1)
    (hflat : ∀ k, 0 < k → k < L →
      Spec.icwtGain a.wavelet.fn.eval L b.admSsq st nv scales k +
        Spec.icwtGain a.wavelet.fn.eval L b.admSsq st nv scales (L - k) = 2) :
    ∃ xp, ∃ n1 : ℕ, Spec.Padded t x xp n1 ∧ xp.length = L ∧ xh.length = x.length ∧
      ∀ j < x.length, xh.getD j 0 = x.getD j 0 +
        ((Spec.icwtGain a.wavelet.fn.eval L b.admSsq st nv scales 0).re - 1) * (xp.sum / L) +
        c * b.xMean := by
  obtain ⟨xp, n1, hpad, hle, hl, hv⟩ := C40_filter x a t ht hx hreal hrp W scales dW h b hb sh d xh hi st nv c hs hpos
  have hlen : xp.length = L := by
    rw [hL]
    cases t with
    | none => obtain ⟨rfl, rfl⟩ := hpad; simp
    | some t => simpa using hpad.1
  refine ⟨xp, n1, hpad, hlen, hl, fun j hj => ?_⟩
  rw [hv j hj, hlen, filter_flat L (by omega) (fun q => xp.getD q 0) _ (fun k _ => icwtGain_im hreal _ _ _ _ _ _) hflat
    (n1 + j) (by omega), padded_keeps hx hpad j hj, list_sum_range, hlen]

/-- **C40, necessity.** Conversely, if the inverse reproduces even the first sample of the unpadded tone of `k`
cycles, then the response is flat at its frequency. -/
theorem C40_necessary (N k : ℕ) (hk0 : 0 < k) (hk : k < N) (a : CwtArgs) (ht : a.padtype = none)
    (hreal : ∀ w, (a.wavelet.fn.eval w).im = 0) (hrp : a.rpadded = false)
    (W : List (List ℂ)) (scales : List ℝ) (dW : List (List ℂ))
    (h : cwt (Spec.tone N k 1 0) a = .ok (W, scales, dW))
    (b : IcwtArgs) (hb : b.l1Norm = a.l1Norm) (hm : b.xMean = 0) (sh : List ℕ) (d : FDtype) (xh : List ℝ)
    (hi : icwt N W (.arr sh d scales) b = .ok xh) (st : ScaleType) (nv : Nv) (c : ℕ)
    (hs : Spec.IcwtScales d scales st nv c) (hpos : ∀ s ∈ scales, 0 < s)
    (hx : xh.getD 0 0 = (Spec.tone N k 1 0).getD 0 0) :
    Spec.icwtGain a.wavelet.fn.eval N b.admSsq st nv scales k +
        Spec.icwtGain a.wavelet.fn.eval N b.admSsq st nv scales (N - k) = 2 := by
  have hN : N ≠ 0 := by omega
  have hN' : (N : ℂ) ≠ 0 := by exact_mod_cast hN
  have hlen : (Spec.tone N k 1 0).length = N := by simp [Spec.tone]
  obtain ⟨xp, n1, hpad, hle, hl, hv⟩ := C40_filter _ a none (by simpa using ht) (by omega) hreal hrp W scales dW h b hb
    sh d xh (by rw [hlen]; exact hi) st nv c hs hpos
  obtain ⟨rfl, rfl⟩ := hpad
  have h0 := hv 0 (by omega)
  rw [hx, hm, hlen] at h0
  set g := Spec.icwtGain a.wavelet.fn.eval N b.admSsq st nv scales with hg
  have hdft : ∀ m < N, dft N (fun q => (((Spec.tone N k 1 0).getD q 0 : ℝ) : ℂ)) m =
      (if m = k then (N : ℂ) / 2 else 0) + (if m = N - k then (N : ℂ) / 2 else 0) := by
    intro m hm
    rw [dft_congr (fun q hq => tone_eq N k 1 0 q hq)]
    rw [dft_add, dft_smul, dft_smul]
    have h1 : dft N (fun j => tw N ((j : ℤ) * k)) m = if m = k then (N : ℂ) else 0 := by
      unfold dft
      rw [Finset.sum_congr rfl (g := fun j : ℕ => tw N ((j : ℤ) * ((k : ℤ) - m)))
        (fun j _ => by rw [← tw_add]; congr 1; ring), sum_tw hN]
      by_cases e : m = k
      · simp [e]
      · rw [if_neg e, if_neg]
        rw [dvd_sub_iff (by omega) (by omega)]
        omega
    have h2 : dft N (fun j => tw N (-((j : ℤ) * k))) m = if m = N - k then (N : ℂ) else 0 := by
      unfold dft
      rw [Finset.sum_congr rfl (g := fun j : ℕ => tw N ((j : ℤ) * (-((k : ℤ) + m))))
        (fun j _ => by rw [← tw_add]; congr 1; ring), sum_tw hN]
      by_cases e : m = N - k
      · rw [if_pos e, if_pos]
        rw [Int.dvd_neg]
        exact ⟨1, by omega⟩
      · rw [if_neg e, if_neg]
        rw [Int.dvd_neg]
        intro hd
        have hd' : (N : ℤ) ∣ (k : ℤ) + m - N := dvd_sub_self_right.2 hd
        have := Int.eq_zero_of_abs_lt_dvd hd' (by rw [abs_lt]; omega)
        omega
    rw [h1, h2]
    split <;> split <;> simp <;> ring
  have hval : idft N (fun m => g m * dft N (fun q => (((Spec.tone N k 1 0).getD q 0 : ℝ) : ℂ)) m) (0 + 0) =
      (g k + g (N - k)) / 2 := by
    rw [idft_congr (g := fun m => (if m = k then g m * ((N : ℂ) / 2) else 0) +
      (if m = N - k then g m * ((N : ℂ) / 2) else 0)) (fun m hm => by
        rw [hdft m hm]; split <;> split <;> ring), idft]
    simp only [add_zero, Nat.cast_zero, zero_mul, tw_zero, mul_one]
    rw [Finset.sum_add_distrib, Finset.sum_ite_eq' (Finset.range N) k, Finset.sum_ite_eq' (Finset.range N) (N - k),
      if_pos (Finset.mem_range.2 hk), if_pos (Finset.mem_range.2 (by omega))]
    field_simp
  rw [hval] at h0
  have h1 : (Spec.tone N k 1 0).getD 0 0 = 1 := by
    rw [Spec.tone, getD_map_range _ _ (by omega)]; simp
  rw [h1, mul_zero, add_zero, show (2 : ℂ) = ((2 : ℝ) : ℂ) by simp, div_ofReal_re] at h0
  apply Complex.ext
  · simp only [re_ofNat]; linarith
  · rw [add_im, hg, icwtGain_im hreal, icwtGain_im hreal]; simp

theorem icwtScales_124 : Spec.IcwtScales .f64 [1, 2, 4] .log (.int 1) 1 :=
  ⟨infer124, Or.inl ⟨by simp, rfl⟩⟩

/-- Admissibility constant making the response of three samples flat. -/
noncomputable def admEx : ℝ := 14 * Real.pi * Real.log 2 / 3

/-- The hypotheses of `C40_filter`, `C40_exact` hold for a signal of three samples, and of `C40_necessary`
for the tone of one cycle. -/
example : ∃ W dW xh, cwt [3, 1, 5] (argsR none) = .ok (W, [1, 2, 4], dW) ∧
    icwt 3 W sc124 { wavelet := (argsR none).wavelet, admSsq := admEx, xMean := 3 } = .ok xh ∧
    xh.getD 0 0 = 3 ∧ xh.getD 1 0 = 1 ∧ xh.getD 2 0 = 5 := by
  obtain ⟨W, dW, hW⟩ := argsR_ok [3, 1, 5] (by simp) none
  have hl : W.length = 3 := by
    obtain ⟨_, _, _, _, -, -, -, h, -⟩ := C37_rows_partial [3, 1, 5] (argsR none) none rfl (by simp)
      (fun w => by simp [argsR, WFn.eval]) W _ dW hW
    exact h
  obtain ⟨xh, hx⟩ := icwt_runs { wavelet := (argsR none).wavelet, admSsq := admEx, xMean := 3 } 3 W [3] .f64 [1, 2, 4]
    rfl hl _ _ _ icwtScales_124 ⟨_, process124 _ _ _ _⟩
  refine ⟨W, dW, xh, hW, hx, ?_⟩
  have hpi := Real.pi_pos
  have hlog : 0 < Real.log 2 := Real.log_pos (by norm_num)
  have hw : ∀ s : ℝ, 0 < s → ∀ k, Spec.wavSample (argsR none).wavelet.fn.eval 3 s k =
      if 2 * k ≤ 3 then ((s * (2 * Real.pi * k / 3) : ℝ) : ℂ)
      else if k ≤ 3 then 0 else Spec.wavSample (argsR none).wavelet.fn.eval 3 s k := by
    intro s hs k
    split
    · rename_i hk
      unfold Spec.wavSample Spec.xi
      rw [if_neg (by omega), if_pos hk]
      simp only [argsR, WFn.eval, fnR]
      rw [if_pos (by positivity)]
      norm_num
    · split
      · rename_i h1 h2
        unfold Spec.wavSample Spec.xi
        rw [if_neg (by omega), if_neg h1]
        simp only [argsR, WFn.eval, fnR]
        have hk : (k : ℝ) ≤ 3 := by exact_mod_cast h2
        have hz : s * (2 * Real.pi * ((k : ℝ) - (3 : ℕ)) / (3 : ℕ)) ≤ 0 := by
          push_cast
          exact mul_nonpos_of_nonneg_of_nonpos hs.le
            (div_nonpos_of_nonpos_of_nonneg (mul_nonpos_of_nonneg_of_nonpos (by positivity) (by linarith)) (by norm_num))
        split
        · rw [ofReal_eq_zero]; linarith
        · simp
      · rfl
  have hgain : ∀ k, Spec.icwtGain (argsR none).wavelet.fn.eval 3 admEx .log (.int 1) [1, 2, 4] k =
      if k = 1 then 2 else if k = 0 ∨ k = 2 then 0 else
        Spec.icwtGain (argsR none).wavelet.fn.eval 3 admEx .log (.int 1) [1, 2, 4] k := by
    intro k
    have hpi' : (Real.pi : ℂ) ≠ 0 := by exact_mod_cast hpi.ne'
    have hlog' : ((Real.log 2 : ℝ) : ℂ) ≠ 0 := by exact_mod_cast hlog.ne'
    split
    · rename_i h; subst h
      simp only [Spec.icwtGain, List.length_cons, List.length_nil, Finset.sum_range_succ, Finset.sum_range_zero,
        List.getD_cons_succ, List.getD_cons_zero, Spec.icwtWeight, admEx]
      rw [hw 1 (by norm_num), hw 2 (by norm_num), hw 4 (by norm_num)]
      norm_num
      rw [← ofReal_ofNat, ← ofReal_log (by norm_num)]
      field_simp
      norm_num
    · rename_i h1
      split
      · rename_i h
        simp only [Spec.icwtGain, List.length_cons, List.length_nil, Finset.sum_range_succ, Finset.sum_range_zero,
          List.getD_cons_succ, List.getD_cons_zero]
        rw [hw 1 (by norm_num), hw 2 (by norm_num), hw 4 (by norm_num)]
        rcases h with rfl | rfl <;> simp
      · rfl
  obtain ⟨xp, n1, hp, -, -, hv⟩ := C40_exact [3, 1, 5] (argsR none) none rfl (by simp)
    (fun w => by simp [argsR, WFn.eval]) rfl W _ dW hW { wavelet := (argsR none).wavelet, admSsq := admEx, xMean := 3 }
    rfl [3] .f64 xh hx .log (.int 1) 1 icwtScales_124 (by simp) 3 (by simp) (by
      intro k hk0 hk
      rw [hgain, hgain (3 - k)]
      interval_cases k <;> simp)
  obtain ⟨rfl, rfl⟩ := hp
  have h0 := hv 0 (by simp)
  have h1 := hv 1 (by simp)
  have h2 := hv 2 (by simp)
  rw [hgain] at h0 h1 h2
  norm_num at h0 h1 h2
  exact ⟨by simpa using h0, by simpa using h1, by simpa using h2⟩

end Ssq
