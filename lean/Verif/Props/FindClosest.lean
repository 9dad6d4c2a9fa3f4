import Verif.Model.FindClosest
import Verif.Props.SqueezeEx

/-!
# C30, C31: `find_closest`
-/
namespace Ssq

theorem argminL_lt (l : List ℝ) (h : l ≠ []) : argminL l < l.length := by
  unfold argminL
  rw [List.findIdx_lt_length]
  obtain ⟨m, hm, hmin⟩ : ∃ m ∈ l, ∀ y ∈ l, m ≤ y := by
    induction l with
    | nil => exact absurd rfl h
    | cons a l ih =>
      by_cases hl : l = []
      · exact ⟨a, by simp, by simp [hl]⟩
      · obtain ⟨m, hm, hmax⟩ := ih hl
        rcases le_total m a with ham | ham
        · exact ⟨m, by simp [hm], by simpa using ⟨ham, hmax⟩⟩
        · exact ⟨a, by simp, by
            simp only [List.mem_cons, forall_eq_or_imp, le_refl, true_and]
            exact fun y hy => ham.trans (hmax y hy)⟩
  exact ⟨m, hm, by simpa using hmin⟩

theorem argminL_spec (l : List ℝ) (h : l ≠ []) : ∀ y ∈ l, l[argminL l]'(argminL_lt l h) ≤ y := by
  have hw := argminL_lt l h
  unfold argminL at hw ⊢
  have := List.findIdx_getElem (w := hw)
  exact of_decide_eq_true this

theorem searchsorted_spec (vs : List ℝ) (hs : vs.Pairwise (· ≤ ·)) (a : ℝ) :
    (∀ i, ∀ h : i < vs.length, i < searchsorted vs a → vs[i] < a) ∧
    (∀ i, ∀ h : i < vs.length, searchsorted vs a ≤ i → a ≤ vs[i]) := by
  constructor
  · intro i h hi
    have := List.not_of_lt_findIdx hi
    simpa using this
  · intro i h hi
    have hlt : searchsorted vs a < vs.length := lt_of_le_of_lt hi h
    have h1 : a ≤ vs[searchsorted vs a] := by
      have := List.findIdx_getElem (w := hlt)
      exact of_decide_eq_true this
    rcases hi.eq_or_lt with e | hlt'
    · simpa [← e] using h1
    · exact h1.trans (List.pairwise_iff_getElem.mp hs _ _ hlt h hlt')

/-- **C30.** The sorted-search `find_closest` succeeds on every non-empty `v` (sorted or not, with or
without repetitions) and returns an index of `v` whose value is at minimal distance; among equally
near values it takes the smaller one. -/
theorem C30_smart (v : List ℝ) (hv : v ≠ []) (sidx : List ℕ) (hs : IsArgsort v sidx) (a : ℝ) :
    ∃ k, findClosestSmart sidx v a = .ok k ∧ ∃ hk : k < v.length,
      (∀ i, ∀ hi : i < v.length, |a - v[k]| ≤ |a - v[i]|) ∧
      (∀ i, ∀ hi : i < v.length, |a - v[k]| = |a - v[i]| → v[k] ≤ v[i]) := by
  obtain ⟨hperm, hsort⟩ := hs
  set vs := sidx.map fun i => v.getD i 0 with hvs
  have hlen : sidx.length = v.length := by rw [hperm.length_eq, List.length_range]
  have hlen' : vs.length = v.length := by rw [hvs, List.length_map, hlen]
  have hpos : 0 < v.length := List.length_pos_iff.mpr hv
  have hsorted : ∀ i j, ∀ hi : i < vs.length, ∀ hj : j < vs.length, i ≤ j → vs[i] ≤ vs[j] := by
    intro i j hi hj hij
    rcases hij.eq_or_lt with e | h
    · simp [e]
    · exact List.pairwise_iff_getElem.mp hsort _ _ hi hj h
  obtain ⟨hL, hR⟩ := searchsorted_spec vs hsort a
  -- every value of v occurs in vs
  have hocc : ∀ i, ∀ hi : i < v.length, ∃ j, ∃ hj : j < vs.length, vs[j] = v[i] := by
    intro i hi
    have : i ∈ sidx := hperm.mem_iff.mpr (List.mem_range.mpr hi)
    obtain ⟨j, hj, hje⟩ := List.getElem_of_mem this
    refine ⟨j, by rw [hlen', ← hlen]; exact hj, ?_⟩
    simp only [hvs, List.getElem_map, hje]
    rw [List.getD_eq_getElem _ _ hi]
  have hback : ∀ j, ∀ hj : j < vs.length, ∃ h1 : sidx.getD j 0 < v.length,
      v[sidx.getD j 0] = vs[j] := by
    intro j hj
    have hj' : j < sidx.length := by rw [hlen, ← hlen']; exact hj
    have h1 : sidx[j] < v.length :=
      List.mem_range.mp (hperm.mem_iff.mp (List.getElem_mem hj'))
    have e : sidx.getD j 0 = sidx[j] := List.getD_eq_getElem _ _ hj'
    refine ⟨by rw [e]; exact h1, ?_⟩
    simp only [hvs, List.getElem_map, e]
    rw [List.getD_eq_getElem _ _ h1]
  -- reduce to a statement about vs
  suffices H : ∃ j, ∃ hj : j < vs.length, findClosestSmart sidx v a = .ok (sidx.getD j 0) ∧
      (∀ i, ∀ hi : i < vs.length, |a - vs[j]| ≤ |a - vs[i]|) ∧
      (∀ i, ∀ hi : i < vs.length, |a - vs[j]| = |a - vs[i]| → vs[j] ≤ vs[i]) by
    obtain ⟨j, hj, hf, h1, h2⟩ := H
    obtain ⟨hb1, hb2⟩ := hback j hj
    refine ⟨_, hf, hb1, ?_, ?_⟩
    · intro i hi
      obtain ⟨j', hj', e⟩ := hocc i hi
      rw [hb2, ← e]; exact h1 j' hj'
    · intro i hi ht
      obtain ⟨j', hj', e⟩ := hocc i hi
      rw [hb2, ← e] at ht
      rw [hb2, ← e]; exact h2 j' hj' ht
  set s := searchsorted vs a with hsdef
  have hsle : s ≤ vs.length := List.findIdx_le_length
  unfold findClosestSmart
  simp only [if_neg hv, ← hvs, ← hsdef]
  by_cases hse : s = v.length
  · -- a is larger than every value
    simp only [if_pos hse]
    have hall : ∀ i, ∀ hi : i < vs.length, vs[i] < a := fun i hi => hL i hi (by omega)
    have hmain : ∀ j, ∀ hj : j < vs.length, vs[j] = vs[vs.length - 1]'(by omega) →
        (∀ i, ∀ hi : i < vs.length, |a - vs[j]| ≤ |a - vs[i]|) ∧
        (∀ i, ∀ hi : i < vs.length, |a - vs[j]| = |a - vs[i]| → vs[j] ≤ vs[i]) := by
      intro j hj e
      refine ⟨fun i hi => ?_, fun i hi ht => ?_⟩
      · have h1 := hall i hi
        have h2 := hsorted i (vs.length - 1) hi (by omega) (by omega)
        have h3 := hall j hj
        rw [abs_of_pos (by linarith), abs_of_pos (by linarith)]; linarith
      · have h1 := hall i hi
        have h3 := hall j hj
        rw [abs_of_pos (by linarith), abs_of_pos (by linarith)] at ht; linarith
    split_ifs with hm
    · refine ⟨v.length - 1 - 1, by omega, rfl, hmain _ (by omega) ?_⟩
      obtain ⟨hm1, hm2⟩ := hm
      rw [List.getD_eq_getElem _ _ (by omega), List.getD_eq_getElem _ _ (by omega)] at hm1
      have h1 := hall (v.length - 1) (by omega)
      have h2 := hall (v.length - 1 - 1) (by omega)
      have h3 := hsorted (v.length - 1 - 1) (v.length - 1) (by omega) (by omega) (by omega)
      rw [abs_of_pos (by linarith), abs_of_neg (by linarith)] at hm1
      have e : vs.length - 1 = v.length - 1 := by omega
      simp only [e]
      linarith
    · refine ⟨v.length - 1, by omega, rfl, hmain _ (by omega) ?_⟩
      simp [hlen']
  · simp only [if_neg hse]
    have hslt : s < vs.length := by omega
    have hge : a ≤ vs[s] := hR s hslt le_rfl
    by_cases hs0 : s = 0
    · rw [if_neg (by simp [hs0])]
      refine ⟨s, hslt, rfl, fun i hi => ?_, fun i hi ht => ?_⟩
      · have h1 := hsorted s i hslt hi (by omega)
        rw [abs_of_nonpos (by linarith), abs_of_nonpos (by linarith)]; linarith
      · exact hsorted s i hslt hi (by omega)
    · have hprev : vs[s-1] < a := hL (s-1) (by omega) (by omega)
      rw [List.getD_eq_getElem _ _ hslt, List.getD_eq_getElem _ _ (by omega : s - 1 < vs.length)]
      split_ifs with hm
      · obtain ⟨hm1, _⟩ := hm
        rw [abs_of_nonpos (by linarith), abs_of_nonpos (by linarith)] at hm1
        refine ⟨s - 1, by omega, rfl, fun i hi => ?_, fun i hi ht => ?_⟩
        · rw [abs_of_pos (by linarith : 0 < a - vs[s-1])]
          by_cases his : i < s
          · have h1 := hsorted i (s-1) hi (by omega) (by omega)
            rw [abs_of_pos (by linarith)]; linarith
          · have h1 := hsorted s i hslt hi (by omega)
            rw [abs_of_nonpos (by linarith)]; linarith
        · by_cases his : i < s
          · have h1 := hsorted i (s-1) hi (by omega) (by omega)
            rw [abs_of_pos (by linarith), abs_of_pos (by linarith)] at ht; linarith
          · exact hsorted (s-1) i (by omega) hi (by omega)
      · have hm1 : vs[s] - a < a - vs[s-1] := by
          by_contra hcon
          apply hm
          refine ⟨?_, hs0⟩
          rw [abs_of_nonpos (by linarith), abs_of_nonpos (by linarith)]; linarith
        refine ⟨s, hslt, rfl, fun i hi => ?_, fun i hi ht => ?_⟩
        · rw [abs_of_nonpos (by linarith : a - vs[s] ≤ 0)]
          by_cases his : i < s
          · have h1 := hsorted i (s-1) hi (by omega) (by omega)
            rw [abs_of_pos (by linarith)]; linarith
          · have h1 := hsorted s i hslt hi (by omega)
            rw [abs_of_nonpos (by linarith)]; linarith
        · by_cases his : i < s
          · have h1 := hsorted i (s-1) hi (by omega) (by omega)
            rw [abs_of_nonpos (by linarith), abs_of_pos (by linarith)] at ht; linarith
          · exact hsorted s i hslt hi (by omega)

/-- **C30, brute force.** `find_closest_brute` returns an index at minimal distance. -/
theorem C30_brute (v : List ℝ) (hv : v ≠ []) (a : ℝ) :
    ∃ k, findClosestBrute v a = .ok k ∧ ∃ hk : k < v.length,
      ∀ i, ∀ hi : i < v.length, |a - v[k]| ≤ |a - v[i]| := by
  have hne : (v.map fun y => |a - y|) ≠ [] := by simpa using hv
  have hlt := argminL_lt _ hne
  refine ⟨_, if_neg hv, by simpa using hlt, ?_⟩
  intro i hi
  have := argminL_spec _ hne |a - v[i]| (List.mem_map.mpr ⟨v[i], List.getElem_mem hi, rfl⟩)
  simpa using this

/-- **C30, agreement.** Both return values at the same distance. -/
theorem C30_smart_eq_brute (v : List ℝ) (hv : v ≠ []) (sidx : List ℕ) (hs : IsArgsort v sidx)
    (a : ℝ) : ∃ k k', findClosestSmart sidx v a = .ok k ∧ findClosestBrute v a = .ok k' ∧
      ∃ (hk : k < v.length) (hk' : k' < v.length), |a - v[k]| = |a - v[k']| := by
  obtain ⟨k, h, hk, h1, _⟩ := C30_smart v hv sidx hs a
  obtain ⟨k', h', hk', h1'⟩ := C30_brute v hv a
  exact ⟨k, k', h, h', hk, hk', le_antisymm (h1 k' hk') (h1' k hk)⟩

/-- **C30, default call.** `find_closest(a, v)` with default flags (and with `smart=True`) is the
sorted search, element by element; on a log scale it is nearest in log-frequency. -/
theorem C30_default (th : ℝ) (v : List ℝ) (hv : v ≠ []) (logscale : Bool) (sidx : List ℕ)
    (hs : IsArgsort (if logscale then v.map (Real.logb 2) else v) sidx) (R : ℕ)
    (a : ℕ → ℕ → ℝ) (parallel smart : Option Bool)
    (hsm : smart = some true ∨ (smart = none ∧ parallel = none)) :
    ∃ o, findClosest th sidx R a v logscale parallel smart = .ok o ∧ ∀ i j, ∃ k : ℕ,
      o i j = .ok (k : ℤ) ∧
        if logscale then Spec.NearestLog v (a i j) k else Spec.Nearest v (a i j) k := by
  have hsm' : (if smart = none ∧ parallel = none then some true else smart) = some true := by
    rcases hsm with h | ⟨h, h'⟩
    · simp [h]
    · simp [h, h']
  unfold findClosest
  simp only [hsm', if_true]
  rcases logscale with _ | _
  · simp only [Bool.false_eq_true, if_false] at hs ⊢
    refine ⟨_, rfl, fun i j => ?_⟩
    obtain ⟨k, h, hk, h1, _⟩ := C30_smart v hv sidx hs (a i j)
    exact ⟨k, by simp only [h, ok_bind, pure_eq_ok], hk, h1⟩
  · simp only [if_true] at hs ⊢
    refine ⟨_, rfl, fun i j => ?_⟩
    obtain ⟨k, h, hk, h1, _⟩ := C30_smart (v.map (Real.logb 2)) (by simpa using hv) sidx hs
      (Real.logb 2 (a i j))
    have hk' : k < v.length := by simpa using hk
    refine ⟨k, by simp only [h, ok_bind, pure_eq_ok], hk', fun i' hi' => ?_⟩
    have := h1 i' (by simpa using hi')
    simpa using this

/-- Non-vacuity: an unsorted list with its sorting permutation. -/
example : IsArgsort [3, 1, 2] [1, 2, 0] ∧ ([3, 1, 2] : List ℝ) ≠ [] := by
  refine ⟨⟨by decide, ?_⟩, by simp⟩
  simp; norm_num

/-! ## C31 -/

/-- The full statement of **C31**: for a uniform grid, the linear search returns a nearest index of the
grid, whatever the number of rows of the matrix. -/
def C31_full : Prop :=
  ∀ (R : ℕ) (a : ℕ → ℕ → ℝ) (v : List ℝ) (b s : ℝ) (o : ℕ → ℕ → ℤ), 1 ≤ R → Spec.Uniform v b s →
    0 < s → findClosestLin R a v = .ok o →
    ∀ i < R, ∀ j, ∃ k : ℕ, o i j = k ∧ Spec.Nearest v (a i j) k

/-- **C31 refuted.** The upper clamp is the number of rows of the *matrix*, not the length of the
grid: for a one-row matrix every result is 0. -/
theorem C31_refuted : ¬ C31_full := by
  intro H
  have h := H 1 (fun _ _ => 2) [0, 1, 2] 0 1 _ le_rfl uni012 one_pos
    (by simp only [findClosestLin]; rw [if_neg (by norm_num)]) 0 one_pos 0
  obtain ⟨k, hk, hn⟩ := h
  have hk0 : k = 0 := by
    have : min (roundHalfEven (max (((2 : ℝ) - 0) / (1 - 0)) 0)) (((1 : ℕ) : ℤ) - 1) ≤ 0 := by simp
    omega
  subst hk0
  obtain ⟨h0, h1⟩ := hn
  have := h1 2 (by simp)
  simp at this
  norm_num at this

/-- The index can also fall outside the grid: a matrix with more rows than the grid has
points. -/
theorem C31_out_of_grid_refuted : ∃ (R : ℕ) (a : ℕ → ℕ → ℝ) (v : List ℝ) (o : ℕ → ℕ → ℤ),
    Spec.Uniform v 0 1 ∧ findClosestLin R a v = .ok o ∧ (v.length : ℤ) < o 0 0 := by
  refine ⟨10, fun _ _ => 7, [0, 1, 2],
    fun _ _ => min (roundHalfEven (max (((7 : ℝ) - 0) / (1 - 0)) 0)) (((10 : ℕ) : ℤ) - 1),
    uni012, ?_, ?_⟩
  · simp only [findClosestLin]
    rw [if_neg (by norm_num)]
  · have e : max (((7 : ℝ) - 0) / (1 - 0)) 0 = ((7 : ℤ) : ℝ) := by norm_num
    simp only [e, rhe_intCast]; decide

/-- **C31 (partial).** When the matrix has exactly as many rows as the grid has points, the linear search
returns a nearest index (even index on ties). Missing: every other matrix height, where the claim
is false of the code. -/
theorem C31_lin_partial (a : ℕ → ℕ → ℝ) (v : List ℝ) (b s : ℝ) (hv : Spec.Uniform v b s)
    (hs : 0 < s) (h2 : 2 ≤ v.length) :
    ∃ o, findClosestLin v.length a v = .ok o ∧ ∀ i j, ∃ k : ℕ, o i j = k ∧
      Spec.Nearest v (a i j) k := by
  match v, hv, h2 with
  | v0 :: v1 :: rest, hv, h2 =>
    have e0 := hv 0 (by simp)
    have e1 := hv 1 (by simp)
    simp only [List.getElem_cons_zero, List.getElem_cons_succ] at e0 e1
    have ed : v1 - v0 = s := by rw [e0, e1]; push_cast; ring
    have e0' : v0 = b := by rw [e0]; push_cast; ring
    clear e0 e1
    subst e0'
    refine ⟨_, by simp only [findClosestLin]; rw [if_neg (by rw [ed]; exact hs.ne')], ?_⟩
    intro i j
    set n := (v0 :: v1 :: rest).length with hn
    have h0 : (0 : ℤ) ≤ (n : ℤ) - 1 := by omega
    rw [ed]
    have hr := clampEven_range ((a i j - v0) / s) h0
    set k := min (roundHalfEven (max ((a i j - v0) / s) 0)) ((n : ℤ) - 1) with hk
    refine ⟨k.toNat, (Int.toNat_of_nonneg hr.1).symm, (Int.toNat_lt hr.1).mpr (by have := hr.2; omega), ?_⟩
    intro i' hi'
    rw [hv _ _, hv i' hi']
    have hc : ((k.toNat : ℕ) : ℝ) = (nr .cpu ((n : ℤ) - 1) ((a i j - v0) / s) : ℤ) := by
      have : ((k.toNat : ℕ) : ℤ) = nr .cpu ((n : ℤ) - 1) ((a i j - v0) / s) := by
        rw [Int.toNat_of_nonneg hr.1]; rfl
      rw [← this]; norm_cast
    rw [hc]
    exact_mod_cast grid_near .cpu (x := a i j) (a := v0) hs (i := (i' : ℤ)) h0 (by omega) (by omega)

/-- **C31, log grid (partial).** Likewise for a geometric grid and a matrix of as many rows as the
grid has points: nearest in log-frequency. -/
theorem C31_log_partial (th : ℝ) (a : ℕ → ℕ → ℝ) (v : List ℝ) (b s : ℝ)
    (hv : Spec.Geometric v b s) (hs : eps64 ≤ s) (h3 : 3 ≤ v.length) (hpos : ∀ i j, 0 < a i j) :
    ∃ o, findClosestLog th v.length a v = .ok o ∧ ∀ i j, ∃ k : ℕ, o i j = k ∧
      Spec.NearestLog v (a i j) k := by
  have hspos : 0 < s := lt_of_lt_of_le eps64_pos hs
  have hp : paramsFindClosestLog th v = .ok (.log b s) := by
    unfold paramsFindClosestLog
    rw [transition_geometric hv h3]
    simp only [ok_bind, pure_eq_ok, Except.ok.injEq]
    rw [List.getD_eq_getElem _ _ (by omega : 0 < v.length),
      List.getD_eq_getElem _ _ (by omega : 1 < v.length), (hv 0 (by omega)).2, (hv 1 (by omega)).2]
    push_cast
    rw [show b + 1 * s - (b + 0 * s) = s by ring, ensure_of_le hs]
    simp
  refine ⟨_, by simp only [findClosestLog, hp, ok_bind, pure_eq_ok]; rfl, fun i j => ?_⟩
  have h0 : (0 : ℤ) ≤ (v.length : ℤ) - 1 := by omega
  have e : binTwoPass (.log b s) ((v.length : ℤ) - 1) (a i j) =
      nr .cpu ((v.length : ℤ) - 1) ((Real.logb 2 (a i j) - b) / s) := bin_log .cpu b s _ (hpos i j)
  have hr := nr_range .cpu h0 ((Real.logb 2 (a i j) - b) / s)
  rw [e]
  set k := nr .cpu ((v.length : ℤ) - 1) ((Real.logb 2 (a i j) - b) / s) with hk
  refine ⟨k.toNat, by omega, by omega, fun i' hi' => ?_⟩
  rw [(hv _ _).2, (hv i' hi').2]
  have hc : ((k.toNat : ℕ) : ℝ) = (k : ℤ) := by
    have : ((k.toNat : ℕ) : ℤ) = k := by omega
    rw [← this]; norm_cast
  rw [hc, hk]
  exact_mod_cast grid_near .cpu (x := Real.logb 2 (a i j)) (a := b) hspos (i := (i' : ℤ)) h0
    (by omega) (by omega)

/-- Non-vacuity for the two partial theorems: a uniform and a geometric grid of three points. -/
example : Spec.Uniform [0, 1, 2] 0 1 ∧ Spec.Geometric [1, 2, 4] 0 1 ∧ eps64 ≤ (1 : ℝ) :=
  ⟨uni012, geo124, by unfold eps64; norm_num⟩

end Ssq
