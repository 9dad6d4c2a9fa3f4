import Verif.Props.MakeScales
import Verif.Props.Icwt

/-!
# C158: what `infer_scaletype` takes as logarithmic, linear or piecewise logarithmic is so, up to a tolerance
-/
namespace Ssq

namespace Spec

/-- The entries `v[s], …, v[s+n-1]` are an arithmetic progression that starts with the first two, up to `i·ε` at the `i`-th. -/
def NearArithmetic (v : ℕ → ℝ) (s n : ℕ) (ε : ℝ) : Prop := ∀ i < n, |v (s + i) - (v s + i * (v (s + 1) - v s))| ≤ i * ε

/-- Tolerances of the recognition. -/
noncomputable def tolLog : FDtype → ℝ
  | .f64 => 4 * 10 ^ (-15 : ℤ)
  | _ => 8 * 10 ^ (-7 : ℤ)

/-- Tolerances of the recognition of the two parts of a piecewise logarithmic array. -/
noncomputable def tolPiece : FDtype → ℝ
  | .f64 => 10 ^ (-14 : ℤ)
  | _ => 10 ^ (-6 : ℤ)

/-- What each kind of scales promises of the array and of the number of voices. -/
noncomputable def Recognised (dt : FDtype) (v : List ℝ) (nv : Nv) : ScaleType → Prop
  | .log => NearArithmetic (fun i => Real.log (v.getD i 1)) 0 v.length (v.length * tolLog dt) ∧
      nv = .int (roundHalfEven (1 / (Real.logb 2 (v.getD 1 1) - Real.logb 2 (v.getD 0 1))))
  | .linear => NearArithmetic (fun i => v.getD i 0) 0 v.length (v.length * (tolLog dt * 1000)) ∧ nv = .none
  | .logPiecewise => ∃ p, p + 2 < v.length ∧ NearArithmetic (fun i => Real.log (v.getD i 1)) 0 (p + 2) (v.length * tolPiece dt) ∧
      NearArithmetic (fun i => Real.log (v.getD i 1)) (p + 1) (v.length - (p + 1)) (v.length * tolPiece dt) ∧
      ∃ l, nv = .arr l ∧ l.length = v.length ∧ l.getD 0 0 = l.getD 1 0 ∧
        ∀ i, i + 1 < v.length → l.getD (i + 1) 0 = 1 / (Real.logb 2 (v.getD (i + 1) 1) - Real.logb 2 (v.getD i 1))

end Spec

theorem tolLog_eq (dt : FDtype) : Spec.tolLog dt = thLog dt := by
  cases dt <;> norm_num [Spec.tolLog, thLog]

theorem tolPiece_eq (dt : FDtype) : Spec.tolPiece dt = thTr dt := by
  cases dt <;> norm_num [Spec.tolPiece, thTr]

/-- Second differences bound the distance from the progression of the first two entries. -/
theorem nearArithmetic_of (v : ℕ → ℝ) (s n : ℕ) (B : ℕ → ℝ) (ε : ℝ) (hB : ∀ j, j + 2 < n → |(v (s + j + 2) - v (s + j + 1)) - (v (s + j + 1) - v (s + j))| ≤ B j)
    (hε : ∀ k, k + 1 < n → ∑ j ∈ Finset.range k, B j ≤ ε) : Spec.NearArithmetic v s n ε := by
  have hd : ∀ k, k + 1 < n → |(v (s + k + 1) - v (s + k)) - (v (s + 1) - v s)| ≤ ∑ j ∈ Finset.range k, B j := by
    intro k
    induction k with
    | zero => simp
    | succ k ih =>
      intro hk
      have h1 := ih (by omega)
      have h2 := hB k (by omega)
      rw [Finset.sum_range_succ]
      have e : (v (s + (k + 1) + 1) - v (s + (k + 1))) - (v (s + 1) - v s) =
          ((v (s + k + 1) - v (s + k)) - (v (s + 1) - v s)) + ((v (s + k + 2) - v (s + k + 1)) - (v (s + k + 1) - v (s + k))) := by
        have e1 : s + (k + 1) + 1 = s + k + 2 := by ring
        have e2 : s + (k + 1) = s + k + 1 := by ring
        rw [e1, e2]
        ring
      rw [e]
      exact (abs_add_le _ _).trans (add_le_add h1 h2)
  intro i
  induction i with
  | zero => simp
  | succ i ih =>
    intro hi
    have h1 := ih (by omega)
    have h2 := (hd i (by omega)).trans (hε i (by omega))
    have e : v (s + (i + 1)) - (v s + ((i + 1 : ℕ) : ℝ) * (v (s + 1) - v s)) =
        (v (s + i) - (v s + i * (v (s + 1) - v s))) + ((v (s + i + 1) - v (s + i)) - (v (s + 1) - v s)) := by
      have e1 : s + (i + 1) = s + i + 1 := by ring
      rw [e1]
      push_cast
      ring
    rw [e]
    push_cast
    rw [add_mul, one_mul]
    exact (abs_add_le _ _).trans (add_le_add h1 h2)

theorem listRange_sum (n : ℕ) (g : ℕ → ℝ) : ((List.range n).map g).sum = ∑ j ∈ Finset.range n, g j := by
  induction n with
  | zero => simp
  | succ n ih => rw [List.range_succ, List.map_append, List.sum_append, ih, Finset.sum_range_succ]; simp

/-- An array with small mean second difference. -/
theorem near_of_mean {l : List ℝ} (h3 : 3 ≤ l.length) {τ : ℝ} (h : meanAbsDiff2 l < τ) :
    Spec.NearArithmetic (fun i => l.getD i 0) 0 l.length (l.length * τ) := by
  have hn : (0 : ℝ) < ((l.length - 2 : ℕ) : ℝ) := by exact_mod_cast (by omega : 0 < l.length - 2)
  unfold meanAbsDiff2 at h
  rw [div_lt_iff₀ hn, listRange_sum] at h
  set B : ℕ → ℝ := fun i => |(l.getD (i + 2) 0 - l.getD (i + 1) 0) - (l.getD (i + 1) 0 - l.getD i 0)| with hBdef
  have hB0 : ∀ i, 0 ≤ B i := fun i => abs_nonneg _
  have hsum : ∑ j ∈ Finset.range (l.length - 2), B j < τ * ((l.length - 2 : ℕ) : ℝ) := h
  have hτ : 0 < τ := by
    by_contra hc
    push Not at hc
    have := Finset.sum_nonneg fun j (_ : j ∈ Finset.range (l.length - 2)) => hB0 j
    nlinarith
  refine nearArithmetic_of _ 0 _ B _ (fun j hj => ?_) fun k hk => ?_
  · simp only [hBdef, Nat.zero_add]; exact le_rfl
  · have h1 : ∑ j ∈ Finset.range k, B j ≤ ∑ j ∈ Finset.range (l.length - 2), B j :=
      Finset.sum_le_sum_of_subset_of_nonneg (Finset.range_mono (by omega)) fun j _ _ => hB0 j
    have h2 : ((l.length - 2 : ℕ) : ℝ) ≤ l.length := by exact_mod_cast (by omega : l.length - 2 ≤ l.length)
    nlinarith

/-- What a transition index means: all second differences of the logarithms but that at the transition are small. -/
theorem transition_bends {th : ℝ} {v : List ℝ} {idx : ℕ} (h : logscaleTransitionIdx th v = .ok (some idx)) :
    ∃ p, idx = p + 2 ∧ p + 2 < v.length ∧ ∀ i, i + 2 < v.length → i ≠ p →
      |(Real.log (v.getD (i + 2) 1) - Real.log (v.getD (i + 1) 1)) - (Real.log (v.getD (i + 1) 1) - Real.log (v.getD i 1))| < th := by
  unfold logscaleTransitionIdx at h
  simp only at h
  split at h
  · simp at h
  rename_i hne
  split at h
  · simp at h
  split at h
  · simp at h
  rename_i hall
  push Not at hall
  simp only [Except.ok.injEq, Option.some.injEq] at h
  have hlt := argmaxL_lt _ hne
  rw [absDiff2Log_length] at hlt
  refine ⟨argmaxL (absDiff2Log v), h.symm, by omega, fun i hi hip => ?_⟩
  have hil : i < (absDiff2Log v).length := by rw [absDiff2Log_length]; omega
  have := hall ((absDiff2Log v)[i]) (by
    rw [List.mem_iff_getElem]
    refine ⟨i, by simpa using hil, ?_⟩
    rw [List.getElem_set_ne (by omega)])
  simp only [absDiff2Log, List.getElem_map, List.getElem_range, abs_abs] at this
  exact this

/-- **C158.** For every array of positive scales: what `infer_scaletype` takes as logarithmic is a geometric progression starting with its first two entries, up to a factor `exp(i·n·tol)` at entry `i`, with
the integer nearest to the reciprocal of the first step in octaves as number of voices; what it takes as linear is an arithmetic progression, up to `1000·i·n·tol`; and what it takes as piecewise logarithmic consists
of two geometric progressions that share an entry, each up to `exp(i·n·tol')`, with the reciprocal of each step in octaves as the number of voices, the first being repeated. -/
theorem C158_recognised (dt : FDtype) (v : List ℝ) (hpos : ∀ x ∈ v, 0 < x) (st : ScaleType) (nv : Nv) (h : inferScaletype dt v = .ok (st, nv)) :
    3 ≤ v.length ∧ Spec.Recognised dt v nv st := by
  have hmap : ∀ i < v.length, (v.map Real.log).getD i 0 = Real.log (v.getD i 1) := by
    intro i hi
    rw [List.getD_eq_getElem _ _ (by simpa using hi), List.getElem_map, List.getD_eq_getElem _ _ hi]
  unfold inferScaletype at h
  split at h
  · simp at h
  split at h
  · simp at h
  rename_i h3
  push Not at h3
  refine ⟨h3, ?_⟩
  have t1 := tolLog_eq dt
  have t2 := tolPiece_eq dt
  split at h
  · rename_i hl
    simp only at h
    split at h
    · simp at h
    simp only [Except.ok.injEq, Prod.mk.injEq] at h
    obtain ⟨rfl, rfl⟩ := h
    refine ⟨?_, rfl⟩
    rw [t1]
    have := near_of_mean (l := v.map Real.log) (by simpa using h3) hl.2
    rw [List.length_map] at this
    intro i hi
    have e := this i hi
    simp only [Nat.zero_add] at e ⊢
    rwa [hmap i hi, hmap 0 (by omega), hmap 1 (by omega)] at e
  split at h
  · rename_i hl
    simp only [Except.ok.injEq, Prod.mk.injEq] at h
    obtain ⟨rfl, rfl⟩ := h
    exact ⟨t1 ▸ near_of_mean h3 hl, rfl⟩
  rw [bind_eq_ok] at h
  obtain ⟨o, ho, h⟩ := h
  cases o with
  | none => cases h
  | some idx =>
    simp only at h
    rw [bind_eq_ok] at h
    obtain ⟨l, hl, h⟩ := h
    simp only [pure_eq_ok, Except.ok.injEq, Prod.mk.injEq] at h
    obtain ⟨rfl, rfl⟩ := h
    obtain ⟨p, rfl, hp, hb⟩ := transition_bends ho
    have hth : 0 < thTr dt := by cases dt <;> norm_num [thTr]
    refine ⟨p, hp, ?_, ?_, l, rfl, ?_⟩ <;> try rw [t2]
    · refine nearArithmetic_of _ 0 _ (fun _ => thTr dt) _ (fun j hj => ?_) fun k hk => ?_
      · simp only [Nat.zero_add]
        exact (hb j (by omega) (by omega)).le
      · rw [Finset.sum_const, Finset.card_range, nsmul_eq_mul]
        have : (k : ℝ) ≤ v.length := by exact_mod_cast (by omega : k ≤ v.length)
        exact mul_le_mul_of_nonneg_right this hth.le
    · refine nearArithmetic_of _ (p + 1) _ (fun _ => thTr dt) _ (fun j hj => ?_) fun k hk => ?_
      · exact (hb (p + 1 + j) (by omega) (by omega)).le
      · rw [Finset.sum_const, Finset.card_range, nsmul_eq_mul]
        have : (k : ℝ) ≤ v.length := by exact_mod_cast (by omega : k ≤ v.length)
        exact mul_le_mul_of_nonneg_right this hth.le
    · unfold nvFromScales at hl
      rw [ho] at hl
      simp only [ok_bind, pure_eq_ok] at hl
      split at hl
      swap
      · cases hl
      simp only [Except.ok.injEq] at hl
      subst hl
      have hlen : ((List.range (v.length - 1)).map fun i : ℕ => 1 / (Real.logb 2 (v.getD (i + 1) 1) - Real.logb 2 (v.getD i 1))).length = v.length - 1 := by simp
      generalize hld : ((List.range (v.length - 1)).map fun i : ℕ => 1 / (Real.logb 2 (v.getD (i + 1) 1) - Real.logb 2 (v.getD i 1))) = ld at hlen
      have hne : ∃ a t, ld = a :: t := by
        cases ld with
        | nil => simp at hlen; omega
        | cons a t => exact ⟨a, t, rfl⟩
      obtain ⟨a, t, hat⟩ := hne
      have hcons : ld.take 1 ++ ld = a :: ld := by rw [hat]; rfl
      rw [hcons]
      refine ⟨by simp [hlen]; omega, by rw [hat]; rfl, fun i hi => ?_⟩
      rw [List.getD_cons_succ, ← hld, List.getD_eq_getElem _ _ (by simp; omega)]
      simp

/-- Second difference at `i`. -/
noncomputable def Spec.bend (f : ℕ → ℝ) (i : ℕ) : ℝ := |f (i + 2) - 2 * f (i + 1) + f i|

/-- **C158 (refusal).** Scales that bend at two places or more, logarithmically, and are neither logarithmic nor linear on average, are refused with `ValueError`: no grid is guessed. -/
theorem C158_refused (dt : FDtype) (hdt : dt ≠ .other) (v : List ℝ) (hpos : ∀ x ∈ v, 0 < x) (i j : ℕ) (hij : i ≠ j) (hi : i + 2 < v.length) (hj : j + 2 < v.length)
    (bi : Spec.tolPiece dt ≤ Spec.bend (fun k => Real.log (v.getD k 1)) i) (bj : Spec.tolPiece dt ≤ Spec.bend (fun k => Real.log (v.getD k 1)) j)
    (hlog : ((v.length - 2 : ℕ) : ℝ) * Spec.tolLog dt ≤ ∑ k ∈ Finset.range (v.length - 2), Spec.bend (fun k => Real.log (v.getD k 1)) k)
    (hlin : ((v.length - 2 : ℕ) : ℝ) * (1000 * Spec.tolLog dt) ≤ ∑ k ∈ Finset.range (v.length - 2), Spec.bend (fun k => v.getD k 0) k) :
    inferScaletype dt v = .error .valueError := by
  have hn : (0 : ℝ) < ((v.length - 2 : ℕ) : ℝ) := by exact_mod_cast (by omega : 0 < v.length - 2)
  have hmap : ∀ i < v.length, (v.map Real.log).getD i 0 = Real.log (v.getD i 1) := by
    intro i hi
    rw [List.getD_eq_getElem _ _ (by simpa using hi), List.getElem_map, List.getD_eq_getElem _ _ hi]
  have m1 : ¬ meanAbsDiff2 (v.map Real.log) < thLog dt := by
    unfold meanAbsDiff2
    rw [not_lt, le_div_iff₀ (by simpa using hn), listRange_sum, List.length_map, ← tolLog_eq, mul_comm]
    refine hlog.trans_eq (Finset.sum_congr rfl fun k hk => ?_)
    rw [Finset.mem_range] at hk
    rw [hmap _ (by omega), hmap _ (by omega), hmap _ (by omega)]
    unfold Spec.bend
    congr 1
    ring
  have m2 : ¬ meanAbsDiff2 v < thLog dt * 1000 := by
    unfold meanAbsDiff2
    rw [not_lt, le_div_iff₀ hn, listRange_sum, ← tolLog_eq, mul_comm, mul_comm (Spec.tolLog dt)]
    refine hlin.trans_eq (Finset.sum_congr rfl fun k hk => ?_)
    unfold Spec.bend
    congr 1
    ring
  unfold inferScaletype
  rw [if_neg hdt, if_neg (by omega), if_neg (fun h => m1 h.2), if_neg m2, if_neg (not_not.mpr hpos)]
  have key : ∀ idx, logscaleTransitionIdx (thTr dt) v ≠ .ok (some idx) := by
    intro idx h
    obtain ⟨p, -, -, hb⟩ := transition_bends h
    rw [tolPiece_eq] at bi bj
    have e : ∀ k, |(Real.log (v.getD (k + 2) 1) - Real.log (v.getD (k + 1) 1)) - (Real.log (v.getD (k + 1) 1) - Real.log (v.getD k 1))| =
        Spec.bend (fun k => Real.log (v.getD k 1)) k := fun k => by unfold Spec.bend; congr 1; ring
    by_cases hip : i = p
    · have := hb j hj (fun h => hij (hip.trans h.symm))
      rw [e] at this
      linarith
    · have := hb i hi hip
      rw [e] at this
      linarith
  have hd2 : absDiff2Log v ≠ [] := by
    intro h
    have := absDiff2Log_length v
    rw [h] at this
    simp at this
    omega
  have hnone : logscaleTransitionIdx (thTr dt) v = .ok none := by
    have : ∃ o, logscaleTransitionIdx (thTr dt) v = .ok o := by
      unfold logscaleTransitionIdx
      simp only [if_neg hd2]
      split
      · exact ⟨_, rfl⟩
      · split <;> exact ⟨_, rfl⟩
    obtain ⟨o, ho⟩ := this
    cases o with
    | none => exact ho
    | some idx => exact absurd ho (key idx)
  rw [hnone]
  rfl

/-- Logarithmic scales are recognised and meet the conclusion. -/
example : ∃ nv, inferScaletype .f64 [1, 2, 4] = .ok (.log, nv) ∧ Spec.Recognised .f64 [1, 2, 4] nv .log := by
  have h : inferScaletype .f64 [1, 2, 4] = .ok (.log, .int (roundHalfEven (1 / (1 : ℝ)))) := by
    refine infer_geometric (a := 0) (by decide) ?_ (by simp) one_ne_zero
    intro i hi
    have l4 : Real.logb 2 4 = 2 := by
      rw [show (4 : ℝ) = 2 ^ (2 : ℕ) by norm_num, Real.logb_pow, Real.logb_self_eq_one (by norm_num)]; norm_num
    match i, hi with
    | 0, _ => simp
    | 1, _ => simp
    | 2, _ => simp [l4]
  refine ⟨_, h, (C158_recognised .f64 _ ?_ _ _ h).2⟩
  intro x hx
  simp at hx
  rcases hx with rfl | rfl | rfl <;> norm_num

/-- So are two geometric progressions that share an entry: 1, √2, 2, 4, 8, 16. -/
example : ∃ nv, inferScaletype .f64 v6 = .ok (.logPiecewise, nv) ∧ Spec.Recognised .f64 v6 nv .logPiecewise := by
  refine ⟨_, infer_v6, (C158_recognised .f64 _ ?_ _ _ infer_v6).2⟩
  intro x hx
  simp only [v6, List.mem_cons, List.not_mem_nil, or_false] at hx
  rcases hx with rfl | rfl | rfl | rfl | rfl | rfl <;> positivity

theorem list_sum_getD (l : List ℝ) : l.sum = ∑ i ∈ Finset.range l.length, l.getD i 0 := by
  induction l with
  | nil => simp
  | cons a l ih => simp [Finset.sum_range_succ', ih, add_comm]

theorem sum_set_zero (l : List ℝ) (p : ℕ) (hp : p < l.length) : (l.set p 0).sum = ∑ i ∈ (Finset.range l.length).erase p, l.getD i 0 := by
  have h : (l.set p 0).sum = ∑ i ∈ Finset.range l.length, (l.set p 0).getD i 0 := by
    have := list_sum_getD (l.set p 0)
    rwa [List.length_set] at this
  rw [h, ← Finset.add_sum_erase _ _ (Finset.mem_range.2 hp), List.getD_eq_getElem _ _ (by simpa using hp), List.getElem_set_self, zero_add]
  refine Finset.sum_congr rfl fun i hi => ?_
  have hi1 := Finset.ne_of_mem_erase hi
  have hi2 := Finset.mem_range.1 (Finset.mem_of_mem_erase hi)
  rw [List.getD_eq_getElem _ _ (by simpa using hi2), List.getElem_set_ne (by omega), List.getD_eq_getElem _ _ hi2]

/-- **C158, the transition.** `logscale_transition_idx` reports an index exactly when one bend of the logarithms stands out: it is the first of the largest ones, all others are below the tolerance, and it is more than a hundred
times the mean over all places of the others. The index is that of the entry after the middle of the bend. -/
theorem C158_transition (dt : FDtype) (v : List ℝ) (h3 : 3 ≤ v.length) (idx : ℕ) :
    logscaleTransitionIdx (thTr dt) v = .ok (some idx) ↔ ∃ p, idx = p + 2 ∧ p + 2 < v.length ∧
      (∀ i, i + 2 < v.length → i ≠ p → Spec.bend (fun k => Real.log (v.getD k 1)) i < Spec.tolPiece dt ∧
        Spec.bend (fun k => Real.log (v.getD k 1)) i ≤ Spec.bend (fun k => Real.log (v.getD k 1)) p ∧
        (i < p → Spec.bend (fun k => Real.log (v.getD k 1)) i < Spec.bend (fun k => Real.log (v.getD k 1)) p)) ∧
      100 * ((∑ i ∈ (Finset.range (v.length - 2)).erase p, Spec.bend (fun k => Real.log (v.getD k 1)) i) / ((v.length - 2 : ℕ) : ℝ)) <
        Spec.bend (fun k => Real.log (v.getD k 1)) p := by
  classical
  have hlen := absDiff2Log_length v
  have hne : absDiff2Log v ≠ [] := absDiff2Log_ne_nil h3
  have hget : ∀ i, ∀ hi : i < (absDiff2Log v).length, (absDiff2Log v)[i] = Spec.bend (fun k => Real.log (v.getD k 1)) i := by
    intro i hi
    simp only [absDiff2Log, List.getElem_map, List.getElem_range, Spec.bend]
    congr 1
    ring
  have hD : ∀ i, i < v.length - 2 → (absDiff2Log v).getD i 0 = Spec.bend (fun k => Real.log (v.getD k 1)) i := by
    intro i hi
    rw [List.getD_eq_getElem _ _ (by omega), hget]
  have hb0 : ∀ i, 0 ≤ Spec.bend (fun k => Real.log (v.getD k 1)) i := fun i => abs_nonneg _
  have hmean : ∀ p, p < v.length - 2 → ((absDiff2Log v).set p 0).sum / (((absDiff2Log v).set p 0).length : ℝ) =
      (∑ i ∈ (Finset.range (v.length - 2)).erase p, Spec.bend (fun k => Real.log (v.getD k 1)) i) / ((v.length - 2 : ℕ) : ℝ) := by
    intro p hp
    rw [sum_set_zero _ _ (by omega), List.length_set, hlen]
    congr 1
    refine Finset.sum_congr rfl fun i hi => hD i (Finset.mem_range.1 (Finset.mem_of_mem_erase hi))
  have hall : ∀ p, p < v.length - 2 → ((∀ y ∈ (absDiff2Log v).set p 0, |y| < thTr dt) ↔
      ∀ i, i + 2 < v.length → i ≠ p → Spec.bend (fun k => Real.log (v.getD k 1)) i < thTr dt) := by
    intro p hp
    have hth : 0 < thTr dt := by cases dt <;> norm_num [thTr]
    constructor
    · intro h i hi hip
      have := h ((absDiff2Log v)[i]'(by omega)) (by
        rw [List.mem_iff_getElem]
        exact ⟨i, by rw [List.length_set]; omega, by rw [List.getElem_set_ne (by omega)]⟩)
      rw [hget, abs_of_nonneg (hb0 i)] at this
      exact this
    · intro h y hy
      obtain ⟨i, hi, rfl⟩ := List.getElem_of_mem hy
      rw [List.length_set] at hi
      by_cases e : i = p
      · subst e
        rw [List.getElem_set_self]
        simpa using hth
      · rw [List.getElem_set_ne (by omega), hget, abs_of_nonneg (hb0 i)]
        exact h i (by omega) e
  have t2 := tolPiece_eq dt
  have hunf : logscaleTransitionIdx (thTr dt) v = if ¬ ((absDiff2Log v).getD (argmaxL (absDiff2Log v)) 0 >
        100 * (((absDiff2Log v).set (argmaxL (absDiff2Log v)) 0).sum / (((absDiff2Log v).set (argmaxL (absDiff2Log v)) 0).length : ℝ))) then .ok none
      else if ¬ (∀ y ∈ (absDiff2Log v).set (argmaxL (absDiff2Log v)) 0, |y| < thTr dt) then .ok none
      else .ok (some (argmaxL (absDiff2Log v) + 2)) := by
    unfold logscaleTransitionIdx
    simp only [if_neg hne, Nat.add_sub_cancel]
  have hlt := argmaxL_lt _ hne
  have hspec0 := argmaxL_spec _ hne
  have hspec : ∀ i, i + 2 < v.length → Spec.bend (fun k => Real.log (v.getD k 1)) i ≤ Spec.bend (fun k => Real.log (v.getD k 1)) (argmaxL (absDiff2Log v)) := by
    intro i hi
    have := hspec0 ((absDiff2Log v)[i]'(by omega)) (List.getElem_mem _)
    rwa [hget, hget] at this
  have hfirst : ∀ i, i < argmaxL (absDiff2Log v) →
      Spec.bend (fun k => Real.log (v.getD k 1)) i < Spec.bend (fun k => Real.log (v.getD k 1)) (argmaxL (absDiff2Log v)) := by
    intro i hi
    have h1 := List.not_of_lt_findIdx (p := fun x => decide (∀ y ∈ absDiff2Log v, y ≤ x)) (xs := absDiff2Log v) (i := i) hi
    simp only [decide_eq_false_iff_not, not_forall, not_le, exists_prop] at h1
    obtain ⟨y, hy, hlt'⟩ := h1
    have := lt_of_lt_of_le hlt' (hspec0 y hy)
    rwa [hget, hget] at this
  clear hspec0
  rw [hunf]
  generalize hq : argmaxL (absDiff2Log v) = q at *
  have hq' : q < v.length - 2 := by omega
  rw [hmean q hq', hD q hq']
  constructor
  · intro h
    split at h
    · simp at h
    rename_i h1
    split at h
    · simp at h
    rename_i h2
    simp only [Except.ok.injEq, Option.some.injEq] at h
    push Not at h1 h2
    refine ⟨q, h.symm, by omega, fun i hi hip => ⟨?_, ?_, fun hip' => ?_⟩, h1⟩
    · rw [t2]
      exact (hall q hq').1 h2 i hi hip
    · exact hspec i hi
    · exact hfirst i hip'
  · rintro ⟨p, rfl, hp, hA, hm⟩
    have hpq : q = p := by
      rw [← hq]
      refine argmaxL_eq _ _ (by omega) ?_ ?_
      · intro y hy
        obtain ⟨i, hi, rfl⟩ := List.getElem_of_mem hy
        rw [hget, hget]
        by_cases e : i = p
        · rw [e]
        · exact (hA i (by omega) e).2.1
      · intro i hi
        rw [hget, hget]
        exact (hA i (by omega) (by omega)).2.2 hi
    subst hpq
    rw [if_neg (by push Not; exact hm), if_neg (by
      push Not
      refine (hall q hq').2 fun i hi hip => ?_
      rw [← t2]
      exact (hA i hi hip).1)]

/-- Met by 1, √2, 2, 4, 8, 16: the bend is at 2. -/
example : logscaleTransitionIdx (thTr .f64) v6 = .ok (some 3) ∧ 3 ≤ v6.length := ⟨transition_two (by norm_num [thTr]) two_v6 (by norm_num), by simp [v6]⟩

/-- Scales 1, 2, 3, 5 are refused. -/
example : inferScaletype .f64 [1, 2, 3, 5] = .error .valueError := by
  have h1 : Spec.bend (fun k => Real.log (([1, 2, 3, 5] : List ℝ).getD k 1)) 0 = |Real.log (3 / 4)| := by
    unfold Spec.bend
    simp only [List.getD_cons_succ, List.getD_cons_zero, Real.log_one]
    rw [Real.log_div (by norm_num) (by norm_num), show (4 : ℝ) = 2 ^ 2 by norm_num, Real.log_pow]
    norm_num
  have h2 : Spec.bend (fun k => Real.log (([1, 2, 3, 5] : List ℝ).getD k 1)) 1 = |Real.log (10 / 9)| := by
    unfold Spec.bend
    simp only [List.getD_cons_succ, List.getD_cons_zero]
    rw [Real.log_div (by norm_num) (by norm_num), show (9 : ℝ) = 3 ^ 2 by norm_num, Real.log_pow, show (10 : ℝ) = 5 * 2 by norm_num, Real.log_mul (by norm_num) (by norm_num)]
    norm_num
    congr 1
    ring
  have g1 : (1 / 4 : ℝ) ≤ |Real.log (3 / 4)| := by
    have := Real.log_le_sub_one_of_pos (show (0 : ℝ) < 3 / 4 by norm_num)
    rw [abs_of_nonpos (by linarith)]
    linarith
  have g2 : (1 / 10 : ℝ) ≤ |Real.log (10 / 9)| := by
    have := Real.one_sub_inv_le_log_of_pos (show (0 : ℝ) < 10 / 9 by norm_num)
    refine le_trans ?_ (le_abs_self _)
    norm_num at this ⊢
    linarith
  refine C158_refused .f64 (by decide) _ ?_ 0 1 (by decide) (by simp) (by simp) ?_ ?_ ?_ ?_
  · intro x hx
    simp at hx
    rcases hx with rfl | rfl | rfl | rfl <;> norm_num
  · rw [h1]
    refine le_trans ?_ g1
    norm_num [Spec.tolPiece]
  · rw [h2]
    refine le_trans ?_ g2
    norm_num [Spec.tolPiece]
  · rw [show ([1, 2, 3, 5] : List ℝ).length - 2 = 2 from rfl, Finset.sum_range_succ, Finset.sum_range_succ, Finset.sum_range_zero, h1, h2]
    refine le_trans ?_ (add_le_add (add_le_add le_rfl g1) g2)
    norm_num [Spec.tolLog]
  · rw [show ([1, 2, 3, 5] : List ℝ).length - 2 = 2 from rfl, Finset.sum_range_succ, Finset.sum_range_succ, Finset.sum_range_zero]
    norm_num [Spec.tolLog, Spec.bend]

end Ssq
