import Verif.Lemmas.Squeeze
import Verif.Spec.Squeeze

/-! Helper lemmas: nearest grid index, grid parameter extraction. -/
namespace Ssq

theorem near_of_half {t : ℝ} {k i : ℤ} (h : |t - k| ≤ 1/2) : |t - k| ≤ |t - i| := by
  by_cases e : i = k
  · rw [e]
  have h1 : (1 : ℝ) ≤ |(k : ℝ) - i| := by
    have : (1 : ℤ) ≤ |k - i| := Int.one_le_abs (by omega)
    exact_mod_cast this
  have h2 : |(k : ℝ) - i| ≤ |t - k| + |t - i| := by
    have := abs_sub (t - i) (t - k)
    have e2 : (t - i) - (t - k) = (k : ℝ) - i := by ring
    rw [e2] at this; linarith
  linarith

theorem half_of_tie {t : ℝ} {k i : ℤ} (h : |t - k| ≤ 1/2) (hne : i ≠ k)
    (ht : |t - k| = |t - i|) : |t - k| = 1/2 := by
  have h1 : (1 : ℝ) ≤ |(k : ℝ) - i| := by
    have : (1 : ℤ) ≤ |k - i| := Int.one_le_abs (by omega)
    exact_mod_cast this
  have h2 : |(k : ℝ) - i| ≤ |t - k| + |t - i| := by
    have := abs_sub (t - i) (t - k)
    have e2 : (t - i) - (t - k) = (k : ℝ) - i := by ring
    rw [e2] at this; linarith
  linarith

theorem clampEven_range (t : ℝ) {omax : ℤ} (ho : 0 ≤ omax) :
    0 ≤ min (roundHalfEven (max t 0)) omax ∧ min (roundHalfEven (max t 0)) omax ≤ omax :=
  ⟨le_min (rhe_nonneg (le_max_right _ _)) ho, min_le_right _ _⟩

theorem clampEven_near (t : ℝ) {omax i : ℤ} (ho : 0 ≤ omax) (hi0 : 0 ≤ i) (hi : i ≤ omax) :
    |t - (min (roundHalfEven (max t 0)) omax : ℤ)| ≤ |t - i| := by
  have hi0' : (0 : ℝ) ≤ i := by exact_mod_cast hi0
  have hi' : (i : ℝ) ≤ omax := by exact_mod_cast hi
  rcases le_total t 0 with h | h
  · rw [max_eq_right h, rhe_zero, min_eq_left ho]
    rw [abs_of_nonpos (by simpa using h), abs_of_nonpos (by linarith)]
    push_cast; linarith
  · rw [max_eq_left h]
    have hr := rhe_abs t
    rcases le_or_gt (roundHalfEven t) omax with h2 | h2
    · rw [min_eq_left h2]; exact near_of_half hr
    · rw [min_eq_right h2.le]
      have h3 : (omax : ℝ) + 1 ≤ (roundHalfEven t : ℤ) := by exact_mod_cast h2
      have h4 := rhe_le t
      rw [abs_of_nonneg (by linarith), abs_of_nonneg (by linarith)]
      linarith

theorem clampEven_tie (t : ℝ) {omax i : ℤ} (ho : 0 ≤ omax) (hi0 : 0 ≤ i) (hi : i ≤ omax)
    (hne : i ≠ min (roundHalfEven (max t 0)) omax)
    (ht : |t - (min (roundHalfEven (max t 0)) omax : ℤ)| = |t - i|) :
    min (roundHalfEven (max t 0)) omax % 2 = 0 := by
  have hi0' : (0 : ℝ) ≤ i := by exact_mod_cast hi0
  have hi' : (i : ℝ) ≤ omax := by exact_mod_cast hi
  rcases le_total t 0 with h | h
  · rw [max_eq_right h, rhe_zero, min_eq_left ho]; rfl
  · rw [max_eq_left h] at *
    have hr := rhe_abs t
    rcases le_or_gt (roundHalfEven t) omax with h2 | h2
    · rw [min_eq_left h2] at *
      exact rhe_even_of_tie (half_of_tie hr hne ht)
    · rw [min_eq_right h2.le] at *
      have h3 : (omax : ℝ) + 1 ≤ (roundHalfEven t : ℤ) := by exact_mod_cast h2
      have h4 := rhe_le t
      rw [abs_of_nonneg (by linarith), abs_of_nonneg (by linarith)] at ht
      exact absurd (by exact_mod_cast (by linarith : (i : ℝ) = omax)) hne

/-- The CUDA clamp. -/
def clampG (omax k : ℤ) : ℤ := if omax + 1 ≤ k then omax else if k < 0 then 0 else k

theorem clampG_range {omax : ℤ} (k : ℤ) (ho : 0 ≤ omax) :
    0 ≤ clampG omax k ∧ clampG omax k ≤ omax := by
  unfold clampG; split_ifs <;> constructor <;> omega

theorem clampG_near (t : ℝ) {omax i : ℤ} (hi0 : 0 ≤ i) (hi : i ≤ omax) :
    |t - (clampG omax (roundHalfAway t) : ℤ)| ≤ |t - i| := by
  have hi0' : (0 : ℝ) ≤ i := by exact_mod_cast hi0
  have hi' : (i : ℝ) ≤ omax := by exact_mod_cast hi
  have hr := rha_abs t
  have hr' := abs_le.mp hr
  unfold clampG
  split_ifs with h1 h2
  · have h3 : (omax : ℝ) + 1 ≤ (roundHalfAway t : ℤ) := by exact_mod_cast h1
    rw [abs_of_nonneg (by linarith), abs_of_nonneg (by linarith)]; linarith
  · have h3 : ((roundHalfAway t : ℤ) : ℝ) ≤ -1 := by
      have : roundHalfAway t ≤ -1 := by omega
      exact_mod_cast this
    rw [abs_of_nonpos (by push_cast; linarith), abs_of_nonpos (by linarith)]; push_cast; linarith
  · exact near_of_half hr

theorem rha_of_tie {t : ℝ} (ht : 0 ≤ t) (h : |t - (roundHalfAway t : ℤ)| = 1/2) :
    t = (roundHalfAway t : ℤ) - 1/2 := by
  unfold roundHalfAway at *
  rw [if_pos ht] at *
  have h1 := Int.floor_le (t + 1/2)
  have h2 := Int.lt_floor_add_one (t + 1/2)
  rcases abs_cases (t - (⌊t + 1/2⌋ : ℤ)) with ⟨h3, _⟩ | ⟨h3, _⟩
  · rw [h3] at h; linarith
  · rw [h3] at h; linarith

/-- ties go up on the GPU -/
theorem clampG_tie (t : ℝ) {omax i : ℤ} (hi0 : 0 ≤ i) (hi : i ≤ omax)
    (hne : i ≠ clampG omax (roundHalfAway t))
    (ht : |t - (clampG omax (roundHalfAway t) : ℤ)| = |t - i|) :
    i < clampG omax (roundHalfAway t) := by
  have hi0' : (0 : ℝ) ≤ i := by exact_mod_cast hi0
  have hi' : (i : ℝ) ≤ omax := by exact_mod_cast hi
  have hr := rha_abs t
  have hr' := abs_le.mp hr
  unfold clampG at *
  split_ifs at * with h1 h2
  · omega
  · have h3 : ((roundHalfAway t : ℤ) : ℝ) ≤ -1 := by
      have : roundHalfAway t ≤ -1 := by omega
      exact_mod_cast this
    rw [abs_of_nonpos (by push_cast; linarith), abs_of_nonpos (by linarith)] at ht
    push_cast at ht
    exact absurd (by exact_mod_cast (by linarith : (i : ℝ) = 0)) hne
  · have hh := half_of_tie hr hne ht
    have ht0 : 0 ≤ t := by
      by_contra hneg
      have hk : (0 : ℝ) ≤ (roundHalfAway t : ℤ) := by exact_mod_cast (not_lt.mp h2)
      have : roundHalfAway t ≤ 0 := by
        unfold roundHalfAway
        rw [if_neg hneg]
        have : (0 : ℤ) ≤ ⌊-t + 1/2⌋ := Int.floor_nonneg.mpr (by linarith)
        omega
      have h0 : roundHalfAway t = 0 := by omega
      rw [h0] at ht hne
      rw [abs_of_nonpos (by push_cast; linarith), abs_of_nonpos (by linarith)] at ht
      push_cast at ht
      exact absurd (by exact_mod_cast (by linarith : (i : ℝ) = 0)) hne
    have e := rha_of_tie ht0 hh
    by_contra hlt
    have : (roundHalfAway t : ℤ) + 1 ≤ i := by omega
    have h5 : ((roundHalfAway t : ℤ) : ℝ) + 1 ≤ i := by exact_mod_cast this
    rw [hh, abs_of_nonpos (by linarith)] at ht
    linarith

/-! ### Grid parameters -/

theorem argmaxL_eq (l : List ℝ) (p : ℕ) (hp : p < l.length) (hmax : ∀ y ∈ l, y ≤ l[p])
    (hlt : ∀ i, ∀ h : i < p, l[i] < l[p]) : argmaxL l = p := by
  unfold argmaxL
  rw [List.findIdx_eq hp]
  refine ⟨by simpa using hmax, ?_⟩
  intro j hj
  simp only [decide_eq_false_iff_not, not_forall, not_le]
  exact ⟨l[p], List.getElem_mem hp, hlt j hj⟩

theorem argmaxL_lt (l : List ℝ) (h : l ≠ []) : argmaxL l < l.length := by
  unfold argmaxL
  rw [List.findIdx_lt_length]
  obtain ⟨m, hm, hmax⟩ : ∃ m ∈ l, ∀ y ∈ l, y ≤ m := by
    induction l with
    | nil => exact absurd rfl h
    | cons a l ih =>
      by_cases hl : l = []
      · exact ⟨a, by simp, by simp [hl]⟩
      · obtain ⟨m, hm, hmax⟩ := ih hl
        rcases le_total a m with ham | ham
        · exact ⟨m, by simp [hm], by simpa using ⟨ham, hmax⟩⟩
        · exact ⟨a, by simp, by
            simp only [List.mem_cons, forall_eq_or_imp, le_refl, true_and]
            exact fun y hy => (hmax y hy).trans ham⟩
  exact ⟨m, hm, by simpa using hmax⟩

theorem argmaxL_spec (l : List ℝ) (h : l ≠ []) : ∀ y ∈ l, y ≤ l[argmaxL l]'(argmaxL_lt l h) := by
  have hw := argmaxL_lt l h
  unfold argmaxL at hw ⊢
  have := List.findIdx_getElem (w := hw)
  exact of_decide_eq_true this

theorem absDiff2Log_length (v : List ℝ) : (absDiff2Log v).length = v.length - 2 := by
  simp [absDiff2Log]

theorem absDiff2Log_ne_nil {v : List ℝ} (h : 3 ≤ v.length) : absDiff2Log v ≠ [] := by
  intro e
  have := absDiff2Log_length v
  rw [e] at this; simp at this; omega

theorem absDiff2Log_get {v : List ℝ} {i : ℕ} (h : i + 2 < v.length) :
    (absDiff2Log v)[i]'(by rw [absDiff2Log_length]; omega) =
      |(Real.logb 2 v[i+2] - Real.logb 2 v[i+1]) - (Real.logb 2 v[i+1] - Real.logb 2 v[i])| *
        Real.log 2 := by
  have hl : (0 : ℝ) < Real.log 2 := Real.log_pos (by norm_num)
  simp only [absDiff2Log, List.getElem_map, List.getElem_range]
  rw [List.getD_eq_getElem _ _ h, List.getD_eq_getElem _ _ (by omega : i + 1 < v.length),
    List.getD_eq_getElem _ _ (by omega : i < v.length)]
  simp only [Real.logb]
  rw [← abs_of_pos hl, ← abs_mul, abs_of_pos hl]
  congr 1
  field_simp

theorem absDiff2Log_geometric {v : List ℝ} {a d : ℝ} (h : Spec.Geometric v a d) :
    ∀ y ∈ absDiff2Log v, y = 0 := by
  intro y hy
  obtain ⟨i, hi, rfl⟩ := List.getElem_of_mem hy
  rw [absDiff2Log_length] at hi
  rw [absDiff2Log_get (by omega), (h (i+2) (by omega)).2, (h (i+1) (by omega)).2,
    (h i (by omega)).2]
  push_cast
  rw [show a + ((i:ℝ) + 2) * d - (a + ((i:ℝ) + 1) * d) - (a + ((i:ℝ) + 1) * d - (a + i * d)) = 0 by
    ring]
  simp

theorem list_sum_zero (l : List ℝ) (h : ∀ y ∈ l, y = 0) : l.sum = 0 := by
  induction l with
  | nil => rfl
  | cons a l ih =>
    rw [List.sum_cons, h a (by simp), ih (fun y hy => h y (by simp [hy])), add_zero]

theorem transition_geometric {th : ℝ} {v : List ℝ} {a d : ℝ} (h : Spec.Geometric v a d)
    (hl : 3 ≤ v.length) : logscaleTransitionIdx th v = .ok none := by
  have hz := absDiff2Log_geometric h
  have hn := absDiff2Log_ne_nil hl
  unfold logscaleTransitionIdx
  simp only [if_neg hn]
  rw [if_pos]
  have hs : ((absDiff2Log v).set (argmaxL (absDiff2Log v) + 2 - 2) 0).sum = 0 :=
    list_sum_zero _ (fun y hy => by
      rcases List.mem_or_eq_of_mem_set hy with h1 | h1
      · exact hz y h1
      · exact h1)
  rw [hs]
  have hlt := argmaxL_lt _ hn
  simp only [Nat.add_sub_cancel]
  rw [List.getD_eq_getElem _ _ hlt, hz _ (List.getElem_mem hlt)]
  simp

theorem absDiff2Log_two {v : List ℝ} {p : ℕ} {a d0 d1 : ℝ} (h : Spec.TwoSegment v p a d0 d1)
    {i : ℕ} (hi : i + 2 < v.length) :
    (absDiff2Log v)[i]'(by rw [absDiff2Log_length]; omega) =
      if i + 1 = p then |d1 - d0| * Real.log 2 else 0 := by
  obtain ⟨hp1, hp2, hv⟩ := h
  rw [absDiff2Log_get hi, (hv (i+2) (by omega)).2, (hv (i+1) (by omega)).2, (hv i (by omega)).2]
  by_cases e : i + 1 = p
  · subst e
    rw [if_pos rfl, if_neg (by omega), if_pos le_rfl, if_pos (by omega)]
    congr 2
    push_cast; ring
  · rw [if_neg e]
    rcases lt_or_gt_of_ne e with h1 | h1
    · rw [if_pos (by omega), if_pos (by omega), if_pos (by omega)]
      push_cast
      rw [show a + ((i:ℝ) + 2) * d0 - (a + ((i:ℝ) + 1) * d0) - (a + ((i:ℝ) + 1) * d0 - (a + i * d0))
        = 0 by ring]
      simp
    · rw [if_neg (by omega), if_neg (by omega)]
      by_cases e2 : i ≤ p
      · have : i = p := by omega
        subst this
        rw [if_pos le_rfl]
        push_cast
        rw [show ∀ x : ℝ, x = 0 → |x| * Real.log 2 = 0 from fun x hx => by rw [hx]; simp]
        ring
      · rw [if_neg e2]
        push_cast
        rw [show ∀ x : ℝ, x = 0 → |x| * Real.log 2 = 0 from fun x hx => by rw [hx]; simp]
        ring

theorem transition_two {th : ℝ} (hth : 0 < th) {v : List ℝ} {p : ℕ} {a d0 d1 : ℝ}
    (h : Spec.TwoSegment v p a d0 d1) (hne : d0 ≠ d1) :
    logscaleTransitionIdx th v = .ok (some (p + 1)) := by
  have hl2 : (0 : ℝ) < Real.log 2 := Real.log_pos (by norm_num)
  have hp1 := h.1
  have hp2 := h.2.1
  have hn : absDiff2Log v ≠ [] := absDiff2Log_ne_nil (by omega)
  have hlen := absDiff2Log_length v
  have hpos : 0 < |d1 - d0| * Real.log 2 := mul_pos (abs_pos.mpr (sub_ne_zero.mpr hne.symm)) hl2
  have hpl : p - 1 < (absDiff2Log v).length := by omega
  have hget : (absDiff2Log v)[p-1] = |d1 - d0| * Real.log 2 := by
    rw [absDiff2Log_two h (by omega), if_pos (by omega)]
  have hz : ∀ i, ∀ hi : i < (absDiff2Log v).length, i ≠ p - 1 → (absDiff2Log v)[i] = 0 := by
    intro i hi hne
    rw [absDiff2Log_two h (by omega), if_neg (by omega)]
  have harg : argmaxL (absDiff2Log v) = p - 1 := by
    apply argmaxL_eq _ _ hpl
    · intro y hy
      obtain ⟨i, hi, rfl⟩ := List.getElem_of_mem hy
      by_cases e : i = p - 1
      · subst e; exact le_rfl
      · rw [hz i hi e, hget]; exact hpos.le
    · intro i hi
      rw [hz i (by omega) (by omega), hget]; exact hpos
  have hz' : ∀ y ∈ (absDiff2Log v).set (p - 1) 0, y = 0 := by
    intro y hy
    obtain ⟨i, hi, rfl⟩ := List.getElem_of_mem hy
    rw [List.getElem_set]
    split
    · rfl
    · next e =>
      rw [List.length_set] at hi
      exact hz i hi (fun e' => e e'.symm)
  unfold logscaleTransitionIdx
  simp only [if_neg hn, harg, Nat.add_sub_cancel]
  rw [if_neg, if_neg]
  · congr 2; omega
  · push Not
    intro y hy
    rw [hz' y hy]; simpa using hth
  · rw [list_sum_zero _ hz', List.getD_eq_getElem _ _ hpl, hget]
    simpa using hpos

end Ssq
