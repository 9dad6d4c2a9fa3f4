import Verif.Lemmas.Integrate
import Verif.Props.Scales

/-!
# C114: `integrate_analytic` and the admissibility constants

The trapezoidal rule on `[1e-15, 0.1]` (logarithmic mesh) and from `0.1` on (uniform mesh).
-/
namespace Ssq

theorem estArr_ok (f : ℝ → ℝ) (L : ℝ) (N : ℕ) (hN : 0 < N) :
    ∃ n < N, estArr f L N = .ok ((mainMesh L N).map f, mainMesh L N, n) ∧
      (|f (1 / 10 + (n + 1) * ((L - 1 / 10) / N))| < 1 / 10 ^ 15 ∨ n + 1 = N) ∧
      ∃ a ≤ n, (∀ j < N, f (1 / 10 + (j + 1) * ((L - 1 / 10) / N)) ≤ f (1 / 10 + (a + 1) * ((L - 1 / 10) / N))) ∧
        ∀ j, a ≤ j → j < n → 1 / 10 ^ 15 ≤ |f (1 / 10 + (j + 1) * ((L - 1 / 10) / N))| := by
  unfold estArr
  simp only
  set arr := (mainMesh L N).map f with harr
  have hlen : arr.length = N := by rw [harr, List.length_map, mainMesh_length]
  have hne : arr ≠ [] := List.ne_nil_of_length_pos (by omega)
  have hm := argmaxL_lt arr hne
  obtain ⟨k, h1, hk, h2, h3⟩ := C64_min_neglect ((arr.drop (argmaxL arr)).map fun x => |x|) (1 / 10 ^ 15)
    (List.ne_nil_of_length_pos (by simp; omega))
  have hk' : k < N - argmaxL arr := by simpa [hlen] using hk
  have hget : ∀ j, ∀ hj : j < arr.length, arr[j] = f (1 / 10 + ((j : ℝ) + 1) * ((L - 1 / 10) / N)) := by
    intro j hj
    rw [← mainMesh_getD L N j (by omega), List.getD_eq_getElem _ _ (by rw [mainMesh_length]; omega)]
    simp [harr]
  refine ⟨k + argmaxL arr, by omega, by rw [h1]; rfl, ?_, argmaxL arr, by omega, ?_, ?_⟩
  rotate_left
  · intro j hj
    rw [← hget j (by omega), ← hget _ hm]
    exact argmaxL_spec arr hne _ (List.getElem_mem _)
  · intro j haj hjn
    have := h2 (j - argmaxL arr) (by omega)
    rw [List.getElem_map, List.getElem_drop, hget, Nat.add_sub_cancel' haj] at this
    exact this
  have hv : ((arr.drop (argmaxL arr)).map fun x => |x|)[k] = |f (1 / 10 + (((k + argmaxL arr : ℕ) : ℝ) + 1) * ((L - 1 / 10) / N))| := by
    rw [List.getElem_map, List.getElem_drop, hget, Nat.add_comm]
  rcases h3 with h3 | ⟨h3, -⟩
  · left; rw [hv] at h3; exact h3
  · right
    simp [hlen] at h3
    omega

/-- What a pass of `_est_arr` returns: the index `n` is that of a negligible value or the last, and not before a largest value. -/
def EstGood (f : ℝ → ℝ) (L : ℝ) (N n : ℕ) : Prop :=
  n < N ∧ (|f (1 / 10 + ((n : ℝ) + 1) * ((L - 1 / 10) / N))| < 1 / 10 ^ 15 ∨ n + 1 = N) ∧
    ∃ a ≤ n, (∀ j < N, f (1 / 10 + ((j : ℝ) + 1) * ((L - 1 / 10) / N)) ≤ f (1 / 10 + ((a : ℝ) + 1) * ((L - 1 / 10) / N))) ∧
      ∀ j, a ≤ j → j < n → 1 / 10 ^ 15 ≤ |f (1 / 10 + ((j : ℝ) + 1) * ((L - 1 / 10) / N))|

theorem convergentLoop_ok (f : ℝ → ℝ) (z : ℝ) :
    ∀ (l : List (ℕ × ℝ)) (last : Option (List ℝ × List ℝ × ℕ)), (∀ p ∈ l, 0 < p.1) →
      (l = [] → ∃ n, EstGood f 160 (10000 * 8) n ∧ last = some ((mainMesh 160 (10000 * 8)).map f, mainMesh 160 (10000 * 8), n)) →
      (l ≠ [] → l.getLast? = some (8, 160)) →
      (convergentLoop f z l last = .error .exception ∧ z < 1 / 10 ^ 5) ∨
      ∃ y t w, convergentLoop f z l last = .ok ((y, t), w) ∧
        ∃ m L n, ((w = false ∧ (m, L) ∈ l) ∨ (m, L) = (8, 160)) ∧ EstGood f L (10000 * m) n ∧ t = (mainMesh L (10000 * m)).take n ∧ y = t.map f ∧
        (w = false → 1000 * m < 10000 * m - n ∧ 1 / 10 ^ 5 < (((mainMesh L (10000 * m)).map f).map fun x => |x|).sum) ∧
        (w = true → (m, L) = (8, 160) ∧ ¬ z < 1 / 10 ^ 5) := by
  intro l
  induction l with
  | nil =>
    intro last _ hl _
    obtain ⟨n, hn, e⟩ := hl rfl
    rw [e]
    unfold convergentLoop
    by_cases hz : z < 1 / 10 ^ 5
    · rw [if_pos hz]; exact .inl ⟨rfl, hz⟩
    · rw [if_neg hz]
      refine .inr ⟨_, _, _, rfl, 8, 160, n, .inr rfl, hn, rfl, by rw [List.map_take], by simp, fun _ => ⟨rfl, hz⟩⟩
  | cons p l ih =>
    intro last hpos _ hl
    obtain ⟨m, L⟩ := p
    have hm : 0 < m := hpos (m, L) (by simp)
    unfold convergentLoop
    obtain ⟨n, hn, e, hsm⟩ := estArr_ok f L (10000 * m) (by omega)
    have hg : EstGood f L (10000 * m) n := ⟨hn, hsm⟩
    rw [e]
    simp only [Except.bind]
    by_cases hc : 1000 * m < (mainMesh L (10000 * m)).length - n ∧ 1 / 10 ^ 5 < (((mainMesh L (10000 * m)).map f).map fun x => |x|).sum
    · rw [if_pos hc]
      rw [mainMesh_length] at hc
      exact .inr ⟨_, _, _, rfl, m, L, n, .inl ⟨rfl, by simp⟩, hg, rfl, by rw [List.map_take], fun _ => hc, by simp⟩
    · rw [if_neg hc]
      have hl := hl (by simp)
      rcases ih (some ((mainMesh L (10000 * m)).map f, mainMesh L (10000 * m), n)) (fun p hp => hpos p (by simp [hp])) (by
        rintro rfl
        simp only [List.getLast?_singleton, Option.some.injEq, Prod.mk.injEq] at hl
        obtain ⟨rfl, rfl⟩ := hl
        exact ⟨n, hg, rfl⟩) (by
        intro hne
        rcases l with _ | ⟨q, l'⟩
        · exact absurd rfl hne
        · rw [List.getLast?_cons_cons] at hl; exact hl) with h | ⟨y, t, w, h0, m', L', n', h1, h2⟩
      · exact .inl h
      · refine .inr ⟨y, t, w, h0, m', L', n', ?_, h2⟩
        rcases h1 with h1 | h1
        · exact .inl ⟨h1.1, by simp [h1.2]⟩
        · exact .inr h1

theorem integrateAnalytic_ok (f : ℝ → ℝ) :
    (integrateAnalytic f = .error .exception ∧ integrateNearZero f < 1 / 10 ^ 5) ∨
    ∃ R w, integrateAnalytic f = .ok (R, w) ∧
      ∃ m L n, ((w = false ∧ (m, L) ∈ [((1 : ℕ), (1 : ℝ)), (1, 20), (4, 80), (8, 160)]) ∨ (m, L) = (8, 160)) ∧ EstGood f L (10000 * m) n ∧
        R = trapzX (((mainMesh L (10000 * m)).take n).map f) ((mainMesh L (10000 * m)).take n) + integrateNearZero f ∧
        (w = false → 1000 * m < 10000 * m - n ∧ 1 / 10 ^ 5 < (((mainMesh L (10000 * m)).map f).map fun x => |x|).sum) ∧
        (w = true → (m, L) = (8, 160) ∧ ¬ integrateNearZero f < 1 / 10 ^ 5) := by
  unfold integrateAnalytic
  simp only
  rcases convergentLoop_ok f (integrateNearZero f) [(1, 1), (1, 20), (4, 80), (8, 160)] none (by simp) (by simp) (by simp) with
    ⟨h, hz⟩ | ⟨y, t, w, h, m, L, n, h1, h2, h3, h4, h5⟩
  · rw [h]; exact .inl ⟨rfl, hz⟩
  · rw [h]
    exact .inr ⟨_, _, rfl, m, L, n, h1, h2, by rw [h4, h3], h5⟩

/-- It fails only if no mesh was found and the part near zero is below `1e-5`. -/
theorem C114_total (f : ℝ → ℝ) :
    (∃ R w, integrateAnalytic f = .ok (R, w)) ∨ (integrateAnalytic f = .error .exception ∧ integrateNearZero f < 1 / 10 ^ 5) := by
  rcases integrateAnalytic_ok f with h | ⟨R, w, h, -⟩
  · exact .inr h
  · exact .inl ⟨R, w, h⟩

/-- What `integrate_analytic` computes: the part near zero plus the rule on the points `0.1 + (i+1)h`, `i < n`. The point number `n` is one at which the
function is negligible, or the last one; before it there is a largest value, and no negligible one from there on. Without the warning it is one of the first nine tenths of the points and the sum of
the absolute values is above `1e-5`; the warning is given only if the last mesh was used and the part near zero is at least `1e-5`. -/
theorem C114_shape (f : ℝ → ℝ) (R : ℝ) (w : Bool) (h : integrateAnalytic f = .ok (R, w)) :
    ∃ (m : ℕ) (L : ℝ) (n : ℕ), (m, L) ∈ [((1 : ℕ), (1 : ℝ)), (1, 20), (4, 80), (8, 160)] ∧ n < 10000 * m ∧
      (let x : ℕ → ℝ := fun i => 1 / 10 + ((i : ℝ) + 1) * ((L - 1 / 10) / ((10000 * m : ℕ) : ℝ))
       R = ((List.range (n - 1)).map fun i : ℕ => (x (i + 1) - x i) * ((f (x i) + f (x (i + 1))) / 2)).sum + integrateNearZero f ∧
       (|f (x n)| < 1 / 10 ^ 15 ∨ n + 1 = 10000 * m) ∧
       (∃ a ≤ n, (∀ j < 10000 * m, f (x j) ≤ f (x a)) ∧ ∀ j, a ≤ j → j < n → 1 / 10 ^ 15 ≤ |f (x j)|) ∧
       (w = false → n < 9000 * m ∧ 1 / 10 ^ 5 < ((List.range (10000 * m)).map fun i => |f (x i)|).sum) ∧
       (w = true → (m, L) = (8, 160) ∧ 1 / 10 ^ 5 ≤ integrateNearZero f)) := by
  rcases integrateAnalytic_ok f with ⟨h', -⟩ | ⟨R', w', h', m, L, n, h1, h2, h3, h5, h6⟩
  · rw [h'] at h; exact nomatch h
  rw [h'] at h
  injection h with h
  simp only [Prod.mk.injEq] at h
  obtain ⟨rfl, rfl⟩ := h
  obtain ⟨hn, h7, h8⟩ := h2
  refine ⟨m, L, n, ?_, hn, ?_, h7, h8, ?_, fun hw => ⟨(h6 hw).1, not_lt.1 (h6 hw).2⟩⟩
  · rcases h1 with h1 | h1
    · exact h1.2
    · rw [h1]; simp
  · rw [h3, trapzX_map f _ (fun i : ℕ => 1 / 10 + ((i : ℝ) + 1) * ((L - 1 / 10) / ((10000 * m : ℕ) : ℝ)))]
    · have : ((mainMesh L (10000 * m)).take n).length = n := by rw [List.length_take, mainMesh_length]; omega
      rw [this]
    · intro i hi
      rw [List.length_take, mainMesh_length] at hi
      rw [← mainMesh_getD L (10000 * m) i (by omega), List.getD_eq_getElem?_getD, List.getElem?_take, if_pos (by omega),
        ← List.getD_eq_getElem?_getD]
  · intro hw
    refine ⟨by have := (h5 hw).1; omega, ?_⟩
    have e : (List.range (10000 * m)).map (fun i : ℕ => |f (1 / 10 + ((i : ℝ) + 1) * ((L - 1 / 10) / ((10000 * m : ℕ) : ℝ)))|) =
        ((mainMesh L (10000 * m)).map f).map fun x => |x| := by
      apply List.ext_getElem
      · simp [mainMesh_length]
      · intro i hi _
        simp only [List.length_map, List.length_range] at hi
        simp only [List.getElem_map, List.getElem_range]
        rw [← mainMesh_getD L (10000 * m) i hi, List.getD_eq_getElem _ _ (by rw [mainMesh_length]; exact hi)]
    rw [e]
    exact (h5 hw).2

/-- The steps of the main meshes are at most 0.002. -/
theorem main_step {m : ℕ} {L : ℝ} (h : (m, L) ∈ [((1 : ℕ), (1 : ℝ)), (1, 20), (4, 80), (8, 160)]) :
    0 < m ∧ L ≤ 160 ∧ 0 < (L - 1 / 10) / ((10000 * m : ℕ) : ℝ) ∧ (L - 1 / 10) / ((10000 * m : ℕ) : ℝ) ≤ 1 / 500 ∧
      ((10000 * m : ℕ) : ℝ) * ((L - 1 / 10) / ((10000 * m : ℕ) : ℝ)) = L - 1 / 10 := by
  simp only [List.mem_cons, Prod.mk.injEq, List.not_mem_nil, or_false] at h
  rcases h with ⟨rfl, rfl⟩ | ⟨rfl, rfl⟩ | ⟨rfl, rfl⟩ | ⟨rfl, rfl⟩ <;> norm_num

theorem main_m {m : ℕ} {L : ℝ} (h : (m, L) ∈ [((1 : ℕ), (1 : ℝ)), (1, 20), (4, 80), (8, 160)]) : m ≤ 8 := by
  simp only [List.mem_cons, Prod.mk.injEq, List.not_mem_nil, or_false] at h
  omega

/-- **C114**: if `int_fn` is `K`-Lipschitz on `[1e-15, 160]`, `integrate_analytic` returns its integral from `1e-15` to some `T` between 0.1 and 160 up to
`K (T/1000 + 1/6000) + |int_fn(0.1)|/500`; without the warning, `|int_fn|` is below `1e-15` at a point `T'` at most `0.004` after `T`, and if moreover
`int_fn` is nonnegative, grows up to a peak and decreases afterwards, it is below `1e-15` everywhere from `T'` on. -/
theorem C114_error_partial (f : ℝ → ℝ) (R : ℝ) (w : Bool) (h : integrateAnalytic f = .ok (R, w)) (K : ℝ) (hK0 : 0 ≤ K)
    (hK : ∀ x y, 1 / 10 ^ 15 ≤ x → x ≤ 160 → 1 / 10 ^ 15 ≤ y → y ≤ 160 → |f x - f y| ≤ K * |x - y|) :
    ∃ T, 1 / 10 ≤ T ∧ T ≤ 160 ∧
      |R - ∫ t in (1 / 10 ^ 15 : ℝ)..T, f t| ≤ K * (T / 1000 + 1 / 6000) + |f (1 / 10)| / 500 ∧
      (w = false → ∃ T', T ≤ T' ∧ T' ≤ T + 1 / 250 ∧ |f T'| < 1 / 10 ^ 15 ∧
        ∀ p, (∀ x, 0 ≤ f x) → (∀ x y, 0 < x → x ≤ y → y ≤ p → f x ≤ f y) → (∀ x y, p ≤ x → x ≤ y → f y ≤ f x) → ∀ t, T' ≤ t → f t < 1 / 10 ^ 15) := by
  obtain ⟨m, L, n, h1, h2, h3, h4', h5, h6, -⟩ := C114_shape f R w h
  simp only at h3 h4' h5 h6
  have h4 : w = false → |f (1 / 10 + ((n : ℝ) + 1) * ((L - 1 / 10) / ((10000 * m : ℕ) : ℝ)))| < 1 / 10 ^ 15 := by
    intro hw
    rcases h4' with h | h
    · exact h
    · have := (h6 hw).1; omega
  obtain ⟨hm, hL, hs0, hs1, hs2⟩ := main_step h1
  set δ := (L - 1 / 10) / ((10000 * m : ℕ) : ℝ) with hδ
  have hnear := near_error f 160 K (by norm_num) hK0 hK
  have huni : w = false → ∀ p, (∀ x, 0 ≤ f x) → (∀ x y, 0 < x → x ≤ y → y ≤ p → f x ≤ f y) → (∀ x y, p ≤ x → x ≤ y → f y ≤ f x) →
      ∀ t, 1 / 10 + ((n : ℝ) + 1) * δ ≤ t → f t < 1 / 10 ^ 15 := by
    intro hw p hf hinc hdec t ht
    obtain ⟨a, han, ha, -⟩ := h5
    have hv := h4 hw
    rw [abs_of_nonneg (hf _)] at hv
    by_cases hp : p ≤ 1 / 10 + ((n : ℝ) + 1) * δ
    · exact lt_of_le_of_lt (hdec _ _ hp ht) hv
    · exfalso
      have hle : f (1 / 10 + ((a : ℝ) + 1) * δ) ≤ f (1 / 10 + ((n : ℝ) + 1) * δ) := by
        refine hinc _ _ (by positivity) ?_ (not_le.1 hp).le
        have : (a : ℝ) ≤ n := by exact_mod_cast han
        nlinarith
      have hsum := (h6 hw).2
      have hb : ((List.range (10000 * m)).map fun i : ℕ => |f (1 / 10 + ((i : ℝ) + 1) * δ)|).sum ≤ (10000 * m) • (1 / 10 ^ 15 : ℝ) := by
        have := List.sum_le_card_nsmul ((List.range (10000 * m)).map fun i : ℕ => |f (1 / 10 + ((i : ℝ) + 1) * δ)|) (1 / 10 ^ 15) (by
          intro v hv'
          simp only [List.mem_map, List.mem_range] at hv'
          obtain ⟨j, hj, rfl⟩ := hv'
          rw [abs_of_nonneg (hf _)]
          linarith [ha j hj])
        simpa using this
      have hm8 := main_m h1
      rw [nsmul_eq_mul] at hb
      have : ((10000 * m : ℕ) : ℝ) ≤ 80000 := by
        have : (m : ℝ) ≤ 8 := by exact_mod_cast hm8
        push_cast
        linarith
      have : ((10000 * m : ℕ) : ℝ) * (1 / 10 ^ 15) ≤ 80000 * (1 / 10 ^ 15) := mul_le_mul_of_nonneg_right this (by norm_num)
      norm_num at this hb hsum
      linarith
  have hx : ∀ i : ℕ, i < 10000 * m → 1 / 10 + ((i : ℝ) + 1) * δ ≤ 160 := by
    intro i hi
    have : ((i : ℝ) + 1) ≤ ((10000 * m : ℕ) : ℝ) := by exact_mod_cast hi
    nlinarith
  have hx0 : ∀ i : ℕ, 1 / 10 ≤ 1 / 10 + ((i : ℝ) + 1) * δ := by
    intro i
    have : 0 ≤ ((i : ℝ) + 1) * δ := by positivity
    linarith
  rcases Nat.eq_zero_or_pos n with hn | hn
  · subst hn
    refine ⟨1 / 10, le_rfl, by norm_num, ?_, ?_⟩
    · rw [h3]
      simp only [Nat.zero_sub, List.range_zero, List.map_nil, List.sum_nil, zero_add]
      have := abs_nonneg (f (1 / 10))
      refine le_trans hnear ?_
      nlinarith
    · intro hw
      refine ⟨_, ?_, ?_, h4 hw, huni hw⟩
      · exact hx0 0
      · push_cast; linarith
  · -- the mesh `0.1, 0.1 + δ, …`
    have hT : 1 / 10 + (((n - 1 : ℕ) : ℝ) + 1) * δ = 1 / 10 + (n : ℝ) * δ := by
      rw [Nat.cast_sub hn]; push_cast; ring
    have hmain := trap_error f (1 / 10 ^ 15) 160 K (1 / 500) hK0 hK (fun i : ℕ => 1 / 10 + ((i : ℝ) + 1) * δ) (n - 1)
      (fun i hi => ⟨le_trans (by norm_num) (hx0 i), hx i (by omega)⟩)
      (fun i hi => by push_cast; nlinarith) (fun i hi => by push_cast; nlinarith)
    obtain ⟨hle, hmain⟩ := hmain
    have hgap : |∫ t in (1 / 10 : ℝ)..(1 / 10 + (((0 : ℕ) : ℝ) + 1) * δ), f t| ≤ (|f (1 / 10)| + K / 500) * (1 / 500) := by
      have := intervalIntegral.norm_integral_le_of_norm_le_const (a := (1 / 10 : ℝ)) (b := 1 / 10 + (((0 : ℕ) : ℝ) + 1) * δ)
        (C := |f (1 / 10)| + K / 500) (f := f) (by
          intro x hxx
          rw [Set.uIoc_of_le (hx0 0)] at hxx
          have hb : x ≤ 1 / 10 + δ := by have := hxx.2; push_cast at this; linarith
          have h1 := hK x (1 / 10) (le_trans (by norm_num) hxx.1.le) (le_trans hxx.2 (hx 0 (by omega))) (by norm_num) (by norm_num)
          rw [abs_of_nonneg (by linarith [hxx.1] : 0 ≤ x - 1 / 10)] at h1
          have h2 : |f x| ≤ |f x - f (1 / 10)| + |f (1 / 10)| := by
            have := abs_add_le (f x - f (1 / 10)) (f (1 / 10))
            rwa [sub_add_cancel] at this
          rw [Real.norm_eq_abs]
          have h3 : K * (x - 1 / 10) ≤ K * (1 / 500) := mul_le_mul_of_nonneg_left (by linarith) hK0
          linarith)
      rw [Real.norm_eq_abs] at this
      refine le_trans this ?_
      have hd : |1 / 10 + (((0 : ℕ) : ℝ) + 1) * δ - 1 / 10| ≤ 1 / 500 := by
        rw [abs_of_nonneg (by push_cast; linarith)]; push_cast; linarith
      exact mul_le_mul_of_nonneg_left hd (by positivity)
    have hi1 := lip_integrable f (1 / 10 ^ 15) 160 K hK0 hK (1 / 10 ^ 15) (1 / 10) le_rfl (by norm_num) (by norm_num)
    have hi2 := lip_integrable f (1 / 10 ^ 15) 160 K hK0 hK (1 / 10) (1 / 10 + (((0 : ℕ) : ℝ) + 1) * δ) (by norm_num) (hx0 0) (hx 0 (by omega))
    have hi3 := lip_integrable f (1 / 10 ^ 15) 160 K hK0 hK (1 / 10 + (((0 : ℕ) : ℝ) + 1) * δ) (1 / 10 + (((n - 1 : ℕ) : ℝ) + 1) * δ)
      (le_trans (by norm_num) (hx0 0)) hle (hx _ (by omega))
    refine ⟨1 / 10 + (((n - 1 : ℕ) : ℝ) + 1) * δ, hx0 _, hx _ (by omega), ?_, ?_⟩
    · rw [← intervalIntegral.integral_add_adjacent_intervals (hi1.trans hi2) hi3,
        ← intervalIntegral.integral_add_adjacent_intervals hi1 hi2, h3]
      generalize ((List.range (n - 1)).map fun i : ℕ => ((1 / 10 + (((i + 1 : ℕ) : ℝ) + 1) * δ) - (1 / 10 + ((i : ℝ) + 1) * δ)) *
        ((f (1 / 10 + ((i : ℝ) + 1) * δ) + f (1 / 10 + (((i + 1 : ℕ) : ℝ) + 1) * δ)) / 2)).sum = S at *
      generalize (∫ t in (1 / 10 : ℝ)..(1 / 10 + (((0 : ℕ) : ℝ) + 1) * δ), f t) = G at *
      generalize (∫ t in (1 / 10 + (((0 : ℕ) : ℝ) + 1) * δ)..(1 / 10 + (((n - 1 : ℕ) : ℝ) + 1) * δ), f t) = M at *
      generalize (∫ t in (1 / 10 ^ 15 : ℝ)..(1 / 10), f t) = Z at *
      generalize integrateNearZero f = Y at *
      have e : S + Y - (Z + G + M) = (S - M) + (Y - Z) - G := by ring
      rw [e]
      have t1 := abs_sub ((S - M) + (Y - Z)) G
      have t2 := abs_add_le (S - M) (Y - Z)
      have t3 : K * (1 / 500) / 2 * (1 / 10 + (((n - 1 : ℕ) : ℝ) + 1) * δ - (1 / 10 + (((0 : ℕ) : ℝ) + 1) * δ)) ≤
          K * (1 / 1000) * (1 / 10 + (((n - 1 : ℕ) : ℝ) + 1) * δ - 1 / 10) := by
        have : K * (1 / 500) / 2 = K * (1 / 1000) := by ring
        rw [this]
        refine mul_le_mul_of_nonneg_left ?_ (by positivity)
        have := hx0 0
        linarith
      have t4 : (|f (1 / 10)| + K / 500) * (1 / 500) = |f (1 / 10)| / 500 + K / 250000 := by ring
      rw [t4] at hgap
      have t5 : K * ((1 / 10 + (((n - 1 : ℕ) : ℝ) + 1) * δ) / 1000 + 1 / 6000) =
          K * (1 / 1000) * (1 / 10 + (((n - 1 : ℕ) : ℝ) + 1) * δ - 1 / 10) + K / 10000 + K / 6000 := by ring
      rw [t5]
      linarith
    · intro hw
      refine ⟨_, ?_, ?_, h4 hw, huni hw⟩
      · rw [hT]
        nlinarith
      · rw [hT]
        nlinarith

/-! ### The warning -/

/-- The claim of the warning: only the part from `1e-15` to `0.1` has been integrated. -/
def C114_warning_full : Prop := ∀ (f : ℝ → ℝ) (R : ℝ), integrateAnalytic f = .ok (R, true) → R = integrateNearZero f

theorem near_one : integrateNearZero (fun _ => 1) = 1 / 10 - 1 / 10 ^ 15 := by
  have h := near_error (fun _ => 1) 160 0 (by norm_num) le_rfl (by simp)
  rw [intervalIntegral.integral_const] at h
  simp only [smul_eq_mul, mul_one, zero_div] at h
  have := abs_nonpos_iff.1 h
  linarith

/-- It is wrong: for the function 1 the warning is given and the result is above 159. -/
theorem C114_warning_one : ∃ R, integrateAnalytic (fun _ => 1) = .ok (R, true) ∧ 159 < R := by
  rcases C114_total (fun _ => 1) with ⟨R, w, h⟩ | ⟨-, h⟩
  · obtain ⟨m, L, n, h1, h2, h3, h4, h5, h6, h7⟩ := C114_shape _ R w h
    simp only [abs_one] at h3 h4 h6 h7
    have h4 : n + 1 = 10000 * m := by
      rcases h4 with h4 | h4
      · norm_num at h4
      · exact h4
    have hw : w = true := by
      rcases w with _ | _
      · have := (h6 rfl).1; omega
      · rfl
    subst hw
    refine ⟨R, h, ?_⟩
    have h8 := (h7 rfl).1
    simp only [Prod.mk.injEq] at h8
    obtain ⟨hm, hL⟩ := h8
    rw [h3, near_one, hL, hm]
    have e : ∀ i : ℕ, (1 / 10 + (((i + 1 : ℕ) : ℝ) + 1) * ((160 - 1 / 10) / ((10000 * 8 : ℕ) : ℝ)) - (1 / 10 + ((i : ℝ) + 1) * ((160 - 1 / 10) / ((10000 * 8 : ℕ) : ℝ)))) *
        ((1 + 1) / 2) = 1599 / 800000 := by
      intro i; push_cast; ring
    simp only [e]
    rw [List.map_const', List.sum_replicate, List.length_range, nsmul_eq_mul]
    have hn : ((n - 1 : ℕ) : ℝ) = 79998 := by
      have : n - 1 = 79998 := by omega
      rw [this]; norm_num
    rw [hn]
    norm_num
  · rw [near_one] at h
    norm_num at h

theorem C114_warning_refuted : ¬ C114_warning_full := by
  intro h
  obtain ⟨R, h1, h2⟩ := C114_warning_one
  have := h _ R h1
  rw [this, near_one] at h2
  norm_num at h2

/-! ### A function that is integrated without a warning -/

/-- A triangle of height 1/4 around 1/2. -/
noncomputable def hat (t : ℝ) : ℝ := max 0 (1 / 4 - |t - 1 / 2|)

theorem hat_lip (x y : ℝ) : |hat x - hat y| ≤ 1 * |x - y| := by
  have h1 := abs_max_sub_max_le_abs (1 / 4 - |x - 1 / 2|) (1 / 4 - |y - 1 / 2|) 0
  have h2 := abs_abs_sub_abs_le_abs_sub (y - 1 / 2) (x - 1 / 2)
  unfold hat
  rw [max_comm 0, max_comm 0, one_mul]
  refine le_trans h1 ?_
  have e : 1 / 4 - |x - 1 / 2| - (1 / 4 - |y - 1 / 2|) = |y - 1 / 2| - |x - 1 / 2| := by ring
  rw [e]
  refine le_trans h2 ?_
  rw [abs_sub_comm x y]
  exact le_of_eq (by congr 1; ring)

theorem hat_zero {t : ℝ} (h : 3 / 4 ≤ t) : hat t = 0 := by
  unfold hat
  rw [abs_of_nonneg (by linarith)]
  exact max_eq_left (by linarith)

theorem hat_ok : ∃ R, integrateAnalytic hat = .ok (R, false) := by
  obtain ⟨n, hn, e, -, a, han, ha, hmin⟩ := estArr_ok hat 1 (10000 * 1) (by norm_num)
  have hN : ((10000 * 1 : ℕ) : ℝ) = 10000 := by norm_num
  rw [hN] at ha hmin
  have hpos : (1 / 5 : ℝ) ≤ hat (1 / 10 + (((4443 : ℕ) : ℝ) + 1) * ((1 - 1 / 10) / 10000)) := by
    unfold hat
    refine le_trans ?_ (le_max_right _ _)
    rw [abs_of_nonpos (by norm_num)]
    norm_num
  have hz : ∀ j : ℕ, 8999 ≤ j → hat (1 / 10 + ((j : ℝ) + 1) * ((1 - 1 / 10) / 10000)) = 0 := by
    intro j hj
    apply hat_zero
    have : (8999 : ℝ) ≤ j := by exact_mod_cast hj
    linarith
  have h1 := ha 4443 (by norm_num)
  have ha' : a < 8999 := by
    by_contra hc
    rw [hz a (by omega)] at h1
    linarith
  have hn' : n < 9000 := by
    by_contra hc
    have := hmin 8999 (by omega) (by omega)
    rw [hz 8999 le_rfl] at this
    norm_num at this
  have hsum : 1 / 10 ^ 5 < (((mainMesh 1 (10000 * 1)).map hat).map fun x => |x|).sum := by
    have hmem : |hat (1 / 10 + (((4443 : ℕ) : ℝ) + 1) * ((1 - 1 / 10) / 10000))| ∈ ((mainMesh 1 (10000 * 1)).map hat).map fun x => |x| := by
      have := mainMesh_getD 1 (10000 * 1) 4443 (by norm_num)
      rw [hN] at this
      rw [← this, List.getD_eq_getElem _ _ (by rw [mainMesh_length]; norm_num)]
      exact List.mem_map_of_mem (List.mem_map_of_mem (List.getElem_mem _))
    have := List.single_le_sum (l := ((mainMesh 1 (10000 * 1)).map hat).map fun x => |x|) (by
      intro x hx
      rw [List.mem_map] at hx
      obtain ⟨y, -, rfl⟩ := hx
      exact abs_nonneg y) _ hmem
    refine lt_of_lt_of_le ?_ this
    refine lt_of_lt_of_le ?_ (le_trans hpos (le_abs_self _))
    norm_num
  unfold integrateAnalytic
  simp only
  unfold convergentLoop
  rw [e]
  simp only [Except.bind]
  rw [if_pos ⟨by rw [mainMesh_length]; omega, hsum⟩]
  exact ⟨_, rfl⟩

example : ∃ R, integrateAnalytic hat = .ok (R, false) ∧ ∃ T, 1 / 10 ≤ T ∧ T ≤ 160 ∧
    |R - ∫ t in (1 / 10 ^ 15 : ℝ)..T, hat t| ≤ 1 * (T / 1000 + 1 / 6000) + |hat (1 / 10)| / 500 := by
  obtain ⟨R, h⟩ := hat_ok
  obtain ⟨T, h1, h2, h3, -⟩ := C114_error_partial hat R false h 1 zero_le_one (fun x y _ _ _ _ => hat_lip x y)
  exact ⟨R, h, T, h1, h2, h3⟩

/-! ### The admissibility constants -/

/-- `adm_ssq` is the integral of `psih(w) / w`. -/
theorem C114_adm_ssq (fn : ℝ → ℝ) (C : ℝ) (h : admSsq fn = .ok C) (K : ℝ) (hK0 : 0 ≤ K)
    (hK : ∀ x y, 1 / 10 ^ 15 ≤ x → x ≤ 160 → 1 / 10 ^ 15 ≤ y → y ≤ 160 → |fn x / x - fn y / y| ≤ K * |x - y|) :
    ∃ T, 1 / 10 ≤ T ∧ T ≤ 160 ∧ |C - ∫ w in (1 / 10 ^ 15 : ℝ)..T, fn w / w| ≤ K * (T / 1000 + 1 / 6000) + |fn (1 / 10)| / 50 := by
  unfold admSsq at h
  rcases hi : integrateAnalytic (fun w => fn w / w) with e | ⟨R, w⟩
  · rw [hi] at h; exact nomatch h
  rw [hi] at h
  injection h with h
  simp only at h
  subst h
  obtain ⟨T, h1, h2, h3, -⟩ := C114_error_partial _ R w hi K hK0 hK
  refine ⟨T, h1, h2, le_trans h3 (le_of_eq ?_)⟩
  rw [abs_div, abs_of_pos (by norm_num : (0 : ℝ) < 1 / 10)]
  ring

/-- `adm_cwt` is the integral of `psih(w)² / w`. -/
theorem C114_adm_cwt (fn : ℝ → ℝ) (C : ℝ) (h : admCwt fn = .ok C) (K : ℝ) (hK0 : 0 ≤ K)
    (hK : ∀ x y, 1 / 10 ^ 15 ≤ x → x ≤ 160 → 1 / 10 ^ 15 ≤ y → y ≤ 160 → |fn x * fn x / x - fn y * fn y / y| ≤ K * |x - y|) :
    ∃ T, 1 / 10 ≤ T ∧ T ≤ 160 ∧ |C - ∫ w in (1 / 10 ^ 15 : ℝ)..T, fn w ^ 2 / w| ≤ K * (T / 1000 + 1 / 6000) + fn (1 / 10) ^ 2 / 50 := by
  unfold admCwt at h
  rcases hi : integrateAnalytic (fun w => fn w * fn w / w) with e | ⟨R, w⟩
  · rw [hi] at h; exact nomatch h
  rw [hi] at h
  injection h with h
  simp only at h
  subst h
  obtain ⟨T, h1, h2, h3, -⟩ := C114_error_partial _ R w hi K hK0 hK
  simp only [pow_two]
  refine ⟨T, h1, h2, le_trans h3 (le_of_eq ?_)⟩
  rw [abs_div, abs_of_pos (by norm_num : (0 : ℝ) < 1 / 10), abs_of_nonneg (mul_self_nonneg _)]
  ring

example : ∃ C, admSsq (fun w => w * hat w) = .ok C := by
  have e : (fun w : ℝ => w * hat w / w) = hat := by
    funext w
    rcases eq_or_ne w 0 with rfl | h
    · have : hat 0 = 0 := by
        unfold hat; rw [abs_of_nonpos (by norm_num)]; exact max_eq_left (by norm_num)
      simp [this]
    · field_simp
  unfold admSsq
  rw [e]
  obtain ⟨R, h⟩ := hat_ok
  rw [h]
  exact ⟨R, rfl⟩

end Ssq
