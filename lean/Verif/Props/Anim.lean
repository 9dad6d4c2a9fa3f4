import Verif.Model.Anim
import Verif.Props.SsqFreqs
import Mathlib.Tactic.Linarith
import Mathlib.Tactic.FieldSimp
import Mathlib.Tactic.Ring
import Mathlib.Tactic.Positivity
import Mathlib.Algebra.Order.Floor.Ring

/-!
# C132: the animation's scales and frames; C133: the scale `wavelet_tf` picks
-/
namespace Ssq

/-! ## C132 -/

theorem linspace_pairwise (a b : ℝ) (n : ℕ) (h : a ≤ b) : (linspace a b n).Pairwise (· ≤ ·) := by
  rw [linspace, List.pairwise_map]
  refine List.Pairwise.imp ?_ List.pairwise_lt_range
  intro i j hij
  have hd : 0 ≤ (b - a) / ((n - 1 : ℕ) : ℝ) := div_nonneg (by linarith) (Nat.cast_nonneg _)
  have hij' : (i : ℝ) ≤ j := by exact_mod_cast hij.le
  have := mul_le_mul_of_nonneg_right hij' hd
  linarith

theorem linspace_mem (a b x : ℝ) (n : ℕ) (h : a ≤ b) (hn : 2 ≤ n) (hx : x ∈ linspace a b n) : a ≤ x ∧ x ≤ b := by
  obtain ⟨i, hi, rfl⟩ := List.mem_map.1 hx
  rw [List.mem_range] at hi
  have hn' : (0 : ℝ) < ((n - 1 : ℕ) : ℝ) := by exact_mod_cast (by omega : 0 < n - 1)
  have hd : 0 ≤ (b - a) / ((n - 1 : ℕ) : ℝ) := div_nonneg (by linarith) hn'.le
  have hi' : (i : ℝ) ≤ ((n - 1 : ℕ) : ℝ) := by exact_mod_cast (by omega : i ≤ n - 1)
  have h1 := mul_nonneg (Nat.cast_nonneg (α := ℝ) i) hd
  have h2 := mul_le_mul_of_nonneg_right hi' hd
  have h3 : ((n - 1 : ℕ) : ℝ) * ((b - a) / ((n - 1 : ℕ) : ℝ)) = b - a := by field_simp
  constructor <;> linarith

theorem linspace_first (a b : ℝ) (n : ℕ) (hn : 1 ≤ n) : (linspace a b n).getD 0 0 = a := by
  rw [List.getD_eq_getElem _ _ (by rw [linspace_length]; omega), linspace_getElem]
  simp

theorem linspace_last (a b : ℝ) (n : ℕ) (hn : 2 ≤ n) : (linspace a b n).getD (n - 1) 0 = b := by
  rw [List.getD_eq_getElem _ _ (by rw [linspace_length]; omega), linspace_getElem]
  have hn' : (0 : ℝ) < ((n - 1 : ℕ) : ℝ) := by exact_mod_cast (by omega : 0 < n - 1)
  field_simp
  ring

theorem animRep_bounds (na : ℕ) (h : 2 ≤ na) : 1 ≤ animRep na ∧ 2 * animRep na ≤ na := by
  unfold animRep
  omega

theorem getD_le_of_pairwise (l : List ℝ) (h : l.Pairwise (· ≤ ·)) (i j : ℕ) (hij : i ≤ j) (hj : j < l.length) :
    l.getD i 0 ≤ l.getD j 0 := by
  rw [List.getD_eq_getElem _ _ (by omega), List.getD_eq_getElem _ _ hj]
  rcases hij.eq_or_lt with rfl | hlt
  · exact le_rfl
  · exact List.pairwise_iff_getElem.1 h i j _ _ hlt

/-- The three parts of the result. -/
theorem makeAnimScales_eq (scales : List ℝ) (h : 2 ≤ scales.length) :
    makeAnimScales scales = .ok (List.replicate 8 (scales.getD 0 0) ++ linspace (scales.getD 0 0) (scales.getD (animRep scales.length) 0)
        (animRep scales.length * 4)
      ++ (scales.drop (animRep scales.length)).take (scales.length - animRep scales.length - animRep scales.length)
      ++ (linspace (scales.getD (scales.length - animRep scales.length) 0) (scales.getD (scales.length - 1) 0) (animRep scales.length * 3)
        ++ List.replicate 6 (scales.getD (scales.length - 1) 0))) := by
  obtain ⟨h1, h2⟩ := animRep_bounds _ h
  have e1 := linspace_first (scales.getD 0 0) (scales.getD (animRep scales.length) 0) (animRep scales.length * 4) (by omega)
  have e2 := linspace_last (scales.getD (scales.length - animRep scales.length) 0) (scales.getD (scales.length - 1) 0)
    (animRep scales.length * 3) (by omega)
  unfold makeAnimScales
  rw [if_neg (by omega), if_neg (by omega)]
  simp only [linspace_length, e1, e2, Nat.reduceMul]

/-- C132: the number of scales, and so of frames. -/
theorem C132_length (scales out : List ℝ) (h : makeAnimScales scales = .ok out) :
    out.length = scales.length + 5 * max (25 * scales.length / 253) 1 + 14 := by
  have hl : 2 ≤ scales.length := by
    by_contra hc
    have : scales.length = 0 ∨ scales.length = 1 := by omega
    rcases this with e | e <;> simp [makeAnimScales, e] at h
  obtain ⟨h1, h2⟩ := animRep_bounds _ hl
  rw [makeAnimScales_eq _ hl, Except.ok.injEq] at h
  rw [← h]
  simp only [List.length_append, List.length_replicate, linspace_length, List.length_take, List.length_drop]
  unfold animRep at *
  omega

/-- C132: for increasing scales, the animated ones never go back: they begin with the first scale and end with the last, and all lie
between these. -/
theorem C132_sorted (scales out : List ℝ) (hs : scales.Pairwise (· ≤ ·)) (h : makeAnimScales scales = .ok out) :
    out.Pairwise (· ≤ ·) ∧ out.head? = scales.head? ∧ out.getLast? = scales.getLast? ∧
      ∀ x ∈ out, scales.getD 0 0 ≤ x ∧ x ≤ scales.getD (scales.length - 1) 0 := by
  have hl : 2 ≤ scales.length := by
    by_contra hc
    have : scales.length = 0 ∨ scales.length = 1 := by omega
    rcases this with e | e <;> simp [makeAnimScales, e] at h
  obtain ⟨h1, h2⟩ := animRep_bounds _ hl
  rw [makeAnimScales_eq _ hl, Except.ok.injEq] at h
  set r := animRep scales.length with hr
  set n := scales.length with hn
  have mono := getD_le_of_pairwise scales hs
  have m0r := mono 0 r (by omega) (by omega)
  have mnr := mono (n - r) (n - 1) (by omega) (by omega)
  have hmid : ∀ x ∈ (scales.drop r).take (n - r - r), scales.getD r 0 ≤ x ∧ x ≤ scales.getD (n - r) 0 := by
    intro x hx
    obtain ⟨i, hi, rfl⟩ := List.getElem_of_mem hx
    rw [List.length_take, List.length_drop] at hi
    rw [List.getElem_take, List.getElem_drop]
    have e : scales[r + i]'(by omega) = scales.getD (r + i) 0 := (List.getD_eq_getElem _ _ (by omega)).symm
    rw [e]
    exact ⟨mono _ _ (by omega) (by omega), mono _ _ (by omega) (by omega)⟩
  have hleft : ∀ x ∈ List.replicate 8 (scales.getD 0 0) ++ linspace (scales.getD 0 0) (scales.getD r 0) (r * 4),
      scales.getD 0 0 ≤ x ∧ x ≤ scales.getD r 0 := by
    intro x hx
    rcases List.mem_append.1 hx with hx | hx
    · rw [List.eq_of_mem_replicate hx]
      exact ⟨le_rfl, m0r⟩
    · exact linspace_mem _ _ _ _ m0r (by omega) hx
  have hright : ∀ x ∈ linspace (scales.getD (n - r) 0) (scales.getD (n - 1) 0) (r * 3) ++ List.replicate 6 (scales.getD (n - 1) 0),
      scales.getD (n - r) 0 ≤ x ∧ x ≤ scales.getD (n - 1) 0 := by
    intro x hx
    rcases List.mem_append.1 hx with hx | hx
    · exact linspace_mem _ _ _ _ mnr (by omega) hx
    · rw [List.eq_of_mem_replicate hx]
      exact ⟨mnr, le_rfl⟩
  have hmm := mono r (n - r) (by omega) (by omega)
  have hall : ∀ x ∈ out, scales.getD 0 0 ≤ x ∧ x ≤ scales.getD (n - 1) 0 := by
    intro x hx
    rw [← h] at hx
    rcases List.mem_append.1 hx with hx | hx
    · rcases List.mem_append.1 hx with hx | hx
      · exact ⟨(hleft x hx).1, by linarith [(hleft x hx).2]⟩
      · exact ⟨by linarith [(hmid x hx).1], by linarith [(hmid x hx).2]⟩
    · exact ⟨by linarith [(hright x hx).1], (hright x hx).2⟩
  refine ⟨?_, ?_, ?_, hall⟩
  · rw [← h, List.pairwise_append, List.pairwise_append, List.pairwise_append, List.pairwise_append]
    refine ⟨⟨⟨?_, linspace_pairwise _ _ _ m0r, ?_⟩, ?_, ?_⟩, ⟨linspace_pairwise _ _ _ mnr, ?_, ?_⟩, ?_⟩
    · exact List.pairwise_replicate.2 (Or.inr le_rfl)
    · intro a ha b hb
      rw [List.eq_of_mem_replicate ha]
      exact (linspace_mem _ _ _ _ m0r (by omega) hb).1
    · exact List.Pairwise.sublist ((List.take_sublist _ _).trans (List.drop_sublist _ _)) hs
    · intro a ha b hb
      linarith [(hleft a ha).2, (hmid b hb).1]
    · exact List.pairwise_replicate.2 (Or.inr le_rfl)
    · intro a ha b hb
      rw [List.eq_of_mem_replicate hb]
      exact (linspace_mem _ _ _ _ mnr (by omega) ha).2
    · intro a ha b hb
      rcases List.mem_append.1 ha with ha | ha
      · linarith [(hleft a ha).2, (hright b hb).1]
      · linarith [(hmid a ha).2, (hright b hb).1]
  · cases hsc : scales with
    | nil => rw [hn, hsc] at hl; simp at hl
    | cons a as => rw [← h, hsc]; simp [List.replicate_succ]
  · rw [← h, List.getLast?_eq_getElem?, List.getLast?_eq_getElem?]
    have e : scales[scales.length - 1]? = some (scales.getD (n - 1) 0) := by
      rw [List.getElem?_eq_getElem (by omega), List.getD_eq_getElem _ _ (by omega)]
    rw [e, List.getElem?_append_right (by simp), List.getElem?_append_right (by simp; omega)]
    rw [List.getElem?_replicate, if_pos]
    simp only [List.length_append, List.length_replicate, linspace_length, List.length_take, List.length_drop]
    omega

/-- C132: the scales that are not near an end are all there, in their order. -/
theorem C132_middle (scales out : List ℝ) (h : makeAnimScales scales = .ok out) (i : ℕ)
    (h1 : max (25 * scales.length / 253) 1 ≤ i) (h2 : i + max (25 * scales.length / 253) 1 < scales.length) :
    out.getD (i + 3 * max (25 * scales.length / 253) 1 + 8) 0 = scales.getD i 0 := by
  have hl : 2 ≤ scales.length := by omega
  obtain ⟨b1, b2⟩ := animRep_bounds _ hl
  rw [makeAnimScales_eq _ hl, Except.ok.injEq] at h
  change animRep scales.length ≤ i at h1
  change i + animRep scales.length < scales.length at h2
  change out.getD (i + 3 * animRep scales.length + 8) 0 = _
  set r := animRep scales.length
  rw [← h, List.getD_eq_getElem?_getD, List.getD_eq_getElem?_getD, List.append_assoc,
    List.getElem?_append_right (by simp only [List.length_append, List.length_replicate, linspace_length]; omega),
    List.getElem?_append_left (by simp only [List.length_append, List.length_replicate, linspace_length, List.length_take, List.length_drop]; omega),
    List.getElem?_take_of_lt (by simp only [List.length_append, List.length_replicate, linspace_length]; omega), List.getElem?_drop]
  congr 2
  simp only [List.length_append, List.length_replicate, linspace_length]
  omega

/-- C132: there is an animation exactly when there are two scales. -/
theorem C132_fails (scales : List ℝ) : (∃ out, makeAnimScales scales = .ok out) ↔ 2 ≤ scales.length := by
  constructor
  · rintro ⟨out, h⟩
    by_contra hc
    have : scales.length = 0 ∨ scales.length = 1 := by omega
    rcases this with e | e <;> simp [makeAnimScales, e] at h
  · exact fun h => ⟨_, makeAnimScales_eq _ h⟩

/-- C132: the frames go from the first to the last and back to the first, one step at a time. -/
theorem C132_frames (n : ℕ) (hn : 1 ≤ n) :
    (animFrames n).length = 2 * n - 1 ∧ (animFrames n).head? = some 0 ∧ (animFrames n).getLast? = some 0 ∧
      (∀ k < 2 * n - 1, (animFrames n).getD k 0 = if k < n then k else 2 * (n - 1) - k) ∧
      ∀ f, f ∈ animFrames n ↔ f < n := by
  have hlen : (animFrames n).length = 2 * n - 1 := by simp [animFrames]; omega
  have hget : ∀ k < 2 * n - 1, (animFrames n).getD k 0 = if k < n then k else 2 * (n - 1) - k := by
    intro k hk
    rw [List.getD_eq_getElem _ _ (by omega)]
    unfold animFrames
    split
    · rename_i h
      rw [List.getElem_append_left (by simpa using h)]
      simp
    · rename_i h
      rw [List.getElem_append_right (by simpa using h)]
      simp
      omega
  refine ⟨hlen, ?_, ?_, hget, ?_⟩
  · have := hget 0 (by omega)
    rw [List.head?_eq_getElem?, List.getElem?_eq_getElem (by omega)]
    rw [List.getD_eq_getElem _ _ (by omega), if_pos (by omega)] at this
    rw [this]
  · have := hget (2 * n - 1 - 1) (by omega)
    rw [List.getLast?_eq_getElem?, List.getElem?_eq_getElem (by omega)]
    rw [List.getD_eq_getElem _ _ (by omega)] at this
    simp only [hlen, this]
    split <;> simp <;> omega
  · intro f
    simp only [animFrames, List.mem_append, List.mem_range, List.mem_reverse]
    omega

/-- Two scales, and what becomes of them. -/
example : ∃ out, makeAnimScales [1, 2] = .ok out ∧ out.length = 21 ∧ out.Pairwise (· ≤ ·) := by
  obtain ⟨out, h⟩ := (C132_fails [1, 2]).2 (by simp)
  exact ⟨out, h, by simpa using C132_length _ _ h, (C132_sorted _ _ (by simp) h).1⟩

/-! ## C133 -/

/-- A scale that may be picked: the wavelet's time resolution at it is between 65 and 75 samples for 2048, in proportion for other
lengths. -/
def Spec.LooksNice (T : ℝ → ℝ) (N : ℕ) (s : ℝ) : Prop := 65 * N / 2048 < T s ∧ T s < 75 * N / 2048

theorem pickLoop_sound (T : ℝ → ℝ) (lo hi : ℝ) (M : ℕ) (fuel i : ℕ) (s r : ℝ) (hi' : i ≤ M + 1) (h : pickLoop T lo hi M fuel i s = .ok r) :
    (lo < T r ∧ T r < hi) ∧ ∃ k : ℤ, |k| ≤ M + 1 - i ∧ r = s * 1.1 ^ k := by
  induction fuel generalizing i s with
  | zero => simp [pickLoop] at h
  | succ fuel ih =>
    rw [pickLoop] at h
    split at h
    · rename_i hT
      simp only [Except.ok.injEq] at h
      subst h
      exact ⟨hT, 0, by simp; omega, by simp⟩
    · split at h
      · simp at h
      · rename_i _ hi2
        obtain ⟨hT, k, hk1, hk2⟩ := ih (i + 1) _ (by omega) h
        refine ⟨hT, ?_⟩
        rw [hk2]
        push_cast at hk1
        split
        · refine ⟨k - 1, ?_, ?_⟩
          · rw [abs_le] at hk1 ⊢; omega
          · rw [zpow_sub_one₀ (by norm_num)]; ring
        · refine ⟨k + 1, ?_, ?_⟩
          · rw [abs_le] at hk1 ⊢; omega
          · rw [zpow_add_one₀ (by norm_num)]; ring

theorem pickLoop_total (T : ℝ → ℝ) (lo hi : ℝ) (M : ℕ) (fuel i : ℕ) (s : ℝ) (hf : M + 2 ≤ fuel + i) (hi' : i ≤ M + 1) (hfu : 1 ≤ fuel) :
    (∃ r, pickLoop T lo hi M fuel i s = .ok r) ∨ pickLoop T lo hi M fuel i s = .error .valueError := by
  induction fuel generalizing i s with
  | zero => omega
  | succ fuel ih =>
    rw [pickLoop]
    split
    · exact Or.inl ⟨_, rfl⟩
    · split
      · exact Or.inr rfl
      · exact ih (i + 1) _ (by omega) (by omega) (by omega)

/-- C133: `wavelet_tf` picks a scale or raises `ValueError`; it does not search forever. A scale it picks looks nice, and is at most
101 steps of ten percent away from the wavelet's own `scalec_ct`. -/
theorem C133_sound (T : ℝ → ℝ) (s0 : ℝ) (N : ℕ) :
    ((∃ s, pickScale T s0 N = .ok s) ∨ pickScale T s0 N = .error .valueError) ∧
    ∀ s, pickScale T s0 N = .ok s → Spec.LooksNice T N s ∧ ∃ k : ℤ, |k| ≤ 101 ∧ s = s0 * 1.1 ^ k := by
  refine ⟨pickLoop_total _ _ _ _ _ _ _ (by norm_num) (by norm_num) (by norm_num), ?_⟩
  intro s h
  obtain ⟨⟨h1, h2⟩, k, hk1, hk2⟩ := pickLoop_sound _ _ _ _ _ _ _ _ (by norm_num) h
  exact ⟨⟨by linarith, by linarith⟩, k, by push_cast at hk1; linarith, hk2⟩

theorem pick_down (c lo hi : ℝ) (hc : 0 < c) (hlo : 0 < lo) (hr : 1.1 * lo < hi) (M : ℕ) (n : ℕ) :
    ∀ (fuel i : ℕ) (s : ℝ), n < fuel → i + n ≤ M + 1 → lo < c * s → c * s < hi * 1.1 ^ n → (∀ j : ℕ, c * s ≠ hi * 1.1 ^ j) →
    ∃ r, pickLoop (fun x => c * x) lo hi M fuel i s = .ok r := by
  induction n with
  | zero =>
    intro fuel i s hf _ h1 h2 _
    obtain ⟨f, rfl⟩ : ∃ f, fuel = f + 1 := ⟨fuel - 1, by omega⟩
    exact ⟨s, by rw [pickLoop, if_pos ⟨h1, by simpa using h2⟩]⟩
  | succ n ih =>
    intro fuel i s hf hi' h1 h2 h3
    obtain ⟨f, rfl⟩ : ∃ f, fuel = f + 1 := ⟨fuel - 1, by omega⟩
    by_cases hlt : c * s < hi
    · exact ⟨s, by rw [pickLoop, if_pos ⟨h1, hlt⟩]⟩
    · have hgt : hi < c * s := lt_of_le_of_ne (not_lt.1 hlt) fun e => h3 0 (by simpa using e.symm)
      rw [pickLoop, if_neg fun h => hlt h.2, if_neg (by omega), if_pos hgt]
      refine ih f (i + 1) _ (by omega) (by omega) ?_ ?_ ?_
      · have : c * (s / 1.1) = c * s / 1.1 := by ring
        rw [this, lt_div_iff₀ (by norm_num)]
        linarith
      · have : c * (s / 1.1) = c * s / 1.1 := by ring
        rw [this, div_lt_iff₀ (by norm_num)]
        rw [pow_succ] at h2
        linarith
      · intro j hj
        apply h3 (j + 1)
        have : c * (s / 1.1) = c * s / 1.1 := by ring
        rw [this, div_eq_iff (by norm_num)] at hj
        rw [hj, pow_succ]
        ring

theorem pick_up (c lo hi : ℝ) (hc : 0 < c) (hlo : 0 < lo) (hr : 1.1 * lo < hi) (M : ℕ) (n : ℕ) :
    ∀ (fuel i : ℕ) (s : ℝ), n < fuel → i + n ≤ M + 1 → lo < c * s * 1.1 ^ n → c * s < hi →
    ∃ r, pickLoop (fun x => c * x) lo hi M fuel i s = .ok r := by
  induction n with
  | zero =>
    intro fuel i s hf _ h1 h2
    obtain ⟨f, rfl⟩ : ∃ f, fuel = f + 1 := ⟨fuel - 1, by omega⟩
    exact ⟨s, by rw [pickLoop, if_pos ⟨by simpa using h1, h2⟩]⟩
  | succ n ih =>
    intro fuel i s hf hi' h1 h2
    obtain ⟨f, rfl⟩ : ∃ f, fuel = f + 1 := ⟨fuel - 1, by omega⟩
    by_cases hlt : lo < c * s
    · exact ⟨s, by rw [pickLoop, if_pos ⟨hlt, h2⟩]⟩
    · rw [pickLoop, if_neg fun h => hlt h.1, if_neg (by omega), if_neg (not_lt.2 h2.le)]
      refine ih f (i + 1) _ (by omega) (by omega) ?_ ?_
      · rw [pow_succ] at h1
        calc lo < c * s * (1.1 ^ n * 1.1) := h1
          _ = c * (s * 1.1) * 1.1 ^ n := by ring
      · have : c * (s * 1.1) = 1.1 * (c * s) := by ring
        rw [this]
        linarith [not_lt.1 hlt]

/-- The claim: if the time resolution grows in proportion to the scale, and the initial scale is within 100 steps of the nice ones, a
scale is found. -/
def C133_full : Prop :=
  ∀ (c s0 : ℝ) (N : ℕ), 0 < c → 0 < s0 → 1 ≤ N → 65 * N / 2048 / 1.1 ^ 100 < c * s0 → c * s0 < 75 * N / 2048 * 1.1 ^ 100 →
    ∃ s, pickScale (fun x => c * x) s0 N = .ok s

/-- C133: the part that holds: a scale is found unless the time resolution at the initial scale is the upper bound times a power of 1.1. -/
theorem C133_partial (c s0 : ℝ) (N : ℕ) (hc : 0 < c) (hs : 0 < s0) (hN : 1 ≤ N) (h1 : 65 * N / 2048 / 1.1 ^ 100 < c * s0)
    (h2 : c * s0 < 75 * N / 2048 * 1.1 ^ 100) (h3 : ∀ k : ℕ, c * s0 ≠ 75 * N / 2048 * 1.1 ^ k) :
    ∃ s, pickScale (fun x => c * x) s0 N = .ok s := by
  have hN' : (1 : ℝ) ≤ N := by exact_mod_cast hN
  have e1 : (65 : ℝ) * (N / 2048) = 65 * N / 2048 := by ring
  have e2 : (75 : ℝ) * (N / 2048) = 75 * N / 2048 := by ring
  unfold pickScale
  rw [e1, e2]
  by_cases hlo : 65 * (N : ℝ) / 2048 < c * s0
  · exact pick_down c _ _ hc (by positivity) (by linarith) 100 100 103 0 s0 (by norm_num) (by norm_num) hlo h2 h3
  · refine pick_up c _ _ hc (by positivity) (by linarith) 100 100 103 0 s0 (by norm_num) (by norm_num) ?_ ?_
    · rwa [div_lt_iff₀ (by positivity)] at h1
    · linarith [not_lt.1 hlo]

theorem pick_stuck (c lo hi : ℝ) (hc : 0 < c) (hhi : 0 < hi) (M : ℕ) (fuel : ℕ) : ∀ (i : ℕ) (s : ℝ),
    (c * s = hi ∨ c * s = 1.1 * hi) → ∀ r, pickLoop (fun x => c * x) lo hi M fuel i s ≠ .ok r := by
  induction fuel with
  | zero => intro i s _ r; simp [pickLoop]
  | succ f ih =>
    intro i s h r
    rw [pickLoop, if_neg (by rintro ⟨-, h2⟩; rcases h with h | h <;> linarith)]
    split
    · simp
    · rcases h with h | h
      · rw [if_neg (by linarith)]
        exact ih _ _ (Or.inr (by rw [← h]; ring)) r
      · rw [if_pos (by linarith)]
        exact ih _ _ (Or.inl (by rw [show c * (s / 1.1) = c * s / 1.1 by ring, h]; ring)) r

theorem pick_stuck_pow (c lo hi : ℝ) (hc : 0 < c) (hhi : 0 < hi) (M : ℕ) (k : ℕ) : ∀ (fuel i : ℕ) (s : ℝ),
    c * s = hi * 1.1 ^ k → ∀ r, pickLoop (fun x => c * x) lo hi M fuel i s ≠ .ok r := by
  induction k with
  | zero => exact fun fuel i s h r => pick_stuck c lo hi hc hhi M fuel i s (Or.inl (by simpa using h)) r
  | succ k ih =>
    intro fuel i s h r
    cases fuel with
    | zero => simp [pickLoop]
    | succ f =>
      have h1 : (1 : ℝ) ≤ 1.1 ^ k := one_le_pow₀ (by norm_num)
      have hgt : hi < c * s := by rw [h, pow_succ]; nlinarith
      rw [pickLoop, if_neg fun hh => by linarith [hh.2], if_pos hgt]
      split
      · simp
      · refine ih f _ _ ?_ r
        rw [show c * (s / 1.1) = c * s / 1.1 by ring, h, pow_succ]
        ring

/-- C133: and no scale is found if it is: the search goes to and fro between the bound and 1.1 times the bound, until it is given up. -/
theorem C133_stuck (c s0 : ℝ) (N : ℕ) (hc : 0 < c) (hN : 1 ≤ N) (k : ℕ) (h : c * s0 = 75 * N / 2048 * 1.1 ^ k) :
    pickScale (fun x => c * x) s0 N = .error .valueError := by
  have hN' : (1 : ℝ) ≤ N := by exact_mod_cast hN
  rcases (C133_sound (fun x => c * x) s0 N).1 with ⟨s, hs⟩ | he
  · exact absurd hs (pick_stuck_pow c _ _ hc (by positivity) 100 k 103 0 s0 (by rw [h]; ring) s)
  · exact he

/-- C133 is false of the code in exact arithmetic. -/
theorem C133_refuted : ¬ C133_full := by
  intro h
  obtain ⟨s, hs⟩ := h 75 1 2048 (by norm_num) (by norm_num) (by norm_num)
    (by rw [div_lt_iff₀ (by positivity)]; have : (1 : ℝ) ≤ 1.1 ^ 100 := one_le_pow₀ (by norm_num); push_cast; linarith)
    (by have : (1 : ℝ) < 1.1 ^ 100 := one_lt_pow₀ (by norm_num) (by norm_num); push_cast; linarith)
  rw [C133_stuck 75 1 2048 (by norm_num) (by norm_num) 0 (by norm_num)] at hs
  simp at hs

/-- A case of `C133_partial` which needs steps: the initial time resolution is 100. -/
example : ∃ s, pickScale (fun x => 10 * x) 10 2048 = .ok s := by
  refine C133_partial 10 10 2048 (by norm_num) (by norm_num) (by norm_num) ?_ ?_ ?_
  · rw [div_lt_iff₀ (by positivity)]; have : (1 : ℝ) ≤ 1.1 ^ 100 := one_le_pow₀ (by norm_num); push_cast; linarith
  · have : (1.1 : ℝ) ^ 4 ≤ 1.1 ^ 100 := pow_le_pow_right₀ (by norm_num) (by norm_num)
    push_cast
    norm_num at this ⊢
  · intro k hk
    rcases lt_or_ge k 4 with h | h
    · have : (1.1 : ℝ) ^ k ≤ 1.1 ^ 3 := pow_le_pow_right₀ (by norm_num) (by omega)
      push_cast at hk; norm_num at this hk; linarith
    · have : (1.1 : ℝ) ^ 4 ≤ 1.1 ^ k := pow_le_pow_right₀ (by norm_num) h
      push_cast at hk; norm_num at this hk; linarith

end Ssq
