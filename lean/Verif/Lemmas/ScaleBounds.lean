import Verif.Model.ScaleBounds
import Verif.Props.Search
import Verif.Props.Scales
import Verif.Lemmas.Xifn

/-! Auxiliary facts about the searches with their default steps. -/
namespace Ssq
open Spec

theorem inc_default : searchIncrement 10000 (1 / 1000) = 10 := by
  unfold searchIncrement pyInt
  norm_num

theorem gridPt_default (a : ℝ) (t : ℕ) : gridPt a (1 / 1000) 10000 t = a + t / 1000 := by
  unfold gridPt
  rw [inc_default]
  push_cast
  ring

theorem andThen_ok {α β : Type} {a : Option (Py α)} {f : α → Option (Py β)} {b : β} (h : andThen a f = some (.ok b)) :
    ∃ x, a = some (.ok x) ∧ f x = some (.ok b) := by
  unfold andThen at h
  split at h
  · simp at h
  · simp at h
  · exact ⟨_, rfl, h⟩

@[simp] theorem andThen_some {α β : Type} (x : α) (f : α → Option (Py β)) : andThen (some (.ok x)) f = f x := rfl

theorem andThen_isSome {α β : Type} {a : Option (Py α)} {f : α → Option (Py β)} (h : a.isSome) (hf : ∀ x, a = some (.ok x) → (f x).isSome) :
    (andThen a f).isSome := by
  unfold andThen
  split
  · simp at h
  · rfl
  · exact hf _ rfl

theorem searchInputs_mem (a : ℝ) (B : ℕ) (x : ℝ) (h : x ∈ searchInputs a 10 10000 B) :
    ∃ t, B * 10000 ≤ t ∧ t < (B + 1) * 10000 ∧ x = a + (t : ℕ) / 1000 := by
  unfold searchInputs at h
  obtain ⟨k, hk, rfl⟩ := List.mem_map.1 h
  rw [List.mem_range] at hk
  refine ⟨B * 10000 + k, by omega, by omega, ?_⟩
  push_cast
  ring

theorem mem_searchInputs (a : ℝ) (B k : ℕ) (hk : k < 10000) : a + ((B * 10000 + k : ℕ) : ℝ) / 1000 ∈ searchInputs a 10 10000 B := by
  unfold searchInputs
  refine List.mem_map.2 ⟨k, by simpa using hk, ?_⟩
  push_cast
  ring

/-- The peak search ends in its second block if the first one has a value above all values of the second. -/
theorem findPeak_ok (fn : ℝ → ℝ) (t0 : ℕ) (ht0 : t0 < 10000) (h1 : ∀ t < 10000, |fn ((t : ℕ) / 1000)| ≤ |fn (t0 / 1000)|)
    (h2 : ∀ t, 10000 ≤ t → t < 20000 → |fn ((t : ℕ) / 1000)| < |fn (t0 / 1000)|) (k : ℕ) :
    ∃ v, findPeak fn (k + 2) = some (.ok (v, |fn (t0 / 1000)|)) := by
  set P := |fn (t0 / 1000)| with hP
  have hP0 : 0 ≤ P := abs_nonneg _
  have r0 : rowMax ((searchInputs 0 10 10000 0).map fun x => |fn x|) = P := by
    apply rowMax_eq
    · refine List.mem_map.2 ⟨_, mem_searchInputs 0 0 t0 ht0, ?_⟩
      simp [hP]
    · intro y hy
      obtain ⟨x, hx, rfl⟩ := List.mem_map.1 hy
      obtain ⟨t, -, ht, rfl⟩ := searchInputs_mem 0 0 x hx
      simpa using h1 t (by omega)
  have r1 : rowMax ((searchInputs 0 10 10000 1).map fun x => |fn x|) < P := by
    have hne : ((searchInputs 0 10 10000 1).map fun x => |fn x|) ≠ [] := by
      intro e
      have := mem_searchInputs 0 1 0 (by norm_num)
      rw [List.map_eq_nil_iff.1 e] at this
      exact absurd this (by simp)
    obtain ⟨x, hx, e⟩ := List.mem_map.1 (rowMax_mem _ hne)
    rw [← e]
    obtain ⟨t, ht1, ht2, rfl⟩ := searchInputs_mem 0 1 x hx
    simpa using h2 t (by omega) (by omega)
  have rx : rowMax (searchInputs 0 10 10000 0) ≤ 1000 := by
    have hne : searchInputs 0 10 10000 0 ≠ [] := List.ne_nil_of_mem (mem_searchInputs 0 0 0 (by norm_num))
    obtain ⟨t, -, ht, e⟩ := searchInputs_mem 0 0 _ (rowMax_mem _ hne)
    rw [e]
    have : (t : ℝ) ≤ 10000 := by exact_mod_cast (by omega : t ≤ 10000)
    linarith
  refine ⟨(searchInputs 0 10 10000 0).getD (argmaxL ((searchInputs 0 10 10000 0).map fun x => |fn x|)) 0, ?_⟩
  · unfold findPeak findMaximum
    rw [if_neg (by norm_num), inc_default]
    unfold findMaxLoop findMaxStep
    simp only [r0]
    rw [if_neg (by linarith : ¬ P < -1), if_neg (not_lt.2 rx), if_pos (by linarith : (-1 : ℝ) < P)]
    simp only
    unfold findMaxLoop findMaxStep
    simp only [zero_add]
    rw [if_pos r1]

theorem maxStepDiff_nonneg (out : List ℝ) : 0 ≤ maxStepDiff out := by
  unfold maxStepDiff
  by_cases h : out.zipWith (fun a b => |b - a|) out.tail = []
  · rw [h]; simp [rowMax]
  · obtain ⟨i, hi, e⟩ := List.mem_iff_getElem.1 (rowMax_mem _ h)
    rw [← e, List.getElem_zipWith]
    exact abs_nonneg _

/-- The value search ends in its first block if the value is attained there. -/
theorem findValue_ok (fn : ℝ → ℝ) (value a lim : ℝ) (t0 : ℕ) (ht0 : t0 < 10000) (hv : |fn (min (a + t0 / 1000) lim)| = value) (k : ℕ) :
    ∃ v, findValue fn value a lim (k + 1) = some (.ok (v, value)) := by
  have key : ∃ r, findValue fn value a lim (k + 1) = some (.ok r) := by
    unfold findValue findFirstOccurrence
    rw [if_neg (by norm_num), inc_default]
    unfold findOccLoop findOccStep
    simp only
    rw [if_pos]
    · exact ⟨_, rfl⟩
    · refine ⟨0, ?_, maxStepDiff_nonneg _⟩
      rw [List.map_map]
      by_cases he : lim < rowMax (searchInputs a 10 10000 0)
      · rw [if_pos (by simpa using he), List.map_map]
        refine List.mem_map.2 ⟨_, mem_searchInputs a 0 t0 ht0, ?_⟩
        simp [hv]
      · rw [if_neg (by simpa using he)]
        have hm := mem_searchInputs a 0 t0 ht0
        refine List.mem_map.2 ⟨_, hm, ?_⟩
        have := le_rowMax _ _ hm
        rw [min_eq_left (by simp at this he; linarith)] at hv
        simp [hv]
  obtain ⟨⟨v, o⟩, hr⟩ := key
  refine ⟨v, ?_⟩
  rw [hr]
  unfold findValue at hr
  have hr' := hr
  unfold findFirstOccurrence at hr'
  obtain ⟨C, k', hk, h1, h2, h3, h4, h5, -⟩ := C64_occ_result _ _ _ _ _ _ _ _ _ hr
  have hC : C = 0 := by
    by_contra hC
    refine h3 t0 ?_ ?_
    · have : 1 * 10000 ≤ C * 10000 := Nat.mul_le_mul_right _ (by omega)
      omega
    · rw [gridPt_default]; exact hv
  subst hC
  have := h4 t0 ht0
  rw [gridPt_default, Nat.zero_mul, Nat.zero_add, hv, sub_self, abs_zero] at this
  have : o = value := by
    have := abs_nonpos_iff.1 this
    linarith
  rw [this]

/-- In a search whose interval fits into one block, the result is the first best grid point. -/
theorem findValue_block (fn : ℝ → ℝ) (value a lim : ℝ) (hlim : lim ≤ a + 9999 / 1000) (fuel : ℕ) (v o : ℝ)
    (h : findValue fn value a lim fuel = some (.ok (v, o))) :
    ∃ k < 10000, v = min (a + (k : ℕ) / 1000) lim ∧ o = |fn v| ∧
      (∀ i < 10000, |o - value| ≤ abs (|fn (min (a + (i : ℕ) / 1000) lim)| - value)) ∧
      (∀ i < k, |o - value| < abs (|fn (min (a + (i : ℕ) / 1000) lim)| - value)) := by
  obtain ⟨C, k, hk, h1, h2, h3, h4, h5, i, hi, h6⟩ := C64_occ_result _ _ _ _ _ _ _ _ _ h
  simp only [gridPt_default] at *
  have hC : C = 0 := by
    by_contra hC
    have hC1 : (1 : ℝ) ≤ C := by exact_mod_cast Nat.one_le_iff_ne_zero.2 hC
    have hbig : ∀ j : ℕ, min (a + ((C * 10000 + j : ℕ) : ℝ) / 1000) lim = lim := by
      intro j
      apply min_eq_right
      push_cast
      have : (0 : ℝ) ≤ j := Nat.cast_nonneg j
      linarith
    rw [add_assoc, hbig (i + 1), hbig i, sub_self, abs_zero] at h6
    have ho : o = value := by have := abs_nonpos_iff.1 h6; linarith
    refine h3 9999 (by have : 1 ≤ C := Nat.one_le_iff_ne_zero.2 hC; omega) ?_
    rw [min_eq_right (by push_cast; linarith), ← ho, h2, h1, hbig k]
  subst hC
  simp only [Nat.zero_mul, Nat.zero_add] at *
  exact ⟨k, hk, h1, h2, h4, h5⟩

/-! ### More fuel does not change a finished search -/

theorem findMaxLoop_mono (fn : ℝ → ℝ) (a : ℝ) (inc : ℤ) (n : ℕ) (lim : ℝ) (j : ℕ) : ∀ (fuel : ℕ) (st : ℕ × ℝ × Option ℝ) (r : Py (ℝ × ℝ)),
    findMaxLoop fn a inc n lim fuel st = some r → findMaxLoop fn a inc n lim (fuel + j) st = some r := by
  intro fuel
  induction fuel with
  | zero => intro st r h; simp [findMaxLoop] at h
  | succ fuel ih =>
    intro st r h
    rw [Nat.add_right_comm]
    unfold findMaxLoop at h ⊢
    split
    · rename_i st' e
      rw [e] at h
      exact ih st' r h
    · rename_i r' e
      rw [e] at h
      exact h

theorem findOccLoop_mono (fn : ℝ → ℝ) (value a : ℝ) (inc : ℤ) (n : ℕ) (lim : ℝ) (j : ℕ) : ∀ (fuel idx : ℕ) (r : Py (ℝ × ℝ)),
    findOccLoop fn value a inc n lim fuel idx = some r → findOccLoop fn value a inc n lim (fuel + j) idx = some r := by
  intro fuel
  induction fuel with
  | zero => intro st r h; simp [findOccLoop] at h
  | succ fuel ih =>
    intro st r h
    rw [Nat.add_right_comm]
    unfold findOccLoop at h ⊢
    split
    · rename_i st' e
      rw [e] at h
      exact ih st' r h
    · rename_i r' e
      rw [e] at h
      exact h

theorem findPeak_mono (fn : ℝ → ℝ) (j fuel : ℕ) (r : Py (ℝ × ℝ)) (h : findPeak fn fuel = some r) : findPeak fn (fuel + j) = some r := by
  unfold findPeak findMaximum at *
  rw [if_neg (by norm_num)] at *
  exact findMaxLoop_mono _ _ _ _ _ j _ _ _ h

theorem findValue_mono (fn : ℝ → ℝ) (value a lim : ℝ) (j fuel : ℕ) (r : Py (ℝ × ℝ)) (h : findValue fn value a lim fuel = some r) :
    findValue fn value a lim (fuel + j) = some r := by
  unfold findValue findFirstOccurrence at *
  rw [if_neg (by norm_num)] at *
  exact findOccLoop_mono _ _ _ _ _ _ j _ _ _ h

theorem findPeak_ends (fn : ℝ → ℝ) : ∃ fuel r, findPeak fn fuel = some r :=
  (C64_terminates_partial fn 0 (1 / 1000) 10000 0 1000 (-1) (by rw [inc_default]; norm_num)).1

theorem findValue_ends (fn : ℝ → ℝ) (value a lim : ℝ) : ∃ fuel r, findValue fn value a lim fuel = some r :=
  (C64_terminates_partial fn value (1 / 1000) 10000 a lim (-1) (by rw [inc_default]; norm_num)).2

theorem peak_nonneg (fn : ℝ → ℝ) (fuel : ℕ) (wp pk : ℝ) (h : findPeak fn fuel = some (.ok (wp, pk))) : 0 ≤ wp ∧ pk = |fn wp| := by
  obtain ⟨C, t0, -, h1, h2, -⟩ := C64_max_result _ _ _ _ _ _ _ _ _ h
  rw [gridPt_default] at h1
  exact ⟨by rw [h1]; positivity, h2⟩

theorem whereIdx_mem (l : List ℝ) (p : ℝ → Prop) (i : ℕ) : i ∈ whereIdx l p ↔ i < l.length ∧ p (l.getD i 0) := by
  unfold whereIdx
  simp

theorem whereIdx_sorted (l : List ℝ) (p : ℝ → Prop) : (whereIdx l p).Pairwise (· < ·) := by
  unfold whereIdx
  exact List.Pairwise.filter _ List.pairwise_lt_range

theorem whereIdx_head (l : List ℝ) (p : ℝ → Prop) (i : ℕ) (h : (whereIdx l p).head? = some i) :
    i < l.length ∧ p (l.getD i 0) ∧ ∀ j < i, ¬ p (l.getD j 0) := by
  have hm : i ∈ whereIdx l p := List.mem_of_mem_head? h
  obtain ⟨h1, h2⟩ := (whereIdx_mem l p i).1 hm
  refine ⟨h1, h2, ?_⟩
  intro j hj hp
  have hjm : j ∈ whereIdx l p := (whereIdx_mem l p j).2 ⟨by omega, hp⟩
  have hs := whereIdx_sorted l p
  rcases hw : whereIdx l p with _ | ⟨a, t⟩
  · rw [hw] at h; simp at h
  · rw [hw] at h hjm hs
    simp only [List.head?_cons, Option.some.injEq] at h
    subst h
    rw [List.pairwise_cons] at hs
    rcases List.mem_cons.1 hjm with e | e
    · omega
    · have := hs.1 j e; omega

theorem whereIdx_last (l : List ℝ) (p : ℝ → Prop) (i : ℕ) (h : (whereIdx l p).getLast? = some i) :
    i < l.length ∧ p (l.getD i 0) ∧ ∀ j, i < j → j < l.length → ¬ p (l.getD j 0) := by
  have hm : i ∈ whereIdx l p := List.mem_of_getLast? h
  obtain ⟨h1, h2⟩ := (whereIdx_mem l p i).1 hm
  refine ⟨h1, h2, ?_⟩
  intro j hj hjl hp
  have hjm : j ∈ whereIdx l p := (whereIdx_mem l p j).2 ⟨hjl, hp⟩
  have hs := whereIdx_sorted l p
  obtain ⟨t, ht⟩ := List.getLast?_eq_some_iff.1 h
  rw [ht] at hs hjm
  rw [List.pairwise_append] at hs
  rcases List.mem_append.1 hjm with e | e
  · have := hs.2.2 j e i (by simp); omega
  · simp at e; omega

theorem whereIdx_none (l : List ℝ) (p : ℝ → Prop) (h : (whereIdx l p).getLast? = none) : ∀ j < l.length, ¬ p (l.getD j 0) := by
  intro j hj hp
  have hm := (whereIdx_mem l p j).2 ⟨hj, hp⟩
  rw [List.getLast?_eq_none_iff.1 h] at hm
  simp at hm

end Ssq
