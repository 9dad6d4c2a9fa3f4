import Verif.Model.Shift
import Mathlib.Data.List.GetD
import Mathlib.Tactic.Ring
import Mathlib.Tactic.Linarith
import Mathlib.Tactic.Push

/-! Lemmas on the write loops. -/
namespace Ssq

theorem copyLoop_gen {β : Type} (g : ℕ → ℕ) (f : ℕ → β) (idxs : List ℕ) (l : List β) (d : β) :
    (idxs.foldl (fun l i => l.set (g i) (f i)) l).length = l.length ∧
    (∀ p, p < l.length → (∀ i ∈ idxs, g i ≠ p) →
      (idxs.foldl (fun l i => l.set (g i) (f i)) l).getD p d = l.getD p d) ∧
    (∀ p, p < l.length → ∀ i ∈ idxs, g i = p → (∀ j ∈ idxs, g j = p → f j = f i) →
      (idxs.foldl (fun l i => l.set (g i) (f i)) l).getD p d = f i) := by
  induction idxs generalizing l with
  | nil => simp
  | cons a t ih =>
    obtain ⟨h1, h2, h3⟩ := ih (l.set (g a) (f a))
    refine ⟨by simpa using h1, ?_, ?_⟩
    · intro p hp hne
      simp only [List.foldl_cons]
      rw [h2 p (by simpa using hp) (fun i hi => hne i (List.mem_cons_of_mem _ hi))]
      rw [List.getD_eq_getElem _ _ (by simpa using hp), List.getD_eq_getElem _ _ hp,
        List.getElem_set_ne (hne a (by simp))]
    · intro p hp i hi hgi hsame
      simp only [List.foldl_cons]
      by_cases hex : ∃ j ∈ t, g j = p
      · obtain ⟨j, hj, hgj⟩ := hex
        rw [h3 p (by simpa using hp) j hj hgj, hsame j (List.mem_cons_of_mem _ hj) hgj]
        intro k hk hgk
        rw [hsame k (List.mem_cons_of_mem _ hk) hgk, hsame j (List.mem_cons_of_mem _ hj) hgj]
      · have hne : ∀ j ∈ t, g j ≠ p := fun j hj hg => hex ⟨j, hj, hg⟩
        rw [h2 p (by simpa using hp) hne]
        have hia : i = a := by
          rcases List.mem_cons.1 hi with h | h
          · exact h
          · exact absurd hgi (hne i h)
        subst hia
        subst hgi
        rw [List.getD_eq_getElem _ _ (by simpa using hp)]
        simp

theorem writeLoop_length {β : Type} (f : ℕ → β) (idxs : List ℕ) (l : List β) :
    (writeLoop f idxs l).length = l.length := by
  unfold writeLoop
  induction idxs generalizing l with
  | nil => rfl
  | cons a t ih => simp only [List.foldl_cons]; rw [ih]; simp

theorem writeLoop_getD {β : Type} (f : ℕ → β) (idxs : List ℕ) (l : List β) (d : β) (p : ℕ)
    (hp : p < l.length) :
    (writeLoop f idxs l).getD p d = if p ∈ idxs then f p else l.getD p d := by
  have h := copyLoop_gen (fun i => i) f idxs l d
  split
  · rename_i hm
    exact h.2.2 p hp p hm rfl (fun j _ hj => by rw [hj])
  · rename_i hm
    exact h.2.1 p hp (fun i hi e => hm (e ▸ hi))

@[simp] theorem xifn_length (s : ℝ) (N : ℕ) : (xifn s N).length = N := by
  simp [xifn, writeLoop_length]

theorem xifn_getD (s : ℝ) (N : ℕ) (i : ℕ) (hi : i < N) :
    (xifn s N).getD i 0 =
      ((if i ≤ N / 2 then (i : ℤ) else (i : ℤ) - N : ℤ) : ℝ) * (s * (2 * Real.pi) / N) := by
  unfold xifn
  rw [writeLoop_getD _ _ _ _ _ (by simpa [writeLoop_length] using hi)]
  by_cases h : i ≤ N / 2
  · rw [if_neg (by rw [List.mem_range'_1]; omega), writeLoop_getD _ _ _ _ _ (by simpa using hi),
      if_pos (by rw [List.mem_range]; omega), if_pos h]
    push_cast; rfl
  · rw [if_pos (by rw [List.mem_range'_1]; omega), if_neg h]

theorem afftshiftEven_length {α : Type} [Zero α] (x : List α) : (afftshiftEven x).length = x.length := by
  simp [afftshiftEven, writeLoop_length]

theorem afftshiftEven_getD {α : Type} [Zero α] (x : List α) (p : ℕ) (hp : p < x.length) :
    (afftshiftEven x).getD p 0 =
      if p ≤ x.length / 2 then x.getD (p + x.length / 2 - 1) 0
      else x.getD (p - x.length / 2 - 1) 0 := by
  unfold afftshiftEven
  simp only
  rw [writeLoop_getD _ _ _ _ _ (by simpa [writeLoop_length] using hp)]
  by_cases h : p ≤ x.length / 2
  · rw [if_neg (by rw [List.mem_range'_1]; omega), writeLoop_getD _ _ _ _ _ (by simpa using hp),
      if_pos (by rw [List.mem_range]; omega), if_pos h]
  · rw [if_pos (by rw [List.mem_range'_1]; omega), if_neg h]

theorem aifftshiftEven_length {α : Type} [Zero α] (x : List α) :
    (aifftshiftEven x).length = x.length := by
  unfold aifftshiftEven copyLoop
  simp only
  rw [(copyLoop_gen _ _ _ _ (0 : α)).1, (copyLoop_gen _ _ _ _ (0 : α)).1]; simp

theorem aifftshiftEven_getD {α : Type} [Zero α] (x : List α) (he : x.length % 2 = 0) (p : ℕ)
    (hp : p < x.length) :
    (aifftshiftEven x).getD p 0 =
      if p + 1 < x.length / 2 then x.getD (p + x.length / 2 + 1) 0
      else x.getD (p + 1 - x.length / 2) 0 := by
  unfold aifftshiftEven copyLoop
  simp only
  set N := x.length
  have hl : ((List.range (N / 2 + 1)).foldl (fun l i => l.set (i + N / 2 - 1) (x.getD i 0))
      (List.replicate N (0 : α))).length = N := by
    rw [(copyLoop_gen (fun i => i + N / 2 - 1) (fun i => x.getD i 0) _ _ (0 : α)).1]; simp
  have h2 := copyLoop_gen (fun i => i - N / 2 - 1) (fun i => x.getD i 0)
    (List.range' (N / 2 + 1) (N - (N / 2 + 1)))
    ((List.range (N / 2 + 1)).foldl (fun l i => l.set (i + N / 2 - 1) (x.getD i 0))
      (List.replicate N (0 : α))) (0 : α)
  have h1 := copyLoop_gen (fun i => i + N / 2 - 1) (fun i => x.getD i 0)
    (List.range (N / 2 + 1)) (List.replicate N (0 : α)) (0 : α)
  split
  · rename_i h
    apply h2.2.2 p (by rw [hl]; exact hp) (p + N / 2 + 1)
    · rw [List.mem_range'_1]; omega
    · omega
    · intro j hj hg
      rw [List.mem_range'_1] at hj
      have : j = p + N / 2 + 1 := by omega
      rw [this]
  · rename_i h
    rw [h2.2.1 p (by rw [hl]; exact hp)]
    · apply h1.2.2 p (by simpa using hp) (p + 1 - N / 2)
      · rw [List.mem_range]; omega
      · omega
      · intro j hj hg
        rw [List.mem_range] at hj
        have : j = p + 1 - N / 2 := by omega
        rw [this]
    · intro i hi
      rw [List.mem_range'_1] at hi
      omega

end Ssq
