import Verif.Model.Stft
import Verif.Lemmas.Slice
import Mathlib.Data.List.GetD

/-! Framing: every write is determined by its target cell, and every cell is written. -/
namespace Ssq
variable {α : Type}

/-- The entry in row `r`, column `c`. -/
def cell (out : List (List α)) (r c : ℕ) : Option α := out[c]?.bind (·[r]?)

def HasShape (seg n : ℕ) (out : List (List α)) : Prop :=
  out.length = n ∧ ∀ c (h : c < out.length), out[c].length = seg

theorem hasShape_applyWrite {seg n : ℕ} {out : List (List α)} (h : HasShape seg n out)
    (w : Write α) : HasShape seg n (applyWrite out w) := by
  obtain ⟨h1, h2⟩ := h
  refine ⟨by simp [applyWrite, h1], ?_⟩
  intro c hc
  simp only [applyWrite, List.getElem_modify]
  simp only [applyWrite, List.length_modify] at hc
  split
  · simp [h2 c hc]
  · exact h2 c hc

theorem hasShape_foldl {seg n : ℕ} (ws : List (Write α)) {out : List (List α)}
    (h : HasShape seg n out) : HasShape seg n (ws.foldl applyWrite out) := by
  induction ws generalizing out with
  | nil => exact h
  | cons w ws ih => exact ih (hasShape_applyWrite h w)

theorem cell_applyWrite {seg n : ℕ} {out : List (List α)} (h : HasShape seg n out)
    (w : Write α) {r c : ℕ} (hr : r < seg) (hc : c < n) :
    cell (applyWrite out w) r c = if w.1 = r ∧ w.2.1 = c then some w.2.2 else cell out r c := by
  obtain ⟨h1, h2⟩ := h
  have hc' : c < out.length := by omega
  have hr' : r < out[c].length := by rw [h2 c hc']; exact hr
  unfold cell applyWrite
  rw [List.getElem?_modify, List.getElem?_eq_getElem hc']
  by_cases e : w.2.1 = c
  · simp only [e, if_true, Option.map_eq_map, Option.map_some, Option.bind_some, and_true]
    rw [List.getElem?_set]
    split <;> simp_all
  · simp [e]

theorem cell_foldl {seg n : ℕ} (f : ℕ → ℕ → α) (ws : List (Write α))
    (hcons : ∀ w ∈ ws, w.2.2 = f w.1 w.2.1) {out : List (List α)} (h : HasShape seg n out)
    {r c : ℕ} (hr : r < seg) (hc : c < n)
    (hw : (∃ w ∈ ws, w.1 = r ∧ w.2.1 = c) ∨ cell out r c = some (f r c)) :
    cell (ws.foldl applyWrite out) r c = some (f r c) := by
  induction ws generalizing out with
  | nil => simpa using hw
  | cons w ws ih =>
    rw [List.foldl_cons]
    refine ih (fun w hw => hcons w (by simp [hw])) (hasShape_applyWrite h w) ?_
    rw [cell_applyWrite h w hr hc]
    by_cases e : w.1 = r ∧ w.2.1 = c
    · right
      rw [if_pos e, hcons w (by simp), e.1, e.2]
    · rw [if_neg e]
      rcases hw with ⟨w', hm, hk⟩ | h'
      · rcases List.mem_cons.1 hm with rfl | hm
        · exact absurd hk e
        · exact Or.inl ⟨w', hm, hk⟩
      · exact Or.inr h'

theorem eq_of_cells {seg n : ℕ} (f : ℕ → ℕ → α) {out : List (List α)} (h : HasShape seg n out)
    (hc : ∀ r c, r < seg → c < n → cell out r c = some (f r c)) :
    out = (List.range n).map fun c => (List.range seg).map fun r => f r c := by
  obtain ⟨h1, h2⟩ := h
  apply List.ext_getElem (by simp [h1])
  intro c hc1 hc2
  apply List.ext_getElem (by simp [h2 c hc1])
  intro r hr1 hr2
  have := hc r c (by rw [h2 c hc1] at hr1; exact hr1) (by omega)
  unfold cell at this
  rw [List.getElem?_eq_getElem hc1, Option.bind_some, List.getElem?_eq_getElem hr1] at this
  simpa using this

/-- Any order of writes that covers all cells and whose values are determined by their target. -/
theorem foldl_writes [Zero α] {seg n : ℕ} (f : ℕ → ℕ → α) (ws : List (Write α))
    (hcons : ∀ w ∈ ws, w.2.2 = f w.1 w.2.1)
    (hall : ∀ r c, r < seg → c < n → ∃ w ∈ ws, w.1 = r ∧ w.2.1 = c) :
    ws.foldl applyWrite (bufferZeros seg n)
      = (List.range n).map fun c => (List.range seg).map fun r => f r c := by
  have hz : HasShape seg n (bufferZeros (α := α) seg n) := by
    refine ⟨by simp [bufferZeros], ?_⟩
    intro c hc; simp [bufferZeros]
  exact eq_of_cells f (hasShape_foldl ws hz) fun r c hr hc =>
    cell_foldl f ws hcons hz hr hc (Or.inl (hall r c hr hc))

/-- Source index of row `r` of frame `i`. -/
def srcIdx (segLen h : ℕ) (modulated : Bool) (r i : ℕ) : ℕ :=
  i * h + if modulated then (r + segLen / 2) % segLen else r

theorem s21_eq (seg : ℕ) : bufferS21 seg = seg / 2 := by
  unfold bufferS21 bufferS20; split <;> omega

theorem sliceWrites_nat [Zero α] (x : List α) (r0 len c a : ℕ) (h : a + len ≤ x.length) :
    sliceWrites r0 len c (pySlice x (some (a : ℤ)) (some ((a + len : ℕ) : ℤ)))
      = .ok ((List.range len).map fun k => (r0 + k, c, x.getD (a + k) 0)) := by
  rw [pySlice_nat]
  have hl : ((x.drop a).take (a + len - a)).length = len := by simp; omega
  unfold sliceWrites
  rw [if_pos hl]
  congr 1
  apply List.ext_getElem
  · simp; omega
  intro k h1 h2
  simp only [List.length_mapIdx, hl] at h1
  simp only [List.getElem_mapIdx, List.getElem_take, List.getElem_drop, List.getElem_map,
    List.getElem_range]
  rw [List.getD_eq_getElem _ _ (by omega)]

theorem bufferIter_ok [Zero α] (x : List α) (seg h : ℕ) (modulated : Bool) (i : ℕ)
    (hi : i * h + seg ≤ x.length) :
    bufferIter x seg (h : ℤ) (bufferS20 seg) (bufferS21 seg) modulated i
      = .ok ((List.range seg).map fun r => (r, i, x.getD (srcIdx seg h modulated r i) 0)) := by
  have hc : (h : ℤ) * (i : ℤ) = ((i * h : ℕ) : ℤ) := by push_cast; ring
  unfold bufferIter
  cases modulated with
  | false =>
    simp only [Bool.not_false, if_true]
    rw [hc, show ((i * h : ℕ) : ℤ) + (seg : ℤ) = ((i * h + seg : ℕ) : ℤ) by push_cast; ring,
      sliceWrites_nat x 0 seg i (i * h) hi]
    simp [srcIdx]
  | true =>
    simp only [Bool.not_true, Bool.false_eq_true, if_false]
    have hs0 : bufferS20 seg = (seg + 1) / 2 := rfl
    rw [s21_eq, hc,
      show ((i * h : ℕ) : ℤ) + ((seg / 2 : ℕ) : ℤ) = ((i * h + seg / 2 : ℕ) : ℤ) by push_cast; ring,
      show ((i * h + seg / 2 : ℕ) : ℤ) + ((bufferS20 seg : ℕ) : ℤ)
        = ((i * h + seg / 2 + bufferS20 seg : ℕ) : ℤ) by push_cast; ring,
      sliceWrites_nat x 0 _ i _ (by omega)]
    have : seg - bufferS20 seg = seg / 2 := by omega
    rw [this, sliceWrites_nat x (bufferS20 seg) (seg / 2) i (i * h) (by omega)]
    change Except.ok _ = Except.ok _
    congr 1
    apply List.ext_getElem
    · simp; omega
    intro r h1 h2
    have h2' : r < seg := by simpa using h2
    rw [List.getElem_append]
    simp only [List.length_map, List.length_range, List.getElem_map, List.getElem_range, srcIdx,
      if_true]
    split
    · rename_i hlt
      rw [Nat.mod_eq_of_lt (by omega)]
      have e : i * h + seg / 2 + r = i * h + (r + seg / 2) := by omega
      simp [e]
    · rename_i hge
      have : (r + seg / 2) % seg = r - bufferS20 seg := by
        rw [Nat.mod_eq_sub_mod (by omega), Nat.mod_eq_of_lt (by omega)]; omega
      rw [this]
      simp; omega

theorem bufferParams_ok {L seg h : ℕ} (hh : 0 < h) (hs : seg ≤ L) :
    bufferParams L seg ((seg : ℤ) - h) = .ok ((h : ℤ), (L - seg) / h + 1) := by
  unfold bufferParams
  have : (seg : ℤ) - (seg - h) = h := by ring
  simp only [this]
  rw [if_neg (by omega)]
  have h2 : Int.fdiv ((L : ℤ) - seg) h = (((L - seg) / h : ℕ) : ℤ) := by
    rw [Int.fdiv_eq_ediv_of_nonneg _ (by omega)]
    push_cast
    rw [Nat.cast_sub hs]
  rw [h2, if_neg (not_lt.2 (by positivity))]
  congr 1

theorem frame_bound {L seg h i : ℕ} (hs : seg ≤ L) (hi : i < (L - seg) / h + 1) :
    i * h + seg ≤ L := by
  have : i * h ≤ L - seg := le_trans (Nat.mul_le_mul_right h (by omega)) (Nat.div_mul_le_self _ _)
  omega

/-- The frames, in closed form. -/
def frames [Zero α] (x : List α) (seg h : ℕ) (modulated : Bool) : List (List α) :=
  (List.range ((x.length - seg) / h + 1)).map fun c =>
    (List.range seg).map fun r => x.getD (srcIdx seg h modulated r c) 0

theorem foldlM_ok_of {β σ : Type} (f : σ → β → Py σ) (g : σ → β → σ) (l : List β)
    (h : ∀ s, ∀ b ∈ l, f s b = .ok (g s b)) (s : σ) : l.foldlM f s = .ok (l.foldl g s) := by
  induction l generalizing s with
  | nil => rfl
  | cons b l ih =>
    rw [List.foldlM_cons, h s b (by simp), List.foldl_cons]
    exact ih (fun s b hb => h s b (by simp [hb])) _

theorem mapM_ok_of {β γ : Type} (f : β → Py γ) (g : β → γ) (l : List β)
    (h : ∀ b ∈ l, f b = .ok (g b)) : l.mapM f = .ok (l.map g) := by
  induction l with
  | nil => rfl
  | cons b l ih =>
    rw [List.mapM_cons, h b (by simp), ih fun b hb => h b (by simp [hb])]
    rfl

/-- All the writes of all iterations. -/
def allWrites [Zero α] (x : List α) (seg h : ℕ) (modulated : Bool) (n : ℕ) : List (List (Write α)) :=
  (List.range n).map fun i =>
    (List.range seg).map fun r => (r, i, x.getD (srcIdx seg h modulated r i) 0)

theorem allWrites_frames [Zero α] (x : List α) (seg h : ℕ) (modulated : Bool)
    (sched : List (Write α))
    (hp : sched.Perm (allWrites x seg h modulated ((x.length - seg) / h + 1)).flatten) :
    sched.foldl applyWrite (bufferZeros seg ((x.length - seg) / h + 1))
      = frames x seg h modulated := by
  have hmem : ∀ w, w ∈ sched ↔ ∃ i < (x.length - seg) / h + 1, ∃ r < seg,
      (r, i, x.getD (srcIdx seg h modulated r i) 0) = w := by
    intro w
    rw [hp.mem_iff]
    simp [allWrites, List.mem_flatten]
  refine foldl_writes (fun r c => x.getD (srcIdx seg h modulated r c) 0) sched ?_ ?_
  · intro w hw
    obtain ⟨i, _, r, _, rfl⟩ := (hmem w).1 hw
    rfl
  · intro r c hr hc
    exact ⟨_, (hmem _).2 ⟨c, hc, r, hr, rfl⟩, rfl, rfl⟩

theorem buffer_ok [Zero α] (x : List α) (seg h : ℕ) (hh : 0 < h) (hs : seg ≤ x.length)
    (modulated : Bool) :
    buffer x seg ((seg : ℤ) - h) modulated = .ok (frames x seg h modulated) := by
  unfold buffer
  rw [bufferParams_ok hh hs]
  change (List.range _).foldlM _ _ = _
  rw [foldlM_ok_of _ (fun out i => ((List.range seg).map fun r =>
    (r, i, x.getD (srcIdx seg h modulated r i) 0)).foldl applyWrite out)]
  · congr 1
    rw [← allWrites_frames x seg h modulated _ (List.Perm.refl _)]
    unfold allWrites
    rw [List.foldl_flatten, List.foldl_map]
  · intro out i hi
    have hi' := frame_bound hs (List.mem_range.1 hi)
    rw [bufferIter_ok x seg h modulated i hi']
    rfl

theorem bufferGpuThread_ok [Zero α] (x : List α) (seg h : ℕ) (modulated : Bool) (W i : ℕ)
    (hi : i < W → i * h + seg ≤ x.length) :
    bufferGpuThread x W seg (h : ℤ) (bufferS20 seg) (bufferS21 seg) modulated i
      = .ok (if i < W then
          (List.range seg).map fun r => (r, i, x.getD (srcIdx seg h modulated r i) 0) else []) := by
  unfold bufferGpuThread
  by_cases hw : i < W
  · rw [if_neg (by omega), if_pos hw]
    simp only []
    apply mapM_ok_of
    intro k hk
    have hk := List.mem_range.1 hk
    have hi := hi hw
    have hs0 : bufferS20 seg = (seg + 1) / 2 := rfl
    have hc : (h : ℤ) * (i : ℤ) = ((i * h : ℕ) : ℤ) := by push_cast; ring
    have hsrc : (if (!modulated) = true then (h : ℤ) * i + k
        else if (h : ℤ) * i + k < h * i + (bufferS20 seg : ℕ) then (h : ℤ) * i + k + (bufferS21 seg : ℕ)
          else (h : ℤ) * i + k - (bufferS20 seg : ℕ))
        = ((srcIdx seg h modulated k i : ℕ) : ℤ) := by
      rw [s21_eq, hc]
      unfold srcIdx
      cases modulated with
      | false => simp
      | true =>
        simp only [Bool.not_true, Bool.false_eq_true, if_false, if_true]
        split
        · rw [Nat.mod_eq_of_lt (by omega)]; push_cast; ring
        · rw [Nat.mod_eq_sub_mod (by omega), Nat.mod_eq_of_lt (by omega)]; push_cast; omega
    have hlt : srcIdx seg h modulated k i < x.length := by
      unfold srcIdx
      split
      · have := Nat.mod_lt (k + seg / 2) (show seg > 0 by omega); omega
      · omega
    simp only [hsrc]
    rw [if_neg (by omega), Int.toNat_natCast, List.getElem?_eq_getElem hlt,
      List.getD_eq_getElem _ _ hlt]
    simp
  · rw [if_pos (by omega), if_neg hw]

end Ssq
