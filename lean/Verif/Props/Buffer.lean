import Verif.Lemmas.Buffer

/-!
# Properties C05, C06: framing
-/
namespace Ssq
variable {α : Type}

/-- The slice `x[i*hop : i*hop + segLen]`. -/
def Spec.frame (x : List α) (segLen hop i : ℕ) : List α := (x.drop (i * hop)).take segLen

theorem frames_getElem [Zero α] (x : List α) (seg h : ℕ) (modulated : Bool) (hs : seg ≤ x.length)
    (i : ℕ) (hi : i < (frames x seg h modulated).length) :
    (frames x seg h modulated)[i]
      = if modulated then ifftshiftL (Spec.frame x seg h i) else Spec.frame x seg h i := by
  have hi' : i < (x.length - seg) / h + 1 := by simpa [frames] using hi
  have hb := frame_bound hs hi'
  have hl : (Spec.frame x seg h i).length = seg := by simp [Spec.frame]; omega
  apply List.ext_getElem
  · cases modulated <;> simp [frames, ifftshiftL, hl]
  intro r h1 h2
  have hr : r < seg := by simpa [frames] using h1
  have hm := Nat.mod_lt (r + seg / 2) (show seg > 0 by omega)
  cases modulated with
  | false =>
    simp only [frames, List.getElem_map, List.getElem_range, srcIdx, Spec.frame,
      Bool.false_eq_true, if_false, List.getElem_take, List.getElem_drop]
    rw [List.getD_eq_getElem _ _ (by omega)]
  | true =>
    simp only [frames, List.getElem_map, List.getElem_range, srcIdx, if_true, ifftshiftL,
      List.getElem_rotate, hl]
    simp only [Spec.frame, List.getElem_take, List.getElem_drop]
    rw [List.getD_eq_getElem _ _ (by omega)]

/-- **C05.** For every signal of any element type, every frame length that fits and every overlap
below it, framing succeeds with `(L - seg_len)//hop + 1` frames; frame `i` is the slice
`x[i*hop : i*hop+seg_len]` (which lies inside the signal), passed through `ifftshift` when
`modulated`. -/
theorem C05_buffer_frames [Zero α] (x : List α) (segLen : ℕ) (nOverlap : ℤ) (modulated : Bool)
    (hop : ℕ) (hhop : (hop : ℤ) = segLen - nOverlap) (hpos : 0 < hop) (hfit : segLen ≤ x.length) :
    ∃ out, buffer x segLen nOverlap modulated = .ok out ∧
      out.length = (x.length - segLen) / hop + 1 ∧
      ∀ i (hi : i < out.length), i * hop + segLen ≤ x.length ∧
        out[i] = if modulated then ifftshiftL (Spec.frame x segLen hop i)
                 else Spec.frame x segLen hop i := by
  have hov : nOverlap = (segLen : ℤ) - hop := by omega
  subst hov
  refine ⟨_, buffer_ok x segLen hop hpos hfit modulated, by simp [frames], ?_⟩
  intro i hi
  exact ⟨frame_bound hfit (by simpa [frames] using hi), frames_getElem x segLen hop modulated hfit i hi⟩

example : buffer [0, 1, 2, 3, 4, 5, 6, 7, 8, 9] 5 3 false
    = .ok [[0, 1, 2, 3, 4], [2, 3, 4, 5, 6], [4, 5, 6, 7, 8]] := by rfl
example : buffer [0, 1, 2, 3, 4, 5, 6] 5 3 true = .ok [[2, 3, 4, 0, 1], [4, 5, 6, 2, 3]] := by rfl

/-- **C05 (batched).** On a 2D input each row is framed as if alone. -/
theorem C05_buffer_batched [Zero α] (X : List (List α)) (L segLen : ℕ) (nOverlap : ℤ)
    (modulated : Bool) (hop : ℕ) (hhop : (hop : ℤ) = segLen - nOverlap) (hpos : 0 < hop)
    (hfit : segLen ≤ L) (hX : ∀ x ∈ X, x.length = L) :
    ∃ outs, buffer2 X segLen nOverlap modulated = .ok outs ∧ outs.length = X.length ∧
      ∀ b (h1 : b < X.length) (h2 : b < outs.length),
        buffer X[b] segLen nOverlap modulated = .ok outs[b] := by
  have hov : nOverlap = (segLen : ℤ) - hop := by omega
  subst hov
  refine ⟨X.map fun x => frames x segLen hop modulated, ?_, by simp, ?_⟩
  · exact mapM_ok_of _ _ _ fun x hx =>
      buffer_ok x segLen hop hpos (by rw [hX x hx]; exact hfit) modulated
  · intro b h1 h2
    rw [List.getElem_map]
    exact buffer_ok _ segLen hop hpos (by rw [hX _ (List.getElem_mem h1)]; exact hfit) modulated

/-- **C06 (CPU threads).** The `prange` loop returns the serial result whatever the order in which
the elementary writes of its iterations are interleaved, and it does have a result. -/
theorem C06_buffer_parallel [Zero α] (x : List α) (segLen : ℕ) (nOverlap : ℤ) (modulated : Bool)
    (hov : nOverlap < segLen) (hfit : segLen ≤ x.length) :
    (∃ out, BufferParResult x segLen nOverlap modulated out) ∧
    ∀ out, BufferParResult x segLen nOverlap modulated out →
      buffer x segLen nOverlap modulated = .ok out := by
  obtain ⟨h, hh⟩ := Int.eq_ofNat_of_zero_le (show 0 ≤ (segLen : ℤ) - nOverlap by omega)
  have hov' : nOverlap = (segLen : ℤ) - h := by omega
  have hpos : 0 < h := by omega
  subst hov'
  set n := (x.length - segLen) / h + 1 with hn
  have hm : (List.range n).mapM
      (bufferIter x segLen h (bufferS20 segLen) (bufferS21 segLen) modulated)
      = .ok (allWrites x segLen h modulated n) :=
    mapM_ok_of _ _ _ fun i hi =>
      bufferIter_ok x segLen h modulated i (frame_bound hfit (List.mem_range.1 hi))
  constructor
  · exact ⟨_, h, n, _, _, bufferParams_ok hpos hfit, hm, List.Perm.refl _, rfl⟩
  · rintro out ⟨hop', n', wss, sched, h1, h2, h3, rfl⟩
    rw [bufferParams_ok hpos hfit] at h1
    simp only [Except.ok.injEq, Prod.mk.injEq] at h1
    obtain ⟨rfl, rfl⟩ := h1
    rw [← hn, hm] at h2
    simp only [Except.ok.injEq] at h2
    subst h2
    rw [buffer_ok x segLen h hpos hfit modulated, allWrites_frames x segLen h modulated _ h3]

/-- **C06 (GPU).** The CUDA kernel, launched with at least one thread per frame (any surplus), never
reads outside the signal and returns the serial result whatever the order of its writes. -/
theorem C06_buffer_gpu [Zero α] (x : List α) (segLen : ℕ) (nOverlap : ℤ) (modulated : Bool)
    (hop : ℕ) (hhop : (hop : ℤ) = segLen - nOverlap) (hpos : 0 < hop) (hfit : segLen ≤ x.length)
    (threads : ℕ) (ht : (x.length - segLen) / hop + 1 ≤ threads) :
    (∃ out, BufferGpuResult x segLen nOverlap modulated threads out) ∧
    ∀ out, BufferGpuResult x segLen nOverlap modulated threads out →
      buffer x segLen nOverlap modulated = .ok out := by
  have hov' : nOverlap = (segLen : ℤ) - hop := by omega
  subst hov'
  set n := (x.length - segLen) / hop + 1 with hn
  have hm : (List.range threads).mapM
      (bufferGpuThread x n segLen hop (bufferS20 segLen) (bufferS21 segLen) modulated)
      = .ok ((List.range threads).map fun i => if i < n then
          (List.range segLen).map fun r => (r, i, x.getD (srcIdx segLen hop modulated r i) 0)
          else []) :=
    mapM_ok_of _ _ _ fun i _ =>
      bufferGpuThread_ok x segLen hop modulated n i fun hi => frame_bound hfit hi
  have hflat : ((List.range threads).map fun i => if i < n then
          (List.range segLen).map fun r => (r, i, x.getD (srcIdx segLen hop modulated r i) 0)
          else []).flatten = (allWrites x segLen hop modulated n).flatten := by
    obtain ⟨k, rfl⟩ := Nat.exists_eq_add_of_le ht
    rw [List.range_add, List.map_append, List.flatten_append]
    have h2 : (List.map (fun i => if i < n then
          (List.range segLen).map fun r => (r, i, x.getD (srcIdx segLen hop modulated r i) 0)
          else []) (List.map (fun x => n + x) (List.range k))).flatten = [] := by
      rw [List.flatten_eq_nil_iff]
      intro l hl
      simp only [List.map_map, List.mem_map] at hl
      obtain ⟨a, _, rfl⟩ := hl
      simp
    rw [h2, List.append_nil]
    congr 1
    apply List.map_congr_left
    intro i hi
    rw [if_pos (List.mem_range.1 hi)]
  constructor
  · exact ⟨_, hop, n, _, _, bufferParams_ok hpos hfit, hm, List.Perm.refl _, rfl⟩
  · rintro out ⟨hop', n', wss, sched, h1, h2, h3, rfl⟩
    rw [bufferParams_ok hpos hfit] at h1
    simp only [Except.ok.injEq, Prod.mk.injEq] at h1
    obtain ⟨rfl, rfl⟩ := h1
    rw [← hn, hm] at h2
    simp only [Except.ok.injEq] at h2
    subst h2
    rw [hflat] at h3
    rw [buffer_ok x segLen hop hpos hfit modulated, allWrites_frames x segLen hop modulated _ h3]

/-- The hypotheses are met: 10 samples, frames of 5, hop 2, 1024 threads for 3 frames. -/
example : ((2 : ℕ) : ℤ) = ((5 : ℕ) : ℤ) - 3 ∧ 5 ≤ [0, 1, 2, 3, 4, 5, 6, 7, 8, 9].length ∧
    ([0, 1, 2, 3, 4, 5, 6, 7, 8, 9].length - 5) / 2 + 1 ≤ 1024 := by decide

end Ssq
