import Verif.Lemmas.PyM
import Verif.Props.Padding
import Verif.Lemmas.Buffer
import Verif.Lemmas.Dft
import Verif.Spec.Stft

/-! Lemmas for the STFT and its inverse. -/
namespace Ssq
open Finset Complex

theorem getD_lt {β : Type} (l : List β) (d : β) {i : ℕ} (h : i < l.length) : l.getD i d = l[i] :=
  List.getD_eq_getElem _ _ h

/-- Rotation inside a full-period sum. -/
theorem sum_rotate {M : Type*} [AddCommMonoid M] (m a : ℕ) (ha : a ≤ m) (G : ℕ → ℤ → M)
    (hper : ∀ s (t : ℤ), G s (t + m) = G s t) :
    ∑ r ∈ range m, G ((r + a) % m) r = ∑ s ∈ range m, G s ((s : ℤ) - a) := by
  rcases Nat.eq_zero_or_pos m with rfl | hm
  · simp
  refine sum_nbij' (fun r => (r + a) % m) (fun s => (s + (m - a)) % m) ?_ ?_ ?_ ?_ ?_
  · intro r _; exact mem_range.2 (Nat.mod_lt _ hm)
  · intro r _; exact mem_range.2 (Nat.mod_lt _ hm)
  · intro r hr
    have hr := mem_range.1 hr
    rw [Nat.mod_add_mod, show r + a + (m - a) = r + m by omega, Nat.add_mod_right,
      Nat.mod_eq_of_lt hr]
  · intro r hr
    have hr := mem_range.1 hr
    rw [Nat.mod_add_mod, show r + (m - a) + a = r + m by omega, Nat.add_mod_right,
      Nat.mod_eq_of_lt hr]
  · intro r hr
    have hr := mem_range.1 hr
    rcases Nat.lt_or_ge (r + a) m with h | h
    · rw [Nat.mod_eq_of_lt h]; congr 1; push_cast; ring
    · rw [Nat.mod_eq_sub_mod h, Nat.mod_eq_of_lt (by omega)]
      rw [← hper _ (((r + a - m : ℕ) : ℤ) - a)]; congr 1; omega

theorem tw_add_n {m : ℕ} (hm : m ≠ 0) (k : ℕ) (t : ℤ) :
    tw m (-((t + m) * k)) = tw m (-(t * k)) := by
  rw [show -((t + (m : ℤ)) * k) = -(t * k) + m * (-k) by ring, tw_add, tw_mul_n hm, mul_one]

theorem tw_eq_exp (m : ℕ) (k r : ℤ) (c : ℂ) (hc : c = (r : ℂ)) :
    tw m (-(r * k)) = exp (-(2 * Real.pi * I * k * c / m)) := by
  unfold tw; subst hc; congr 1; push_cast; ring

/-! ### framing, windowing -/

theorem mulWindow_ok {w col : List ℝ} (h : w.length = col.length) :
    mulWindow w col = .ok (List.zipWith (· * ·) col w) := by
  unfold mulWindow; rw [if_pos h]

theorem frames_length {α : Type} [Zero α] (x : List α) (m h : ℕ) (b : Bool) :
    (frames x m h b).length = (x.length - m) / h + 1 := by simp [frames]

theorem frames_mem_length {α : Type} [Zero α] {x : List α} {m h : ℕ} {b : Bool} {c : List α}
    (hc : c ∈ frames x m h b) : c.length = m := by
  simp only [frames, List.mem_map] at hc
  obtain ⟨i, _, rfl⟩ := hc
  simp

theorem length_ifftshiftL {α : Type} (l : List α) : (ifftshiftL l).length = l.length := by
  simp [ifftshiftL]

theorem length_fftshiftL {α : Type} (l : List α) : (fftshiftL l).length = l.length := by
  simp [fftshiftL]

theorem length_diffWindow (w : List ℝ) : (diffWindow w).length = w.length := by
  simp [diffWindow]

theorem length_zeroDenormals (t : ℝ) (w : List ℝ) : (zeroDenormals t w).length = w.length := by
  simp [zeroDenormals]

/-- The window actually multiplied onto the frames. -/
def usedWindow (w : List ℝ) (modulated : Bool) : List ℝ := if modulated then ifftshiftL w else w

theorem usedWindow_length (w : List ℝ) (b : Bool) : (usedWindow w b).length = w.length := by
  cases b <;> simp [usedWindow, length_ifftshiftL]

/-- Columns fed to `rfft`. -/
noncomputable def winCols (xp w : List ℝ) (m h : ℕ) (b : Bool) : List (List ℝ) :=
  (frames xp m h b).map fun c => List.zipWith (· * ·) c (usedWindow w b)

theorem stftCore_ok (xp w dw : List ℝ) (m h : ℕ) (fs : ℝ) (b : Bool) (hh : 0 < h) (hm : 0 < m)
    (hfit : m ≤ xp.length) (hw : w.length = m) (hdw : dw.length = m) :
    stftCore xp w dw m h fs b
      = .ok ((winCols xp w m h b).map rfftL,
          (winCols xp (if b then dw.map (· * fs) else dw) m h b).map rfftL) := by
  unfold stftCore
  rw [buffer_ok xp m h hh hfit b]
  have e1 : (if b = true then ifftshiftL w else w) = usedWindow w b := rfl
  have e2 : (if b = true then (ifftshiftL dw).map (· * fs) else dw)
      = usedWindow (if b then dw.map (· * fs) else dw) b := by
    cases b <;> simp [usedWindow, ifftshiftL, List.map_rotate]
  have hl2 : (usedWindow (if b then dw.map (· * fs) else dw) b).length = m := by
    rw [usedWindow_length]; cases b <;> simp [hdw]
  have m1 : (frames xp m h b).mapM (mulWindow (usedWindow w b))
      = (.ok (winCols xp w m h b) : Py _) :=
    mapM_ok_of _ _ _ fun c hc =>
      mulWindow_ok (by rw [usedWindow_length, frames_mem_length hc, hw])
  have m2 : (frames xp m h b).mapM (mulWindow (usedWindow (if b then dw.map (· * fs) else dw) b))
      = (.ok (winCols xp (if b then dw.map (· * fs) else dw) m h b) : Py _) :=
    mapM_ok_of _ _ _ fun c hc => mulWindow_ok (by rw [hl2, frames_mem_length hc])
  simp only [e1, e2]
  change (do
    let S ← (frames xp m h b).mapM (mulWindow (usedWindow w b))
    let dS ← (frames xp m h b).mapM (mulWindow (usedWindow (if b then dw.map (· * fs) else dw) b))
    if m = 0 then .error .valueError
    return (S.map rfftL, dS.map rfftL) : Py _) = _
  rw [m1, m2]
  simp only [show m ≠ 0 by omega, if_false]
  rfl

/-- Entry `(k, j)` of the transform of the windowed frames is the specified coefficient. -/
theorem rfft_winCols (xp w : List ℝ) (m h : ℕ) (b : Bool) (hfit : m ≤ xp.length)
    (hm : 0 < m) (hw : w.length = m) (n1 : ℤ) (hn1 : n1 = (m / 2 : ℕ)) (E : ℤ → ℝ)
    (hE : ∀ (p : ℕ) (h : p < xp.length), xp[p] = E ((p : ℤ) - n1))
    (j : ℕ) (hj : j < ((winCols xp w m h b).map rfftL).length) :
    (((winCols xp w m h b).map rfftL)[j]).length = m / 2 + 1 ∧
    ∀ k, k < m / 2 + 1 → (((winCols xp w m h b).map rfftL)[j]).getD k 0
      = Spec.stft m h (fun r => w.getD r 0) E b k j := by
  have hj' : j < (xp.length - m) / h + 1 := by simpa [winCols, frames] using hj
  have hb := frame_bound hfit hj'
  set col := List.zipWith (· * ·) ((frames xp m h b)[j]'(by simpa [frames] using hj'))
    (usedWindow w b) with hcol
  have hlc : col.length = m := by
    rw [hcol, List.length_zipWith, usedWindow_length, hw,
      frames_mem_length (List.getElem_mem _)]; simp
  have hcolj : ((winCols xp w m h b).map rfftL)[j] = rfftL col := by
    simp [winCols, hcol]
  rw [hcolj]
  refine ⟨by simp [rfftL, hlc], ?_⟩
  intro k hk
  unfold rfftL
  rw [hlc, getD_map_range _ _ hk]
  have hentry : ∀ r < m, col.getD r 0
      = E (((j * h : ℕ) : ℤ) + (if b then (r + m / 2) % m else r : ℕ) - n1)
        * w.getD (if b then (r + m / 2) % m else r) 0 := by
    intro r hr
    have hm1 := Nat.mod_lt (r + m / 2) hm
    rw [getD_lt _ _ (by omega)]
    simp only [hcol, List.getElem_zipWith]
    congr 1
    · simp only [frames, List.getElem_map, List.getElem_range, srcIdx]
      rw [getD_lt _ _ (by split <;> omega), hE]
      congr 1
    · cases b with
      | false =>
        simp only [usedWindow, Bool.false_eq_true, if_false]
        rw [getD_lt w 0 (show r < w.length by omega)]
      | true =>
        simp only [usedWindow, if_true, ifftshiftL, List.getElem_rotate, hw]
        rw [getD_lt _ _ (by omega)]
  unfold dft Spec.stft
  have step : ∀ r ∈ range m, ((col.getD r 0 : ℝ) : ℂ) * tw m (-(r * k))
      = ((E (((j * h : ℕ) : ℤ) + (if b then (r + m / 2) % m else r : ℕ) - n1)
        * w.getD (if b then (r + m / 2) % m else r) 0 : ℝ) : ℂ) * tw m (-(r * k)) := by
    intro r hr; rw [hentry r (mem_range.1 hr)]
  rw [sum_congr rfl step]
  cases b with
  | false =>
    refine sum_congr rfl fun r _ => ?_
    simp only [Bool.false_eq_true, if_false]
    rw [tw_eq_exp m k r _ (by rfl : ((r : ℤ) : ℂ) = ((r : ℤ) : ℂ))]
    rw [mul_comm (w.getD r 0)]
    subst hn1
    simp
  | true =>
    simp only [if_true]
    rw [sum_rotate m (m / 2) (by omega)
      (fun s t => ((E (((j * h : ℕ) : ℤ) + (s : ℕ) - n1) * w.getD s 0 : ℝ) : ℂ) * tw m (-(t * k)))
      (fun s t => by rw [tw_add_n (by omega)])]
    refine sum_congr rfl fun s _ => ?_
    rw [tw_eq_exp m k ((s : ℤ) - (m / 2 : ℕ)) ((s : ℂ) - ((m / 2 : ℕ) : ℂ)) (by push_cast; rfl)]
    rw [mul_comm (w.getD s 0)]
    subst hn1
    simp

/-! ### overlap-add -/

theorem addSlice_ok (x : List ℝ) (n : ℕ) (v : List ℝ) (h : n + v.length ≤ x.length) :
    ∃ y, addSlice x n v = .ok y ∧ y.length = x.length ∧
      ∀ p, p < x.length → y.getD p 0
        = x.getD p 0 + if n ≤ p ∧ p < n + v.length then v.getD (p - n) 0 else 0 := by
  have hs : ((x.drop n).take v.length).length = v.length := by simp; omega
  refine ⟨_, by unfold addSlice; simp only; rw [if_pos hs], ?_, ?_⟩
  · simp; omega
  · intro p hp
    have hl : p < (x.take n ++ List.zipWith (· + ·) ((x.drop n).take v.length) v
        ++ x.drop (n + v.length)).length := by simp; omega
    rw [getD_lt _ _ hl, getD_lt x 0 hp]
    have hz : (List.zipWith (· + ·) ((x.drop n).take v.length) v).length = v.length := by
      rw [List.length_zipWith, hs]; simp
    have ht : (x.take n).length = n := by simp; omega
    simp only [List.getElem_append, List.length_append, hz, ht]
    split
    · split
      · rw [List.getElem_take, if_neg (by omega), add_zero]
      · rw [List.getElem_zipWith, List.getElem_take, List.getElem_drop, if_pos (by omega),
          getD_lt v 0 (by omega)]
        congr 2; omega
    · rw [List.getElem_drop, if_neg (by omega), add_zero]
      congr 1; omega

/-- Invariant of the two accumulation loops: `x = xp · wn`, and `wn` is the window-power sum. -/
theorem overlap_invariant (xp w : List ℝ) (m h e L : ℕ) (cols : List (List ℝ)) (hw : w.length = m)
    (hcols : ∀ j (hj : j < cols.length), (cols[j]).length = m ∧
      ∀ r < m, (cols[j]).getD r 0 = xp.getD (j * h + r) 0 * w.getD r 0)
    (hL : ∀ j < cols.length, j * h + m ≤ L) (wpow : List ℝ)
    (hwp : wpow = w.map (· ^ e)) :
    ∃ X W, overlapAdd (List.replicate L 0) cols wpow h = .ok X ∧
      (List.range cols.length).foldlM (fun wn i => addSlice wn (i * h) (w.map (· ^ (e + 1))))
        (List.replicate L 0) = (.ok W : Py _) ∧
      X.length = L ∧ W.length = L ∧
      (∀ p < L, X.getD p 0 = xp.getD p 0 * W.getD p 0) ∧
      (∀ p < L, W.getD p 0 = Spec.winNorm m h cols.length e (fun r => w.getD r 0) p) := by
  unfold overlapAdd
  induction cols using List.reverseRecOn with
  | nil =>
    refine ⟨_, _, rfl, rfl, by simp, by simp, ?_, ?_⟩
    · intro p hp; simp
    · intro p hp; simp [Spec.winNorm]
  | append_singleton cs c ih =>
    obtain ⟨X, W, hX, hW, hXl, hWl, hXW, hWn⟩ := ih (fun j hj => by
        have := hcols j (by simp; omega)
        rw [List.getElem_append_left hj] at this
        exact this) (fun j hj => hL j (by simp; omega))
    have hc := hcols cs.length (by simp)
    rw [List.getElem_append_right (le_refl _)] at hc
    simp only [Nat.sub_self, List.getElem_cons_zero] at hc
    have hLl := hL cs.length (by simp)
    have hv1 : (List.zipWith (· * ·) c wpow).length = m := by
      rw [List.length_zipWith, hc.1, hwp]; simp [hw]
    have hv2 : (w.map (· ^ (e + 1))).length = m := by simp [hw]
    obtain ⟨X', hX', hXl', hXv⟩ := addSlice_ok X (cs.length * h) (List.zipWith (· * ·) c wpow)
      (by rw [hv1, hXl]; exact hLl)
    obtain ⟨W', hW', hWl', hWv⟩ := addSlice_ok W (cs.length * h) (w.map (· ^ (e + 1)))
      (by rw [hv2, hWl]; exact hLl)
    refine ⟨X', W', ?_, ?_, by omega, by omega, ?_, ?_⟩
    · rw [List.zipIdx_append, List.foldlM_append, hX]
      simp [hX']
    · rw [List.length_append, List.length_singleton, List.range_succ, List.foldlM_append, hW]
      simp [hW']
    · intro p hp
      rw [hXv p (by omega), hWv p (by omega), hv1, hv2, hXW p hp]
      split
      · rename_i hin
        have hr : p - cs.length * h < m := by omega
        have e1 : (List.zipWith (· * ·) c wpow).getD (p - cs.length * h) 0
            = xp.getD p 0 * w.getD (p - cs.length * h) 0 * w.getD (p - cs.length * h) 0 ^ e := by
          rw [getD_lt _ _ (by omega), List.getElem_zipWith,
            ← getD_lt c 0 (by omega), hc.2 _ hr]
          rw [show cs.length * h + (p - cs.length * h) = p by omega]
          subst hwp
          rw [List.getElem_map, getD_lt w 0 (by omega)]
        have e2 : (w.map (· ^ (e + 1))).getD (p - cs.length * h) 0
            = w.getD (p - cs.length * h) 0 ^ (e + 1) := by
          rw [getD_lt _ _ (by omega), List.getElem_map, getD_lt w 0 (by omega)]
        rw [e1, e2]; ring
      · ring
    · intro p hp
      rw [hWv p (by omega), hv2, hWn p hp]
      unfold Spec.winNorm
      rw [List.length_append, List.length_singleton, sum_range_succ]
      congr 1
      split
      · rw [getD_lt _ _ (by omega), List.getElem_map]
        simp only []
        rw [getD_lt w 0 (by omega)]
      · rfl

theorem fftshift_ifftshift {α : Type} (l : List α) : fftshiftL (ifftshiftL l) = l := by
  unfold fftshiftL ifftshiftL
  rw [List.rotate_rotate, List.length_rotate,
    show l.length / 2 + (l.length - l.length / 2) = l.length by omega, List.rotate_length]

theorem zipWith_rotate' {α β γ : Type} (f : α → β → γ) (l : List α) (l' : List β)
    (h : l.length = l'.length) (n : ℕ) :
    (List.zipWith f l l').rotate n = List.zipWith f (l.rotate n) (l'.rotate n) := by
  apply List.ext_getElem
  · simp
  intro i h1 h2
  simp only [List.getElem_rotate, List.getElem_zipWith, List.length_zipWith, h, Nat.min_self]

theorem frames_mod_eq {α : Type} [Zero α] (xp : List α) (m h : ℕ) :
    frames xp m h true = (frames xp m h false).map ifftshiftL := by
  simp only [frames, List.map_map]
  apply List.map_congr_left
  intro c _
  apply List.ext_getElem
  · simp [length_ifftshiftL]
  intro r h1 h2
  simp [ifftshiftL, List.getElem_rotate, srcIdx]

/-- Undoing the rotation of the windowed frames. -/
theorem shift_winCols (xp w : List ℝ) (m h : ℕ) (b : Bool) (hw : w.length = m) :
    (if b then (winCols xp w m h b).map fftshiftL else winCols xp w m h b)
      = winCols xp w m h false := by
  cases b with
  | false => rfl
  | true =>
    simp only [if_true, winCols, frames_mod_eq, List.map_map, usedWindow]
    apply List.map_congr_left
    intro c hc
    have hlc := frames_mem_length hc
    simp only [Function.comp]
    have : List.zipWith (· * ·) (ifftshiftL c) (ifftshiftL w)
        = ifftshiftL (List.zipWith (· * ·) c w) := by
      unfold ifftshiftL
      rw [zipWith_rotate' _ _ _ (by omega)]
      simp [hlc, hw]
    rw [this, fftshift_ifftshift]
    rfl

theorem irfft_cols (xp w : List ℝ) (m h : ℕ) (b : Bool) (hw : w.length = m) :
    ((winCols xp w m h b).map rfftL).map (irfftL m) = winCols xp w m h b := by
  rw [List.map_map]
  conv_rhs => rw [← List.map_id (winCols xp w m h b)]
  apply List.map_congr_left
  intro c hc
  have : c.length = m := by
    simp only [winCols, List.mem_map] at hc
    obtain ⟨d, hd, rfl⟩ := hc
    rw [List.length_zipWith, frames_mem_length hd, usedWindow_length, hw]; simp
  simp only [Function.comp, id]
  rw [← this]; exact irfftL_rfftL c

end Ssq
