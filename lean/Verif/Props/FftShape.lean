import Verif.Model.FftShape
import Mathlib.Tactic.Common
import Mathlib.Data.List.GetD

/-!
# C125: the pyFFTW path returns arrays like those of scipy
-/
namespace Ssq
namespace Spec

/-- Length along the axis of the result, from that of the input, as scipy documents it. -/
def resultLen (m : ℕ) : FKind → ℕ
  | .fft | .ifft => m
  | .rfft => m / 2 + 1
  | .irfft (some n) => n
  | .irfft none => 2 * (m - 1)

/-- Dtype of the result as scipy documents it: single precision stays single, everything else is double; `irfft` is real and the others are complex. -/
def resultDtype (d : FftDtype) : FKind → FftDtype
  | .irfft _ => if d = .float32 ∨ d = .complex64 then .float32 else .float64
  | _ => if d = .float32 ∨ d = .complex64 then .complex64 else .complex128

/-- Axis number `q` of an array with `n` axes, in Python's count. -/
def AxisIs (n : ℕ) (axis : ℤ) (q : ℕ) : Prop := q < n ∧ (axis = q ∨ axis = (q : ℤ) - n)

/-- What scipy accepts: any dtype (complex not for `rfft`), no empty axis, a nonempty result. `n` of `irfft` need not fit: the input is cut or
filled with zeros. -/
def ScipyAccepts (shape : List ℕ) (d : FftDtype) (q : ℕ) (k : FKind) : Prop :=
  (∀ m ∈ shape, 0 < m) ∧ (k = .rfft → d ≠ .complex64 ∧ d ≠ .complex128) ∧ 0 < resultLen (shape.getD q 0) k

end Spec
open Spec

theorem pyPos_axis {n : ℕ} {axis : ℤ} {q : ℕ} (h : AxisIs n axis q) : pyPos n axis = some q := by
  obtain ⟨h1, h2 | h2⟩ := h
  · unfold pyPos; rw [if_pos (by omega), if_pos (by omega)]; simp [h2]
  · unfold pyPos; rw [if_neg (by omega), if_pos (by omega)]; congr 1; omega

/-- The claim: with patience 1 or 2, whatever scipy accepts is accepted, and shape and dtype of the result are the same. -/
def C125_full : Prop := ∀ (shape : List ℕ) (d : FftDtype) (axis : ℤ) (q : ℕ) (k : FKind) (p : ℤ), (p = 1 ∨ p = 2) →
  (axis = 0 ∨ axis = 1 ∨ axis = -1) → AxisIs shape.length axis q → ScipyAccepts shape d q k →
    fftwResult shape d axis k (.val (.int p)) = .ok (shape.set q (resultLen (shape.getD q 0) k), resultDtype d k)

theorem outShape_eq {shape : List ℕ} {axis : ℤ} {q : ℕ} (hq : AxisIs shape.length axis q) (k : FKind) :
    fftOutShape shape axis k = .ok (shape.set q (resultLen (shape.getD q 0) k)) := by
  have hp := pyPos_axis hq
  have hs : shapeAt shape axis = .ok (shape.getD q 0) := by unfold shapeAt; rw [hp]
  have hl : fftOutLen shape axis k = .ok (resultLen (shape.getD q 0) k) := by
    unfold fftOutLen resultLen
    rcases k with _ | _ | _ | (_ | n) <;> simp only [hs, Except.bind]
  unfold fftOutShape
  rw [hl, hp]
  simp only [Except.bind]
  split
  · rfl
  · rename_i h1
    obtain ⟨a, rfl⟩ := List.length_eq_one_iff.1 (not_not.1 h1)
    have : q = 0 := by have := hq.1; simp at this; exact this
    subst this; rfl

/-- **C125**: with patience 1 or 2 a result is returned exactly for the four supported dtypes and, in `irfft`, for an `n` that fits the input; then it is
of scipy's shape and dtype. -/
theorem C125_partial (shape : List ℕ) (d : FftDtype) (axis : ℤ) (q : ℕ) (k : FKind) (p : ℤ) (hp : p = 1 ∨ p = 2)
    (ha : axis = 0 ∨ axis = 1 ∨ axis = -1) (hq : AxisIs shape.length axis q) (hs : ScipyAccepts shape d q k) (r : List ℕ × FftDtype) :
    fftwResult shape d axis k (.val (.int p)) = .ok r ↔
      d ≠ .other ∧ (∀ n, k = .irfft (some n) → n / 2 + 1 = shape.getD q 0) ∧
        r = (shape.set q (resultLen (shape.getD q 0) k), resultDtype d k) := by
  obtain ⟨s1, s2, s3⟩ := hs
  by_cases hd : d = .other
  · subst hd; simp [fftwResult, fftValidate, Except.bind]
  have hv : fftValidate d axis k (.val (.int p)) = .ok () := by
    unfold fftValidate validatePatience
    rw [if_neg hd, if_neg, if_neg (by omega)]
    · exact if_pos (by omega)
    · rintro ⟨h1, h2⟩; have := s2 h1; revert h2 this; cases d <;> simp [FftDtype.isComplex]
  have hq1 := hq.1
  have hget : shape.getD q 0 = shape[q] := List.getD_eq_getElem _ _ hq1
  have hpos : 0 < shape[q] := s1 _ (List.getElem_mem _)
  have hall : shape.all (0 < ·) = true := by simpa using s1
  have hall2 : ∀ m, 0 < m → (shape.set q m).all (0 < ·) = true := by
    intro m hm
    rw [List.all_eq_true]
    intro y hy
    rcases List.mem_or_eq_of_mem_set hy with h | h
    · simpa using s1 y h
    · subst h; simpa using hm
  have hacc : fftwAccepts shape (shape.set q (resultLen (shape.getD q 0) k)) axis k = true ↔
      ∀ n, k = .irfft (some n) → n / 2 + 1 = shape.getD q 0 := by
    unfold fftwAccepts
    rw [pyPos_axis hq]
    simp only [hall, hall2 _ s3, Bool.true_and]
    have hself : ∀ m : ℕ, shape = shape.set q m ↔ m = shape[q] := by
      intro m
      constructor
      · intro h
        have := congrArg (fun l => l.getD q 0) h
        simp only [hget] at this
        rw [List.getD_eq_getElem _ _ (by simpa using hq1)] at this
        simpa using this.symm
      · rintro rfl; simp
    rcases k with _ | _ | _ | (_ | n)
    · simp [resultLen, hq1]
    · simp [resultLen, hq1]
    · simp [resultLen]
    · simp only [decide_eq_true_eq, List.set_set]
      rw [List.getD_eq_getElem _ _ (by simpa using hq1), hself]
      simp only [List.getElem_set_self, resultLen, hget] at s3 ⊢
      constructor
      · intro _ n hn; cases hn
      · intro _; omega
    · simp only [decide_eq_true_eq, List.set_set]
      rw [List.getD_eq_getElem _ _ (by simpa using hq1), hself]
      simp only [List.getElem_set_self, resultLen, hget]
      constructor
      · intro h m hm; cases hm; exact h
      · intro h; exact h n rfl
  have hdt : (fftDtypes d k).2 = resultDtype d k := by
    unfold fftDtypes resultDtype
    rcases k with _ | _ | _ | _ <;> cases d <;> simp_all [FKind.isReal, FKind.isInverse]
  unfold fftwResult
  rw [hv, outShape_eq hq]
  simp only [Except.bind, hdt]
  by_cases h : fftwAccepts shape (shape.set q (resultLen (shape.getD q 0) k)) axis k = true
  · rw [if_pos h]
    have h' := hacc.1 h
    constructor
    · intro e; cases e; exact ⟨hd, h', rfl⟩
    · rintro ⟨-, -, rfl⟩; rfl
  · rw [if_neg h]
    constructor
    · intro e; cases e
    · rintro ⟨-, h2, -⟩; exact absurd (hacc.2 h2) h

theorem pyPos_some {n : ℕ} {axis : ℤ} {q : ℕ} (h : pyPos n axis = some q) : AxisIs n axis q := by
  unfold pyPos at h
  split at h
  · split at h
    · cases h; exact ⟨by assumption, Or.inl (by omega)⟩
    · cases h
  · split at h
    · cases h; exact ⟨by omega, Or.inr (by omega)⟩
    · cases h

/-- The calls that return something with patience 1 or 2, for every shape, dtype, axis and transform: the axis is 0, 1 or -1
and the array has it; no axis of the array or of the result is empty; the dtype is one of the four, and real for `rfft`; `n`
of `irfft` fits. All other calls raise. -/
theorem C125_accepts (shape : List ℕ) (d : FftDtype) (axis : ℤ) (k : FKind) (p : ℤ) (hp : p = 1 ∨ p = 2) (r : List ℕ × FftDtype) :
    fftwResult shape d axis k (.val (.int p)) = .ok r ↔
      (axis = 0 ∨ axis = 1 ∨ axis = -1) ∧ d ≠ .other ∧ (∀ n, k = .irfft (some n) → ∃ q, AxisIs shape.length axis q ∧ n / 2 + 1 = shape.getD q 0) ∧
        ∃ q, AxisIs shape.length axis q ∧ ScipyAccepts shape d q k ∧
          r = (shape.set q (resultLen (shape.getD q 0) k), resultDtype d k) := by
  have uniq : ∀ q q', AxisIs shape.length axis q → AxisIs shape.length axis q' → q = q' := by
    intro q q' h h'
    have := (pyPos_axis h).symm.trans (pyPos_axis h')
    exact Option.some.inj this
  constructor
  · intro h
    have hax : axis = 0 ∨ axis = 1 ∨ axis = -1 := by
      by_contra hc
      have hv : ∃ e, fftValidate d axis k (.val (.int p)) = .error e := by
        unfold fftValidate
        split
        · exact ⟨_, rfl⟩
        · split
          · exact ⟨_, rfl⟩
          · rw [if_pos (by omega)]; exact ⟨_, rfl⟩
      obtain ⟨e, he⟩ := hv
      simp [fftwResult, he, Except.bind] at h
    have hd : d ≠ .other := by
      rintro rfl; simp [fftwResult, fftValidate, Except.bind] at h
    have hrf : k = .rfft → d ≠ .complex64 ∧ d ≠ .complex128 := by
      rintro rfl
      constructor <;> (rintro rfl; simp [fftwResult, fftValidate, FftDtype.isComplex, Except.bind] at h)
    have hv : fftValidate d axis k (.val (.int p)) = .ok () := by
      cases hv : fftValidate d axis k (.val (.int p)) with
      | ok u => rfl
      | error e => simp [fftwResult, hv, Except.bind] at h
    unfold fftwResult at h
    rw [hv] at h
    simp only [Except.bind] at h
    cases ho : fftOutShape shape axis k with
    | error e => rw [ho] at h; cases h
    | ok out =>
      rw [ho] at h
      simp only at h
      split at h
      · rename_i hacc
        cases hq : pyPos shape.length axis with
        | none => simp [fftwAccepts, hq] at hacc
        | some q =>
          have hA := pyPos_some hq
          have hout : out = shape.set q (resultLen (shape.getD q 0) k) := by
            have := (outShape_eq hA k).symm.trans ho
            exact (Except.ok.inj this).symm
          have hfit : (∀ m ∈ shape, 0 < m) ∧ 0 < resultLen (shape.getD q 0) k := by
            unfold fftwAccepts at hacc
            rw [hq] at hacc
            simp only [Bool.and_eq_true] at hacc
            refine ⟨by simpa using hacc.1.1, ?_⟩
            have := List.all_eq_true.1 hacc.1.2 (resultLen (shape.getD q 0) k) (by
              rw [hout]; exact List.mem_iff_getElem.2 ⟨q, by simpa using hA.1, by simp⟩)
            simpa using this
          have hs : ScipyAccepts shape d q k := ⟨hfit.1, hrf, hfit.2⟩
          have hr := (C125_partial shape d axis q k p hp hax hA hs r).1 (by
            unfold fftwResult; rw [hv, ho]; simp only [Except.bind]; rw [if_pos hacc]; exact h)
          exact ⟨hax, hd, fun n hn => ⟨q, hA, hr.2.1 n hn⟩, q, hA, hs, hr.2.2⟩
      · cases h
  · rintro ⟨hax, hd, hn, q, hA, hs, hr⟩
    refine (C125_partial shape d axis q k p hp hax hA hs r).2 ⟨hd, fun n hk => ?_, hr⟩
    obtain ⟨q', hA', h⟩ := hn n hk
    rw [uniq q q' hA hA']; exact h

/-- A 1D array has no axis 1; `rfft` of a complex array; `irfft` of one bin, whose default length is zero. -/
example : (∀ r, fftwResult [8] .float64 1 .fft (.val (.int 1)) ≠ .ok r) ∧ (∀ r, fftwResult [8] .complex128 0 .rfft (.val (.int 1)) ≠ .ok r) ∧
    ∀ r, fftwResult [1] .complex128 0 (.irfft none) (.val (.int 1)) ≠ .ok r := by
  refine ⟨fun r h => ?_, fun r h => ?_, fun r h => ?_⟩
  · obtain ⟨-, -, -, q, hA, -⟩ := (C125_accepts _ _ _ _ 1 (Or.inl rfl) r).1 h
    obtain ⟨h1, h2 | h2⟩ := hA <;> simp at h1 h2 <;> omega
  · obtain ⟨-, -, -, q, hA, hs, -⟩ := (C125_accepts _ _ _ _ 1 (Or.inl rfl) r).1 h
    exact (hs.2.1 rfl).2 rfl
  · obtain ⟨-, -, -, q, hA, hs, -⟩ := (C125_accepts _ _ _ _ 1 (Or.inl rfl) r).1 h
    have hq : q = 0 := by have := hA.1; simpa using this
    subst hq
    have := hs.2.2
    simp [resultLen] at this

/-- The claim fails: `irfft(x, n=4)` of five bins, which scipy cuts to three. -/
theorem C125_refuted : ¬ C125_full := by
  intro h
  have h1 := h [5] .complex128 (-1) 0 (.irfft (some 4)) 1 (Or.inl rfl) (by omega) ⟨by simp, Or.inr (by simp)⟩
    ⟨by simp, by simp, by simp [resultLen]⟩
  have h2 := (C125_partial [5] .complex128 (-1) 0 (.irfft (some 4)) 1 (Or.inl rfl) (by omega) ⟨by simp, Or.inr (by simp)⟩
    ⟨by simp, by simp, by simp [resultLen]⟩ _).1 h1
  have := h2.2.1 4 rfl
  simp at this

/-- It fails for integers, too, with every transform. -/
theorem C125_integers (shape : List ℕ) (axis : ℤ) (k : FKind) (p : PatArg) : fftwResult shape .other axis k p = .error .typeError := by
  simp [fftwResult, fftValidate, Except.bind]

/-- A pair `(patience, time limit)` is used like a plain patience; a tuple of another length is refused. -/
theorem C125_tuple (shape : List ℕ) (d : FftDtype) (axis : ℤ) (k : FKind) (l : List PatV) :
    (l.length = 2 → fftwResult shape d axis k (.tuple l) = fftwResult shape d axis k (.val (.int 1))) ∧
    (l.length ≠ 2 → ∃ e, fftwResult shape d axis k (.tuple l) = .error e) := by
  refine ⟨fun h => ?_, fun h => ?_⟩
  · simp [fftwResult, fftValidate, validatePatience, h]
  · unfold fftwResult fftValidate
    split
    · exact ⟨_, rfl⟩
    split
    · exact ⟨_, rfl⟩
    split
    · exact ⟨_, rfl⟩
    · simp only [if_neg h]
      exact ⟨_, rfl⟩

example : ∃ e, fftwResult [4] .float64 (-1) .fft (.tuple []) = .error e := (C125_tuple [4] .float64 (-1) .fft []).2 (by simp)

/-- The inverse of the real transform gives the length back on this path if `n` is passed, and always if the length is even. -/
theorem C125_roundtrip (shape : List ℕ) (d : FftDtype) (hd : d = .float32 ∨ d = .float64) (axis : ℤ) (q : ℕ) (p : ℤ) (hp : p = 1 ∨ p = 2)
    (ha : axis = 0 ∨ axis = 1 ∨ axis = -1) (hq : AxisIs shape.length axis q) (hs : ∀ m ∈ shape, 0 < m) (n : Option ℕ)
    (hn : n = some (shape.getD q 0) ∨ (n = none ∧ shape.getD q 0 % 2 = 0)) :
    ((fftwResult shape d axis .rfft (.val (.int p))).bind fun r => fftwResult r.1 r.2 axis (.irfft n) (.val (.int p))) = .ok (shape, d) := by
  have hget : shape.getD q 0 = shape[q]'hq.1 := List.getD_eq_getElem _ _ hq.1
  have hpos : 0 < shape.getD q 0 := by rw [hget]; exact hs _ (List.getElem_mem _)
  have h1 := (C125_partial shape d axis q .rfft p hp ha hq ⟨hs, by rcases hd with rfl | rfl <;> simp, by simp [resultLen]⟩
    (shape.set q (resultLen (shape.getD q 0) .rfft), resultDtype d .rfft)).2 ⟨by rcases hd with rfl | rfl <;> simp, by simp, rfl⟩
  rw [h1]
  simp only [Except.bind]
  have hg2 : (shape.set q (resultLen (shape.getD q 0) .rfft)).getD q 0 = shape.getD q 0 / 2 + 1 := by
    rw [List.getD_eq_getElem _ _ (by simpa using hq.1)]; simp [resultLen]
  have hrl : resultLen (shape.getD q 0 / 2 + 1) (.irfft n) = shape.getD q 0 := by
    rcases hn with rfl | ⟨rfl, he⟩
    · rfl
    · simp only [resultLen]; omega
  rw [(C125_partial _ _ axis q (.irfft n) p hp ha (by simpa using hq) ⟨?_, by simp, ?_⟩ (shape, d)).2]
  · refine ⟨by rcases hd with rfl | rfl <;> simp [resultDtype], ?_, ?_⟩
    · intro m hm
      rw [hg2]
      rcases hn with rfl | ⟨rfl, he⟩
      · cases hm; rfl
      · cases hm
    · rw [hg2, hrl, List.set_set, hget, List.set_getElem_self]
      rcases hd with rfl | rfl <;> simp [resultDtype]
  · intro m hm
    rcases List.mem_or_eq_of_mem_set hm with h | h
    · exact hs m h
    · subst h; simp [resultLen]
  · rw [hg2, hrl]; exact hpos

/-- The hypotheses hold for a 2D array. -/
example : AxisIs [3, 8].length (-1) 1 ∧ ScipyAccepts [3, 8] .float32 1 .rfft ∧
    fftwResult [3, 8] .float32 (-1) .rfft (.val (.int 1)) = .ok ([3, 5], .complex64) :=
  ⟨⟨by simp, Or.inr (by simp)⟩, ⟨by simp, by simp, by simp [resultLen]⟩, rfl⟩

end Ssq
