import Verif.Model.Replace
import Mathlib.Tactic.Linarith
import Mathlib.Tactic.NormNum

/-!
# C63: in-place replacement
-/
namespace Ssq

/-- The kernels over any sequence of cells. -/
theorem replaceLoop_spec (sel : FVal → Prop) (rep : FVal) (x ref : NdView) (ps : List (List ℕ)) (S : List ℕ → Prop)
    (hps : ∀ p ∈ ps, S p)
    (hinj : ∀ p q, S p → S q → x.addr p = x.addr q → p = q)
    (hdis : ∀ p q, S p → S q → x.addr p = ref.addr q → p = q) : ∀ m : ℕ → FVal,
    (∀ p ∈ ps, (sel (m (ref.addr p)) → replaceLoop sel rep x ref m ps (x.addr p) = rep) ∧
      (¬ sel (m (ref.addr p)) → replaceLoop sel rep x ref m ps (x.addr p) = m (x.addr p))) ∧
    (∀ a, (∀ p ∈ ps, a ≠ x.addr p) → replaceLoop sel rep x ref m ps a = m a) := by
  classical
  induction ps with
  | nil => intro m; simp [replaceLoop]
  | cons q ps ih =>
    intro m
    obtain ⟨ih1, ih2⟩ := ih (fun p hp => hps p (List.mem_cons_of_mem _ hp)) (replaceStep sel rep x ref m q)
    have e : replaceLoop sel rep x ref m (q :: ps) = replaceLoop sel rep x ref (replaceStep sel rep x ref m q) ps := rfl
    rw [e]
    have hSq := hps q List.mem_cons_self
    have other : ∀ a, a ≠ x.addr q → replaceStep sel rep x ref m q a = m a := by
      intro a ha
      unfold replaceStep
      split_ifs
      · rw [Function.update_of_ne ha]
      · rfl
    have own : sel (m (ref.addr q)) → replaceStep sel rep x ref m q (x.addr q) = rep := by
      intro h; unfold replaceStep; rw [if_pos h, Function.update_self]
    have nown : ¬ sel (m (ref.addr q)) → replaceStep sel rep x ref m q = m := by
      intro h; unfold replaceStep; rw [if_neg h]
    constructor
    · intro p hp
      have hSp := hps p hp
      by_cases hpp : p ∈ ps
      · obtain ⟨k1, k2⟩ := ih1 p hpp
        by_cases hpq : p = q
        · subst hpq
          by_cases hs : sel (m (ref.addr p))
          · refine ⟨fun _ => ?_, fun h => absurd hs h⟩
            by_cases h' : sel (replaceStep sel rep x ref m p (ref.addr p))
            · exact k1 h'
            · rw [k2 h']; exact own hs
          · refine ⟨fun h => absurd h hs, fun _ => ?_⟩
            rw [nown hs] at k2 ⊢
            exact k2 hs
        · have h1 : replaceStep sel rep x ref m q (ref.addr p) = m (ref.addr p) :=
            other _ (fun h => hpq (hdis q p hSq hSp h.symm).symm)
          have h2 : replaceStep sel rep x ref m q (x.addr p) = m (x.addr p) :=
            other _ (fun h => hpq (hinj p q hSp hSq h))
          rw [h1, h2] at k2
          rw [h1] at k1
          exact ⟨k1, k2⟩
      · have hpq : p = q := by
          rcases List.mem_cons.1 hp with h | h
          · exact h
          · exact absurd h hpp
        subst hpq
        have hk : replaceLoop sel rep x ref (replaceStep sel rep x ref m p) ps (x.addr p) =
            replaceStep sel rep x ref m p (x.addr p) := by
          apply ih2
          intro r hr h
          exact hpp ((hinj p r hSp (hps r (List.mem_cons_of_mem _ hr)) h) ▸ hr)
        rw [hk]
        exact ⟨own, fun h => by rw [nown h]⟩
    · intro a ha
      rw [ih2 a (fun p hp => ha p (List.mem_cons_of_mem _ hp))]
      exact other a (ha q List.mem_cons_self)

namespace Spec

/-- What replacing means: entry `p` of `x` becomes `rep` where `ref` was selected, everything else in memory is as before, and the
result is `x` itself (same shape, same memory). -/
def Replaced (sel : FVal → Prop) (rep : FVal) (x ref : NdView) (m : ℕ → FVal) (r : NdView × (ℕ → FVal)) : Prop :=
  (∀ p, InShape x.shape p → (sel (m (ref.addr p)) → r.2 (x.addr p) = rep) ∧
    (¬ sel (m (ref.addr p)) → r.2 (x.addr p) = m (x.addr p))) ∧
  (∀ a, (∀ p, InShape x.shape p → a ≠ x.addr p) → r.2 a = m a) ∧
  r.1.shape = x.shape ∧ ∀ p, InShape x.shape p → r.1.addr p = x.addr p

/-- Entries of an array occupy different memory cells. -/
def DistinctCells (x : NdView) : Prop := ∀ p q, InShape x.shape p → InShape x.shape q → x.addr p = x.addr q → p = q

/-- `ref` overlaps `x` at most entry by entry (it is `x`, or elsewhere). -/
def NoCross (x ref : NdView) : Prop := ∀ p q, InShape x.shape p → InShape x.shape q → x.addr p = ref.addr q → p = q

end Spec
open Spec

theorem mem_idx3 (a b c : ℕ) (p : List ℕ) : p ∈ idx3 [a, b, c] ↔ InShape [a, b, c] p := by
  simp only [idx3, List.mem_flatMap, List.mem_map, List.mem_range]
  constructor
  · rintro ⟨i, hi, j, hj, k, hk, rfl⟩
    exact ⟨hi, hj, hk, trivial⟩
  · intro h
    match p, h with
    | [i, j, k], ⟨hi, hj, hk, _⟩ => exact ⟨i, hi, j, hj, k, hk, rfl⟩

theorem InShape.length : ∀ {s p : List ℕ}, InShape s p → p.length = s.length
  | [], [], _ => rfl
  | _ :: _, _ :: _, h => by simp only [List.length_cons, InShape.length h.2]

/-- The expanded array: same entries, index padded with zeros. -/
theorem to3_facts (x : NdView) (hx : x.shape.length ≤ 3) :
    x.to3.shape.length = 3 ∧
    (∀ p, InShape x.shape p → p ++ List.replicate (3 - x.shape.length) 0 ∈ idx3 x.to3.shape) ∧
    (∀ p, p.length = x.shape.length → x.to3.addr (p ++ List.replicate (3 - x.shape.length) 0) = x.addr p) ∧
    (∀ q ∈ idx3 x.to3.shape, ∃ p, InShape x.shape p ∧ q = p ++ List.replicate (3 - x.shape.length) 0) ∧
    (x.to3.downTo x.shape.length).shape = x.shape ∧
    (∀ p, p.length = x.shape.length → (x.to3.downTo x.shape.length).addr p = x.addr p) := by
  obtain ⟨sh, ad⟩ := x
  match sh, hx with
  | [], _ =>
    refine ⟨rfl, ?_, ?_, ?_, rfl, ?_⟩
    · intro p hp
      match p, hp with
      | [], _ => exact (mem_idx3 1 1 1 _).2 ⟨by norm_num, by norm_num, by norm_num, trivial⟩
    · intro p hp
      match p, hp with
      | [], _ => rfl
    · intro q hq
      have := (mem_idx3 1 1 1 q).1 hq
      match q, this with
      | [i, j, k], ⟨hi, hj, hk, _⟩ => exact ⟨[], trivial, by simp [Nat.lt_one_iff.1 hi, Nat.lt_one_iff.1 hj, Nat.lt_one_iff.1 hk, List.replicate]⟩
    · intro p hp
      match p, hp with
      | [], _ => rfl
  | [a], _ =>
    refine ⟨rfl, ?_, ?_, ?_, rfl, ?_⟩
    · intro p hp
      match p, hp with
      | [i], hp => exact (mem_idx3 a 1 1 _).2 ⟨hp.1, by norm_num, by norm_num, trivial⟩
    · intro p hp
      match p, hp with
      | [i], _ => rfl
    · intro q hq
      have := (mem_idx3 a 1 1 q).1 hq
      match q, this with
      | [i, j, k], ⟨hi, hj, hk, _⟩ => exact ⟨[i], ⟨hi, trivial⟩, by simp [Nat.lt_one_iff.1 hj, Nat.lt_one_iff.1 hk, List.replicate]⟩
    · intro p hp
      match p, hp with
      | [i], _ => rfl
  | [a, b], _ =>
    refine ⟨rfl, ?_, ?_, ?_, rfl, ?_⟩
    · intro p hp
      match p, hp with
      | [i, j], hp => exact (mem_idx3 a b 1 _).2 ⟨hp.1, hp.2.1, by norm_num, trivial⟩
    · intro p hp
      match p, hp with
      | [i, j], _ => rfl
    · intro q hq
      have := (mem_idx3 a b 1 q).1 hq
      match q, this with
      | [i, j, k], ⟨hi, hj, hk, _⟩ => exact ⟨[i, j], ⟨hi, hj, trivial⟩, by simp [Nat.lt_one_iff.1 hk]⟩
    · intro p hp
      match p, hp with
      | [i, j], _ => rfl
  | [a, b, c], _ =>
    refine ⟨rfl, ?_, ?_, ?_, rfl, ?_⟩
    · intro p hp
      match p, hp with
      | [i, j, k], hp => exact (mem_idx3 a b c _).2 ⟨hp.1, hp.2.1, hp.2.2.1, trivial⟩
    · intro p hp
      match p, hp with
      | [i, j, k], _ => rfl
    · intro q hq
      exact ⟨q, (mem_idx3 a b c q).1 hq, by simp⟩
    · intro p hp
      match p, hp with
      | [i, j, k], _ => rfl

theorem replaceAt_spec (sel : FVal → Prop) (rep : FVal) (m : ℕ → FVal) (x ref : NdView) (hx : x.shape.length ≤ 3)
    (hr : ref.shape = x.shape) (hd : DistinctCells x) (hn : NoCross x ref) :
    ∃ r, replaceAt sel rep m (.arr x) (.arr ref) = .ok r ∧ Replaced sel rep x ref m r := by
  obtain ⟨x1, x2, x3, x4, x5, x6⟩ := to3_facts x hx
  obtain ⟨r1, r2, r3, r4, r5, r6⟩ := to3_facts ref (hr ▸ hx)
  set n := x.shape.length with hnn
  rw [hr] at r3
  have hshape : ref.shape.length = n := by rw [hr]
  have inj : ∀ p q, p ∈ idx3 x.to3.shape → q ∈ idx3 x.to3.shape → x.to3.addr p = x.to3.addr q → p = q := by
    intro p q hp hq h
    obtain ⟨p', hp', rfl⟩ := x4 p hp
    obtain ⟨q', hq', rfl⟩ := x4 q hq
    rw [x3 p' hp'.length, x3 q' hq'.length] at h
    rw [hd p' q' hp' hq' h]
  have dis : ∀ p q, p ∈ idx3 x.to3.shape → q ∈ idx3 x.to3.shape → x.to3.addr p = ref.to3.addr q → p = q := by
    intro p q hp hq h
    obtain ⟨p', hp', rfl⟩ := x4 p hp
    obtain ⟨q', hq', rfl⟩ := x4 q hq
    rw [x3 p' hp'.length, r3 q' hq'.length] at h
    rw [hn p' q' hp' hq' h]
  obtain ⟨k1, k2⟩ := replaceLoop_spec sel rep x.to3 ref.to3 (idx3 x.to3.shape) (· ∈ idx3 x.to3.shape) (fun _ h => h) inj dis m
  refine ⟨(x.to3.downTo n, replaceLoop sel rep x.to3 ref.to3 m (idx3 x.to3.shape)), ?_, ?_, ?_, x5, fun p hp => x6 p hp.length⟩
  · have h3 : ¬ (3 < x.to3.shape.length ∨ 3 < ref.to3.shape.length) := by rw [x1, r1]; norm_num
    simp only [replaceAt, replaceArgs, if_neg h3, bind, Except.bind, pure, Except.pure]
    rfl
  · intro p hp
    have := k1 _ (x2 p hp)
    rw [x3 p hp.length, r3 p hp.length] at this
    exact this
  · intro a ha
    apply k2
    intro q hq
    obtain ⟨p, hp, rfl⟩ := x4 q hq
    rw [x3 p hp.length]
    exact ha p hp

/-- C63 in full: whatever arrays of the same shape are passed, overlapping views included. -/
def C63_full : Prop := ∀ (sel : FVal → Prop) (rep : FVal) (m : ℕ → FVal) (x ref : NdView), x.shape.length ≤ 3 →
  ref.shape = x.shape → DistinctCells x → ∃ r, replaceAt sel rep m (.arr x) (.arr ref) = .ok r ∧ Replaced sel rep x ref m r

/-- `replace_at_inf(a[1:], a[:-1])` for `a = [inf, inf, 1]`: the last entry should become 0 and stays 1. -/
theorem C63_refuted : ¬ C63_full := fun h => by
  classical
  let x : NdView := ⟨[2], fun p => p.headD 0 + 1⟩
  let ref : NdView := ⟨[2], fun p => p.headD 0⟩
  let m : ℕ → FVal := fun a => if a < 2 then .pinf else .fin 1
  obtain ⟨r, h1, h2, -⟩ := h FVal.isInf (.fin 0) m x ref (by simp [x]) rfl (by
    intro p q hp hq e
    match p, q, hp, hq with
    | [i], [j], _, _ => simp only [x, List.headD_cons] at e; simp; omega)
  have h3 := (h2 [1] ⟨by norm_num, trivial⟩).1 (by simp [m, ref, FVal.isInf])
  have e : replaceAt FVal.isInf (.fin 0) m (.arr x) (.arr ref) =
      .ok (x.to3.downTo 1, replaceLoop FVal.isInf (.fin 0) x.to3 ref.to3 m [[0, 0, 0], [1, 0, 0]]) := rfl
  rw [e] at h1
  cases h1
  have s1 : replaceStep FVal.isInf (.fin 0) x.to3 ref.to3 m [0, 0, 0] = Function.update m 1 (.fin 0) := by
    unfold replaceStep
    rw [if_pos]
    · rfl
    · change (m 0).isInf
      simp [m, FVal.isInf]
  have s2 : replaceStep FVal.isInf (.fin 0) x.to3 ref.to3 (Function.update m 1 (.fin 0)) [1, 0, 0] = Function.update m 1 (.fin 0) := by
    unfold replaceStep
    rw [if_neg]
    change ¬ (Function.update m 1 (.fin 0) 1).isInf
    simp [FVal.isInf]
  simp only [replaceLoop, List.foldl, s1, s2] at h3
  change Function.update m 1 (.fin 0) 2 = FVal.fin 0 at h3
  simp [m, Function.update] at h3

/-- **C63** for the four `replace_at_*` functions, with a reference that is elsewhere in memory. -/
theorem C63_replace_partial (rep value : FVal) (m : ℕ → FVal) (x ref : NdView) (hx : x.shape.length ≤ 3)
    (hr : ref.shape = x.shape) (hd : DistinctCells x) (hn : NoCross x ref) :
    (∃ r, replaceAtInfOrNan rep m (.arr x) (.arr ref) = .ok r ∧ Replaced (fun v => v = .pinf ∨ v = .ninf ∨ v = .nan) rep x ref m r) ∧
    (∃ r, replaceAtInf rep m (.arr x) (.arr ref) = .ok r ∧ Replaced (fun v => v = .pinf ∨ v = .ninf) rep x ref m r) ∧
    (∃ r, replaceAtNan rep m (.arr x) (.arr ref) = .ok r ∧ Replaced (fun v => v = .nan) rep x ref m r) ∧
    (∃ r, replaceAtValue value rep m (.arr x) (.arr ref) = .ok r ∧ Replaced (fun v => v = value ∧ value ≠ .nan) rep x ref m r) := by
  have e1 : (fun v : FVal => v.isInf ∨ v.isNan) = fun v => v = .pinf ∨ v = .ninf ∨ v = .nan := by
    funext v; cases v <;> simp [FVal.isInf, FVal.isNan]
  have e2 : FVal.isInf = fun v => v = .pinf ∨ v = .ninf := by funext v; cases v <;> simp [FVal.isInf]
  have e3 : FVal.isNan = fun v => v = .nan := by funext v; cases v <;> simp [FVal.isNan]
  have e4 : (fun v : FVal => v.eqv value) = fun v => v = value ∧ value ≠ .nan := by
    funext v; cases v <;> cases value <;> simp [FVal.eqv]
  unfold replaceAtInfOrNan replaceAtInf replaceAtNan replaceAtValue
  rw [e1, e2, e3, e4]
  exact ⟨replaceAt_spec _ rep m x ref hx hr hd hn, replaceAt_spec _ rep m x ref hx hr hd hn,
    replaceAt_spec _ rep m x ref hx hr hd hn, replaceAt_spec _ rep m x ref hx hr hd hn⟩

/-- Without a reference the array is its own reference. -/
theorem C63_self (sel : FVal → Prop) (rep : FVal) (m : ℕ → FVal) (x : NdView) (hx : x.shape.length ≤ 3) (hd : DistinctCells x) :
    (∃ r, replaceAt sel rep m (.arr x) .none = .ok r ∧ Replaced sel rep x x m r) :=
  replaceAt_spec sel rep m x x hx rfl hd hd

/-- Wrong arguments are rejected and leave memory alone (no memory is returned). -/
theorem C63_rejects (sel : FVal → Prop) (rep : FVal) (m : ℕ → FVal) :
    (∀ x : NdView, 3 < x.shape.length → replaceAt sel rep m (.arr x) .none = .error .valueError) ∧
    (∀ ref, replaceAt sel rep m .other ref = .error .typeError) ∧
    (∀ ref, replaceAt sel rep m .noNdim ref = .error .attributeError) ∧
    (∀ x, replaceAt sel rep m (.arr x) .other = .error .typeError) ∧
    (∀ x, replaceAt sel rep m (.arr x) .noNdim = .error .typeError) := by
  refine ⟨?_, fun _ => rfl, fun _ => rfl, fun _ => rfl, fun _ => rfl⟩
  intro x hx
  have h0 : 3 - x.shape.length = 0 := by omega
  have : x.to3 = x := by simp [NdView.to3, h0]
  simp only [replaceAt, replaceArgs, this, hx, true_or, if_true, bind, Except.bind]

/-- A contiguous 2D array meets the hypotheses, with a reference stored after it. -/
example : DistinctCells ⟨[2, 3], fun p => p.getD 0 0 * 3 + p.getD 1 0⟩ ∧
    NoCross ⟨[2, 3], fun p => p.getD 0 0 * 3 + p.getD 1 0⟩ ⟨[2, 3], fun p => 6 + (p.getD 0 0 * 3 + p.getD 1 0)⟩ := by
  constructor
  · intro p q hp hq e
    match p, q, hp, hq with
    | [i, j], [k, l], ⟨h1, h2, _⟩, ⟨h3, h4, _⟩ =>
      simp at e ⊢; omega
  · intro p q hp hq e
    match p, q, hp, hq with
    | [i, j], [k, l], ⟨h1, h2, _⟩, ⟨h3, h4, _⟩ =>
      simp at e; omega

/-- `replace_under_abs` on 2D arrays, in whatever order the cells are visited: entries of `x` where `|ref| < value` are replaced, the
rest of memory is kept. -/
theorem C63_under_abs (value rep : FVal) (m : ℕ → FVal) (x ref : NdView) (hx : x.shape.length = 2) (hr : ref.shape = x.shape)
    (hd : DistinctCells x) (hn : NoCross x ref) (order : List (List ℕ)) (ho : ∀ p, p ∈ order ↔ InShape x.shape p) :
    ∃ m', replaceUnderAbs value rep m (.arr x) (.arr ref) order = .ok m' ∧
      (∀ p, InShape x.shape p → ((m (ref.addr p)).abs.lt value → m' (x.addr p) = rep) ∧
        (¬ (m (ref.addr p)).abs.lt value → m' (x.addr p) = m (x.addr p))) ∧
      (∀ a, (∀ p, InShape x.shape p → a ≠ x.addr p) → m' a = m a) := by
  obtain ⟨k1, k2⟩ := replaceLoop_spec (fun u => u.abs.lt value) rep x ref order (InShape x.shape) (fun p => (ho p).1) hd hn m
  refine ⟨_, ?_, fun p hp => k1 p ((ho p).2 hp), fun a ha => k2 a fun p hp => ha p ((ho p).1 hp)⟩
  unfold replaceUnderAbs
  simp only
  rw [if_pos ⟨hx, hr ▸ hx⟩]

/-- What "under" means: NaN and infinite references are never under a finite value, finite ones by magnitude; nothing is under NaN. -/
theorem C63_under_abs_cases (v value : FVal) :
    v.abs.lt value ↔ ∃ a, v = .fin a ∧ ((∃ b, value = .fin b ∧ |a| < b) ∨ value = .pinf) := by
  cases v <;> cases value <;> simp [FVal.abs, FVal.lt]

/-- Although `ref=None` is the documented default, the call then fails. -/
theorem C63_under_abs_default (value rep : FVal) (m : ℕ → FVal) (x : RArg) (order : List (List ℕ)) :
    replaceUnderAbs value rep m x .none order = .error .exception := by
  cases x <;> rfl

/-- `zero_denormals` on a contiguous array: exactly the entries with magnitude below the threshold become 0. -/
theorem C63_zero_denormals (tiny : ℝ) (m : ℕ → FVal) (x : NdView) (hd : DistinctCells x) (order : List (List ℕ))
    (ho : ∀ p, p ∈ order ↔ InShape x.shape p) :
    (∀ p, InShape x.shape p →
      ((∃ a, m (x.addr p) = .fin a ∧ |a| < tiny) → zeroDenormalsAt tiny true m x order (x.addr p) = .fin 0) ∧
      ((¬ ∃ a, m (x.addr p) = .fin a ∧ |a| < tiny) → zeroDenormalsAt tiny true m x order (x.addr p) = m (x.addr p))) ∧
    (∀ a, (∀ p, InShape x.shape p → a ≠ x.addr p) → zeroDenormalsAt tiny true m x order a = m a) := by
  have e : (fun u : FVal => u.lt (.fin tiny) ∧ (FVal.fin (-tiny)).lt u) = fun u => ∃ a, u = .fin a ∧ |a| < tiny := by
    funext u
    cases u <;> simp [FVal.lt, abs_lt, and_comm]
  unfold zeroDenormalsAt
  simp only [if_true]
  rw [e]
  obtain ⟨k1, k2⟩ := replaceLoop_spec (fun u => ∃ a, u = .fin a ∧ |a| < tiny) (.fin 0) x x order (InShape x.shape) (fun p => (ho p).1) hd hd m
  exact ⟨fun p hp => k1 p ((ho p).2 hp), fun a ha => k2 a fun p hp => ha p ((ho p).1 hp)⟩

/-- On a non-contiguous array it has no effect: denormals stay. -/
theorem C63_zero_denormals_strided (tiny : ℝ) (m : ℕ → FVal) (x : NdView) (order : List (List ℕ)) :
    zeroDenormalsAt tiny false m x order = m := rfl

end Ssq
