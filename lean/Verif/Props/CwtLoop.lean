import Verif.Model.CwtLoop
import Verif.Props.CwtThreads

/-!
# C214 for `vectorized=False` and `cache_wavelet=False`, beside threads of any kind
-/
namespace Ssq

/-- The result of a call with `vectorized=False`: samples of its length for each of its scales, in order. -/
def Spec.LoopRight (c : TCall) (rows : List TFb) : Prop := rows = c.scales.map fun s => ⟨c.len, [s]⟩

/-- What a thread in the loop has done is right, whatever others do to the wavelet. -/
def LoopInv (c : TCall) : LPc → Prop
  | .sample _ left rows => ∃ pre, c.scales = pre ++ left ∧ rows = pre.map fun s => ⟨c.len, [s]⟩
  | .deriv _ left rows => ∃ pre, c.scales = pre ++ left ∧ rows = pre.map fun s => ⟨c.len, [s]⟩
  | .restore _ rows => Spec.LoopRight c rows
  | .done (.ok rows) => Spec.LoopRight c rows
  | _ => True

theorem loopInv_step (c : TCall) (p : LPc) (w : TWav) (h : LoopInv c p) : LoopInv c (lStep c p w).1 := by
  cases p with
  | start => trivial
  | setN N0 => exact ⟨[], rfl, rfl⟩
  | sample N0 left rows =>
    obtain ⟨pre, h1, h2⟩ := h
    cases left with
    | nil =>
      simp only [List.append_nil] at h1
      simp only [lStep, LoopInv, Spec.LoopRight]
      rw [h2, h1]
    | cons s l =>
      simp only [lStep]
      have h3 : ∃ pre, c.scales = pre ++ l ∧ rows ++ [⟨c.len, [s]⟩] = pre.map fun s => (⟨c.len, [s]⟩ : TFb) :=
        ⟨pre ++ [s], by simp [h1], by simp [h2]⟩
      by_cases hN : w.N = c.len
      · rw [if_pos hN, hN]
        split <;> exact h3
      · rw [if_neg hN]
        trivial
  | deriv N0 left rows =>
    simp only [lStep]
    split
    · exact h
    · trivial
  | restore N0 rows => exact h
  | done r => exact h

/-- The same for a thread with the vectorized path and `cache_wavelet=False`. -/
def UncachedInv (c : TCall) : TPc → Prop
  | .start => True
  | .setN _ => True
  | .readXi _ => True
  | .mul _ r => ∃ e, r = some e ∧ e.scales = c.scales
  | .deriv _ e => e.len = c.len ∧ e.scales = c.scales
  | .restore _ e => e.len = c.len ∧ e.scales = c.scales
  | .done (.ok e) => e.len = c.len ∧ e.scales = c.scales
  | .done (.error _) => True
  | _ => False

theorem uncachedInv_step (c : TCall) (hc : c.cached = false) (p : TPc) (w : TWav) (h : UncachedInv c p) :
    UncachedInv c (tStep c p w).1 := by
  cases p with
  | start => trivial
  | setN N0 => simp only [tStep, hc]; trivial
  | readXi N0 => exact ⟨_, rfl, rfl⟩
  | mul N0 r =>
    obtain ⟨e, rfl, h2⟩ := h
    simp only [tStep]
    split
    · rename_i hl
      split
      · exact ⟨hl, h2⟩
      · exact ⟨hl, h2⟩
    · trivial
  | deriv N0 e =>
    simp only [tStep]
    split
    · exact h
    · trivial
  | restore N0 e => exact h
  | done r => exact h
  | _ => exact h.elim

theorem mRun_snoc (calls : ℕ → TCall) (vec : ℕ → Bool) (of : ℕ → ℕ) (wav : ℕ → TWav) (l : List ℕ) (a : ℕ) :
    mRun calls vec of wav (l ++ [a]) = mSysStep calls of (mRun calls vec of wav l) a := by simp [mRun]

/-- What concerns one thread only is kept by steps of the others. -/
theorem mRun_inv (calls : ℕ → TCall) (vec : ℕ → Bool) (of : ℕ → ℕ) (wav : ℕ → TWav) (i : ℕ) (P : TPc ⊕ LPc → Prop)
    (h0 : P (if vec i then .inl .start else .inr .start)) (hs : ∀ p w, P p → P (mStep (calls i) p w).1) (sched : List ℕ) :
    P ((mRun calls vec of wav sched).pc i) := by
  induction sched using List.reverseRecOn with
  | nil => exact h0
  | append_singleton l a ih =>
    rw [mRun_snoc]
    unfold mSysStep
    by_cases hi : i = a
    · subst hi
      simp only [Function.update_self]
      exact hs _ _ ih
    · simp only []
      rw [Function.update_of_ne hi]
      exact ih

/-- **C214, `vectorized=False`**: never a wrong result. Whatever other threads do with the same wavelet — calls of any
kind, lengths and scales, under any schedule — a call that returns has used the samples of its own length and scales. (It
may raise: `C214_loop_raises`.) -/
theorem C214_loop_sound (calls : ℕ → TCall) (vec : ℕ → Bool) (of : ℕ → ℕ) (wav : ℕ → TWav) (sched : List ℕ) (i : ℕ)
    (hv : vec i = false) (rows : List TFb) (hd : (mRun calls vec of wav sched).pc i = .inr (.done (.ok rows))) :
    Spec.LoopRight (calls i) rows := by
  have := mRun_inv calls vec of wav i (fun p => match p with | .inl _ => False | .inr p => LoopInv (calls i) p)
    (by rw [hv]; trivial)
    (fun p w h => by
      cases p with
      | inl p => exact h.elim
      | inr p => exact loopInv_step _ p w h) sched
  rw [hd] at this
  exact this

/-- **C214, `cache_wavelet=False`**: never a wrong result either. -/
theorem C214_uncached_sound (calls : ℕ → TCall) (vec : ℕ → Bool) (of : ℕ → ℕ) (wav : ℕ → TWav) (sched : List ℕ) (i : ℕ)
    (hv : vec i = true) (hc : (calls i).cached = false) (e : TFb)
    (hd : (mRun calls vec of wav sched).pc i = .inl (.done (.ok e))) :
    e.len = (calls i).len ∧ e.scales = (calls i).scales := by
  have := mRun_inv calls vec of wav i (fun p => match p with | .inl p => UncachedInv (calls i) p | .inr _ => False)
    (by rw [hv]; trivial)
    (fun p w h => by
      cases p with
      | inl p => exact uncachedInv_step _ hc p w h
      | inr p => exact h.elim) sched
  rw [hd] at this
  exact this

/-- The invariant of a thread in the loop whose wavelet no other thread uses. -/
def LoopOwn (c : TCall) (n : ℕ) (w : TWav) : LPc → Prop
  | .start => w.N = n
  | .setN m => m = n
  | .sample m _ _ => m = n ∧ w.N = c.len
  | .deriv m _ _ => m = n ∧ w.N = c.len
  | .restore m _ => m = n
  | .done (.ok _) => w.N = n
  | .done (.error _) => False

theorem loopOwn_step (c : TCall) (n : ℕ) (w : TWav) (p : LPc) (h : LoopOwn c n w p) :
    LoopOwn c n (lStep c p w).2 (lStep c p w).1 := by
  cases p with
  | start => exact h
  | setN m => exact ⟨h, rfl⟩
  | sample m left rows =>
    cases left with
    | nil => exact h.1
    | cons s l =>
      simp only [lStep, if_pos h.2]
      split <;> exact h
  | deriv m left rows =>
    simp only [lStep, if_pos h.2]
    exact h
  | restore m rows => exact h
  | done r => exact h

/-- **C214, `vectorized=False`, a wavelet no other thread uses**: a call that ends returns its own samples, without an
exception, and leaves the length of the wavelet as it was. -/
theorem C214_loop_own_partial (calls : ℕ → TCall) (vec : ℕ → Bool) (of : ℕ → ℕ) (wav : ℕ → TWav) (sched : List ℕ) (i : ℕ)
    (hv : vec i = false) (hof : ∀ j, j ≠ i → of j ≠ of i) (r : Py (List TFb))
    (hd : (mRun calls vec of wav sched).pc i = .inr (.done r)) :
    ∃ rows, r = .ok rows ∧ Spec.LoopRight (calls i) rows ∧
      ((mRun calls vec of wav sched).wav (of i)).N = (wav (of i)).N := by
  have inv : ∀ sched : List ℕ, match (mRun calls vec of wav sched).pc i with
      | .inl _ => False
      | .inr p => LoopOwn (calls i) (wav (of i)).N ((mRun calls vec of wav sched).wav (of i)) p := by
    intro sched
    induction sched using List.reverseRecOn with
    | nil => simp [mRun, hv, LoopOwn]
    | append_singleton l a ih =>
      rw [mRun_snoc]
      unfold mSysStep
      by_cases hi : i = a
      · subst hi
        simp only [Function.update_self]
        generalize (mRun calls vec of wav l).pc i = p at ih ⊢
        cases p with
        | inl p => exact ih.elim
        | inr p => exact loopOwn_step _ _ _ _ ih
      · simp only []
        rw [Function.update_of_ne hi, Function.update_of_ne fun h => hof a (fun e => hi e.symm) h.symm]
        exact ih
  have h := inv sched
  rw [hd] at h
  cases r with
  | error e => exact h.elim
  | ok rows => exact ⟨rows, rfl, C214_loop_sound calls vec of wav sched i hv rows hd, h⟩

/-- **C214, `vectorized=False`, one wavelet of the length all calls need**: every call that ends returns its own samples,
whatever their scales. -/
theorem C214_loop_shared_partial (calls : ℕ → TCall) (of : ℕ → ℕ) (wav : ℕ → TWav) (sched : List ℕ) (i : ℕ) (n : ℕ)
    (hl : ∀ j, (calls j).len = n) (hw : ∀ k, (wav k).N = n) (r : Py (List TFb))
    (hd : (mRun calls (fun _ => false) of wav sched).pc i = .inr (.done r)) :
    ∃ rows, r = .ok rows ∧ Spec.LoopRight (calls i) rows := by
  have inv : ∀ sched : List ℕ, (∀ k, ((mRun calls (fun _ => false) of wav sched).wav k).N = n) ∧
      ∀ j, match (mRun calls (fun _ => false) of wav sched).pc j with
      | .inl _ => False
      | .inr p => LoopOwn (calls j) n { N := n } p := by
    intro sched
    induction sched using List.reverseRecOn with
    | nil => exact ⟨hw, fun j => rfl⟩
    | append_singleton l a ih =>
      obtain ⟨i1, i2⟩ := ih
      rw [mRun_snoc]
      unfold mSysStep
      have ha := i2 a
      generalize hp : (mRun calls (fun _ => false) of wav l).pc a = p at ha ⊢
      cases p with
      | inl p => exact ha.elim
      | inr p =>
        simp only [mStep] at ha ⊢
        have hs : (lStep (calls a) p ((mRun calls (fun _ => false) of wav l).wav (of a))).2.N = n ∧
            LoopOwn (calls a) n { N := n } (lStep (calls a) p ((mRun calls (fun _ => false) of wav l).wav (of a))).1 := by
          have hN := i1 (of a)
          have hln := hl a
          cases p with
          | start => exact ⟨hN, hN⟩
          | setN m => exact ⟨hln, ha, hln.symm⟩
          | sample m left rows =>
            cases left with
            | nil => exact ⟨hN, ha.1⟩
            | cons s l' =>
              simp only [lStep]
              rw [if_pos (hN.trans hln.symm)]
              refine ⟨hN, ?_⟩
              split <;> exact ha
          | deriv m left rows =>
            simp only [lStep]
            rw [if_pos (hN.trans hln.symm)]
            exact ⟨hN, ha⟩
          | restore m rows => exact ⟨ha, rfl⟩
          | done r => exact ⟨hN, ha⟩
        constructor
        · intro k
          by_cases hk : k = of a
          · rw [hk, Function.update_self]; exact hs.1
          · rw [Function.update_of_ne hk]; exact i1 k
        · intro j
          by_cases hj : j = a
          · rw [hj, Function.update_self]; exact hs.2
          · rw [Function.update_of_ne hj]; exact i2 j
  have h := (inv sched).2 i
  rw [hd] at h
  cases r with
  | error e => exact h.elim
  | ok rows => exact ⟨rows, rfl, C214_loop_sound calls _ of wav sched i rfl rows hd⟩

/-- How many steps a call with `vectorized=False` has left at most. -/
def LPc.rank (c : TCall) : LPc → ℕ
  | .start => 2 * c.scales.length + 4
  | .setN _ => 2 * c.scales.length + 3
  | .sample _ left _ => 2 * left.length + 2
  | .deriv _ left _ => 2 * left.length + 3
  | .restore _ _ => 1
  | .done _ => 0

theorem lrank_step (c : TCall) (p : LPc) (w : TWav) : (lStep c p w).1.rank c ≤ p.rank c - 1 := by
  cases p with
  | sample m left rows =>
    cases left with
    | nil => simp [lStep, LPc.rank]
    | cons s l =>
      simp only [lStep]
      split
      · split <;> (simp [LPc.rank]; try omega)
      · simp [LPc.rank]
  | deriv m left rows => simp only [lStep]; split <;> simp [LPc.rank]
  | start => simp [lStep, LPc.rank]
  | setN m => simp [lStep, LPc.rank]
  | restore m rows => simp [lStep, LPc.rank]
  | done r => simp [lStep, LPc.rank]

/-- No call blocks: after four steps and two for each scale it has ended. -/
theorem C214_loop_ends (calls : ℕ → TCall) (vec : ℕ → Bool) (of : ℕ → ℕ) (wav : ℕ → TWav) (sched : List ℕ) (i : ℕ)
    (hv : vec i = false) (h : 2 * (calls i).scales.length + 4 ≤ sched.count i) :
    ∃ r, (mRun calls vec of wav sched).pc i = .inr (.done r) := by
  have inv : ∀ sched : List ℕ, match (mRun calls vec of wav sched).pc i with
      | .inl _ => False
      | .inr p => p.rank (calls i) ≤ 2 * (calls i).scales.length + 4 - sched.count i := by
    intro sched
    induction sched using List.reverseRecOn with
    | nil => simp [mRun, hv, LPc.rank]
    | append_singleton l a ih =>
      rw [mRun_snoc]
      unfold mSysStep
      simp only []
      by_cases hi : i = a
      · subst hi
        rw [Function.update_self]
        generalize (mRun calls vec of wav l).pc i = p at ih ⊢
        cases p with
        | inl p => exact ih.elim
        | inr p =>
          simp only [mStep] at ih ⊢
          have := lrank_step (calls i) p ((mRun calls vec of wav l).wav (of i))
          rw [List.count_append, List.count_singleton_self]
          omega
      · rw [Function.update_of_ne hi, List.count_append, List.count_singleton, if_neg (by simpa using fun h : a = i => hi h.symm)]
        simpa using ih
  have := inv sched
  generalize (mRun calls vec of wav sched).pc i = p at this ⊢
  cases p with
  | inl p => exact this.elim
  | inr p =>
    cases p with
    | done r => exact ⟨r, rfl⟩
    | start => simp [LPc.rank] at this; omega
    | setN m => simp [LPc.rank] at this; omega
    | sample m left rows => simp [LPc.rank] at this; omega
    | deriv m left rows => simp [LPc.rank] at this; omega
    | restore m rows => simp [LPc.rank] at this; omega

/-- It may raise: two threads share a wavelet, and the second sets the length for its own signal while the first is in
its loop. -/
theorem C214_loop_raises :
    (mRun (fun i => { len := if i = 0 then 128 else 256, scales := [2, 4] }) (fun _ => false) (fun _ => 0)
      (fun _ => { N := 128 }) [0, 0, 0, 0, 1, 1, 0]).pc 0 = .inr (.done (.error .valueError)) := by
  simp [mRun, mSysStep, mStep, lStep, Function.update]

/-- The same with a vectorized call in the second thread. -/
theorem C214_mixed_raises :
    (mRun (fun i => { len := if i = 0 then 128 else 256, scales := [2, 4] }) (fun i => i == 1) (fun _ => 0)
      (fun _ => { N := 128 }) [0, 0, 0, 0, 1, 1, 0]).pc 0 = .inr (.done (.error .valueError)) := by
  simp [mRun, mSysStep, mStep, lStep, tStep, Function.update]

/-- Threads that are all vectorized behave as in the model without loops, step for step: what is proved there of results,
exceptions and the wavelets afterwards holds here. -/
theorem C214_all_vectorized (calls : ℕ → TCall) (of : ℕ → ℕ) (wav : ℕ → TWav) (sched : List ℕ) :
    (∀ i, (mRun calls (fun _ => true) of wav sched).pc i = .inl ((tRun calls of wav sched).pc i)) ∧
    (mRun calls (fun _ => true) of wav sched).wav = (tRun calls of wav sched).wav := by
  induction sched using List.reverseRecOn with
  | nil => exact ⟨fun i => rfl, rfl⟩
  | append_singleton l a ih =>
    obtain ⟨i1, i2⟩ := ih
    rw [mRun_snoc]
    have e : tRun calls of wav (l ++ [a]) = tSysStep calls of (tRun calls of wav l) a := by simp [tRun, List.foldl_append]
    rw [e]
    unfold mSysStep tSysStep
    simp only [i1, i2, mStep]
    refine ⟨fun i => ?_, trivial⟩
    by_cases hi : i = a
    · subst hi; simp
    · simp [Function.update_of_ne hi, i1]

/-- The hypotheses of `C214_loop_shared_partial`, `C214_loop_sound` and `C214_loop_ends` are met: two threads with
different scales share a wavelet and take turns. -/
example : ∃ rows, (mRun (fun i => { len := 128, scales := [2, 4 + i] }) (fun _ => false) (fun _ => 0) (fun _ => { N := 128 })
      ((List.range 16).map (· % 2))).pc 1 = .inr (.done (.ok rows)) ∧ rows = [⟨128, [2]⟩, ⟨128, [5]⟩] := by
  obtain ⟨r, hr⟩ := C214_loop_ends (fun i => { len := 128, scales := [2, 4 + i] }) (fun _ => false) (fun _ => 0)
    (fun _ => { N := 128 }) ((List.range 16).map (· % 2)) 1 rfl (by simp; decide)
  obtain ⟨rows, rfl, h⟩ := C214_loop_shared_partial (fun i => { len := 128, scales := [2, 4 + i] }) (fun _ => 0)
    (fun _ => { N := 128 }) _ 1 128 (fun _ => rfl) (fun _ => rfl) r hr
  refine ⟨rows, hr, ?_⟩
  rw [h]
  norm_num

/-- The hypotheses of `C214_loop_own_partial` are met: a thread of each kind, each with its own wavelet. -/
example : ∃ rows, (mRun (fun i => { len := 128 + i, scales := [2] }) (fun i => i == 0) id (fun _ => { N := 64 })
      ((List.range 16).map (· % 2))).pc 1 = .inr (.done (.ok rows)) ∧ rows = [⟨129, [2]⟩] := by
  obtain ⟨r, hr⟩ := C214_loop_ends (fun i => { len := 128 + i, scales := [2] }) (fun i => i == 0) id (fun _ => { N := 64 })
    ((List.range 16).map (· % 2)) 1 rfl (by decide)
  obtain ⟨rows, rfl, h, -⟩ := C214_loop_own_partial (fun i => { len := 128 + i, scales := [2] }) (fun i => i == 0) id
    (fun _ => { N := 64 }) _ 1 rfl (fun j hj => hj) r hr
  exact ⟨rows, hr, h⟩

/-- `C214_uncached_sound`: a call without cache, beside one in a loop that shares the wavelet. -/
example : ∃ e, (mRun (fun _ => { len := 128, scales := [2], cached := false }) (fun i => i == 0) (fun _ => 0)
      (fun _ => { N := 128 }) ((List.range 16).map (· % 2))).pc 0 = .inl (.done (.ok e)) ∧ e = ⟨128, [2]⟩ := by
  refine ⟨⟨128, [2]⟩, ?_, rfl⟩
  simp [List.range_succ, mRun, mSysStep, mStep, lStep, tStep, Function.update]

end Ssq
