import Verif.Lemmas.Grid
import Verif.Spec.Squeeze

/-!
# C16–C25: the synchrosqueezing kernels
-/
namespace Ssq
open Finset

/-! ## C21: schedule independence -/

/-- **C21.** For any element type, any (not necessarily associative or commutative) addition, and any
loop body in which iteration `j` of the parallel loop only updates column `j`: every interleaving of the
individual loads and stores of the parallel iterations leaves exactly the array computed by the
serial loop nest. -/
theorem C21_schedule {α : Type} (add : α → α → α) (M N : ℕ) (body : ℕ → ℕ → Option (AddOp α))
    (hcol : ∀ i j o, body i j = some o → o.col = j) (sched : List (Micro α))
    (hs : IsParRun M N body sched) (out : ℤ → ℕ → α) (reg : ℕ → α) :
    (sched.foldl (Mem.step add) ⟨out, reg⟩).out = runOps add out (serialOps M N body) :=
  par_eq_serial add body hcol M N sched hs out reg

/-- **C21** for the `_indexed_sum_*_par` kernels, with arbitrary element type, addition and
multiplication, and whatever row index the arithmetic produces. -/
theorem C21_indexed_sum {α β : Type} (add : α → α → α) (mul : α → β → α) (bin : ℝ → ℤ) (omax : ℤ)
    (flipud : Bool) (Wx : ℕ → ℕ → α) (w : ℕ → ℕ → Phase) (const : ℕ → β) (M N : ℕ)
    (sched : List (Micro α))
    (hs : IsParRun M N (indexedSumBody mul bin omax flipud Wx w const) sched)
    (out : ℤ → ℕ → α) (reg : ℕ → α) :
    (sched.foldl (Mem.step add) ⟨out, reg⟩).out =
      runOps add out (serialOps M N (indexedSumBody mul bin omax flipud Wx w const)) :=
  C21_schedule add M N _ (indexedSumBody_cols mul bin omax flipud Wx w const) sched hs out reg

/-- **C21** for `indexed_sum(a, k)`. -/
theorem C21_indexed_sum_simple {α : Type} (add : α → α → α) (a : ℕ → ℕ → α) (k : ℕ → ℕ → ℤ)
    (M N : ℕ) (sched : List (Micro α)) (hs : IsParRun M N (indexedSumSimpleBody a k) sched)
    (out : ℤ → ℕ → α) (reg : ℕ → α) :
    (sched.foldl (Mem.step add) ⟨out, reg⟩).out =
      runOps add out (serialOps M N (indexedSumSimpleBody a k)) :=
  C21_schedule add M N _ (indexedSumSimpleBody_cols a k) sched hs out reg

/-- **C21** for `indexed_sum_onfly` as called by the user. -/
theorem C21_onfly (d : Device) (th : ℝ) (M N : ℕ) (out : ℤ → ℕ → ℂ) (Wx : ℕ → ℕ → ℂ)
    (w : ℕ → ℕ → Phase) (v : List ℝ) (const : ConstArg) (logscale flipud : Bool)
    (body : ℕ → ℕ → Option (AddOp ℂ)) (hb : onflyBody d th M Wx w v const logscale flipud = .ok body)
    (sched : List (Micro ℂ)) (hs : IsParRun M N body sched) (reg : ℕ → ℂ) :
    indexedSumOnfly d th M N out Wx w v const logscale flipud =
      .ok (sched.foldl (Mem.step (· + ·)) ⟨out, reg⟩).out := by
  have hc : BodyCols body := by
    unfold onflyBody at hb
    simp only [bind_eq_ok] at hb
    obtain ⟨c, _, p, _, hb⟩ := hb
    simp only [pure_eq_ok, Except.ok.injEq] at hb
    rw [← hb]; exact indexedSumBody_cols _ _ _ _ _ _ _
  rw [C21_schedule (· + ·) M N body hc sched hs]
  simp only [indexedSumOnfly, hb, ok_bind, pure_eq_ok]

/-- **C21** for `ssqueeze_fast`. -/
theorem C21_fast (d : Device) (th : ℝ) (M N : ℕ) (out : ℤ → ℕ → ℂ) (Wx dWx : ℕ → ℕ → ℂ)
    (v : List ℝ) (const : ConstArg) (logscale flipud : Bool) (gamma : ℝ) (Sfs : Option (ℕ → ℝ))
    (body : ℕ → ℕ → Option (AddOp ℂ))
    (hb : fastBody d th M Wx dWx v const logscale flipud gamma Sfs = .ok body)
    (sched : List (Micro ℂ)) (hs : IsParRun M N body sched) (reg : ℕ → ℂ) :
    ssqueezeFast d th M N out Wx dWx v const logscale flipud gamma Sfs =
      .ok (sched.foldl (Mem.step (· + ·)) ⟨out, reg⟩).out := by
  have hc : BodyCols body := by
    unfold fastBody at hb
    simp only [bind_eq_ok] at hb
    obtain ⟨c, _, p, _, hb⟩ := hb
    split at hb
    · simp only [pure_eq_ok, Except.ok.injEq] at hb
      rw [← hb]; exact ssqCwtBody_cols _ _ _ _ _ _ _
    · split at hb
      · simp only [pure_eq_ok, Except.ok.injEq] at hb
        rw [← hb]; exact ssqStftBody_cols _ _ _ _ _ _ _ _
      · simp at hb
  rw [C21_schedule (· + ·) M N body hc sched hs]
  simp only [ssqueezeFast, hb, ok_bind, pure_eq_ok]

/-- Non-vacuity: a genuinely interleaved run of two columns with two rows each, in which
column 1's load happens between column 0's load and store. -/
example : IsParRun 2 2 (indexedSumSimpleBody (fun i j => i + 10 * j) (fun _ _ => 0))
    [.load 0 0, .load 0 1, .store 0 1 10, .store 0 0 0, .load 0 1, .load 0 0, .store 0 0 1,
     .store 0 1 11] := by
  intro c
  by_cases h0 : c = 0
  · subst h0; rfl
  by_cases h1 : c = 1
  · subst h1; rfl
  have : ¬ c < 2 := by omega
  simp [this, Micro.col, Ne.symm h0, Ne.symm h1]

/-! ## Common: what a kernel run produces -/

theorem onfly_ok {d : Device} {th : ℝ} {M N : ℕ} {out : ℤ → ℕ → ℂ} {Wx : ℕ → ℕ → ℂ}
    {w : ℕ → ℕ → Phase} {v : List ℝ} {const : ConstArg} {logscale flipud : Bool} {Tx : ℤ → ℕ → ℂ}
    (h : indexedSumOnfly d th M N out Wx w v const logscale flipud = .ok Tx) :
    ∃ c p, constArr M const = .ok c ∧ processSsqParams th v logscale = .ok p ∧
      ∀ r, ∀ j < N, Tx r j = out r j + ∑ i ∈ range M,
        match w i j with
        | .inf => 0
        | .fin x => if flipRow flipud ((M : ℤ) - 1) (binTP d p ((M : ℤ) - 1) x) = r
            then Wx i j * ((c.getD i 0 : ℝ) : ℂ) else 0 := by
  unfold indexedSumOnfly onflyBody at h
  simp only [bind_eq_ok, pure_eq_ok, Except.ok.injEq] at h
  obtain ⟨body, ⟨c, hc, p, hp, rfl⟩, rfl⟩ := h
  refine ⟨c, p, hc, hp, ?_⟩
  intro r j hj
  rw [runOps_serial _ (indexedSumBody_cols _ _ _ _ _ _ _) M N j hj]
  congr 1
  apply sum_congr rfl
  intro i _
  unfold indexedSumBody contrib
  rcases w i j with _ | x <;> rfl

open Classical in
theorem fast_cwt_ok {d : Device} {th : ℝ} {M N : ℕ} {out : ℤ → ℕ → ℂ} {Wx dWx : ℕ → ℕ → ℂ}
    {v : List ℝ} {const : ConstArg} {logscale flipud : Bool} {gamma : ℝ} {Tx : ℤ → ℕ → ℂ}
    (h : ssqueezeFast d th M N out Wx dWx v const logscale flipud gamma none = .ok Tx) :
    ∃ c p, constArr M const = .ok c ∧ processSsqParams th v logscale = .ok p ∧
      ∀ r, ∀ j < N, Tx r j = out r j + ∑ i ∈ range M,
        if gamma < ‖Wx i j‖ ∧ flipRow flipud ((M : ℤ) - 1)
            (binF d p ((M : ℤ) - 1) (cwtFreq (Wx i j) (dWx i j))) = r
        then Wx i j * ((c.getD i 0 : ℝ) : ℂ) else 0 := by
  unfold ssqueezeFast fastBody at h
  simp only [bind_eq_ok, pure_eq_ok, Except.ok.injEq] at h
  obtain ⟨body, ⟨c, hc, p, hp, rfl⟩, rfl⟩ := h
  refine ⟨c, p, hc, hp, ?_⟩
  intro r j hj
  rw [runOps_serial _ (ssqCwtBody_cols _ _ _ _ _ _ _) M N j hj]
  congr 1
  apply sum_congr rfl
  intro i _
  unfold ssqCwtBody contrib
  by_cases hg : gamma < ‖Wx i j‖ <;> simp [hg]

open Classical in
theorem fast_stft_ok {d : Device} {th : ℝ} {M N : ℕ} {out : ℤ → ℕ → ℂ} {Wx dWx : ℕ → ℕ → ℂ}
    {v : List ℝ} {const : ConstArg} {logscale flipud : Bool} {gamma : ℝ} {f : ℕ → ℝ}
    {Tx : ℤ → ℕ → ℂ}
    (h : ssqueezeFast d th M N out Wx dWx v const logscale flipud gamma (some f) = .ok Tx) :
    ∃ c vmin dv, constArr M const = .ok c ∧ processSsqParams th v logscale = .ok (.lin vmin dv) ∧
      ∀ r, ∀ j < N, Tx r j = out r j + ∑ i ∈ range M,
        if gamma < ‖Wx i j‖ ∧ flipRow flipud ((M : ℤ) - 1)
            (binF d (.lin vmin dv) ((M : ℤ) - 1) (stftFreq (f i) (Wx i j) (dWx i j))) = r
        then Wx i j * ((c.getD i 0 : ℝ) : ℂ) else 0 := by
  unfold ssqueezeFast fastBody at h
  simp only [bind_eq_ok] at h
  obtain ⟨body, ⟨c, hc, p, hp, hb⟩, h⟩ := h
  rcases p with ⟨vmin, dv⟩ | _ | _
  · simp only [pure_eq_ok, Except.ok.injEq] at hb h
    subst hb h
    refine ⟨c, vmin, dv, hc, hp, ?_⟩
    intro r j hj
    rw [runOps_serial _ (ssqStftBody_cols _ _ _ _ _ _ _ _) M N j hj]
    congr 1
    apply sum_congr rfl
    intro i _
    unfold ssqStftBody contrib
    by_cases hg : gamma < ‖Wx i j‖ <;> simp [hg]
  · simp at hb
  · simp at hb

/-! ## C17: rows in range -/

/-- The grids for which no out-of-range row is possible: a linear grid of any kind, a log grid in which
no transition is detected, or a two-segment log grid that fits the output. -/
def Spec.SafeGrid (th : ℝ) (v : List ℝ) (logscale : Bool) (M : ℕ) : Prop :=
  logscale = false ∨ logscaleTransitionIdx th v = .ok none ∨
    ∃ p a d0 d1, Spec.TwoSegment v p a d0 d1 ∧ 0 ≤ d0 ∧ v.length ≤ M

theorem rha_le_of_le {t : ℝ} {n : ℤ} (h : t ≤ n) : roundHalfAway t ≤ n := by
  have h1 := abs_le.mp (rha_abs t)
  by_contra hlt
  have h2 : (n : ℝ) + 1 ≤ (roundHalfAway t : ℤ) := by exact_mod_cast (not_le.mp hlt)
  linarith

theorem rhe_le_of_le {t : ℝ} {n : ℤ} (h : t ≤ n) : roundHalfEven t ≤ n := by
  have h2 := rhe_mono h
  rwa [rhe_intCast] at h2

theorem rha_nonneg {t : ℝ} (h : 0 ≤ t) : 0 ≤ roundHalfAway t := by
  unfold roundHalfAway; rw [if_pos h]; exact Int.floor_nonneg.mpr (by linarith)

/-- Parameter sets whose rows stay in range. -/
def ParamsOK (omax : ℤ) : BinParams → Prop
  | .lin .. => True
  | .log .. => True
  | .logPiecewise v0 v1 d0 d1 idx1 => 0 ≤ idx1 ∧ 0 < d1 ∧ (v1 - v0) / d0 ≤ omax ∧ 0 < d0

theorem relPos_clamp (wl : WithBot ℝ) (a d : ℝ) : ∃ t : ℝ, relPos wl a d = max t 0 := by
  unfold relPos
  split
  · exact ⟨0, by simp⟩
  · exact ⟨_, rfl⟩

theorem piece_else {v0 v1 d0 : ℝ} {omax : ℤ} (h3 : (v1 - v0) / d0 ≤ omax) (h4 : 0 < d0) {x : ℝ}
    (h : ¬ v1 < x) : (x - v0) / d0 ≤ omax :=
  (div_le_div_of_nonneg_right (by linarith) h4.le).trans h3

theorem binTwoPass_range {p : BinParams} {omax : ℤ} (ho : 0 ≤ omax) (hp : ParamsOK omax p) (w : ℝ) :
    0 ≤ binTwoPass p omax w ∧ binTwoPass p omax w ≤ omax := by
  have ho' : (0 : ℝ) ≤ omax := by exact_mod_cast ho
  rcases p with ⟨vmin, dv⟩ | ⟨v0, d0⟩ | ⟨v0, v1, d0, d1, idx1⟩
  · exact clampEven_range _ ho
  · obtain ⟨t, ht⟩ := relPos_clamp (log2E w) v0 d0
    simp only [binTwoPass, ht]
    exact clampEven_range _ ho
  · obtain ⟨h1, h2, h3, h4⟩ := hp
    simp only [binTwoPass]
    split
    · rw [rhe_zero]; exact ⟨le_rfl, ho⟩
    · next wl _ =>
      split_ifs with h
      · have : 0 ≤ roundHalfEven ((wl - v1) / d1) :=
          rhe_nonneg (div_nonneg (by linarith) h2.le)
        exact ⟨le_min (by omega) ho, min_le_right _ _⟩
      · exact ⟨rhe_nonneg (le_max_right _ _), rhe_le_of_le (max_le (piece_else h3 h4 h) ho')⟩

theorem binFused_eq (p : BinParams) (omax : ℤ) (w : ℝ) :
    binFused p omax w = binTwoPass p omax w := by
  rcases p with ⟨vmin, dv⟩ | ⟨v0, d0⟩ | ⟨v0, v1, d0, d1, idx1⟩
  · rfl
  · rfl
  · simp only [binFused, binTwoPass, rhe_zero, rhe_max_zero]

theorem binGpu_range {p : BinParams} {omax : ℤ} (ho : 0 ≤ omax) (hp : ParamsOK omax p) (w : ℝ) :
    0 ≤ binGpu p omax w ∧ binGpu p omax w ≤ omax := by
  rcases p with ⟨vmin, dv⟩ | ⟨v0, d0⟩ | ⟨v0, v1, d0, d1, idx1⟩
  · exact clampG_range _ ho
  · simp only [binGpu]
    split
    · exact ⟨le_rfl, ho⟩
    · exact clampG_range _ ho
  · obtain ⟨h1, h2, h3, h4⟩ := hp
    simp only [binGpu]
    split
    · exact ⟨le_rfl, ho⟩
    · next wl _ =>
      split_ifs with h h5 h6
      · exact ⟨ho, le_rfl⟩
      · have : 0 ≤ roundHalfAway ((wl - v1) / d1) :=
          rha_nonneg (div_nonneg (by linarith) h2.le)
        constructor <;> omega
      · exact ⟨le_rfl, ho⟩
      · exact ⟨by omega, rha_le_of_le (piece_else h3 h4 h)⟩

theorem bin_range {d : Device} {p : BinParams} {omax : ℤ} (ho : 0 ≤ omax) (hp : ParamsOK omax p)
    (w : ℝ) : (0 ≤ binTP d p omax w ∧ binTP d p omax w ≤ omax) ∧
      (0 ≤ binF d p omax w ∧ binF d p omax w ≤ omax) := by
  rcases d with _ | _
  · simp only [binTP, binF, binFused_eq]
    exact ⟨binTwoPass_range ho hp w, binTwoPass_range ho hp w⟩
  · exact ⟨binGpu_range ho hp w, binGpu_range ho hp w⟩

theorem twoSeg_params {th : ℝ} (hth : 0 < th) {v : List ℝ} {p : ℕ} {a d0 d1 : ℝ}
    (h : Spec.TwoSegment v p a d0 d1) (hne : d0 ≠ d1) :
    paramsFindClosestLog th v = .ok (.logPiecewise a (a + p * d0) (ensureNonzeroNonneg d0)
      (ensureNonzeroNonneg d1) p) := by
  have hp2 := h.2.1
  have hp1 := h.1
  have key : ∀ i, i < v.length → Real.logb 2 (v.getD i 1) =
      if i ≤ p then a + i * d0 else a + p * d0 + ((i : ℝ) - p) * d1 := by
    intro i hi
    rw [List.getD_eq_getElem _ _ hi, (h.2.2 i hi).2]
  unfold paramsFindClosestLog
  rw [transition_two hth h hne]
  simp only [ok_bind, pure_eq_ok, Except.ok.injEq, Nat.add_sub_cancel]
  rw [key 0 (by omega), key 1 (by omega), key p (by omega), key (p + 1) (by omega)]
  rw [if_pos (by omega), if_pos (by omega), if_pos (by omega), if_neg (by omega)]
  congr 1
  · simp
  · congr 1; push_cast; ring
  · congr 1; push_cast; ring
  · push_cast; ring

theorem safe_params {th : ℝ} (hth : 0 < th) {v : List ℝ} {ls : Bool} {M : ℕ} {p : BinParams}
    (hs : Spec.SafeGrid th v ls M) (hp : processSsqParams th v ls = .ok p) :
    ParamsOK ((M : ℤ) - 1) p := by
  unfold processSsqParams at hp
  rcases ls with _ | _
  · simp only [Bool.false_eq_true, if_false] at hp
    split at hp
    · simp only [Except.ok.injEq] at hp; rw [← hp]; trivial
    · simp at hp
  · simp only [if_true] at hp
    have hnone : logscaleTransitionIdx th v = .ok none → ParamsOK ((M : ℤ) - 1) p := by
      intro h
      unfold paramsFindClosestLog at hp
      rw [h] at hp
      simp only [ok_bind, pure_eq_ok, Except.ok.injEq] at hp
      rw [← hp]; trivial
    rcases hs with h | h | ⟨q, a, d0, d1, h, hd0, hM⟩
    · simp at h
    · exact hnone h
    · by_cases hne : d0 = d1
      · apply hnone
        subst hne
        have h2 := h.2.1
        have h1 := h.1
        refine transition_geometric (a := a) (d := d0) ?_ (by omega)
        intro i hi
        refine ⟨(h.2.2 i hi).1, ?_⟩
        rw [(h.2.2 i hi).2]
        split
        · rfl
        · ring
      · rw [twoSeg_params hth h hne] at hp
        simp only [Except.ok.injEq] at hp
        rw [← hp]
        have h2 := h.2.1
        refine ⟨by positivity, ensure_pos _, ?_, ensure_pos _⟩
        have hp1 : ((q : ℝ)) ≤ ((M : ℤ) - 1 : ℤ) := by
          have : (q : ℤ) ≤ (M : ℤ) - 1 := by omega
          exact_mod_cast this
        refine le_trans ?_ hp1
        rw [div_le_iff₀ (ensure_pos _)]
        have : d0 ≤ ensureNonzeroNonneg d0 := by
          unfold ensureNonzeroNonneg; split
          · next h => exact h.le
          · exact le_rfl
        nlinarith [mul_le_mul_of_nonneg_left this (Nat.cast_nonneg (α := ℝ) q)]

/-- **C17, two-pass kernels.** On CPU and GPU, every update
performed for a cell inside the array goes to a row in `[0, M)` of the *same* column, for every
phase (inside or outside the grid, including 0). -/
theorem C17_two_pass (d : Device) (th : ℝ) (hth : 0 < th) (M : ℕ) (Wx : ℕ → ℕ → ℂ)
    (w : ℕ → ℕ → Phase)
    (v : List ℝ) (const : ConstArg) (logscale flipud : Bool)
    (hgrid : Spec.SafeGrid th v logscale M)
    (body : ℕ → ℕ → Option (AddOp ℂ))
    (hb : onflyBody d th M Wx w v const logscale flipud = .ok body) :
    ∀ i < M, ∀ j o, body i j = some o → 0 ≤ o.row ∧ o.row < M ∧ o.col = j := by
  intro i hi j o ho
  unfold onflyBody at hb
  simp only [bind_eq_ok, pure_eq_ok, Except.ok.injEq] at hb
  obtain ⟨c, _, p, hp, rfl⟩ := hb
  have hcol := indexedSumBody_cols _ _ _ _ _ _ _ _ _ _ ho
  unfold indexedSumBody at ho
  split at ho
  · simp at ho
  · next x hx =>
    simp only [Option.some.injEq] at ho
    have h0 : (0 : ℤ) ≤ (M : ℤ) - 1 := by omega
    have hr := (bin_range (d := d) h0 (safe_params hth hgrid hp) x).1
    have := flipRow_range (flipud := flipud) hr.1 hr.2
    rw [← ho]
    exact ⟨this.1, by have := this.2; simp only; omega, rfl⟩

/-- **C17, fused kernels** (CWT and STFT). -/
theorem C17_fused (d : Device) (th : ℝ) (hth : 0 < th) (M : ℕ) (Wx dWx : ℕ → ℕ → ℂ)
    (v : List ℝ) (const : ConstArg) (logscale flipud : Bool) (gamma : ℝ) (Sfs : Option (ℕ → ℝ))
    (hgrid : Spec.SafeGrid th v logscale M)
    (body : ℕ → ℕ → Option (AddOp ℂ))
    (hb : fastBody d th M Wx dWx v const logscale flipud gamma Sfs = .ok body) :
    ∀ i < M, ∀ j o, body i j = some o → 0 ≤ o.row ∧ o.row < M ∧ o.col = j := by
  intro i hi j o ho
  unfold fastBody at hb
  simp only [bind_eq_ok] at hb
  obtain ⟨c, _, p, hp, hb⟩ := hb
  have h0 : (0 : ℤ) ≤ (M : ℤ) - 1 := by omega
  have hr := fun x => (bin_range (d := d) h0 (safe_params hth hgrid hp) x).2
  rcases Sfs with _ | f
  · simp only [pure_eq_ok, Except.ok.injEq] at hb
    subst hb
    unfold ssqCwtBody at ho
    split at ho
    · simp only [Option.some.injEq] at ho
      have hr := hr (cwtFreq (Wx i j) (dWx i j))
      have := flipRow_range (flipud := flipud) hr.1 hr.2
      rw [← ho]
      exact ⟨this.1, by have := this.2; simp only; omega, rfl⟩
    · simp at ho
  · rcases p with ⟨vmin, dv⟩ | _ | _
    · simp only [pure_eq_ok, Except.ok.injEq] at hb
      subst hb
      unfold ssqStftBody at ho
      split at ho
      · simp only [Option.some.injEq] at ho
        have hr := hr (stftFreq (f i) (Wx i j) (dWx i j))
        have := flipRow_range (flipud := flipud) hr.1 hr.2
        rw [← ho]
        exact ⟨this.1, by have := this.2; simp only; omega, rfl⟩
      · simp at ho
    · simp at hb
    · simp at hb

/-! ## C16: conservation -/

theorem sum_rows_single (M : ℕ) (k : ℤ) (h0 : 0 ≤ k) (h1 : k < M) (z : ℂ) :
    ∑ r ∈ range M, (if k = (r : ℤ) then z else 0) = z := by
  rw [sum_eq_single k.toNat]
  · rw [if_pos]; omega
  · intro b _ hb
    rw [if_neg]; omega
  · intro h
    simp only [mem_range] at h; omega

/-- **C16, two-pass.** Every column of the squeezed transform sums to the sum of
`Wx[i,j] * const[i]` over the cells with a finite phase. -/
theorem C16_two_pass (d : Device) (th : ℝ) (hth : 0 < th) (M N : ℕ) (Wx : ℕ → ℕ → ℂ)
    (w : ℕ → ℕ → Phase) (v : List ℝ) (const : ConstArg) (logscale flipud : Bool)
    (hgrid : Spec.SafeGrid th v logscale M) (Tx : ℤ → ℕ → ℂ)
    (h : indexedSumOnfly d th M N (fun _ _ => 0) Wx w v const logscale flipud = .ok Tx) :
    ∃ c, constArr M const = .ok c ∧ ∀ j < N,
      ∑ r ∈ range M, Tx r j = ∑ i ∈ range M,
        match w i j with
        | .inf => 0
        | .fin _ => Wx i j * ((c.getD i 0 : ℝ) : ℂ) := by
  obtain ⟨c, p, hc, hp, hT⟩ := onfly_ok h
  refine ⟨c, hc, ?_⟩
  intro j hj
  rw [sum_congr rfl (fun (r : ℕ) _ => hT r j hj)]
  simp only [zero_add]
  rw [sum_comm]
  apply sum_congr rfl
  intro i hi
  rcases hw : w i j with _ | x
  · simp
  · have h0 : (0 : ℤ) ≤ (M : ℤ) - 1 := by have := mem_range.mp hi; omega
    have hr := (bin_range (d := d) h0 (safe_params hth hgrid hp) x).1
    have hf := flipRow_range (flipud := flipud) hr.1 hr.2
    exact sum_rows_single M _ hf.1 (by omega) _

open Classical in
/-- **C16, fused CWT kernel.** The kept cells are those with `|Wx[i,j]| > gamma`. -/
theorem C16_fused_cwt (d : Device) (th : ℝ) (hth : 0 < th) (M N : ℕ) (Wx dWx : ℕ → ℕ → ℂ)
    (v : List ℝ) (const : ConstArg) (logscale flipud : Bool) (gamma : ℝ)
    (hgrid : Spec.SafeGrid th v logscale M) (Tx : ℤ → ℕ → ℂ)
    (h : ssqueezeFast d th M N (fun _ _ => 0) Wx dWx v const logscale flipud gamma none = .ok Tx) :
    ∃ c, constArr M const = .ok c ∧ ∀ j < N,
      ∑ r ∈ range M, Tx r j = ∑ i ∈ range M,
        if gamma < ‖Wx i j‖ then Wx i j * ((c.getD i 0 : ℝ) : ℂ) else 0 := by
  obtain ⟨c, p, hc, hp, hT⟩ := fast_cwt_ok h
  refine ⟨c, hc, ?_⟩
  intro j hj
  rw [sum_congr rfl (fun (r : ℕ) _ => hT r j hj)]
  simp only [zero_add]
  rw [sum_comm]
  apply sum_congr rfl
  intro i hi
  by_cases hg : gamma < ‖Wx i j‖
  · simp only [hg, true_and, if_true]
    have h0 : (0 : ℤ) ≤ (M : ℤ) - 1 := by have := mem_range.mp hi; omega
    have hr := (bin_range (d := d) h0 (safe_params hth hgrid hp) (cwtFreq (Wx i j) (dWx i j))).2
    have hf := flipRow_range (flipud := flipud) hr.1 hr.2
    exact sum_rows_single M _ hf.1 (by omega) _
  · simp [hg]

open Classical in
/-- **C16, fused STFT kernel.** -/
theorem C16_fused_stft (d : Device) (th : ℝ) (M N : ℕ) (Wx dWx : ℕ → ℕ → ℂ)
    (v : List ℝ) (const : ConstArg) (flipud : Bool) (gamma : ℝ) (f : ℕ → ℝ) (Tx : ℤ → ℕ → ℂ)
    (h : ssqueezeFast d th M N (fun _ _ => 0) Wx dWx v const false flipud gamma (some f) = .ok Tx) :
    ∃ c, constArr M const = .ok c ∧ ∀ j < N,
      ∑ r ∈ range M, Tx r j = ∑ i ∈ range M,
        if gamma < ‖Wx i j‖ then Wx i j * ((c.getD i 0 : ℝ) : ℂ) else 0 := by
  obtain ⟨c, vmin, dv, hc, hp, hT⟩ := fast_stft_ok h
  refine ⟨c, hc, ?_⟩
  intro j hj
  rw [sum_congr rfl (fun (r : ℕ) _ => hT r j hj)]
  simp only [zero_add]
  rw [sum_comm]
  apply sum_congr rfl
  intro i hi
  by_cases hg : gamma < ‖Wx i j‖
  · simp only [hg, true_and, if_true]
    have h0 : (0 : ℤ) ≤ (M : ℤ) - 1 := by have := mem_range.mp hi; omega
    have hr := (bin_range (d := d) (p := .lin vmin dv) h0 trivial
      (stftFreq (f i) (Wx i j) (dWx i j))).2
    have hf := flipRow_range (flipud := flipud) hr.1 hr.2
    exact sum_rows_single M _ hf.1 (by omega) _
  · simp [hg]

end Ssq
