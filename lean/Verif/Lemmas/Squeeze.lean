import Verif.Model.Squeeze
import Verif.Lemmas.Round
import Verif.Lemmas.PyM
import Mathlib.Algebra.BigOperators.Ring.Finset
import Mathlib.Algebra.BigOperators.Intervals
import Mathlib.Data.List.GetD
import Mathlib.Tactic.Linarith
import Mathlib.Tactic.Ring
import Mathlib.Tactic.FieldSimp
import Mathlib.Tactic.Positivity

/-! Helper lemmas about the squeezing kernels. -/
namespace Ssq

section sched
variable {α : Type} (add : α → α → α)

/-- Every update of iteration `(i, j)` touches column `j`. -/
def BodyCols (body : ℕ → ℕ → Option (AddOp α)) : Prop :=
  ∀ i j o, body i j = some o → o.col = j

theorem runOps_cons (out : ℤ → ℕ → α) (o : AddOp α) (ops) :
    runOps add out (o :: ops) = runOps add (applyAdd add out o) ops := rfl

theorem runOps_congr_col (c : ℕ) (ops : List (AddOp α)) :
    ∀ (o1 o2 : ℤ → ℕ → α), (∀ r, o1 r c = o2 r c) →
    ∀ r, runOps add o1 ops r c = runOps add o2 (ops.filter (fun o => o.col = c)) r c := by
  induction ops with
  | nil => intro o1 o2 h r; exact h r
  | cons o ops ih =>
    intro o1 o2 h r
    by_cases hc : o.col = c
    · rw [List.filter_cons_of_pos (by simpa using hc), runOps_cons, runOps_cons]
      apply ih
      intro r'
      simp [applyAdd, h r']
    · rw [List.filter_cons_of_neg (by simpa using hc), runOps_cons]
      apply ih
      intro r'
      have : ¬ (r' = o.row ∧ c = o.col) := fun hh => hc hh.2.symm
      simp [applyAdd, this, h r']

theorem filter_filterMap_col (body : ℕ → ℕ → Option (AddOp α)) (hb : BodyCols body) (c i : ℕ) :
    ∀ N, ((List.range N).filterMap fun j => body i j).filter (fun o => o.col = c) =
      if c < N then (body i c).toList else [] := by
  intro N
  induction N with
  | zero => simp
  | succ n ih =>
    rw [List.range_succ, List.filterMap_append, List.filter_append, ih]
    rcases h : body i n with _ | o
    · simp only [List.filterMap_cons, h, List.filterMap_nil, List.filter_nil, List.append_nil]
      by_cases h1 : c < n
      · simp [h1, Nat.lt_succ_of_lt h1]
      · by_cases h2 : c = n
        · subst h2; simp [h]
        · have : ¬ c < n + 1 := by omega
          simp [h1, this]
    · have ho := hb i n o h
      simp only [List.filterMap_cons, h, List.filterMap_nil]
      by_cases h1 : c < n
      · have h2 : o.col ≠ c := by omega
        simp [h1, Nat.lt_succ_of_lt h1, h2]
      · by_cases h2 : c = n
        · subst h2; simp [h, ho]
        · have : ¬ c < n + 1 := by omega
          have h3 : o.col ≠ c := by omega
          simp [h1, this, h3]

theorem serialOps_filter (body : ℕ → ℕ → Option (AddOp α)) (hb : BodyCols body) (c M N : ℕ) :
    (serialOps M N body).filter (fun o => o.col = c) = if c < N then colOps M body c else [] := by
  unfold serialOps colOps
  induction M with
  | zero => simp
  | succ m ih =>
    rw [List.range_succ, List.flatMap_append, List.filter_append, ih, List.filterMap_append]
    simp only [List.flatMap_cons, List.flatMap_nil, List.append_nil,
      filter_filterMap_col body hb c m N]
    split
    · rcases h : body m c with _ | o <;> simp [h]
    · simp

theorem mem_step_congr (c : ℕ) (sched : List (Micro α)) :
    ∀ (m1 m2 : Mem α), (∀ r, m1.out r c = m2.out r c) → m1.reg c = m2.reg c →
    ∀ r, (sched.foldl (Mem.step add) m1).out r c =
      ((sched.filter (fun m => m.col = c)).foldl (Mem.step add) m2).out r c := by
  induction sched with
  | nil => intro m1 m2 h _ r; exact h r
  | cons s sched ih =>
    intro m1 m2 h hr r
    by_cases hc : s.col = c
    · rw [List.filter_cons_of_pos (by simpa using hc), List.foldl_cons, List.foldl_cons]
      rcases s with ⟨r0, c0⟩ | ⟨r0, c0, v⟩ <;> simp only [Micro.col] at hc <;> subst hc
      · apply ih
        · intro r'; simp [Mem.step, h r']
        · simp [Mem.step, h r0]
      · apply ih
        · intro r'; simp [Mem.step, h r', hr]
        · simp [Mem.step, hr]
    · rw [List.filter_cons_of_neg (by simpa using hc), List.foldl_cons]
      rcases s with ⟨r0, c0⟩ | ⟨r0, c0, v⟩ <;> simp only [Micro.col] at hc
      · have hc' : c ≠ c0 := fun e => hc e.symm
        apply ih
        · intro r'; simp [Mem.step, h r']
        · simp [Mem.step, hr, hc']
      · have hc' : c ≠ c0 := fun e => hc e.symm
        apply ih
        · intro r'; simp [Mem.step, h r', hc']
        · simp [Mem.step, hr]

theorem micros_run (ops : List (AddOp α)) :
    ∀ (m : Mem α), ((ops.flatMap AddOp.micros).foldl (Mem.step add) m).out =
      runOps add m.out ops := by
  induction ops with
  | nil => intro m; rfl
  | cons o ops ih =>
    intro m
    rw [List.flatMap_cons, List.foldl_append, ih, runOps_cons]
    congr 1
    funext r c
    simp only [AddOp.micros, List.foldl_cons, List.foldl_nil, Mem.step, applyAdd]
    by_cases h : r = o.row ∧ c = o.col
    · obtain ⟨rfl, rfl⟩ := h; simp
    · simp [h]

theorem par_eq_serial (body : ℕ → ℕ → Option (AddOp α)) (hb : BodyCols body) (M N : ℕ)
    (sched : List (Micro α)) (hs : IsParRun M N body sched) (out : ℤ → ℕ → α) (reg : ℕ → α) :
    (sched.foldl (Mem.step add) ⟨out, reg⟩).out = runOps add out (serialOps M N body) := by
  funext r c
  rw [mem_step_congr add c sched ⟨out, reg⟩ ⟨out, reg⟩ (fun _ => rfl) rfl, hs c,
    runOps_congr_col add c (serialOps M N body) out out (fun _ => rfl), serialOps_filter body hb]
  split
  · rw [micros_run]
  · rfl

end sched

theorem indexedSumBody_cols {α β : Type} (mul : α → β → α) (bin omax flipud)
    (Wx : ℕ → ℕ → α) (w) (const : ℕ → β) :
    BodyCols (indexedSumBody mul bin omax flipud Wx w const) := by
  intro i j o h
  unfold indexedSumBody at h
  split at h
  · simp at h
  · simp only [Option.some.injEq] at h; rw [← h]

theorem ssqCwtBody_cols (bin omax flipud gamma Wx dWx const) :
    BodyCols (ssqCwtBody bin omax flipud gamma Wx dWx const) := by
  intro i j o h
  unfold ssqCwtBody at h
  split at h
  · simp only [Option.some.injEq] at h; rw [← h]
  · simp at h

theorem ssqStftBody_cols (bin omax flipud gamma Sfs Wx dWx const) :
    BodyCols (ssqStftBody bin omax flipud gamma Sfs Wx dWx const) := by
  intro i j o h
  unfold ssqStftBody at h
  split at h
  · simp only [Option.some.injEq] at h; rw [← h]
  · simp at h

theorem indexedSumSimpleBody_cols {α : Type} (a : ℕ → ℕ → α) (k) :
    BodyCols (indexedSumSimpleBody a k) := by
  intro i j o h
  simp only [indexedSumSimpleBody, Option.some.injEq] at h; rw [← h]

/-- Contribution of an (optional) update to row `r`. -/
noncomputable def contrib (r : ℤ) : Option (AddOp ℂ) → ℂ
  | none => 0
  | some o => if o.row = r then o.val else 0

theorem runOps_colOps (body : ℕ → ℕ → Option (AddOp ℂ)) (hb : BodyCols body) (M c : ℕ)
    (out : ℤ → ℕ → ℂ) (r : ℤ) :
    runOps (· + ·) out (colOps M body c) r c =
      out r c + ∑ i ∈ Finset.range M, contrib r (body i c) := by
  unfold colOps runOps
  induction M with
  | zero => simp
  | succ m ih =>
    rw [List.range_succ, List.filterMap_append, List.foldl_append, Finset.sum_range_succ]
    rcases h : body m c with _ | o
    · simp only [List.filterMap_cons, h, List.filterMap_nil, List.foldl_nil, ih, contrib, add_zero]
    · have ho := hb m c o h
      simp only [List.filterMap_cons, h, List.filterMap_nil, List.foldl_cons, List.foldl_nil,
        applyAdd, ih, contrib, ho, and_true]
      by_cases hr : r = o.row
      · simp [hr, add_assoc]
      · have hr' : ¬ o.row = r := fun e => hr e.symm
        simp [hr, hr']

theorem runOps_serial (body : ℕ → ℕ → Option (AddOp ℂ)) (hb : BodyCols body) (M N c : ℕ)
    (hc : c < N) (out : ℤ → ℕ → ℂ) (r : ℤ) :
    runOps (· + ·) out (serialOps M N body) r c =
      out r c + ∑ i ∈ Finset.range M, contrib r (body i c) := by
  rw [runOps_congr_col (· + ·) c _ out out (fun _ => rfl), serialOps_filter body hb, if_pos hc,
    runOps_colOps body hb]

theorem mem_serialOps {α : Type} {body : ℕ → ℕ → Option (AddOp α)} {M N : ℕ} {o : AddOp α} :
    o ∈ serialOps M N body ↔ ∃ i < M, ∃ j < N, body i j = some o := by
  simp [serialOps]

/-! ### Rounding and clamping -/

theorem eps64_pos : 0 < eps64 := by unfold eps64; positivity

theorem ensure_pos (x : ℝ) : 0 < ensureNonzeroNonneg x := by
  unfold ensureNonzeroNonneg
  split
  · exact eps64_pos
  · next h => exact lt_of_lt_of_le eps64_pos (not_lt.mp h)

theorem ensure_of_le {x : ℝ} (h : eps64 ≤ x) : ensureNonzeroNonneg x = x := by
  unfold ensureNonzeroNonneg; rw [if_neg (not_lt.mpr h)]

theorem rhe_nonneg {x : ℝ} (h : 0 ≤ x) : 0 ≤ roundHalfEven x := by
  have := rhe_mono h
  have h0 : roundHalfEven (0 : ℝ) = 0 := by exact_mod_cast rhe_intCast (K := ℝ) 0
  omega

theorem rhe_zero : roundHalfEven (0 : ℝ) = 0 := by exact_mod_cast rhe_intCast (K := ℝ) 0

theorem rhe_max_zero (x : ℝ) : roundHalfEven (max x 0) = max (roundHalfEven x) 0 := by
  rcases le_total x 0 with h | h
  · rw [max_eq_right h, rhe_zero, max_eq_right]
    have := rhe_mono h
    rw [rhe_zero] at this; exact this
  · rw [max_eq_left h, max_eq_left (rhe_nonneg h)]

theorem relPos_nonneg (wl a d) : 0 ≤ relPos wl a d := by
  unfold relPos
  split
  · exact le_rfl
  · exact le_max_right _ _

theorem flipRow_range {flipud : Bool} {omax k : ℤ} (h0 : 0 ≤ k) (h1 : k ≤ omax) :
    0 ≤ flipRow flipud omax k ∧ flipRow flipud omax k ≤ omax := by
  unfold flipRow; split <;> constructor <;> omega

end Ssq
