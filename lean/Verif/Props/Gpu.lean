import Verif.Model.Gpu
import Verif.Props.Squeeze

/-!
# C62: CUDA launches cover the array
-/
namespace Ssq

theorem ceilDiv_mul (a b : ℕ) (hb : 0 < b) : a ≤ ceilDiv a b * b := by
  unfold ceilDiv
  have := Nat.div_add_mod (a + b - 1) b
  have := Nat.mod_lt (a + b - 1) hb
  rw [mul_comm]
  omega

theorem ceilDiv_pos (a b : ℕ) (ha : 0 < a) (hb : 0 < b) : 1 ≤ ceilDiv a b := by
  unfold ceilDiv
  rw [Nat.one_le_div_iff hb]
  omega

/-- Exactly one thread has given indices, if they are below blocks times threads. -/
theorem index_unique (g b i : ℕ) (hi : i < g * b) : ∃ bx tx, (bx < g ∧ tx < b ∧ bx * b + tx = i) ∧
    ∀ bx' tx', tx' < b → bx' * b + tx' = i → bx' = bx ∧ tx' = tx := by
  have hb : 0 < b := by rcases Nat.eq_zero_or_pos b with h | h; rw [h, mul_zero] at hi; omega; exact h
  refine ⟨i / b, i % b, ⟨Nat.div_lt_of_lt_mul (by rw [mul_comm]; exact hi), Nat.mod_lt _ hb, Nat.div_add_mod' i b⟩, ?_⟩
  intro bx tx ht e
  subst e
  constructor
  · rw [mul_comm, Nat.mul_add_div hb, Nat.div_eq_of_lt ht, add_zero]
  · rw [mul_comm, Nat.mul_add_mod, Nat.mod_eq_of_lt ht]

/-- C62 in full: for every shape the launches are accepted, and each cell (2D kernels) or column (1D kernels) has exactly one
thread that passes the kernel's guard. -/
def C62_full : Prop := ∀ M N : ℕ, 1 ≤ M → 1 ≤ N →
  LaunchOk (kernelParams2 M N).1 (kernelParams2 M N).2 ∧
  LaunchOk ((kernelParams1 M N).1, 1) ((kernelParams1 M N).2, 1) ∧
  (∀ i j, i < M → j < N → ∃! t : CuThread, t.In (kernelParams2 M N).1 (kernelParams2 M N).2 ∧
    t.gx (kernelParams2 M N).2 = i ∧ t.gy (kernelParams2 M N).2 = j) ∧
  (∀ j, j < N → ∃! t : CuThread, t.In ((kernelParams1 M N).1, 1) ((kernelParams1 M N).2, 1) ∧
    t.gx ((kernelParams1 M N).2, 1) = j)

/-- Coverage, for every shape (of at least one row). -/
theorem C62_cover (M N : ℕ) (hM : 1 ≤ M) :
    (∀ i j, i < M → j < N → ∃! t : CuThread, t.In (kernelParams2 M N).1 (kernelParams2 M N).2 ∧
      t.gx (kernelParams2 M N).2 = i ∧ t.gy (kernelParams2 M N).2 = j) ∧
    (∀ j, j < N → ∃! t : CuThread, t.In ((kernelParams1 M N).1, 1) ((kernelParams1 M N).2, 1) ∧
      t.gx ((kernelParams1 M N).2, 1) = j) := by
  constructor
  · intro i j hi hj
    obtain ⟨bx, tx, ⟨h1, h2, h3⟩, hu⟩ := index_unique (ceilDiv M 32) 32 i (lt_of_lt_of_le hi (ceilDiv_mul M 32 (by norm_num)))
    obtain ⟨by', ty, ⟨k1, k2, k3⟩, ku⟩ := index_unique (ceilDiv N 32) 32 j (lt_of_lt_of_le hj (ceilDiv_mul N 32 (by norm_num)))
    refine ⟨⟨bx, by', tx, ty⟩, ⟨⟨h1, k1, h2, k2⟩, h3, k3⟩, ?_⟩
    rintro ⟨a, b, c, d⟩ ⟨⟨_, _, hc, hd⟩, e1, e2⟩
    obtain ⟨u1, u2⟩ := hu a c hc e1
    obtain ⟨u3, u4⟩ := ku b d hd e2
    subst u1 u2 u3 u4; rfl
  · intro j hj
    have : j < ceilDiv (M * N) 1024 * 1024 :=
      lt_of_lt_of_le hj (le_trans (by nlinarith) (ceilDiv_mul (M * N) 1024 (by norm_num)))
    obtain ⟨bx, tx, ⟨h1, h2, h3⟩, hu⟩ := index_unique _ 1024 j this
    refine ⟨⟨bx, 0, tx, 0⟩, ⟨⟨h1, one_pos, h2, one_pos⟩, h3⟩, ?_⟩
    rintro ⟨a, b, c, d⟩ ⟨⟨_, hb, hc, hd⟩, e1⟩
    obtain ⟨u1, u2⟩ := hu a c hc e1
    simp only [Nat.lt_one_iff] at hb hd u1 u2
    subst u1 u2 hb hd; rfl

/-- Which launches are accepted: the 2D kernels up to 2097120 columns. -/
theorem C62_launch (M N : ℕ) (hM : 1 ≤ M) (hN : 1 ≤ N) :
    (LaunchOk (kernelParams2 M N).1 (kernelParams2 M N).2 ↔ M ≤ 32 * (2 ^ 31 - 1) ∧ N ≤ 2097120) ∧
    (LaunchOk ((kernelParams1 M N).1, 1) ((kernelParams1 M N).2, 1) ↔ M * N ≤ 1024 * (2 ^ 31 - 1)) := by
  have hMN : 1 ≤ M * N := Nat.mul_pos hM hN
  unfold LaunchOk kernelParams2 kernelParams1 ceilDiv
  simp only
  constructor
  · constructor
    · rintro ⟨_, h2, _, h4, _⟩; omega
    · rintro ⟨h1, h2⟩; omega
  · generalize M * N = P at hMN
    constructor
    · rintro ⟨_, h2, _⟩; omega
    · intro h1; omega

/-- One column too many: the 2D kernels cannot be launched on longer signals. -/
theorem C62_refuted : ¬ C62_full := fun h => by
  have h1 := (h 1 2097121 le_rfl (by norm_num)).1
  rw [(C62_launch 1 2097121 le_rfl (by norm_num)).1] at h1
  omega

/-- **C62** up to 2097120 columns (and `2^31 - 1` blocks). -/
theorem C62_grid_partial (M N : ℕ) (hM : 1 ≤ M) (hN : 1 ≤ N) (hM' : M ≤ 32 * (2 ^ 31 - 1)) (hN' : N ≤ 2097120) (hP : M * N ≤ 1024 * (2 ^ 31 - 1)) :
    LaunchOk (kernelParams2 M N).1 (kernelParams2 M N).2 ∧
    LaunchOk ((kernelParams1 M N).1, 1) ((kernelParams1 M N).2, 1) ∧
    (∀ i j, i < M → j < N → ∃! t : CuThread, t.In (kernelParams2 M N).1 (kernelParams2 M N).2 ∧
      t.gx (kernelParams2 M N).2 = i ∧ t.gy (kernelParams2 M N).2 = j) ∧
    (∀ j, j < N → ∃! t : CuThread, t.In ((kernelParams1 M N).1, 1) ((kernelParams1 M N).2, 1) ∧
      t.gx ((kernelParams1 M N).2, 1) = j) := by
  obtain ⟨l1, l2⟩ := C62_launch M N hM hN
  obtain ⟨c1, c2⟩ := C62_cover M N hM
  exact ⟨l1.2 ⟨hM', hN'⟩, l2.2 hP, c1, c2⟩

example : (1 : ℕ) ≤ 300 ∧ (300 : ℕ) ≤ 32 * (2 ^ 31 - 1) ∧ (4096 : ℕ) ≤ 2097120 ∧ 300 * 4096 ≤ 1024 * (2 ^ 31 - 1) := by norm_num

/-- The elementwise kernels: whatever the order of the threads, each cell of the array ends up with its value, and nothing outside the
array is touched. -/
theorem C62_cells {α : Type} (M N : ℕ) (f : ℕ → ℕ → Option α) (out : ℕ → ℕ → α) (order : List CuThread)
    (ho : ∀ t, t ∈ order ↔ t.In (kernelParams2 M N).1 (kernelParams2 M N).2) (hM : 1 ≤ M) (i j : ℕ) :
    (i < M → j < N → cellKernel M N f out order i j = (f i j).getD (out i j)) ∧
    (¬ (i < M ∧ j < N) → cellKernel M N f out order i j = out i j) := by
  classical
  set b := (kernelParams2 M N).2 with hb
  have step : ∀ (t : CuThread) (o : ℕ → ℕ → α), cellThread M N b f o t i j =
      if i < M ∧ j < N ∧ t.gx b = i ∧ t.gy b = j then (f i j).getD (o i j) else o i j := by
    intro t o
    unfold cellThread
    by_cases hg : M ≤ t.gx b ∨ N ≤ t.gy b
    · simp only [if_pos hg]
      rw [if_neg]
      rintro ⟨h1, h2, h3, h4⟩
      rcases hg with h | h <;> omega
    · simp only [if_neg hg]
      by_cases he : t.gx b = i ∧ t.gy b = j
      · obtain ⟨e1, e2⟩ := he
        rw [if_pos ⟨by omega, by omega, e1, e2⟩, e1, e2]
        cases f i j <;> simp
      · rw [if_neg (fun h => he h.2.2)]
        cases f (t.gx b) (t.gy b) with
        | none => rfl
        | some v =>
          simp only
          rw [if_neg]
          rintro ⟨h1, h2⟩
          exact he ⟨h1.symm, h2.symm⟩
  have key : ∀ (l : List CuThread) (o : ℕ → ℕ → α), l.foldl (cellThread M N b f) o i j =
      if i < M ∧ j < N ∧ ∃ t ∈ l, t.gx b = i ∧ t.gy b = j then (f i j).getD (o i j) else o i j := by
    intro l
    induction l with
    | nil => intro o; simp
    | cons t l ih =>
      intro o
      rw [List.foldl_cons, ih, step]
      by_cases h : i < M ∧ j < N
      · obtain ⟨h1, h2⟩ := h
        by_cases ht : t.gx b = i ∧ t.gy b = j
        · have hex : i < M ∧ j < N ∧ ∃ u ∈ t :: l, u.gx b = i ∧ u.gy b = j := ⟨h1, h2, t, List.mem_cons_self, ht⟩
          have ht' : i < M ∧ j < N ∧ t.gx b = i ∧ t.gy b = j := ⟨h1, h2, ht⟩
          rw [if_pos hex, if_pos ht']
          split_ifs <;> cases f i j <;> simp
        · simp only [h1, h2, ht, List.mem_cons, true_and, if_false]
          congr 1
          simp only [eq_iff_iff]
          constructor
          · rintro ⟨u, hu, h⟩; exact ⟨u, .inr hu, h⟩
          · rintro ⟨u, rfl | hu, h⟩
            · exact absurd h ht
            · exact ⟨u, hu, h⟩
      · rw [if_neg (fun h' => h ⟨h'.1, h'.2.1⟩), if_neg (fun h' => h ⟨h'.1, h'.2.1⟩), if_neg (fun h' => h ⟨h'.1, h'.2.1⟩)]
  unfold cellKernel
  rw [key]
  constructor
  · intro hi hj
    obtain ⟨t, ⟨h1, h2, h3⟩, _⟩ := (C62_cover M N hM).1 i j hi hj
    rw [if_pos ⟨hi, hj, t, (ho t).2 h1, h2, h3⟩]
  · intro h
    rw [if_neg (fun h' => h ⟨h'.1, h'.2.1⟩)]

/-- Such an order exists: the threads of a launch are finitely many. -/
example : ∃ order : List CuThread, ∀ t, t ∈ order ↔ t.In (kernelParams2 5 40).1 (kernelParams2 5 40).2 := by
  refine ⟨(List.range 1).flatMap fun a => (List.range 2).flatMap fun b => (List.range 32).flatMap fun c =>
    (List.range 32).map fun d => ⟨a, b, c, d⟩, ?_⟩
  rintro ⟨a, b, c, d⟩
  simp only [List.mem_flatMap, List.mem_map, List.mem_range, CuThread.mk.injEq, CuThread.In, kernelParams2]
  constructor
  · rintro ⟨a', h1, b', h2, c', h3, d', h4, rfl, rfl, rfl, rfl⟩
    exact ⟨h1, h2, h3, h4⟩
  · rintro ⟨h1, h2, h3, h4⟩
    exact ⟨a, h1, b, h2, c, h3, d, h4, rfl, rfl, rfl, rfl⟩

/-- A run of the launch is a run of the parallel loop over columns. -/
theorem gpuRun_parRun {α : Type} (M N : ℕ) (hM : 1 ≤ M) (body : ℕ → ℕ → Option (AddOp α))
    (hcol : ∀ i j o, body i j = some o → o.col = j) (sched : List (CuThread × Micro α)) (hs : IsGpuRun M N body sched) :
    IsParRun M N body (sched.map (·.2)) := by
  classical
  set b : ℕ × ℕ := ((kernelParams1 M N).2, 1) with hb
  set g : ℕ × ℕ := ((kernelParams1 M N).1, 1) with hg
  have hs' : ∀ t, (sched.filter fun e => decide (e.1 = t)).map (·.2) = if t.In g b then colThread M N b body t else [] := by
    intro t; have := hs t; simp only [← hb, ← hg] at this; convert this
  have mem : ∀ e ∈ sched, e.1.In g b ∧ e.1.gx b < N ∧ e.2.col = e.1.gx b := by
    intro e he
    have h1 : e.2 ∈ (sched.filter fun e' => decide (e'.1 = e.1)).map (·.2) :=
      List.mem_map.2 ⟨e, List.mem_filter.2 ⟨he, by simp⟩, rfl⟩
    rw [hs'] at h1
    by_cases hin : e.1.In g b
    · rw [if_pos hin] at h1
      unfold colThread at h1
      by_cases hN : N ≤ e.1.gx b
      · simp [hN] at h1
      · simp only [hN, if_false, List.mem_flatMap] at h1
        obtain ⟨o, ho, hm⟩ := h1
        obtain ⟨i, _, hi⟩ := List.mem_filterMap.1 ho
        have hc := hcol i _ o hi
        refine ⟨hin, by omega, ?_⟩
        simp only [AddOp.micros, List.mem_cons, List.not_mem_nil, or_false] at hm
        rcases hm with hm | hm <;> rw [hm] <;> exact hc
    · rw [if_neg hin] at h1; simp at h1
  intro c
  rw [List.filter_map]
  by_cases hc : c < N
  · rw [if_pos hc]
    obtain ⟨t, ⟨ht, hx⟩, hu⟩ := (C62_cover M N hM).2 c hc
    have : sched.filter ((fun m : Micro α => decide (m.col = c)) ∘ fun e => e.2) = sched.filter fun e => decide (e.1 = t) := by
      apply List.filter_congr
      intro e he
      obtain ⟨h1, h2, h3⟩ := mem e he
      simp only [Function.comp_apply, h3]
      rw [decide_eq_decide]
      constructor
      · intro h; exact hu e.1 ⟨h1, h⟩
      · intro h; rw [h]; exact hx
    rw [this, hs' t, if_pos ht]
    unfold colThread
    have hx' : t.gx b = c := hx
    simp only [hx', if_neg (not_le.2 hc)]
  · rw [if_neg hc, List.map_eq_nil_iff, List.filter_eq_nil_iff]
    intro e he
    obtain ⟨h1, h2, h3⟩ := mem e he
    simp only [Function.comp_apply, h3, decide_eq_true_eq]
    omega

/-- The column kernels: every interleaving of the threads gives the serial result. -/
theorem C62_columns {α : Type} (add : α → α → α) (M N : ℕ) (hM : 1 ≤ M) (body : ℕ → ℕ → Option (AddOp α))
    (hcol : ∀ i j o, body i j = some o → o.col = j) (sched : List (CuThread × Micro α)) (hs : IsGpuRun M N body sched)
    (out : ℤ → ℕ → α) (reg : ℕ → α) :
    ((sched.map (·.2)).foldl (Mem.step add) ⟨out, reg⟩).out = runOps add out (serialOps M N body) :=
  C21_schedule add M N body hcol _ (gpuRun_parRun M N hM body hcol sched hs) out reg

/-- A run with two columns, the second column's thread first. -/
example : IsGpuRun (α := ℕ) 1 2 (fun _ j => some ⟨0, j, 7⟩)
    [(⟨0, 0, 1, 0⟩, .load 0 1), (⟨0, 0, 0, 0⟩, .load 0 0), (⟨0, 0, 1, 0⟩, .store 0 1 7), (⟨0, 0, 0, 0⟩, .store 0 0 7)] := by
  rintro ⟨a, b, c, d⟩
  by_cases h0 : a = 0 ∧ b = 0 ∧ d = 0
  · obtain ⟨rfl, rfl, rfl⟩ := h0
    rcases c with _ | _ | c <;>
      simp [AddOp.micros, kernelParams1, ceilDiv, CuThread.In, colThread, CuThread.gx, colOps]
  · have hz : ¬ CuThread.In ⟨a, b, c, d⟩ ((kernelParams1 1 2).1, 1) ((kernelParams1 1 2).2, 1) := by
      simp only [kernelParams1, ceilDiv, CuThread.In]; omega
    simp only [if_neg hz]
    have e1 : ¬ (0 = a ∧ 0 = b ∧ 1 = c ∧ 0 = d) := by omega
    have e2 : ¬ (0 = a ∧ 0 = b ∧ 0 = c ∧ 0 = d) := by omega
    simp [e1, e2]

end Ssq
