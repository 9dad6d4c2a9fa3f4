import Verif.Model.FftState
import Mathlib.Data.List.GetD

/-!
# C57: cached FFT objects
-/
namespace Ssq

variable {V : Type} (tr : FKind → ℤ → FArr V → V)

/-- A call that succeeded, with what it should have returned and the number of the array it returned. -/
structure Spec.FResult (V : Type) where
  want : V
  got : ℕ

/-- The results of a history, in order; failed calls have none. -/
def fftResults (s : FCache V) : List (FCall V) → List (Spec.FResult V)
  | [] => []
  | c :: h =>
    let r := fftOp tr s c.kind c.x c.axis c.patience
    match r.2 with
    | .ok i => ⟨tr c.kind c.axis c.x, i⟩ :: fftResults r.1 h
    | .error _ => fftResults r.1 h

/-- C57 in full: after any history, every array returned so far holds the transform that was asked for. -/
def C57_full : Prop := ∀ (V : Type) (tr : FKind → ℤ → FArr V → V) (set : FftSt) (cacheOn : Bool) (h : List (FCall V)),
  ∀ r ∈ fftResults tr { set, cacheOn } h, (fftRun tr { set, cacheOn } h).heap[r.got]? = some r.want

/-- The transforms that share a plan although they differ: the complex ones, forward and inverse, and `rfft` with `irfft` without `n`. -/
def Spec.SharePlan (k k' : FKind) : Prop :=
  k = k' ∨ (k = .fft ∨ k = .ifft) ∧ (k' = .fft ∨ k' = .ifft) ∨ (k = .rfft ∨ k = .irfft none) ∧ (k' = .rfft ∨ k' = .irfft none)

/-- Two calls that use one cached object: same shape, dtype and axis, and transforms that share a plan. -/
def Spec.SameObject (a b : FCall V) : Prop :=
  a.x.shape = b.x.shape ∧ a.x.dtype = b.x.dtype ∧ a.axis = b.axis ∧ Spec.SharePlan a.kind b.kind

theorem sharePlan_iff (k k' : FKind) : Spec.SharePlan k k' ↔ k.isReal = k'.isReal ∧ k.n = k'.n := by
  rcases k with _ | _ | _ | (_ | n) <;> rcases k' with _ | _ | _ | (_ | n') <;>
    simp [Spec.SharePlan, FKind.isReal, FKind.n]

/-! ## One call -/

theorem getFftObject_cases (b : V) (s : FCache V) (k : FKind) (x : FArr V) (axis : ℤ) (p : PatArg) :
    (∃ e, getFftObject b s x axis p k = (s, .error e)) ∨
    (∃ hist', getFftObject b s x axis p k =
        ({ s with heap := s.heap ++ [b], hist := hist' }, .ok ⟨k, axis, s.heap.length⟩) ∧
      (hist' = s.hist ∨ s.cacheOn = true ∧
        hist' = (⟨x.shape, x.dtype, axis, k.isReal, k.n⟩, ⟨k, axis, s.heap.length⟩) :: s.hist)) ∨
    (∃ o, s.cacheOn = true ∧ s.hist.lookup ⟨x.shape, x.dtype, axis, k.isReal, k.n⟩ = some o ∧
      getFftObject b s x axis p k = (s, .ok o)) := by
  unfold getFftObject
  dsimp only
  by_cases hc : s.cacheOn = true
  · rw [if_pos hc]
    rcases hl : s.hist.lookup ⟨x.shape, x.dtype, axis, k.isReal, k.n⟩ with _ | o
    · simp only [hl]
      cases fftValidate x.dtype axis k p with
      | error e => exact .inl ⟨e, rfl⟩
      | ok u => exact .inr (.inl ⟨_, by rw [if_pos hc], .inr ⟨hc, rfl⟩⟩)
    · exact .inr (.inr ⟨o, hc, hl, by simp only [hl]⟩)
  · rw [if_neg hc]
    dsimp only
    cases fftValidate x.dtype axis k p with
    | error e => exact .inl ⟨e, rfl⟩
    | ok u => exact .inr (.inl ⟨s.hist, by rw [if_neg hc], .inl rfl⟩)

/-- The possible courses of a call: an exception that changes nothing; a new array; or the reuse of a cached object. -/
theorem fftOp_cases (s : FCache V) (k : FKind) (x : FArr V) (axis : ℤ) (p : Option PatArg) :
    (∃ e, fftOp tr s k x axis p = (s, .error e)) ∨
    (∃ hist', fftOp tr s k x axis p = ({ s with heap := s.heap ++ [tr k axis x], hist := hist' }, .ok s.heap.length) ∧
      (hist' = s.hist ∨ s.cacheOn = true ∧ hist' = (⟨x.shape, x.dtype, axis, k.isReal, k.n⟩, ⟨k, axis, s.heap.length⟩) :: s.hist)) ∨
    (∃ o, s.cacheOn = true ∧ s.hist.lookup ⟨x.shape, x.dtype, axis, k.isReal, k.n⟩ = some o ∧
      fftOp tr s k x axis p = ({ s with heap := s.heap.set o.out (tr o.kind o.axis x) }, .ok o.out)) := by
  have main : ∀ q, (∃ e, (match getFftObject x.data s x axis q k with
        | (s', .error e) => (s', .error e)
        | (s', .ok o) => ({ s' with heap := s'.heap.set o.out (tr o.kind o.axis x) }, .ok o.out) : FCache V × Py ℕ) =
        (s, .error e)) ∨
      (∃ hist', (match getFftObject x.data s x axis q k with
        | (s', .error e) => (s', .error e)
        | (s', .ok o) => ({ s' with heap := s'.heap.set o.out (tr o.kind o.axis x) }, .ok o.out) : FCache V × Py ℕ) =
        ({ s with heap := s.heap ++ [tr k axis x], hist := hist' }, .ok s.heap.length) ∧
      (hist' = s.hist ∨ s.cacheOn = true ∧ hist' = (⟨x.shape, x.dtype, axis, k.isReal, k.n⟩, ⟨k, axis, s.heap.length⟩) :: s.hist)) ∨
      (∃ o, s.cacheOn = true ∧ s.hist.lookup ⟨x.shape, x.dtype, axis, k.isReal, k.n⟩ = some o ∧
      (match getFftObject x.data s x axis q k with
        | (s', .error e) => (s', .error e)
        | (s', .ok o) => ({ s' with heap := s'.heap.set o.out (tr o.kind o.axis x) }, .ok o.out) : FCache V × Py ℕ) =
        ({ s with heap := s.heap.set o.out (tr o.kind o.axis x) }, .ok o.out)) := by
    intro q
    rcases getFftObject_cases x.data s k x axis q with ⟨e, he⟩ | ⟨hist', he, hh⟩ | ⟨o, hc, ho, he⟩
    · exact .inl ⟨e, by rw [he]⟩
    · exact .inr (.inl ⟨hist', by rw [he]; simp, hh⟩)
    · exact .inr (.inr ⟨o, hc, ho, by rw [he]⟩)
  unfold fftOp
  cases processPatience true s.set p with
  | error e => exact .inl ⟨e, rfl⟩
  | ok q =>
    rcases q with (z | _ | _) | l
    · by_cases hz : z = 0
      · subst hz; exact .inr (.inl ⟨s.hist, rfl, .inl rfl⟩)
      · have := main (.val (.int z))
        split
        · rename_i heq; cases heq
        · rename_i heq; simp only [Except.ok.injEq, PatArg.val.injEq, PatV.int.injEq] at heq; exact absurd heq hz
        · rename_i heq; simp only [Except.ok.injEq] at heq; subst heq; exact this
    · exact main _
    · exact main _
    · exact main _

theorem fftOp_set (s : FCache V) (k : FKind) (x : FArr V) (axis : ℤ) (p : Option PatArg) :
    (fftOp tr s k x axis p).1.cacheOn = s.cacheOn := by
  rcases fftOp_cases tr s k x axis p with ⟨e, he⟩ | ⟨hist', he, _⟩ | ⟨o, _, _, he⟩ <;> rw [he]

/-! ## Where it fails -/

/-- With caching on, an inverse transform asked for after a forward one of an array of the same shape, dtype and axis is
the forward transform, and so on for any two transforms that share the key. -/
theorem C57_direction (set : FftSt) (k k' : FKind) (x y : FArr V) (axis : ℤ) (p : ℤ) (hp : p = 1 ∨ p = 2)
    (hs : y.shape = x.shape) (hd : y.dtype = x.dtype) (hk : Spec.SharePlan k' k)
    (hx : x.dtype = .float64 ∨ (x.dtype = .complex128 ∧ k ≠ .rfft)) (ha : axis = 0 ∨ axis = 1 ∨ axis = -1) :
    let s := (fftOp tr { set, cacheOn := true } k x axis (some (.val (.int p)))).1
    fftOp tr s k' y axis (some (.val (.int p))) = ({ s with heap := [tr k axis y] }, .ok 0) := by
  intro s
  obtain ⟨hr, hn⟩ := (sharePlan_iff k' k).1 hk
  have hv : fftValidate x.dtype axis k (.val (.int p)) = .ok () := by
    unfold fftValidate validatePatience
    rw [if_neg (by rcases hx with h | h <;> simp [h]), if_neg (by rcases hx with h | h <;> simp [h, FftDtype.isComplex]),
      if_neg (by omega)]
    exact if_pos (by omega)
  have hproc : ∀ set', processPatience true set' (some (.val (.int p))) = .ok (.val (.int p)) := by
    intro set'
    unfold processPatience
    simp only [Option.getD_some]
    rcases hp with h | h <;> subst h <;> rfl
  have h1 : s = { set, cacheOn := true, hist := [(⟨x.shape, x.dtype, axis, k.isReal, k.n⟩, ⟨k, axis, 0⟩)], heap := [tr k axis x] } := by
    simp only [s, fftOp, hproc]
    rcases hp with h | h <;> subst h <;> simp [getFftObject, hv]
  rw [h1]
  simp only [fftOp, hproc, getFftObject, hs, hd, hr, hn, List.lookup]
  rcases hp with h | h <;> subst h <;> simp

/-- A real-valued stand-in for the transforms: forward adds 1, inverse subtracts 1. -/
def exTr (k : FKind) (_ : ℤ) (x : FArr ℤ) : ℤ := if k.isInverse then x.data - 1 else x.data + 1

theorem C57_refuted : ¬ C57_full := fun h => by
  have := h ℤ exTr ⟨.int 1, .int 120⟩ true
    [⟨.fft, ⟨[4], .complex128, 0⟩, -1, none⟩, ⟨.ifft, ⟨[4], .complex128, 0⟩, -1, none⟩]
  revert this
  simp [fftResults, fftRun, fftOp, processPatience, getFftObject, fftValidate, validatePatience, FftDtype.isComplex,
    FKind.isReal, FKind.n, exTr, FKind.isInverse, List.lookup]

/-- With caching on, repeating a call on new data overwrites the array returned before. -/
theorem C57_overwritten (set : FftSt) (k : FKind) (x y : FArr V) (axis : ℤ) (p : ℤ) (hp : p = 1 ∨ p = 2)
    (hs : y.shape = x.shape) (hd : y.dtype = x.dtype)
    (hx : x.dtype = .float64 ∨ (x.dtype = .complex128 ∧ k ≠ .rfft)) (ha : axis = 0 ∨ axis = 1 ∨ axis = -1) :
    let c := fun z => FCall.mk k z axis (some (.val (.int p)))
    (fftResults tr { set, cacheOn := true } [c x, c y]).map (·.got) = [0, 0] ∧
      (fftRun tr { set, cacheOn := true } [c x, c y]).heap = [tr k axis y] := by
  intro c
  have h2 := C57_direction tr set k k x y axis p hp hs hd (Or.inl rfl) hx ha
  have hv : fftValidate x.dtype axis k (.val (.int p)) = .ok () := by
    unfold fftValidate validatePatience
    rw [if_neg (by rcases hx with h | h <;> simp [h]), if_neg (by rcases hx with h | h <;> simp [h, FftDtype.isComplex]),
      if_neg (by omega)]
    exact if_pos (by omega)
  have h1 : (fftOp tr { set, cacheOn := true } k x axis (some (.val (.int p)))).2 = .ok 0 := by
    simp only [fftOp, processPatience, Option.getD_some]
    rcases hp with h | h <;> subst h <;> simp [getFftObject, hv]
  constructor
  · simp only [fftResults, c]
    rw [h1]
    simp only [h2, List.map_cons, List.map_nil]
  · simp only [fftRun, List.foldl_cons, List.foldl_nil, c]
    rw [h2]

/-! ## Where it holds -/

/-- Results stay in place through a history in which nothing is reused. -/
theorem fftRun_kept (h : List (FCall V)) (s : FCache V) (hc : s.cacheOn = false) (i : ℕ) (v : V) (hi : s.heap[i]? = some v) :
    (fftRun tr s h).heap[i]? = some v := by
  induction h generalizing s with
  | nil => exact hi
  | cons c h ih =>
    refine ih _ ?_ ?_
    · exact (fftOp_set tr s c.kind c.x c.axis c.patience).trans hc
    · beta_reduce
      rcases fftOp_cases tr s c.kind c.x c.axis c.patience with ⟨e, he⟩ | ⟨hist', he, _⟩ | ⟨o, ho, _⟩
      · rw [he]; exact hi
      · rw [he]
        have hlt : i < s.heap.length := by
          by_contra hge
          rw [List.getElem?_eq_none (by omega)] at hi
          cases hi
        simp only
        rw [List.getElem?_append_left hlt]
        exact hi
      · rw [hc] at ho; cases ho

/-- **C57** with the default setting (objects not cached): every array returned holds the transform asked for, at the end of
any history. -/
theorem C57_uncached (set : FftSt) (h : List (FCall V)) :
    ∀ r ∈ fftResults tr { set, cacheOn := false } h,
      (fftRun tr { set, cacheOn := false } h).heap[r.got]? = some r.want := by
  suffices H : ∀ (h : List (FCall V)) (s : FCache V), s.cacheOn = false → ∀ r ∈ fftResults tr s h,
      (fftRun tr s h).heap[r.got]? = some r.want from H h _ rfl
  intro h
  induction h with
  | nil => intro s _ r hr; simp [fftResults] at hr
  | cons c h ih =>
    intro s hc r hr
    have hset := fftOp_set tr s c.kind c.x c.axis c.patience
    have hrun : fftRun tr s (c :: h) = fftRun tr (fftOp tr s c.kind c.x c.axis c.patience).1 h := rfl
    rw [hrun]
    simp only [fftResults] at hr
    rcases fftOp_cases tr s c.kind c.x c.axis c.patience with ⟨e, he⟩ | ⟨hist', he, _⟩ | ⟨o, ho, _⟩
    · rw [he] at hr ⊢
      exact ih s hc r hr
    · have h2 : (fftOp tr s c.kind c.x c.axis c.patience).2 = .ok s.heap.length := by rw [he]
      rw [h2] at hr
      rcases List.mem_cons.1 hr with rfl | hr
      · refine fftRun_kept tr h _ (hset.trans hc) _ _ ?_
        rw [he]; simp
      · exact ih _ (hset.trans hc) r hr
    · rw [hc] at ho; cases ho

/-- The key under which a call looks for an object. -/
def FCall.key (c : FCall V) : FKey := ⟨c.x.shape, c.x.dtype, c.axis, c.kind.isReal, c.kind.n⟩

theorem key_eq_iff (a b : FCall V) : a.key = b.key ↔ Spec.SameObject a b := by
  unfold FCall.key Spec.SameObject
  rw [FKey.mk.injEq, sharePlan_iff]

/-- The cache holds, under each key, an object for the transform that the history uses with this key. -/
def FInv (K : FKey → FKind) (s : FCache V) : Prop :=
  ∀ k o, s.hist.lookup k = some o → o.kind = K k ∧ o.axis = k.axis ∧ o.out < s.heap.length

theorem fInv_step (K : FKey → FKind) (s : FCache V) (c : FCall V) (hk : K c.key = c.kind) (hs : FInv K s) :
    FInv K (fftOp tr s c.kind c.x c.axis c.patience).1 := by
  rcases fftOp_cases tr s c.kind c.x c.axis c.patience with ⟨e, he⟩ | ⟨hist', he, hh⟩ | ⟨o, _, ho, he⟩
  · rw [he]; exact hs
  · rw [he]
    intro k o hl
    simp only at hl
    rcases hh with rfl | ⟨_, rfl⟩
    · obtain ⟨h1, h2, h3⟩ := hs k o hl
      exact ⟨h1, h2, by simp; omega⟩
    · rw [List.lookup_cons] at hl
      by_cases hkk : k = c.key
      · have : (k == (⟨c.x.shape, c.x.dtype, c.axis, c.kind.isReal, c.kind.n⟩ : FKey)) = true := by
          rw [beq_iff_eq]; exact hkk
        rw [this] at hl
        simp only [Option.some.injEq] at hl
        subst hl
        refine ⟨?_, ?_, by simp⟩
        · rw [hkk, hk]
        · rw [hkk]; rfl
      · have : (k == (⟨c.x.shape, c.x.dtype, c.axis, c.kind.isReal, c.kind.n⟩ : FKey)) = false := by
          rw [beq_eq_false_iff_ne]; exact hkk
        rw [this] at hl
        obtain ⟨h1, h2, h3⟩ := hs k o hl
        exact ⟨h1, h2, by simp; omega⟩
  · rw [he]
    intro k o' hl
    obtain ⟨h1, h2, h3⟩ := hs k o' hl
    exact ⟨h1, h2, by simpa using h3⟩

/-- **C57** (caching on; in the history, forward and inverse transforms of the same shape, dtype and axis are not mixed): each call that succeeds returns an array that holds the transform
asked for, at the moment it returns. -/
theorem C57_value_partial (set : FftSt) (cacheOn : Bool) (h : List (FCall V)) (c : FCall V) (i : ℕ)
    (hmix : ∀ a ∈ h ++ [c], ∀ b ∈ h ++ [c], Spec.SameObject a b → a.kind = b.kind)
    (hok : (fftOp tr (fftRun tr { set, cacheOn } h) c.kind c.x c.axis c.patience).2 = .ok i) :
    (fftRun tr { set, cacheOn } (h ++ [c])).heap[i]? = some (tr c.kind c.axis c.x) := by
  classical
  let K : FKey → FKind := fun k => if hk : ∃ a ∈ h ++ [c], a.key = k then hk.choose.kind else .fft
  have hK : ∀ a ∈ h ++ [c], K a.key = a.kind := by
    intro a ha
    have hex : ∃ b ∈ h ++ [c], b.key = a.key := ⟨a, ha, rfl⟩
    simp only [K, dif_pos hex]
    exact hmix _ hex.choose_spec.1 a ha ((key_eq_iff _ _).1 hex.choose_spec.2)
  have hinv : ∀ (l : List (FCall V)) (s : FCache V), (∀ a ∈ l, K a.key = a.kind) → FInv K s → FInv K (fftRun tr s l) := by
    intro l
    induction l with
    | nil => intro s _ hs; exact hs
    | cons a l ih =>
      intro s hl hs
      exact ih _ (fun b hb => hl b (List.mem_cons_of_mem _ hb)) (fInv_step tr K s a (hl a List.mem_cons_self) hs)
  have hI := hinv h { set, cacheOn } (fun a ha => hK a (List.mem_append_left _ ha)) (by intro k o hl; cases hl)
  have hrun : fftRun tr { set, cacheOn } (h ++ [c]) =
      (fftOp tr (fftRun tr { set, cacheOn } h) c.kind c.x c.axis c.patience).1 := by
    simp only [fftRun, List.foldl_append, List.foldl_cons, List.foldl_nil]
  rw [hrun]
  rcases fftOp_cases tr (fftRun tr { set, cacheOn } h) c.kind c.x c.axis c.patience with ⟨e, he⟩ | ⟨hist', he, _⟩ | ⟨o, _, ho, he⟩
  · rw [he] at hok; cases hok
  · rw [he] at hok ⊢
    simp only [Except.ok.injEq] at hok
    subst hok
    simp
  · rw [he] at hok ⊢
    simp only [Except.ok.injEq] at hok
    subst hok
    obtain ⟨h1, h2, h3⟩ := hI _ o ho
    have hk : K ⟨c.x.shape, c.x.dtype, c.axis, c.kind.isReal, c.kind.n⟩ = c.kind := hK c (by simp)
    rw [hk] at h1
    simp only at h2
    simp [h1, h2, h3]

/-- **C57**, continued: and it keeps holding it as long as no later call uses the same object. -/
theorem C57_kept_partial (set : FftSt) (cacheOn : Bool) (h h' : List (FCall V)) (c : FCall V) (i : ℕ)
    (hmix : ∀ a ∈ h ++ [c], ∀ b ∈ h ++ [c], Spec.SameObject a b → a.kind = b.kind)
    (hok : (fftOp tr (fftRun tr { set, cacheOn } h) c.kind c.x c.axis c.patience).2 = .ok i)
    (hlater : ∀ a ∈ h', ¬ Spec.SameObject a c) :
    (fftRun tr { set, cacheOn } (h ++ [c] ++ h')).heap[i]? = some (tr c.kind c.axis c.x) := by
  replace hlater : ∀ a ∈ h', a.key ≠ c.key := fun a ha hk => hlater a ha ((key_eq_iff _ _).1 hk)
  have h0 := C57_value_partial tr set cacheOn h c i hmix hok
  -- objects under different keys have different arrays; arrays of the past are never handed out again
  let J : FCache V → Prop := fun s => ∀ k o, s.hist.lookup k = some o → o.out < s.heap.length ∧
    (o.out = i → k = c.key)
  have hJmid : J (fftRun tr { set, cacheOn } (h ++ [c])) ∧ i < (fftRun tr { set, cacheOn } (h ++ [c])).heap.length := by
    have hlt : i < (fftRun tr { set, cacheOn } (h ++ [c])).heap.length := by
      by_contra hge
      rw [List.getElem?_eq_none (by omega)] at h0
      cases h0
    refine ⟨?_, hlt⟩
    -- distinctness invariant of the first part
    let D : FCache V → Prop := fun s => (∀ k o, s.hist.lookup k = some o → o.out < s.heap.length) ∧
      ∀ k k' o o', s.hist.lookup k = some o → s.hist.lookup k' = some o' → o.out = o'.out → k = k'
    have hD : ∀ (s : FCache V) (a : FCall V), D s → D (fftOp tr s a.kind a.x a.axis a.patience).1 := by
      intro s a hs
      rcases fftOp_cases tr s a.kind a.x a.axis a.patience with ⟨e, he⟩ | ⟨hist', he, hh⟩ | ⟨o, _, ho, he⟩
      · rw [he]; exact hs
      · rw [he]
        rcases hh with rfl | ⟨_, rfl⟩
        · exact ⟨fun k o hl => by have := hs.1 k o hl; simp; omega, hs.2⟩
        · have hl : ∀ k o, List.lookup k ((a.key, (⟨a.kind, a.axis, s.heap.length⟩ : FObj)) :: s.hist) = some o →
              (k = a.key ∧ o.out = s.heap.length) ∨ (k ≠ a.key ∧ s.hist.lookup k = some o) := by
            intro k o hl
            rw [List.lookup_cons] at hl
            by_cases hk : k = a.key
            · subst hk
              simp only [beq_self_eq_true, Option.some.injEq] at hl
              exact .inl ⟨rfl, by rw [← hl]⟩
            · rw [beq_eq_false_iff_ne.2 hk] at hl
              exact .inr ⟨hk, hl⟩
          refine ⟨fun k o hk => ?_, fun k k' o o' hk hk' he => ?_⟩
          · rcases hl k o hk with ⟨_, h2⟩ | ⟨_, h2⟩
            · simp [h2]
            · have := hs.1 k o h2; simp; omega
          · rcases hl k o hk with ⟨h1, h2⟩ | ⟨h1, h2⟩ <;> rcases hl k' o' hk' with ⟨h3, h4⟩ | ⟨h3, h4⟩
            · rw [h1, h3]
            · have := hs.1 k' o' h4; omega
            · have := hs.1 k o h2; omega
            · exact hs.2 k k' o o' h2 h4 he
      · rw [he]
        exact ⟨fun k o' hl => by simpa using hs.1 k o' hl, hs.2⟩
    have hDrun : ∀ (l : List (FCall V)) (s : FCache V), D s → D (fftRun tr s l) := by
      intro l
      induction l with
      | nil => intro s hs; exact hs
      | cons a l ih => intro s hs; exact ih _ (hD s a hs)
    have hDh := hDrun h { set, cacheOn } ⟨(by intro k o hl; cases hl), (by intro k k' o o' hl; cases hl)⟩
    have hDc := hDrun (h ++ [c]) { set, cacheOn } ⟨(by intro k o hl; cases hl), (by intro k k' o o' hl; cases hl)⟩
    have hrun : fftRun tr { set, cacheOn } (h ++ [c]) =
        (fftOp tr (fftRun tr { set, cacheOn } h) c.kind c.x c.axis c.patience).1 := by
      simp only [fftRun, List.foldl_append, List.foldl_cons, List.foldl_nil]
    intro k o hl
    refine ⟨hDc.1 k o hl, fun hoi => ?_⟩
    rcases fftOp_cases tr (fftRun tr { set, cacheOn } h) c.kind c.x c.axis c.patience with
      ⟨e, he⟩ | ⟨hist', he, hh⟩ | ⟨o', _, ho, he⟩
    · rw [he] at hok; cases hok
    · rw [he] at hok
      simp only [Except.ok.injEq] at hok
      rw [hrun, he] at hl
      simp only at hl
      rcases hh with rfl | ⟨_, rfl⟩
      · have := hDh.1 k o hl; omega
      · rw [List.lookup_cons] at hl
        by_cases hk : k = c.key
        · exact hk
        · have hne : (k == (⟨c.x.shape, c.x.dtype, c.axis, c.kind.isReal, c.kind.n⟩ : FKey)) = false :=
            beq_eq_false_iff_ne.2 hk
          rw [hne] at hl
          have := hDh.1 k o hl; omega
    · rw [he] at hok
      simp only [Except.ok.injEq] at hok
      rw [hrun, he] at hl
      exact hDh.2 k c.key o o' hl ho (hoi.trans hok.symm)
  have hstep : ∀ (s : FCache V) (a : FCall V), a.key ≠ c.key → J s → i < s.heap.length →
      J (fftOp tr s a.kind a.x a.axis a.patience).1 ∧ i < (fftOp tr s a.kind a.x a.axis a.patience).1.heap.length ∧
      (fftOp tr s a.kind a.x a.axis a.patience).1.heap[i]? = s.heap[i]? := by
    intro s a ha hJ hi
    rcases fftOp_cases tr s a.kind a.x a.axis a.patience with ⟨e, he⟩ | ⟨hist', he, hh⟩ | ⟨o, _, ho, he⟩
    · rw [he]; exact ⟨hJ, hi, rfl⟩
    · rw [he]
      refine ⟨?_, by simp; omega, by simp only; rw [List.getElem?_append_left hi]⟩
      intro k o hl
      simp only at hl
      rcases hh with rfl | ⟨_, rfl⟩
      · have := hJ k o hl; exact ⟨by simp; omega, this.2⟩
      · rw [List.lookup_cons] at hl
        by_cases hk : k = a.key
        · have : (k == (⟨a.x.shape, a.x.dtype, a.axis, a.kind.isReal, a.kind.n⟩ : FKey)) = true := beq_iff_eq.2 hk
          rw [this] at hl
          simp only [Option.some.injEq] at hl
          subst hl
          exact ⟨by simp, fun h => by simp only at h; omega⟩
        · have : (k == (⟨a.x.shape, a.x.dtype, a.axis, a.kind.isReal, a.kind.n⟩ : FKey)) = false :=
            beq_eq_false_iff_ne.2 hk
          rw [this] at hl
          have := hJ k o hl
          exact ⟨by simp; omega, this.2⟩
    · have hne : o.out ≠ i := fun h => ha ((hJ _ o ho).2 h)
      rw [he]
      refine ⟨fun k o' hl => by simpa using hJ k o' hl, by simpa using hi, ?_⟩
      simp only
      rw [List.getElem?_set_ne hne]
  have hfin : ∀ (l : List (FCall V)) (s : FCache V), (∀ a ∈ l, a.key ≠ c.key) → J s → i < s.heap.length →
      (fftRun tr s l).heap[i]? = s.heap[i]? := by
    intro l
    induction l with
    | nil => intro s _ _ _; rfl
    | cons a l ih =>
      intro s hl hJ hi
      obtain ⟨h1, h2, h3⟩ := hstep s a (hl a List.mem_cons_self) hJ hi
      exact (ih _ (fun b hb => hl b (List.mem_cons_of_mem _ hb)) h1 h2).trans h3
  have : fftRun tr { set, cacheOn } (h ++ [c] ++ h') = fftRun tr (fftRun tr { set, cacheOn } (h ++ [c])) h' := by
    simp only [fftRun, List.foldl_append]
  rw [this, hfin h' _ hlater hJmid.1 hJmid.2, h0]

/-- Two transforms of the same signal, different keys, caching on: both results are right at the end. -/
example : (fftRun exTr ({ set := ⟨.int 1, .int 120⟩, cacheOn := true } : FCache ℤ)
      ([] ++ [⟨.fft, ⟨[4], .float64, 5⟩, -1, none⟩] ++ [⟨.rfft, ⟨[4], .float64, 7⟩, -1, none⟩])).heap[0]? = some 6 :=
  C57_kept_partial exTr ⟨.int 1, .int 120⟩ true [] _ ⟨.fft, ⟨[4], .float64, 5⟩, -1, none⟩ 0
    (by intro a ha b hb _; simp at ha hb; rw [ha, hb]) rfl
    (by intro a ha; simp at ha; subst ha; simp [Spec.SameObject, Spec.SharePlan])

/-- Inverse real transforms to different lengths use different objects. -/
example : (fftRun exTr ({ set := ⟨.int 1, .int 120⟩, cacheOn := true } : FCache ℤ)
      ([] ++ [⟨.irfft (some 8), ⟨[5], .complex128, 5⟩, -1, none⟩] ++ [⟨.irfft (some 9), ⟨[5], .complex128, 7⟩, -1, none⟩])).heap[0]? = some 4 :=
  C57_kept_partial exTr ⟨.int 1, .int 120⟩ true [] _ ⟨.irfft (some 8), ⟨[5], .complex128, 5⟩, -1, none⟩ 0
    (by intro a ha b hb _; simp at ha hb; rw [ha, hb]) rfl
    (by intro a ha; simp at ha; subst ha; simp [Spec.SameObject, Spec.SharePlan])

end Ssq
