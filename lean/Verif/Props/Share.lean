import Verif.Lemmas.Share

/-!
# C224, C225: what `ssq_cwt` and `ssq_stft` write to, and which of their arrays are shared
-/
namespace Ssq

/-! ## C224 -/

/-- **C224.** With `preserve_transform=True`, and with any of the named `squeezing`s, `ssq_cwt` returns the transform
and its derivative as `cwt` gives them, the scales used, and the phase transform of the transform. -/
theorem C224_cwt {V : Type} (ops : ShareOps V) (hrev : ∀ v, ops.rev (ops.rev v) = v) (d : V) (m : AMem V) (x : ℕ)
    (sc : Option ℕ) (same : Bool) (a : ShareArgs V) (hg : Spec.Given m x sc a)
    (h : a.preserve = some true ∨ a.preserve = none ∧ a.tensor = false ∨ Spec.BuiltIn a.squeezing) :
    let n := (ssqCwtShare ops m d x sc same a).1
    let r := (ssqCwtShare ops m d x sc same a).2
    let s := Spec.scalesUsed ops m d sc same
    let W := ops.transform (m.getD x d) s
    r.Wx.read ops n d = W.1 ∧ r.dWx.read ops n d = W.2 ∧ r.grid.read ops n d = s ∧
      r.w.map (fun q => q.read ops n d) = if a.getW then some (ops.phase W.1 W.2) else none := by
  obtain ⟨s, fr, -, -, -, -, hc⟩ := cwt_call ops hrev d m x sc same a hg
  refine ⟨hc.Wx ?_, hc.dWx, hc.grid, hc.w⟩
  rcases h with h | ⟨h, h'⟩ | h
  · left; simp [ShareArgs.preserves, h]
  · left; simp [ShareArgs.preserves, h, h']
  · exact Or.inr h

/-- The same for `ssq_stft`. -/
theorem C224_stft {V : Type} (ops : ShareOps V) (hrev : ∀ v, ops.rev (ops.rev v) = v) (d : V) (m : AMem V) (x : ℕ)
    (a : ShareArgs V) (hg : Spec.Given m x none a)
    (h : a.preserve = some true ∨ a.preserve = none ∧ a.tensor = false ∨ Spec.BuiltIn a.squeezing) :
    let n := (ssqStftShare ops m d x a).1
    let r := (ssqStftShare ops m d x a).2
    let W := ops.transform (m.getD x d) ops.scales
    r.Wx.read ops n d = W.1 ∧ r.dWx.read ops n d = W.2 ∧ r.grid.read ops n d = ops.sfs W.1 ∧
      r.w.map (fun q => q.read ops n d) = if a.getW then some (ops.phase W.1 W.2) else none := by
  obtain ⟨s, fr, -, -, -, hc⟩ := stft_call ops hrev d m x a hg
  refine ⟨hc.Wx ?_, hc.dWx, hc.grid, hc.w⟩
  rcases h with h | ⟨h, h'⟩ | h
  · left; simp [ShareArgs.preserves, h]
  · left; simp [ShareArgs.preserves, h, h']
  · exact Or.inr h

/-- Whatever `preserve_transform` is, what `ssq_cwt` returns as `Tx` and frequencies is the same. -/
theorem C224_cwt_result {V : Type} (ops : ShareOps V) (hrev : ∀ v, ops.rev (ops.rev v) = v) (d : V) (m : AMem V) (x : ℕ)
    (sc : Option ℕ) (same : Bool) (a : ShareArgs V) (hg : Spec.Given m x sc a) :
    let n := (ssqCwtShare ops m d x sc same a).1
    let r := (ssqCwtShare ops m d x sc same a).2
    let s := Spec.scalesUsed ops m d sc same
    let W := ops.transform (m.getD x d) s
    let f := (a.ssqFreqs.map fun q => q.read ops m d).getD (ops.freqs s)
    r.Tx.read ops n d = ops.squeeze (Spec.squeezedValue ops a.squeezing W.1)
        (if a.getW then .inl (ops.phase W.1 W.2) else .inr W.2) f ∧
      r.freqs.read ops n d = ops.rev f := by
  obtain ⟨s, fr, -, -, -, -, hc⟩ := cwt_call ops hrev d m x sc same a hg
  exact ⟨hc.Tx, hc.freqs⟩

/-- The same for `ssq_stft`. -/
theorem C224_stft_result {V : Type} (ops : ShareOps V) (hrev : ∀ v, ops.rev (ops.rev v) = v) (d : V) (m : AMem V) (x : ℕ)
    (a : ShareArgs V) (hg : Spec.Given m x none a) :
    let n := (ssqStftShare ops m d x a).1
    let r := (ssqStftShare ops m d x a).2
    let W := ops.transform (m.getD x d) ops.scales
    let f := (a.ssqFreqs.map fun q => q.read ops m d).getD (ops.sfs W.1)
    r.Tx.read ops n d = ops.squeeze (Spec.squeezedValue ops a.squeezing W.1)
        (if a.getW then .inl (ops.phase W.1 W.2) else .inr W.2) f ∧
      r.freqs.read ops n d = if a.flipud then ops.rev f else f := by
  obtain ⟨s, fr, -, -, -, hc⟩ := stft_call ops hrev d m x a hg
  exact ⟨hc.Tx, hc.freqs⟩

/-- With `preserve_transform=False` (the default on the GPU) and a function as `squeezing`, the transform returned is
what the function left in its argument. -/
theorem C224_not_preserved {V : Type} (ops : ShareOps V) (hrev : ∀ v, ops.rev (ops.rev v) = v) (d : V) (m : AMem V) (x : ℕ)
    (sc : Option ℕ) (same : Bool) (a : ShareArgs V) (hg : Spec.Given m x sc a) (leaves : V → V) (returns : V → Option V)
    (hsq : a.squeezing = .fn leaves returns)
    (h : a.preserve = some false ∨ a.preserve = none ∧ a.tensor = true) :
    (ssqCwtShare ops m d x sc same a).2.Wx.read ops (ssqCwtShare ops m d x sc same a).1 d =
        leaves (ops.transform (m.getD x d) (Spec.scalesUsed ops m d sc same)).1 ∧
      (ssqStftShare ops m d x a).2.Wx.read ops (ssqStftShare ops m d x a).1 d =
        leaves (ops.transform (m.getD x d) ops.scales).1 := by
  have hp : a.preserves = false := by
    rcases h with h | ⟨h, h'⟩
    · simp [ShareArgs.preserves, h]
    · simp [ShareArgs.preserves, h, h']
  obtain ⟨s, fr, -, -, -, -, hc⟩ := cwt_call ops hrev d m x sc same a hg
  obtain ⟨s', fr', -, -, -, hc'⟩ := stft_call ops hrev d m x a ⟨hg.1, by simp, hg.2.2⟩
  exact ⟨hc.left leaves returns hsq hp, hc'.left leaves returns hsq hp⟩

/-- No array the caller had before the call is changed by it. -/
theorem C224_arguments {V : Type} (ops : ShareOps V) (hrev : ∀ v, ops.rev (ops.rev v) = v) (d : V) (m : AMem V) (x : ℕ)
    (sc : Option ℕ) (same : Bool) (a : ShareArgs V) (hg : Spec.Given m x sc a) (i : ℕ) (hi : i < m.length) :
    (ssqCwtShare ops m d x sc same a).1.getD i d = m.getD i d ∧ (ssqStftShare ops m d x a).1.getD i d = m.getD i d := by
  obtain ⟨s, fr, -, -, -, -, hc⟩ := cwt_call ops hrev d m x sc same a hg
  obtain ⟨s', fr', -, -, -, hc'⟩ := stft_call ops hrev d m x a ⟨hg.1, by simp, hg.2.2⟩
  exact ⟨hc.args i hi, hc'.args i hi⟩

/-- Operations on lists of numbers for the examples: the transform is the signal times the first scale, its derivative
the negative. -/
def exShare : ShareOps (List ℤ) :=
  ⟨[2, 4], id, fun x s => (x.map (· * s.headD 1), x.map (- ·)), fun W D => List.zipWith (· + ·) W D, fun W => W.map fun _ => 1,
    fun W => W.map fun z => |z|, fun s => s.map (· + 10), fun W => W.map fun _ => 7,
    fun W r f => W ++ (r.elim id id) ++ f, List.reverse⟩

/-- A function that doubles its argument in place and returns it. -/
def exDouble : SqArg (List ℤ) := .fn (fun W => W.map (2 * ·)) fun _ => none

example : Spec.Given [[1, -2, 3]] 0 none ({flipud := false, squeezing := exDouble} : ShareArgs (List ℤ)) :=
  ⟨by simp, by simp, by simp⟩

example :
    ((ssqCwtShare exShare [[1, -2, 3]] [] 0 none false {flipud := false, squeezing := exDouble}).2.Wx.read exShare
        (ssqCwtShare exShare [[1, -2, 3]] [] 0 none false {flipud := false, squeezing := exDouble}).1 [] = [2, -4, 6]) ∧
      ((ssqCwtShare exShare [[1, -2, 3]] [] 0 none false
          {flipud := false, squeezing := exDouble, preserve := some false}).2.Wx.read exShare
        (ssqCwtShare exShare [[1, -2, 3]] [] 0 none false
          {flipud := false, squeezing := exDouble, preserve := some false}).1 [] = [4, -8, 12]) := by decide

/-! ## C225 -/

lemma apart_of_ne {V : Type} (ops : ShareOps V) (d : V) (m : AMem V) (p q : ARef) (h : p.buf ≠ q.buf) :
    Spec.Apart ops d m p q := by
  intro v
  apply read_congr
  simp [ARef.write, h]

lemma getD_write {V : Type} (ops : ShareOps V) (d : V) (m : AMem V) (p : ARef) (i : ℕ) (h : p.buf ≠ i) (v : V) :
    (p.write ops m v).getD i d = m.getD i d := by
  simp [ARef.write, h]

/-- **C225** in full: arrays returned by one call can be edited in place independently, and without changing any array
the caller had before. -/
def C225_full : Prop :=
  ∀ (V : Type) (ops : ShareOps V) (_ : ∀ v, ops.rev (ops.rev v) = v) (d : V) (m : AMem V) (x : ℕ) (sc : Option ℕ)
    (same : Bool) (a : ShareArgs V), Spec.Given m x sc a →
    ∀ z ∈ [ssqCwtShare ops m d x sc same a, ssqStftShare ops m d x a],
      (∀ p q rp rq, p ≠ q → Spec.Ret.of z.2 p = some rp → Spec.Ret.of z.2 q = some rq → Spec.Apart ops d z.1 rp rq) ∧
      ∀ p rp i v, Spec.Ret.of z.2 p = some rp → i < m.length → (rp.write ops z.1 v).getD i d = z.1.getD i d

/-- With default arguments the frequencies returned by `ssq_stft` twice are one array: assigning to `ssq_freqs` assigns
to `Sfs`. -/
theorem C225_refuted : ¬ C225_full := by
  intro h
  have := (h (List ℤ) exShare List.reverse_reverse [] [[1, -2, 3]] 0 none false {flipud := false} ⟨by simp, by simp, by simp⟩
    (ssqStftShare exShare [[1, -2, 3]] [] 0 {flipud := false}) (by simp)).1 .freqs .grid
    (ssqStftShare exShare [[1, -2, 3]] [] 0 {flipud := false}).2.freqs
    (ssqStftShare exShare [[1, -2, 3]] [] 0 {flipud := false}).2.grid (by simp) rfl rfl [5]
  revert this
  decide

/-- For `ssq_cwt`: returned arrays can be edited independently, except that `ssq_freqs` and `scales` are one array if the
caller gave one array for both; and `Tx`, `Wx`, `w`, `dWx` can be edited without changing any array the caller had. -/
theorem C225_cwt_partial {V : Type} (ops : ShareOps V) (hrev : ∀ v, ops.rev (ops.rev v) = v) (d : V) (m : AMem V) (x : ℕ)
    (sc : Option ℕ) (same : Bool) (a : ShareArgs V) (hg : Spec.Given m x sc a) :
    let n := (ssqCwtShare ops m d x sc same a).1
    let r := (ssqCwtShare ops m d x sc same a).2
    (∀ p q rp rq, p ≠ q → (∀ s f, sc = some s → a.ssqFreqs = some f → s = f.buf → p = .Tx ∨ p = .Wx ∨ p = .w ∨ p = .dWx) →
      Spec.Ret.of r p = some rp → Spec.Ret.of r q = some rq → Spec.Apart ops d n rp rq) ∧
    ∀ p rp i v, p = .Tx ∨ p = .Wx ∨ p = .w ∨ p = .dWx → Spec.Ret.of r p = some rp → i < m.length →
      (rp.write ops n v).getD i d = m.getD i d := by
  obtain ⟨s, fr, hs1, hs2, hf1, hf2, hc⟩ := cwt_call ops hrev d m x sc same a hg
  obtain ⟨hx, hsc, hfr⟩ := hg
  refine ⟨?_, ?_⟩
  · intro p q rp rq hpq hne hp hq
    apply apart_of_ne
    have fg : (∀ s f, sc = some s → a.ssqFreqs = some f → s ≠ f.buf) →
        (ssqCwtShare ops m d x sc same a).2.grid.buf ≠ (ssqCwtShare ops m d x sc same a).2.freqs.buf := by
      intro hd
      have g := hc.gridBuf
      have f := hc.freqsBuf
      split at g
      · exact g.2
      split at f
      · exact f.2
      rw [g, f]
      cases hff : a.ssqFreqs with
      | none =>
        have := (hf2 hff).2
        omega
      | some q =>
        rw [hf1 q hff]
        have hq := hfr q hff
        cases hss : sc with
        | none =>
          have := hs2 (Or.inl hss)
          omega
        | some s' =>
          cases hsm : same with
          | true =>
            rw [hs1 s' hss hsm]
            exact hd s' q hss hff
          | false =>
            have := hs2 (Or.inr hsm)
            omega
    by_cases h1 : p = .freqs ∧ q = .grid
    · obtain ⟨rfl, rfl⟩ := h1
      cases hp; cases hq
      exact (fg fun s f e1 e2 e3 => by have := hne s f e1 e2 e3; simp at this).symm
    · by_cases h2 : p = .grid ∧ q = .freqs
      · obtain ⟨rfl, rfl⟩ := h2
        cases hp; cases hq
        exact fg fun s f e1 e2 e3 => by have := hne s f e1 e2 e3; simp at this
      · exact hc.distinct p q rp rq hpq h1 h2 hp hq
  · intro p rp i v hp hr hi
    have := hc.fresh p rp hr (by rcases hp with h | h | h | h <;> simp [h]) (by rcases hp with h | h | h | h <;> simp [h])
    rw [getD_write ops d _ rp i (by omega), hc.args i hi]

/-- For `ssq_stft`: returned arrays can be edited independently, except `ssq_freqs` and `Sfs`; these too if `ssq_freqs`
was given. `Tx`, `Sx`, `Sfs`, `w`, `dSx` can be edited without changing any array the caller had. -/
theorem C225_stft_partial {V : Type} (ops : ShareOps V) (hrev : ∀ v, ops.rev (ops.rev v) = v) (d : V) (m : AMem V) (x : ℕ)
    (a : ShareArgs V) (hg : Spec.Given m x none a) :
    let n := (ssqStftShare ops m d x a).1
    let r := (ssqStftShare ops m d x a).2
    (∀ p q rp rq, p ≠ q → (a.ssqFreqs ≠ none ∨ p = .Tx ∨ p = .Wx ∨ p = .w ∨ p = .dWx) →
      Spec.Ret.of r p = some rp → Spec.Ret.of r q = some rq → Spec.Apart ops d n rp rq) ∧
    ∀ p rp i v, p ≠ .freqs → Spec.Ret.of r p = some rp → i < m.length → (rp.write ops n v).getD i d = m.getD i d := by
  obtain ⟨s, fr, hs1, hf1, hf2, hc⟩ := stft_call ops hrev d m x a hg
  obtain ⟨hx, -, hfr⟩ := hg
  refine ⟨?_, ?_⟩
  · intro p q rp rq hpq hne hp hq
    apply apart_of_ne
    have fg : a.ssqFreqs ≠ none →
        (ssqStftShare ops m d x a).2.grid.buf ≠ (ssqStftShare ops m d x a).2.freqs.buf := by
      intro hd
      have g := hc.gridBuf
      have f := hc.freqsBuf
      rw [if_pos (Option.isSome_iff_ne_none.mpr hd)] at f
      split at g
      · exact g.2
      split at f
      · exact f.2
      rw [g, f]
      cases hff : a.ssqFreqs with
      | none => exact absurd hff hd
      | some q =>
        rw [hf1 q hff]
        have hq := hfr q hff
        omega
    by_cases h1 : p = .freqs ∧ q = .grid
    · obtain ⟨rfl, rfl⟩ := h1
      cases hp; cases hq
      exact (fg (by simpa using hne)).symm
    · by_cases h2 : p = .grid ∧ q = .freqs
      · obtain ⟨rfl, rfl⟩ := h2
        cases hp; cases hq
        exact fg (by simpa using hne)
      · exact hc.distinct p q rp rq hpq h1 h2 hp hq
  · intro p rp i v hp hr hi
    have : m.length ≤ rp.buf := by
      by_cases hpg : p = .grid
      · subst hpg
        cases hr
        have g := hc.gridBuf
        split at g
        · exact g.1
        · omega
      · exact hc.fresh p rp hr hp hpg
    rw [getD_write ops d _ rp i (by omega), hc.args i hi]

lemma read_write {V : Type} (ops : ShareOps V) (hrev : ∀ v, ops.rev (ops.rev v) = v) (d : V) (m : AMem V) (p q : ARef)
    (h : p.buf = q.buf) (hl : q.buf < m.length) (v : V) :
    q.read ops (p.write ops m v) d = if p.rev = q.rev then v else ops.rev v := by
  unfold ARef.read ARef.write AMem.get
  rw [h]
  cases p.rev <;> cases q.rev <;> simp [hl, hrev]

/-- When arrays are shared: scales given as an array of the dtype used are returned themselves, and given frequencies
as a view (unless on the GPU), by `ssq_cwt`. -/
theorem C225_given {V : Type} (ops : ShareOps V) (hrev : ∀ v, ops.rev (ops.rev v) = v) (d : V) (m : AMem V) (x : ℕ)
    (sc : Option ℕ) (same : Bool) (a : ShareArgs V) (hg : Spec.Given m x sc a) (v : V)
    (hhost : a.tensor = false ∨ a.astensor = true) :
    let n := (ssqCwtShare ops m d x sc same a).1
    let r := (ssqCwtShare ops m d x sc same a).2
    (∀ s, sc = some s → same = true → (r.grid.write ops n v).getD s d = v) ∧
      ∀ f, a.ssqFreqs = some f → a.freqsTensor = false → f.read ops (r.freqs.write ops n v) d = ops.rev v := by
  obtain ⟨s, fr, hs1, hs2, hf1, hf2, hc⟩ := cwt_call ops hrev d m x sc same a hg
  have hh : (a.tensor && !a.astensor) = false := by rcases hhost with h | h <;> simp [h]
  refine ⟨fun s' h1 h2 => ?_, fun f h1 h2 => ?_⟩
  · have g := hc.gridBuf
    rw [hh] at g
    simp only [Bool.false_eq_true, if_false] at g
    rw [hs1 s' h1 h2] at g
    have hl := hc.len .grid _ rfl
    rw [g] at hl
    have gr := hc.gridRev
    simp [ARef.write, g, hl, gr]
  · have fr' := hc.freqsRev (by simp [h2])
    have g := hc.freqsBuf
    rw [h2] at g
    simp only [Bool.false_and, Bool.false_eq_true, if_false] at g
    rw [hf1 f h1] at g
    have hl := hc.len .freqs _ rfl
    rw [g] at hl
    rw [hf1 f h1] at fr'
    rw [read_write ops hrev d _ _ _ g hl, fr']
    cases f.rev <;> simp

/-- With default frequencies and on the CPU, `ssq_freqs` and `Sfs` of `ssq_stft` are one array: values assigned to one
are read from the other (backwards with `flipud`). -/
theorem C225_shared {V : Type} (ops : ShareOps V) (hrev : ∀ v, ops.rev (ops.rev v) = v) (d : V) (m : AMem V) (x : ℕ)
    (a : ShareArgs V) (hg : Spec.Given m x none a) (hf : a.ssqFreqs = none) (ht : a.tensor = false) (v : V) :
    let n := (ssqStftShare ops m d x a).1
    let r := (ssqStftShare ops m d x a).2
    r.grid.read ops (r.freqs.write ops n v) d = (if a.flipud then ops.rev v else v) ∧
      r.freqs.read ops (r.grid.write ops n v) d = if a.flipud then ops.rev v else v := by
  obtain ⟨s, fr, hs1, hf1, hf2, hc⟩ := stft_call ops hrev d m x a hg
  have g := hc.gridBuf
  have f := hc.freqsBuf
  have fr' := hc.freqsRev (by simp [ht, hf])
  have gr := hc.gridRev
  rw [ht, hf] at f
  rw [ht] at g
  simp only [Bool.false_and, Bool.false_eq_true, if_false, Option.isSome_none] at f g
  rw [hf2 hf] at f fr'
  simp only [Bool.xor_false] at fr'
  refine ⟨?_, ?_⟩
  · rw [read_write ops hrev d _ _ _ (f.trans g.symm) (hc.len .grid _ rfl), fr', gr]
    cases a.flipud <;> simp
  · rw [read_write ops hrev d _ _ _ (g.trans f.symm) (hc.len .freqs _ rfl), fr', gr]
    cases a.flipud <;> simp

/-- A caller's scales `[3, 6]` and frequencies `[1, 2]`: edits of what `ssq_cwt` returns as scales and frequencies reach
them, an edit of `Wx` reaches nothing else. -/
example : Spec.Given [[1, -2, 3], [3, 6], [1, 2]] 0 (some 1)
      ({flipud := false, ssqFreqs := some ⟨2, false⟩, getW := true} : ShareArgs (List ℤ)) ∧
    (let z := ssqCwtShare exShare [[1, -2, 3], [3, 6], [1, 2]] [] 0 (some 1) true
      {flipud := false, ssqFreqs := some ⟨2, false⟩, getW := true}
    (z.2.grid.write exShare z.1 [9, 8]).getD 1 [] = [9, 8] ∧ (z.2.freqs.write exShare z.1 [9, 8]).getD 2 [] = [8, 9] ∧
      z.2.Tx.read exShare (z.2.Wx.write exShare z.1 [0]) [] = [3, -6, 9, 2, -4, 6, 1, 2] ∧
      z.2.freqs.read exShare z.1 [] = [2, 1]) :=
  ⟨⟨by simp, by simp, by simp⟩, by decide⟩

end Ssq
