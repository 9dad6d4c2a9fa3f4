import Verif.Model.GpuSwitch
import Verif.Props.Cache

/-!
# C213: switching between CPU and GPU
-/
namespace Ssq

variable {V : Type} (call : List ℝ → ℕ → V)

/-- The full claim: whatever was computed before with this wavelet, and on whichever device, `cwt` returns a result, computed on the device in use. -/
def C213_full : Prop := ∀ (V : Type) (call : List ℝ → ℕ → V) (N : ℕ) (g : Bool) (h : List (Bool × DevCall)) (use : Bool) (c : DevCall),
  ∃ e : DevPsih V, (cwtDev call use (cwtDevRun call { N := N, xiGpu := g } h) c).2 = .ok e ∧ e.gpu = use

/-- A call that uses the cache. -/
def Spec.UsesCache (c : DevCall) : Prop := c.vectorized = true ∧ c.cached = true

/-- The cache holds the samples of an earlier call that used the cache, on the device of that call. -/
def CacheInv (h : List (Bool × DevCall)) (w : DevWav V) : Prop :=
  ∀ e, w.cache = some e → e.samples = call e.scales e.len ∧ ∃ c', (e.gpu, c') ∈ h ∧ Spec.UsesCache c' ∧ c'.len = e.len ∧ c'.scales = e.scales

theorem devMul_self (a : Bool) : devMul a a = .ok a := by simp [devMul]

theorem devMul_ne {a b : Bool} (h : a ≠ b) : devMul a b = .error .typeError := by simp [devMul, h]

open Classical in
/-- What `Psih` does: fresh samples, those of the cache, or an exception. -/
theorem devPsih_cases (use : Bool) (w : DevWav V) (l : List ℝ) :
    (devPsih call use w l = ({ w with cache := some ⟨call l w.N, w.N, l, use⟩ }, .ok ⟨call l w.N, w.N, l, use⟩) ∧
      ∀ e, w.cache = some e → ¬ (w.N = e.len ∧ Spec.Within l e.scales)) ∨
    (∃ e, w.cache = some e ∧ w.N = e.len ∧ Spec.Within l e.scales ∧ (use = true ∨ e.gpu = false) ∧ devPsih call use w l = (w, .ok e)) ∨
    (∃ e, w.cache = some e ∧ w.N = e.len ∧ l.length = e.scales.length ∧ use = false ∧ e.gpu = true ∧ devPsih call use w l = (w, .error .typeError)) := by
  unfold devPsih
  cases hc : w.cache with
  | none => left; exact ⟨rfl, fun e he => by cases he⟩
  | some e =>
    simp only []
    by_cases hh : w.N = e.len ∧ l.length = e.scales.length
    · rw [if_pos hh]
      unfold devAllclose
      by_cases hu : ((use || e.gpu) && !use) = true
      · rw [if_pos hu]
        right; right
        have : use = false ∧ e.gpu = true := by
          revert hu; cases use <;> cases e.gpu <;> simp
        exact ⟨e, rfl, hh.1, hh.2, this.1, this.2, rfl⟩
      · rw [if_neg hu]
        have hu' : use = true ∨ e.gpu = false := by
          revert hu; cases use <;> cases e.gpu <;> simp
        by_cases ha : npAllclose l e.scales
        · right; left
          rw [decide_eq_true ha]
          exact ⟨e, rfl, hh.1, (npAllclose_iff _ _).1 ha, hu', rfl⟩
        · left
          rw [decide_eq_false ha]
          refine ⟨rfl, fun e' he' h' => ?_⟩
          cases he'
          exact ha ((npAllclose_iff _ _).2 h'.2)
    · rw [if_neg hh]
      left
      refine ⟨rfl, fun e' he' h' => ?_⟩
      cases he'
      exact hh ⟨h'.1, h'.2.1⟩

/-- What `cwt` does. -/
theorem cwtDev_cases (use : Bool) (w : DevWav V) (c : DevCall) :
    -- samples computed anew and not kept
    (¬ Spec.UsesCache c ∧ cwtDev call use w c = ({ w with xiGpu := use }, .ok ⟨call c.scales c.len, c.len, c.scales, use⟩)) ∨
    -- computed anew and kept
    (Spec.UsesCache c ∧ (∀ e, w.cache = some e → ¬ (c.len = e.len ∧ Spec.Within c.scales e.scales)) ∧
      cwtDev call use w c = (⟨w.N, use, some ⟨call c.scales c.len, c.len, c.scales, use⟩⟩, .ok ⟨call c.scales c.len, c.len, c.scales, use⟩)) ∨
    -- from the cache
    (Spec.UsesCache c ∧ ∃ e, w.cache = some e ∧ c.len = e.len ∧ Spec.Within c.scales e.scales ∧ e.gpu = use ∧
      cwtDev call use w c = ({ w with xiGpu := use }, .ok e)) ∨
    -- an exception: the cache is on the other device
    (Spec.UsesCache c ∧ ∃ e, w.cache = some e ∧ c.len = e.len ∧ c.scales.length = e.scales.length ∧ e.gpu = !use ∧ (use = true → Spec.Within c.scales e.scales) ∧
      cwtDev call use w c = ({ w with N := c.len, xiGpu := use }, .error .typeError)) := by
  by_cases hc : c.vectorized = true ∧ c.cached = true
  · have hb : (c.vectorized && c.cached) = true := by rw [hc.1, hc.2]; rfl
    rcases devPsih_cases call use { w with N := c.len, xiGpu := use } c.scales with ⟨h1, h2⟩ | ⟨e, h1, h2, h3, h4, h5⟩ | ⟨e, h1, h2, h3, h4, h4', h5⟩
    · right; left
      refine ⟨hc, h2, ?_⟩
      unfold cwtDev
      simp only [hb, if_true, h1]
      cases c.derivative <;> simp [Except.bind, devMul_self]
    · right; right
      by_cases hg : e.gpu = use
      · left
        refine ⟨hc, e, h1, h2, h3, hg, ?_⟩
        subst hg
        unfold cwtDev
        simp only [hb, if_true, h5]
        cases c.derivative <;> simp [Except.bind, devMul_self]
      · right
        refine ⟨hc, e, h1, h2, h3.1, ?_, fun _ => h3, ?_⟩
        · revert hg; cases e.gpu <;> cases use <;> simp
        · unfold cwtDev
          simp only [hb, if_true, h5]
          simp [Except.bind, devMul_ne hg]
    · right; right; right
      refine ⟨hc, e, h1, h2, h3, by rw [h4, h4']; rfl, fun h => (by rw [h4] at h; cases h), ?_⟩
      unfold cwtDev
      simp only [hb, if_true, h5]
      rfl
  · left
    refine ⟨hc, ?_⟩
    have hb : (c.vectorized && c.cached) = false := by
      cases h1 : c.vectorized <;> cases h2 : c.cached <;> simp_all
    unfold cwtDev
    simp only [hb]
    cases c.derivative <;> simp [Except.bind, devMul_self]

theorem cacheInv_run (w : DevWav V) (h0 : w.cache = none) (h : List (Bool × DevCall)) : CacheInv call h (cwtDevRun call w h) := by
  induction h using List.reverseRecOn with
  | nil =>
    intro e he
    rw [show cwtDevRun call w [] = w from rfl, h0] at he
    cases he
  | append_singleton h a ih =>
    intro e he
    have hr : cwtDevRun call w (h ++ [a]) = (cwtDev call a.1 (cwtDevRun call w h) a.2).1 := by simp [cwtDevRun]
    rw [hr] at he
    have old : ∀ e, (cwtDevRun call w h).cache = some e → e.samples = call e.scales e.len ∧ ∃ c', (e.gpu, c') ∈ h ++ [a] ∧ Spec.UsesCache c' ∧ c'.len = e.len ∧ c'.scales = e.scales := by
      intro e he
      obtain ⟨h1, c', h2, h3⟩ := ih e he
      exact ⟨h1, c', List.mem_append_left _ h2, h3⟩
    rcases cwtDev_cases call a.1 (cwtDevRun call w h) a.2 with ⟨-, h1⟩ | ⟨hu, -, h1⟩ | ⟨-, e', -, -, -, -, h1⟩ | ⟨-, e', -, -, -, -, -, h1⟩
    · rw [h1] at he; exact old e he
    · rw [h1] at he
      simp only [Option.some.injEq] at he
      rw [← he]
      exact ⟨rfl, a.2, by simp, hu, rfl, rfl⟩
    · rw [h1] at he; exact old e he
    · rw [h1] at he; exact old e he

/-- **C213.** After any history, `cwt` either computes on the device in use, with the samples for the length of its signal and for its scales (or, from the cache, for scales within `allclose` that
were asked before on this device); or it raises `TypeError`. The latter only if the call uses the cache, and some earlier call that used the cache ran on the other device for a signal of
the same length and as many scales. -/
theorem C213_outcome_partial (N : ℕ) (g : Bool) (h : List (Bool × DevCall)) (use : Bool) (c : DevCall) :
    (∃ e : DevPsih V, (cwtDev call use (cwtDevRun call { N := N, xiGpu := g } h) c).2 = .ok e ∧ e.gpu = use ∧ e.samples = call e.scales c.len ∧
      (e.scales = c.scales ∨ Spec.UsesCache c ∧ Spec.Within c.scales e.scales ∧ ∃ c', (use, c') ∈ h ∧ Spec.UsesCache c' ∧ c'.len = c.len ∧ c'.scales = e.scales)) ∨
    ((cwtDev call use (cwtDevRun call { N := N, xiGpu := g } h) c).2 = .error .typeError ∧ Spec.UsesCache c ∧
      ∃ c', (!use, c') ∈ h ∧ Spec.UsesCache c' ∧ c'.len = c.len ∧ c'.scales.length = c.scales.length ∧ (use = true → Spec.Within c.scales c'.scales)) := by
  have hi := cacheInv_run call { N := N, xiGpu := g } rfl h
  rcases cwtDev_cases call use (cwtDevRun call { N := N, xiGpu := g } h) c with ⟨-, h1⟩ | ⟨-, -, h1⟩ | ⟨hu, e, he, hl, hw, hg, h1⟩ | ⟨hu, e, he, hl, hs, hg, hw, h1⟩
  · rw [h1]; exact .inl ⟨_, rfl, rfl, rfl, .inl rfl⟩
  · rw [h1]; exact .inl ⟨_, rfl, rfl, rfl, .inl rfl⟩
  · obtain ⟨a, c', b1, b2, b3, b4⟩ := hi e he
    rw [h1]
    exact .inl ⟨e, rfl, hg, by rw [hl]; exact a, .inr ⟨hu, hw, c', hg ▸ b1, b2, by rw [b3, hl], b4⟩⟩
  · obtain ⟨a, c', b1, b2, b3, b4⟩ := hi e he
    rw [h1]
    exact .inr ⟨rfl, hu, c', hg ▸ b1, b2, by rw [b3, hl], by rw [b4, hs], fun h => by rw [b4]; exact hw h⟩

/-- On one device, and without the cache on either, no call raises. -/
theorem C213_one_device_partial (N : ℕ) (g : Bool) (h : List (Bool × DevCall)) (use : Bool) (c : DevCall)
    (hd : ¬ Spec.UsesCache c ∨ ∀ c', (!use, c') ∈ h → Spec.UsesCache c' → c'.len ≠ c.len) :
    ∃ e : DevPsih V, (cwtDev call use (cwtDevRun call { N := N, xiGpu := g } h) c).2 = .ok e ∧ e.gpu = use ∧ e.samples = call e.scales c.len := by
  rcases C213_outcome_partial call N g h use c with ⟨e, h1, h2, h3, -⟩ | ⟨-, hu, c', h1, h2, h3, -⟩
  · exact ⟨e, h1, h2, h3⟩
  · rcases hd with hd | hd
    · exact absurd hu hd
    · exact absurd h3 (hd c' h1 h2)

/-- After a switch: a call that used the cache and succeeded raises on the other device, as often as it is tried, and succeeds again after switching back. -/
theorem C213_switch (N : ℕ) (g : Bool) (h : List (Bool × DevCall)) (use : Bool) (c : DevCall) (hu : Spec.UsesCache c) (e : DevPsih V)
    (hok : (cwtDev call use (cwtDevRun call { N := N, xiGpu := g } h) c).2 = .ok e) (n : ℕ) :
    let w := cwtDevRun call { N := N, xiGpu := g } (h ++ [(use, c)] ++ List.replicate n (!use, c))
    (cwtDev call (!use) w c).2 = .error .typeError ∧ (cwtDev call use w c).2 = .ok e := by
  intro w
  have hw : w.cache = some e ∧ c.len = e.len ∧ Spec.Within c.scales e.scales ∧ e.gpu = use := by
    induction n with
    | zero =>
      have hr : w = (cwtDev call use (cwtDevRun call { N := N, xiGpu := g } h) c).1 := by simp [w, cwtDevRun]
      rw [hr]
      rcases cwtDev_cases call use (cwtDevRun call { N := N, xiGpu := g } h) c with ⟨h0, -⟩ | ⟨-, -, h1⟩ | ⟨-, e', he, hl, hw, hg, h1⟩ | ⟨-, e', he, hl, hs, hg, hw, h1⟩
      · exact absurd hu h0
      · rw [h1] at hok ⊢
        cases hok
        exact ⟨rfl, rfl, (npAllclose_iff _ _).1 (npAllclose_refl _), rfl⟩
      · rw [h1] at hok ⊢
        cases hok
        exact ⟨he, hl, hw, hg⟩
      · rw [h1] at hok
        cases hok
    | succ n ih =>
      obtain ⟨i1, i2, i3, i4⟩ := ih
      have hr : w = (cwtDev call (!use) (cwtDevRun call { N := N, xiGpu := g } (h ++ [(use, c)] ++ List.replicate n (!use, c))) c).1 := by
        simp only [w]
        rw [List.replicate_succ', ← List.append_assoc]
        simp [cwtDevRun]
      rw [hr]
      rcases cwtDev_cases call (!use) (cwtDevRun call { N := N, xiGpu := g } (h ++ [(use, c)] ++ List.replicate n (!use, c))) c with
        ⟨h0, -⟩ | ⟨-, h0, -⟩ | ⟨-, e', he, hl, hw, hg, h1⟩ | ⟨-, e', he, hl, hs, hg, hw, h1⟩
      · exact absurd hu h0
      · exact absurd ⟨i2, i3⟩ (h0 e i1)
      · rw [i1] at he
        cases he
        rw [i4] at hg
        cases use <;> cases hg
      · rw [h1]
        exact ⟨i1, i2, i3, i4⟩
  obtain ⟨i1, i2, i3, i4⟩ := hw
  constructor
  · rcases cwtDev_cases call (!use) w c with ⟨h0, -⟩ | ⟨-, h0, -⟩ | ⟨-, e', he, hl, hw, hg, h1⟩ | ⟨-, e', he, hl, hs, hg, hw, h1⟩
    · exact absurd hu h0
    · exact absurd ⟨i2, i3⟩ (h0 e i1)
    · rw [i1] at he
      cases he
      rw [i4] at hg
      cases use <;> cases hg
    · rw [h1]
  · rcases cwtDev_cases call use w c with ⟨h0, -⟩ | ⟨-, h0, -⟩ | ⟨-, e', he, hl, hw, hg, h1⟩ | ⟨-, e', he, hl, hs, hg, hw, h1⟩
    · exact absurd hu h0
    · exact absurd ⟨i2, i3⟩ (h0 e i1)
    · rw [i1] at he
      cases he
      rw [h1]
    · rw [i1] at he
      cases he
      rw [i4] at hg
      cases use <;> cases hg

/-- The full claim fails: `cwt(x, wavelet)` on the CPU, then the same on the GPU. -/
theorem C213_refuted : ¬ C213_full := by
  intro hf
  let c : DevCall := { len := 128, scales := [2, 4] }
  obtain ⟨e, he, -⟩ := hf ℕ (fun _ n => n) 1024 false [] false c
  obtain ⟨h1, -⟩ := C213_switch (fun _ n => n) 1024 false [] false c ⟨rfl, rfl⟩ e he 0
  obtain ⟨e', h2, -⟩ := hf ℕ (fun _ n => n) 1024 false [(false, c)] true c
  simp only [List.replicate_zero, List.append_nil, List.nil_append, Bool.not_false] at h1
  rw [h1] at h2
  cases h2

/-- The hypotheses of the partial claims are met: two lengths, the shorter on the CPU and the longer on the GPU. -/
example : ∃ e : DevPsih ℕ, (cwtDev (fun _ n => n) true (cwtDevRun (fun _ n => n) { N := 1024, xiGpu := false } [(false, { len := 128, scales := [2, 4] })]) { len := 256, scales := [2, 4] }).2 = .ok e ∧
    e.gpu = true ∧ e.samples = 256 :=
  C213_one_device_partial (fun _ n => n) 1024 false [(false, { len := 128, scales := [2, 4] })] true { len := 256, scales := [2, 4] }
    (.inr fun c' h _ => by simp at h; subst h; simp)

end Ssq
