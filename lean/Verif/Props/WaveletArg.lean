import Verif.Model.WaveletArg
import Mathlib.Tactic.Linarith
import Mathlib.Tactic.NormNum

/-!
# C184: what evaluating a wavelet does to the array of frequencies
-/
namespace Ssq

namespace Spec

/-- The wavelet at one frequency. -/
noncomputable def wavValue {V : Type} : WavBody V → ℝ → V
  | .gmw core wc, w =>
    let v := w * wc.getD 1
    if 0 ≤ v then core v 1 else core 0 0
  | .pure fn, w => fn w

/-- The array with zeros for its negative entries. -/
noncomputable def clip (x : HArr) : HArr := ⟨x.dtype, x.onGpu, x.data.map (max · 0)⟩

/-- The wavelet is an uncentred Morse wavelet and works on the caller's very array: it is where the computation is, and of both dtypes. -/
def WorksOnArg {V : Type} (gpu : Bool) (ds d : FDtype) (b : WavBody V) (x : HArr) : Prop :=
  (∃ core, b = .gmw core none) ∧ x.dtype = ds ∧ x.dtype = d ∧ x.onGpu = gpu

end Spec

/-- **C184, full statement:** `wavelet(w)` leaves all arrays as they were. -/
def C184_full : Prop :=
  ∀ (V : Type) (cast : FDtype → ℝ → ℝ) (gpu : Bool) (ds d : FDtype) (b : WavBody V) (h : List HArr) (a : ℕ), a < h.length →
    ∀ i < h.length, (wavCall cast gpu ds d b h a).2[i]? = h[i]?

theorem nonneg_mul (w : ℝ) : w * nonneg01 w = max w 0 := by
  unfold nonneg01
  split
  · rw [mul_one, max_eq_left (by assumption)]
  · rw [mul_zero, max_eq_right (by linarith)]

theorem zip_nonneg (l : List ℝ) : List.zipWith (· * ·) l (l.map nonneg01) = l.map (max · 0) := by
  induction l with
  | nil => rfl
  | cons x l ih => simp only [List.map_cons, List.zipWith_cons_cons, ih, nonneg_mul]

theorem zip_core {V : Type} (core : ℝ → ℝ → V) (l : List ℝ) :
    List.zipWith core (l.map (max · 0)) (l.map nonneg01) = l.map (Spec.wavValue (.gmw core none)) := by
  induction l with
  | nil => rfl
  | cons x l ih =>
    simp only [List.map_cons, List.zipWith_cons_cons, ih, Spec.wavValue, Option.getD_none, mul_one]
    congr 1
    unfold nonneg01
    split
    · rw [max_eq_left (by assumption)]
    · rw [max_eq_right (by linarith)]

/-- What `asarray` does: the array itself, or a new one at the end of the heap. -/
theorem heapAsarray_spec (cast : FDtype → ℝ → ℝ) (gpu : Bool) (d : FDtype) (h : List HArr) (a : ℕ) (ha : a < h.length) :
    (h[a].dtype = d ∧ h[a].onGpu = gpu ∧ heapAsarray cast gpu d h a = (a, h)) ∨
    (¬ (h[a].dtype = d ∧ h[a].onGpu = gpu) ∧ heapAsarray cast gpu d h a = (h.length, h ++ [⟨d, gpu, h[a].data.map (cast d)⟩])) := by
  unfold heapAsarray
  rw [List.getElem?_eq_getElem ha]
  simp only
  by_cases hc : h[a].dtype = d ∧ h[a].onGpu = gpu
  · exact .inl ⟨hc.1, hc.2, by rw [if_pos hc]⟩
  · exact .inr ⟨hc, by rw [if_neg hc]⟩

/-- `asarray` on a heap that extends another one. -/
theorem heapAsarray_ext (cast : FDtype → ℝ → ℝ) (gpu : Bool) (d : FDtype) (h0 h : List HArr) (hp : h0 <+: h) (a : ℕ) (ha : a < h.length) :
    h0 <+: (heapAsarray cast gpu d h a).2 ∧ ∃ hr : (heapAsarray cast gpu d h a).1 < (heapAsarray cast gpu d h a).2.length,
      ((∀ e x, cast e x = x) → ((heapAsarray cast gpu d h a).2[(heapAsarray cast gpu d h a).1]).data = h[a].data) ∧
      ((heapAsarray cast gpu d h a).1 = a ∨ h.length ≤ (heapAsarray cast gpu d h a).1) := by
  rcases heapAsarray_spec cast gpu d h a ha with ⟨-, -, e⟩ | ⟨-, e⟩
  · simp only [e]
    exact ⟨hp, ha, by simp, by simp⟩
  · simp only [e]
    refine ⟨hp.trans (List.prefix_append _ _), by simp, fun hc => ?_, .inr le_rfl⟩
    simp [show cast d = id from funext (hc d)]

theorem prefix_get {h0 h : List HArr} (hp : h0 <+: h) (i : ℕ) (hi : i < h0.length) : h[i]? = h0[i]? := by
  obtain ⟨t, rfl⟩ := hp
  rw [List.getElem?_append_left hi]

theorem gmwInPlace_eq {V : Type} (core : ℝ → ℝ → V) (h : List HArr) (a : ℕ) (ha : a < h.length) :
    gmwInPlace core h a = (h[a].data.map (Spec.wavValue (.gmw core none)), h.set a (Spec.clip h[a])) := by
  unfold gmwInPlace
  rw [List.getElem?_eq_getElem ha]
  simp only [zip_nonneg, zip_core, Spec.clip]

theorem wavCall_frame {V : Type} (cast : FDtype → ℝ → ℝ) (gpu : Bool) (ds d : FDtype) (b : WavBody V) (h : List HArr) (a : ℕ) (ha : a < h.length) :
    ((∀ e x, cast e x = x) → (wavCall cast gpu ds d b h a).1 = h[a].data.map (Spec.wavValue b)) ∧
    (∀ i < h.length, i ≠ a → (wavCall cast gpu ds d b h a).2[i]? = h[i]?) ∧
    (¬ Spec.WorksOnArg gpu ds d b h[a] → (wavCall cast gpu ds d b h a).2[a]? = h[a]?) ∧
    (Spec.WorksOnArg gpu ds d b h[a] → (wavCall cast gpu ds d b h a).2[a]? = some (Spec.clip h[a])) := by
  have hext := heapAsarray_ext cast gpu ds h h (List.prefix_refl h) a ha
  have hspec := heapAsarray_spec cast gpu ds h a ha
  unfold wavCall
  dsimp only
  generalize hq : heapAsarray cast gpu ds h a = q at hext hspec
  obtain ⟨a1, h1⟩ := q
  obtain ⟨hp1, hr1, hv1, hor1⟩ := hext
  simp only at hp1 hr1 hv1 hor1 hspec ⊢
  cases b with
  | pure fn =>
    have hext2 := heapAsarray_ext cast gpu d h h1 hp1 a1 hr1
    unfold wavFn
    dsimp only
    generalize hq2 : heapAsarray cast gpu d h1 a1 = q2 at hext2
    obtain ⟨a2, h2⟩ := q2
    obtain ⟨hp2, hr2, hv2, -⟩ := hext2
    simp only at hp2 hr2 hv2 ⊢
    rw [List.getElem?_eq_getElem hr2]
    simp only
    refine ⟨fun hc => by rw [hv2 hc, hv1 hc]; rfl, fun i hi _ => prefix_get hp2 i hi, fun _ => prefix_get hp2 a ha, ?_⟩
    rintro ⟨⟨core, hb⟩, -⟩
    cases hb
  | gmw core wc =>
    cases wc with
    | some wc =>
      unfold wavFn heapMap
      dsimp only
      rw [List.getElem?_eq_getElem hr1]
      dsimp only
      set h2 := h1 ++ [⟨h1[a1].dtype, h1[a1].onGpu, h1[a1].data.map (· * wc)⟩] with hh2
      have hp2 : h <+: h2 := hp1.trans (List.prefix_append _ _)
      have hl2 : h1.length < h2.length := by rw [hh2]; simp
      have hl1 := hp1.length_le
      have hext3 := heapAsarray_ext cast gpu d h h2 hp2 h1.length hl2
      generalize hq3 : heapAsarray cast gpu d h2 h1.length = q3 at hext3
      obtain ⟨a3, h3⟩ := q3
      obtain ⟨hp3, hr3, hv3, hor3⟩ := hext3
      simp only at hp3 hr3 hv3 hor3 ⊢
      rw [gmwInPlace_eq core h3 a3 hr3]
      have ha3 : h.length ≤ a3 := by
        rcases hor3 with h | h <;> omega
      have hkeep : ∀ i < h.length, (h3.set a3 (Spec.clip h3[a3]))[i]? = h[i]? := by
        intro i hi
        rw [List.getElem?_set_ne (by omega)]
        exact prefix_get hp3 i hi
      refine ⟨fun hc => ?_, fun i hi _ => hkeep i hi, fun _ => hkeep a ha, ?_⟩
      · dsimp only
        rw [hv3 hc]
        have : (h2[h1.length]).data = h[a].data.map (· * wc) := by
          simp only [hh2, List.getElem_concat_length, hv1 hc]
        rw [this, List.map_map]
        refine List.map_congr_left fun w _ => ?_
        simp [Spec.wavValue]
      · rintro ⟨⟨core', hb⟩, -⟩
        simp at hb
    | none =>
      unfold wavFn
      dsimp only
      have hext2 := heapAsarray_ext cast gpu d h h1 hp1 a1 hr1
      have hspec2 := heapAsarray_spec cast gpu d h1 a1 hr1
      generalize hq2 : heapAsarray cast gpu d h1 a1 = q2 at hext2 hspec2
      obtain ⟨a2, h2⟩ := q2
      obtain ⟨hp2, hr2, hv2, hor2⟩ := hext2
      simp only at hp2 hr2 hv2 hor2 hspec2 ⊢
      rw [gmwInPlace_eq core h2 a2 hr2]
      dsimp only
      have hl1 := hp1.length_le
      refine ⟨fun hc => by rw [hv2 hc, hv1 hc], ?_, ?_, ?_⟩
      · intro i hi hne
        rw [List.getElem?_set_ne, prefix_get hp2 i hi]
        rcases hor2 with e | e <;> rcases hor1 with e' | e' <;> omega
      · intro hw
        have : a2 ≠ a := by
          intro e
          apply hw
          rcases hspec with ⟨s1, s2, s3⟩ | ⟨s1, s3⟩
          · simp only [Prod.mk.injEq] at s3
            obtain ⟨rfl, rfl⟩ := s3
            rcases hspec2 with ⟨t1, t2, t3⟩ | ⟨t1, t3⟩
            · exact ⟨⟨core, rfl⟩, s1, t1, s2⟩
            · simp only [Prod.mk.injEq] at t3
              omega
          · simp only [Prod.mk.injEq] at s3
            rcases hor2 with e' | e' <;> omega
        rw [List.getElem?_set_ne this]
        exact prefix_get hp2 a ha
      · rintro ⟨-, w1, w2, w3⟩
        rcases hspec with ⟨s1, s2, s3⟩ | ⟨s1, s3⟩
        · simp only [Prod.mk.injEq] at s3
          obtain ⟨rfl, rfl⟩ := s3
          rcases hspec2 with ⟨t1, t2, t3⟩ | ⟨t1, t3⟩
          · simp only [Prod.mk.injEq] at t3
            obtain ⟨rfl, rfl⟩ := t3
            rw [List.getElem?_set_self ha]
          · exact absurd ⟨w2, w3⟩ t1
        · exact absurd ⟨w1, w3⟩ s1

/-- **C184 is false** of the Morse wavelets: `Wavelet('gmw')(w)` sets the negative entries of the caller's array to zero. -/
theorem C184_refuted : ¬ C184_full := by
  intro h
  have h1 := h ℝ (fun _ x => x) false .f64 .f64 (.gmw (gmwL1Core 3 60 1 0) none) [⟨.f64, false, [-1, 2]⟩] 0 (by simp) 0 (by simp)
  have h2 := (wavCall_frame (fun _ x => x) false .f64 .f64 (.gmw (gmwL1Core 3 60 1 0) none) [⟨.f64, false, [-1, 2]⟩] 0 (by simp)).2.2.2
    ⟨⟨_, rfl⟩, rfl, rfl, rfl⟩
  rw [h1] at h2
  simp only [Spec.clip, List.getElem?_cons_zero, List.getElem_cons_zero, Option.some.injEq, HArr.mk.injEq, true_and, List.map_cons, List.map_nil] at h2
  norm_num at h2

/-- **C184, partial** (missing: the Morse wavelets without `centered_scale` evaluated at an array with negative entries that is of their dtype): all arrays
but the caller's are left alone; the caller's is, unless the call works on it, and then just its negative entries become zero. -/
theorem C184_args_partial {V : Type} (cast : FDtype → ℝ → ℝ) (gpu : Bool) (ds d : FDtype) (b : WavBody V) (h : List HArr) (a : ℕ) (ha : a < h.length) :
    (∀ i < h.length, i ≠ a → (wavCall cast gpu ds d b h a).2[i]? = h[i]?) ∧
    (¬ Spec.WorksOnArg gpu ds d b h[a] ∨ (∀ w ∈ h[a].data, 0 ≤ w) → (wavCall cast gpu ds d b h a).2[a]? = h[a]?) ∧
    (Spec.WorksOnArg gpu ds d b h[a] → (wavCall cast gpu ds d b h a).2[a]? = some (Spec.clip h[a])) := by
  obtain ⟨-, h2, h3, h4⟩ := wavCall_frame cast gpu ds d b h a ha
  refine ⟨h2, ?_, h4⟩
  rintro (hw | hw)
  · exact h3 hw
  · by_cases hc : Spec.WorksOnArg gpu ds d b h[a]
    · rw [h4 hc, List.getElem?_eq_getElem ha, Spec.clip]
      have : h[a].data.map (max · 0) = h[a].data := by
        conv_rhs => rw [← List.map_id h[a].data]
        exact List.map_congr_left fun w hm => max_eq_left (hw w hm)
      rw [this]
    · exact h3 hc

/-- **C184, values.** In exact arithmetic the values are those at the frequencies given, although the kernel has overwritten them by then; and a second call
with the same array returns the same. -/
theorem C184_values {V : Type} (cast : FDtype → ℝ → ℝ) (hc : ∀ e x, cast e x = x) (gpu : Bool) (ds d : FDtype) (b : WavBody V) (h : List HArr) (a : ℕ)
    (ha : a < h.length) :
    (wavCall cast gpu ds d b h a).1 = h[a].data.map (Spec.wavValue b) ∧
    ((∀ core, b = .gmw core none → core 0 1 = core 0 0) →
      (wavCall cast gpu ds d b (wavCall cast gpu ds d b h a).2 a).1 = (wavCall cast gpu ds d b h a).1) := by
  obtain ⟨h1, -, h3, h4⟩ := wavCall_frame cast gpu ds d b h a ha
  refine ⟨h1 hc, fun h0 => ?_⟩
  classical
  have hget : (wavCall cast gpu ds d b h a).2[a]? = some (if Spec.WorksOnArg gpu ds d b h[a] then (Spec.clip h[a]) else h[a]) := by
    split
    · exact h4 (by assumption)
    · rw [h3 (by assumption), List.getElem?_eq_getElem ha]
  obtain ⟨ha', he⟩ := List.getElem?_eq_some_iff.1 hget
  rw [(wavCall_frame cast gpu ds d b _ a ha').1 hc, he, h1 hc]
  split
  · rename_i hw
    obtain ⟨⟨core, rfl⟩, -⟩ := hw
    rw [Spec.clip, List.map_map]
    refine List.map_congr_left fun w _ => ?_
    simp only [Function.comp_apply, Spec.wavValue, Option.getD_none, mul_one]
    rw [if_pos (le_max_right _ _)]
    split
    · rw [max_eq_left (by assumption)]
    · rw [max_eq_right (by linarith), h0 core rfl]
  · rfl

/-- The four kernels compute, entry by entry, the functions of the other claims (C51–C53). -/
theorem C184_kernels (γ β wc wcl r rg : ℝ) (kc : List ℝ) (w : ℝ) :
    Spec.wavValue (.gmw (gmwL1Core γ β wc wcl) none) w = gmwL1Fn γ β wc wcl w ∧
    Spec.wavValue (.gmw (gmwL2Core γ β r rg) none) w = gmwL2Fn γ β r rg w ∧
    Spec.wavValue (.gmw (gmwL1kCore γ β wc kc) none) w = gmwL1kFn γ β wc kc w ∧
    Spec.wavValue (.gmw (gmwL2kCore γ β kc) none) w = gmwL2kFn γ β kc w := by
  simp only [Spec.wavValue, Option.getD_none, mul_one, gmwL1Fn, gmwL2Fn, gmwL1kFn, gmwL2kFn, gmwL1Core, gmwL2Core, gmwL1kCore, gmwL2kCore, nonneg01]
  by_cases h : 0 ≤ w
  · simp only [if_pos h, mul_one, and_self]
  · simp only [if_neg h, mul_zero, and_self]

/-- A Morse wavelet at the frequencies −1, 2 of its own dtype; and of another one. -/
example : Spec.WorksOnArg false .f64 .f64 (.gmw (gmwL1Core 3 60 1 0) none) ⟨.f64, false, [-1, 2]⟩ ∧
    ¬ Spec.WorksOnArg false .f32 .f32 (.gmw (gmwL1Core 3 60 1 0) none) ⟨.f64, false, [-1, 2]⟩ ∧
    ¬ Spec.WorksOnArg false .f64 .f64 (.pure fun w => w) ⟨.f64, false, [-1, 2]⟩ :=
  ⟨⟨⟨_, rfl⟩, rfl, rfl, rfl⟩, (fun h => nomatch h.2.1), fun h => by obtain ⟨⟨_, h⟩, -⟩ := h; cases h⟩

end Ssq
