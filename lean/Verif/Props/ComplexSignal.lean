import Verif.Model.ComplexSignal
import Verif.Props.Injective
import Verif.Props.Mean

/-!
# C220: the transforms of complex signals (ssqueezepy/_cwt.py:254-266; ssqueezepy/_stft.py:163)
-/
namespace Ssq

open Complex

namespace Spec

/-- The transform a complex signal should have: that of its real part plus `i` times that of its imaginary part, cell by cell. -/
def ComplexTransform (W Wre Wim : List (List ℂ)) : Prop := ∀ i j, ent W i j = ent Wre i j + I * ent Wim i j

end Spec

theorem ent_zero_of_mem {V : List (List ℂ)} (h : ∀ r ∈ V, ∀ z ∈ r, z = 0) (i j : ℕ) : ent V i j = 0 := by
  unfold ent
  by_cases hi : i < V.length
  · rw [List.getD_eq_getElem _ _ hi]
    by_cases hj : j < V[i].length
    · rw [List.getD_eq_getElem _ _ hj]
      exact h _ (List.getElem_mem hi) _ (List.getElem_mem hj)
    · exact List.getD_eq_default _ _ (by omega)
  · rw [List.getD_eq_default V _ (by omega)]
    rfl

/-- C220: `cwt` of a complex signal, with a Morse wavelet and without unpadding, is the transform of that signal if and only if the imaginary part of the signal is constant. Missing: all
other complex signals (`C220_refuted`). -/
theorem C220_cwt_partial (x : List ℂ) (a : CwtArgs) (t : Option PadType) (ht : a.padtype = t.map padName) (hz : t ≠ some .zero) (hx : 0 < x.length) (f : ℝ → ℝ) (hf : a.wavelet.fn = .real f)
    {γ β : Option ℝ} {norm : NormArg} {c : Option Bool} {f32 : Bool} (hg : gmw γ β norm (.int 0) c f32 = .ok f) (hrp : a.rpadded = true ∨ t = none)
    (W Wre Wim : List (List ℂ)) (scales : List ℝ) (dW dWre dWim : List (List ℂ)) (hs : scales ≠ []) (hpos : ∀ s ∈ scales, 0 < s)
    (h : cwtOfComplex x a = .ok (W, scales, dW)) (hre : cwt (x.map re) a = .ok (Wre, scales, dWre)) (him : cwt (x.map im) a = .ok (Wim, scales, dWim)) :
    Spec.ComplexTransform W Wre Wim ↔ ∃ v : ℝ, ∀ z ∈ x, z.im = v := by
  have hW : W = Wre := by
    have : cwt (x.map re) a = .ok (W, scales, dW) := h
    rw [hre] at this
    simp only [Except.ok.injEq, Prod.mk.injEq] at this
    exact this.1.symm
  subst hW
  have h0 : a.wavelet.fn.eval 0 = 0 := by
    rw [hf]; exact C173_wavelets.1 _ _ _ _ _ _ _ hg
  have hxi : 0 < (x.map im).length := by simpa using hx
  have hiff : Spec.ComplexTransform W W Wim ↔ ∀ i j, ent Wim i j = 0 := by
    refine forall_congr' fun i => forall_congr' fun j => ?_
    constructor
    · intro e
      have : I * ent Wim i j = 0 := by
        have := e.symm
        rwa [add_eq_left] at this
      exact (mul_eq_zero.1 this).resolve_left I_ne_zero
    · intro e; rw [e, mul_zero, add_zero]
  rw [hiff]
  constructor
  · intro hzero
    have hlen : (List.replicate x.length (0 : ℝ)).length = (x.map im).length := by simp
    obtain ⟨V, dV, h1, -⟩ := C36_linear (x.map im) (List.replicate x.length (0 : ℝ)) hlen.symm hxi 1 1 a t ht Wim scales dWim him
    obtain ⟨z1, -⟩ := cwt_const x.length hx 0 a t ht hz h0 h1
    obtain ⟨l1, -, l3⟩ := cwt_row_length hxi ht him
    obtain ⟨m1, -, m3⟩ := cwt_row_length (x := List.replicate x.length (0 : ℝ)) (by simpa using hx) ht h1
    have hi : 0 < scales.length := List.length_pos_of_ne_nil hs
    have hrow : Wim.getD 0 [] = V.getD 0 [] := by
      apply List.ext_getElem
      · rw [(l3 0 hi).1, (m3 0 hi).1]; simp
      · intro j g1 g2
        have e1 := hzero 0 j
        have e2 := ent_zero_of_mem z1 0 j
        unfold ent at e1 e2
        rw [List.getD_eq_getElem _ _ g1] at e1
        rw [List.getD_eq_getElem _ _ g2] at e2
        rw [e1, e2]
    obtain ⟨v, hv⟩ := C189_cwt_row (x.map im) (List.replicate x.length 0) hlen.symm a t ht hxi f hf hg hrp Wim V scales dWim dV him h1 hpos 0 hi hrow
    refine ⟨v, fun z hzx => ?_⟩
    obtain ⟨j, hj, rfl⟩ := List.getElem_of_mem hzx
    have := hv j (by simpa using hj)
    rw [List.getD_eq_getElem _ _ (by simpa using hj), List.getD_eq_getElem _ _ (by simpa using hj)] at this
    simpa using this
  · rintro ⟨v, hv⟩ i j
    have hrep : x.map im = List.replicate x.length v := by
      rw [List.eq_replicate_iff]
      refine ⟨by simp, fun b hb => ?_⟩
      obtain ⟨z, hz, rfl⟩ := List.mem_map.1 hb
      exact hv z hz
    rw [hrep] at him
    exact ent_zero_of_mem (cwt_const x.length hx v a t ht hz h0 him).1 i j

/-- C220: a signal and its complex conjugate have the same transforms, so that nothing in them tells positive frequencies from negative ones. -/
theorem C220_conj (x : List ℂ) (a : CwtArgs) (b : SsqCwtArgs) (lib : WinLib) (tiny : ℝ) (s : StftArgs) :
    cwtOfComplex (x.map (starRingEnd ℂ)) a = cwtOfComplex x a ∧ ssqCwtOfComplex (x.map (starRingEnd ℂ)) b = ssqCwtOfComplex x b ∧
      stftOfComplex lib tiny (x.map (starRingEnd ℂ)) s = stftOfComplex lib tiny x s := by
  have : castReal (x.map (starRingEnd ℂ)) = castReal x := by
    unfold castReal
    rw [List.map_map]
    exact List.map_congr_left fun z _ => conj_re z
  unfold cwtOfComplex ssqCwtOfComplex stftOfComplex
  rw [this]
  exact ⟨rfl, rfl, rfl⟩

/-- C220 in full: `cwt` of a complex signal is its transform, or raises. -/
def C220_full : Prop := ∀ (x : List ℂ) (a : CwtArgs) (W Wre Wim : List (List ℂ)) (scales : List ℝ) (dW dWre dWim : List (List ℂ)),
  cwtOfComplex x a = .ok (W, scales, dW) → cwt (x.map re) a = .ok (Wre, scales, dWre) → cwt (x.map im) a = .ok (Wim, scales, dWim) → Spec.ComplexTransform W Wre Wim

/-- The hypotheses of C220 are met by a Morse wavelet and every signal. -/
theorem exComplex : ∃ (a : CwtArgs) (f : ℝ → ℝ), a.wavelet.fn = .real f ∧ gmw (some 3) (some 60) (.known .bandpass) (.int 0) none true = .ok f ∧ a.padtype = (none : Option PadType).map padName ∧
    ∀ x : List ℝ, 0 < x.length → ∃ W dW, cwt x a = .ok (W, [1, 2, 4], dW) := by
  have hg := gmw_eq (γ := some 3) (β := some 60) (norm := .known .bandpass) (order := .int 0) (n := .bandpass) (k := 0)
    (f32 := true) none (by norm_num) (by norm_num) rfl (by simp [gmwCheckOrder]) rfl (by simp)
  generalize (fun w : ℝ => gmwClosed ((some (3 : ℝ)).getD 3) ((some (60 : ℝ)).getD 60) .bandpass 0 (gmwArg ((none : Option Bool).getD false)
    (morsefreq ((some (3 : ℝ)).getD 3) ((some (60 : ℝ)).getD 60)) w)) = f at hg
  let a : CwtArgs := { argsR none with wavelet := ⟨.real f, sw0, none⟩ }
  exact ⟨a, f, rfl, hg, rfl, fun x hx =>
    C37_succeeds _ a none rfl hx 2 (1 / 2) (by simp [processFsT, a, argsR]) (by simp [a, argsR]) [1, 2, 4] .log 3 (.int 1) none (by simp [a, argsR, sc124]) (fun _ => rfl)
      (process124 _ _ _ _)⟩

/-- C220 is false of the code: with a Morse wavelet, the transform of 1, i, 0, 0 is that of 1, 0, 0, 0. -/
theorem C220_refuted : ¬ C220_full := by
  intro H
  obtain ⟨a, f, hf, hg, hp, hok⟩ := exComplex
  obtain ⟨W, dW, h⟩ := hok (([1, I, 0, 0] : List ℂ).map re) (by simp)
  obtain ⟨V, dV, h'⟩ := hok (([1, I, 0, 0] : List ℂ).map im) (by simp)
  obtain ⟨v, hv⟩ := (C220_cwt_partial [1, I, 0, 0] a none hp (by simp) (by simp) f hf hg (Or.inr rfl) W W V [1, 2, 4] dW dW dV (by simp) (by simp) h h h').1
    (H _ a W W V _ dW dW dV h h h')
  have h1 := hv 1 (by simp)
  have h2 := hv I (by simp)
  simp at h1 h2
  rw [← h2] at h1
  norm_num at h1

/-- A signal with a constant imaginary part. -/
example : ∃ a W V, (∃ dW, cwtOfComplex [1 + I, 2 + I, 5 + I] a = .ok (W, [1, 2, 4], dW)) ∧ Spec.ComplexTransform W W V := by
  obtain ⟨a, f, hf, hg, hp, hok⟩ := exComplex
  obtain ⟨W, dW, h⟩ := hok (([1 + I, 2 + I, 5 + I] : List ℂ).map re) (by simp)
  obtain ⟨V, dV, h'⟩ := hok (([1 + I, 2 + I, 5 + I] : List ℂ).map im) (by simp)
  refine ⟨a, W, V, ⟨dW, h⟩, (C220_cwt_partial _ a none hp (by simp) (by simp) f hf hg (Or.inr rfl) W W V [1, 2, 4] dW dW dV (by simp) (by simp) h h h').2 ⟨1, ?_⟩⟩
  simp

end Ssq
