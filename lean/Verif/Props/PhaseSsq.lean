import Verif.Model.PhaseSsq
import Verif.Lemmas.PyM

/-!
# Synchrosqueezing any transform (C94)
-/
namespace Ssq

/-- **C94, as claimed**: the frequencies of the STFT's rows given by the caller are those used and returned; a transform handed over padded is
unpadded to `N` columns (`slice` keeps the columns asked for). -/
def C94_full : Prop :=
  ∀ (W L F T : Type) (ops : PhaseOps W L F T) (Wx : W) (a : PhaseArgs W F) (out : PhaseOut W L F T),
    phaseSsqueeze ops Wx a = .ok out →
      (∀ f, a.transform = "stft" → a.Sfs = some f → out.Sfs = some f) ∧
      (∀ N, a.rpadded = true → a.N = some N → N ≤ ops.cols Wx → ops.cols out.Wx = N)

/-- Transforms that are column counts; the default frequencies are that count. -/
def phaseOpsEx : PhaseOps ℕ ℕ ℕ ℕ where
  cols := id
  batched := fun _ => false
  n1Of := fun _ => 0
  trigdiff := fun n _ _ _ _ => .ok n
  phaseCwt := fun n _ _ => n
  phaseNum := id
  phaseStft := fun _ _ f => f
  makeSfs := id
  slice := fun _ a b => (b - a).toNat
  ssqueeze := fun n _ _ _ _ _ => .ok (n, n)

/-- **C94 is false of the code**: the caller's `Sfs` is dropped. -/
theorem C94_refuted : ¬ C94_full := by
  intro h
  have e : phaseSsqueeze phaseOpsEx 5 { transform := "stft", dWx := some 5, Sfs := some 7 } = .ok ⟨5, 5, 5, some 5, none, some 5⟩ := by rfl
  have := (h _ _ _ _ _ _ _ _ e).1 7 rfl rfl
  simp at this

/-- A padded transform is not unpadded either. -/
theorem C94_padded (Wx : ℕ) (N : ℕ) (d : ℕ) :
    phaseSsqueeze phaseOpsEx Wx { rpadded := true, N := some N, dWx := some d } = .ok ⟨Wx, Wx, Wx, none, none, some d⟩ := by rfl

section
variable {W L F T : Type} (ops : PhaseOps W L F T) (Wx : W) (a : PhaseArgs W F)

/-- **C94, defaults**: asking for the phase transform of a CWT without naming `difftype` fails. -/
theorem C94_unbound (hb : ops.batched Wx = false) (hd : a.difftype = none) (ht : a.transform = "cwt") (hw : a.getW = true)
    (hr : a.rpadded = false) (d : W) (hdw : a.dWx = some d) : phaseSsqueeze ops Wx a = .error .unboundLocalError := by
  obtain ⟨dWx, sf, S, rp, pt, N, n1, dt, gw, gd, tr⟩ := a
  subst hd ht hw hr hdw
  cases N <;> cases n1 <;> simp [phaseSsqueeze, phaseTransform, phaseTransformCwt, hb, bind, Except.bind]

/-- **C94, partial**: for an unpadded STFT with its derivative, frequencies left out, the phase transform is taken at the transform's own
frequencies and what is squeezed is the transform given, by that phase transform, or by the derivative if no phase transform is asked for;
for an unpadded CWT the same with the derivative given. Missing: `Sfs` given, padded transforms. -/
theorem C94_squeeze_partial (hb : ops.batched Wx = false) (d : W) (hdw : a.dWx = some d) (hr : a.rpadded = false) :
    (a.transform = "stft" →
      phaseSsqueeze ops Wx { a with Sfs := none } =
        (let w := if a.getW then some (ops.phaseStft Wx d (ops.makeSfs Wx)) else none
         let dW := if a.getW ∧ a.getDWx = false then none else some d
         (ops.ssqueeze Wx w a.ssqFreqs (some (ops.makeSfs Wx)) dW "stft").map
           fun s => ⟨s.1, Wx, s.2, some (ops.makeSfs Wx), w, dW⟩)) ∧
    (a.transform = "cwt" → (a.getW = true → a.difftype = some "trig") →
      phaseSsqueeze ops Wx a =
        (let w := if a.getW then some (ops.phaseCwt Wx (some d) "trig") else none
         let dW := if a.getW ∧ a.getDWx = false then none else some d
         (ops.ssqueeze Wx w a.ssqFreqs none dW "cwt").map fun s => ⟨s.1, Wx, s.2, none, w, dW⟩)) := by
  obtain ⟨dWx, sf, S, rp, pt, N, n1, dt, gw, gd, tr⟩ := a
  subst hdw hr
  constructor
  · rintro rfl
    cases gw <;> cases gd <;>
      simp [phaseSsqueeze, phaseTransform, phaseTransformStft, hb, bind, Except.bind, Except.map, pure, Except.pure] <;>
      split <;> rfl
  · rintro rfl hdt
    cases gw with
    | false =>
      cases gd <;> cases N <;> cases n1 <;>
        simp [phaseSsqueeze, phaseTransform, phaseTransformCwt, hb, bind, Except.bind, Except.map, pure, Except.pure] <;>
        split <;> rfl
    | true =>
      have := hdt rfl
      subst this
      cases gd <;> cases N <;> cases n1 <;>
        simp [phaseSsqueeze, phaseTransform, phaseTransformCwt, hb, bind, Except.bind, Except.map, pure, Except.pure] <;>
        split <;> rfl

/-- **C94, the CWT's arguments**: with `N` and `n1` as given (left out: the number of columns, and the left pad width for that many samples),
the derivative is the one given or else `trigdiff` of the transform with the caller's padding arguments; the phase transform is that of the
named difference type; the 'numeric' one squeezes, and returns, the columns from four before to four after the unpadded part. -/
theorem C94_cwt (hb : a.getW = true → ops.batched Wx = false) (ht : a.transform = "cwt") (hN : a.rpadded = true → a.N.isSome)
    (N : ℕ) (hN' : N = a.N.getD (ops.cols Wx)) (n1 : ℤ) (hn1 : n1 = a.n1.getD (ops.n1Of N)) (d : W)
    (hd : a.dWx = some d ∨ a.dWx = none ∧ ops.trigdiff Wx a.padtype a.rpadded (some N) n1 = .ok d) :
    let squeeze := fun (V : W) (w : Option L) (dW : Option W) =>
      (ops.ssqueeze V w a.ssqFreqs none dW "cwt").map fun s => (⟨s.1, V, s.2, none, w, dW⟩ : PhaseOut W L F T)
    let dW := if a.getDWx then some d else none
    (a.getW = false → phaseSsqueeze ops Wx a = squeeze Wx none (some d)) ∧
    (a.getW = true → a.difftype = some "trig" →
      phaseSsqueeze ops Wx a = squeeze Wx (some (ops.phaseCwt Wx (some d) "trig")) dW) ∧
    (a.getW = true → a.difftype = some "phase" →
      phaseSsqueeze ops Wx a = squeeze Wx (some (ops.phaseCwt Wx none "phase")) dW) ∧
    (a.getW = true → a.difftype = some "numeric" →
      phaseSsqueeze ops Wx a = (let V := ops.slice Wx (n1 - 4) (n1 + N + 4)
        squeeze V (some (ops.phaseNum V)) dW)) := by
  obtain ⟨dWx, sf, S, rp, pt, N0, n10, dt, gw, gd, tr⟩ := a
  dsimp only at *
  subst ht
  have hrej : ¬ (rp = true ∧ N0 = none) := by
    rintro ⟨h1, h2⟩
    have := hN h1
    rw [h2] at this; simp at this
  have key : ∀ r, phaseTransformCwt ops Wx ⟨dWx, sf, none, rp, pt, N0, n10, dt, gw, gd, "cwt"⟩ = .ok r →
      phaseSsqueeze ops Wx ⟨dWx, sf, S, rp, pt, N0, n10, dt, gw, gd, "cwt"⟩ =
      (ops.ssqueeze r.2.1 r.1 sf none (if r.1.isSome ∧ gd = false then none else r.2.2) "cwt").map
        fun s => ⟨s.1, r.2.1, s.2, none, r.1, if r.1.isSome ∧ gd = false then none else r.2.2⟩ := by
    intro r hr
    unfold phaseSsqueeze phaseTransform
    dsimp only
    rw [if_neg (by simp), if_neg hrej, if_neg, if_pos rfl, hr]
    · simp only [bind, Except.bind, pure, Except.pure]
      cases ops.ssqueeze r.2.1 r.1 sf none (if r.1.isSome ∧ gd = false then none else r.2.2) "cwt" <;> rfl
    · rintro ⟨h1, h2⟩
      rw [hb h2] at h1; simp at h1
  have hcwt : phaseTransformCwt ops Wx ⟨dWx, sf, none, rp, pt, N0, n10, dt, gw, gd, "cwt"⟩ =
      (if gw then
        match (generalizing := false) dt with
        | some "trig" => .ok (some (ops.phaseCwt Wx (some d) "trig"), Wx, some d)
        | some "phase" => .ok (some (ops.phaseCwt Wx none "phase"), Wx, some d)
        | some "numeric" => .ok (some (ops.phaseNum (ops.slice Wx (n1 - 4) (n1 + N + 4))),
            ops.slice Wx (n1 - 4) (n1 + N + 4), some d)
        | _ => .error .unboundLocalError
      else .ok (none, Wx, some d)) := by
    have hN3 : N0 = some N ∨ N0 = none ∧ rp = false ∧ ops.cols Wx = N := by
      cases N0 with
      | none => exact Or.inr ⟨rfl, by cases rp <;> simp_all, by simp [hN']⟩
      | some m => exact Or.inl (by simp [hN'])
    have hn3 : n10 = some n1 ∨ n10 = none ∧ ops.n1Of N = n1 := by
      cases n10 with
      | none => exact Or.inr ⟨rfl, by simp [hn1]⟩
      | some m => exact Or.inl (by simp [hn1])
    clear hN' hn1 key hb hN hrej
    unfold phaseTransformCwt
    rcases hN3 with rfl | ⟨rfl, rfl, h1⟩ <;> rcases hn3 with rfl | ⟨rfl, h2⟩ <;> rcases hd with rfl | ⟨rfl, h3⟩ <;>
      simp only [bind, Except.bind, pure, Except.pure, Bool.false_eq_true, if_false, Option.getD_some, *] <;>
      rfl
  refine ⟨?_, ?_, ?_, ?_⟩
  · rintro rfl
    rw [key (none, Wx, some d) (by rw [hcwt]; rfl)]
    simp
  · rintro rfl rfl
    rw [key (some (ops.phaseCwt Wx (some d) "trig"), Wx, some d) (by rw [hcwt, if_pos rfl]; rfl)]
    cases gd <;> rfl
  · rintro rfl rfl
    rw [key (some (ops.phaseCwt Wx none "phase"), Wx, some d) (by rw [hcwt, if_pos rfl]; rfl)]
    cases gd <;> rfl
  · rintro rfl rfl
    rw [key (some (ops.phaseNum (ops.slice Wx (n1 - 4) (n1 + N + 4))), ops.slice Wx (n1 - 4) (n1 + N + 4), some d) (by rw [hcwt, if_pos rfl]; rfl)]
    cases gd <;> rfl

/-- **C94, checks**: an STFT without its derivative, a padded transform without `N`, the phase transform of a batch and an unknown transform are
refused. -/
theorem C94_rejects :
    (a.transform = "stft" → a.dWx = none → phaseSsqueeze ops Wx a = .error .notImplementedError) ∧
    (a.transform = "cwt" → a.rpadded = true → a.N = none → phaseSsqueeze ops Wx a = .error .valueError) ∧
    (a.transform = "cwt" → a.rpadded = false → ops.batched Wx = true → a.getW = true →
      phaseSsqueeze ops Wx a = .error .notImplementedError) ∧
    (a.transform ≠ "cwt" → a.transform ≠ "stft" → ∃ e, phaseSsqueeze ops Wx a = .error e) := by
  obtain ⟨dWx, sf, S, rp, pt, N, n1, dt, gw, gd, tr⟩ := a
  refine ⟨?_, ?_, ?_, ?_⟩
  · rintro rfl rfl
    simp [phaseSsqueeze, phaseTransform, bind, Except.bind]
  · rintro rfl rfl rfl
    simp [phaseSsqueeze, phaseTransform, bind, Except.bind]
  · rintro rfl rfl hb rfl
    simp [phaseSsqueeze, phaseTransform, bind, Except.bind, hb]
  · intro h1 h2
    dsimp only at h1 h2
    by_cases hc : rp = true ∧ N = none
    · exact ⟨.valueError, by simp [phaseSsqueeze, phaseTransform, bind, Except.bind, h2, hc]⟩
    · by_cases hc' : ops.batched Wx = true ∧ gw = true
      · exact ⟨.notImplementedError, by simp [phaseSsqueeze, phaseTransform, bind, Except.bind, h2, hc, hc']⟩
      · exact ⟨.unboundLocalError, by simp only [phaseSsqueeze, phaseTransform, bind, Except.bind, h1, h2, hc, hc', false_and, if_false]⟩

end

/-- The hypotheses of `C94_cwt`, with a derivative to compute and a padded transform. -/
example : phaseSsqueeze phaseOpsEx 16 { rpadded := true, N := some 8, n1 := some 4, getW := true, difftype := some "numeric" } =
    .ok ⟨16, 16, 16, none, some 16, none⟩ :=
  ((C94_cwt phaseOpsEx 16 { rpadded := true, N := some 8, n1 := some 4, getW := true, difftype := some "numeric" } (fun _ => rfl) rfl
    (fun _ => rfl) 8 rfl 4 rfl 16 (Or.inr ⟨rfl, rfl⟩)).2.2.2 rfl rfl)

/-- Non-vacuity. -/
example : phaseSsqueeze phaseOpsEx 5 { transform := "stft", dWx := some 4, getW := true } = .ok ⟨5, 5, 5, some 5, some 5, none⟩ := by rfl

end Ssq
