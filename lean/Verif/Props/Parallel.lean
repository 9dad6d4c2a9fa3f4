import Verif.Model.Parallel

/-!
# C169: the `parallel` argument
-/
namespace Ssq

namespace Spec

/-- Functions with an argument `parallel`, on CPU arrays. -/
inductive ParFn
  | indexedSum
  | indexedSumOnfly
  | ssqueezeFast (stft : Bool)
  | findClosest (smart : Option Bool)
  | replaceUnderAbs
  | zeroDenormals
  | phase
  | buffer
  | extractRidges
  deriving DecidableEq

/-- Whether the function uses several threads. -/
def ParFn.threads (f : ParFn) (par : Option Bool) (isPar : Bool) : Prop :=
  (match f with
  | .indexedSum => indexedSumExec par isPar
  | .indexedSumOnfly => onflyExec false par isPar
  | .ssqueezeFast s => fastExec false s par isPar
  | .findClosest s => findClosestExec par s
  | .replaceUnderAbs => replaceUnderAbsExec false par isPar
  | .zeroDenormals => zeroDenormalsExec par isPar
  | .phase => phaseExec false par isPar
  | .buffer => bufferExec false par isPar
  | .extractRidges => ridgeExec par) = .parallel

instance (f : ParFn) (par : Option Bool) (isPar : Bool) : Decidable (f.threads par isPar) := by
  unfold ParFn.threads
  infer_instance

/-- The functions whose documented default is the global switch. -/
def ParFn.global : ParFn → Prop
  | .findClosest _ => False
  | .extractRidges => False
  | _ => True

end Spec

/-- Full claim: the argument decides if given, and the global switch otherwise. -/
def C169_full : Prop := ∀ (f : Spec.ParFn) (isPar : Bool),
  (∀ b, f.threads (some b) isPar ↔ b = true) ∧ (f.global → (f.threads none isPar ↔ isPar = true))

/-- `parallel=False` does not keep `ssqueeze_fast` from using several threads. -/
theorem C169_refuted : ¬ C169_full := by
  intro h
  have := ((h (.ssqueezeFast false) true).1 false).1 (by decide)
  simp at this

/-- **C169.** What is true of each function, for every value of the argument and of the global switch: `indexed_sum`, `replace_under_abs` and `zero_denormals` obey the
argument, and the switch without it. The phase transform, `buffer`, `indexed_sum_onfly` and `ssqueeze_fast` of the CWT use several threads if either asks for it. `ssqueeze_fast` of the STFT
never does. `find_closest` does if the argument asks for it and `smart` does not overrule it; `extract_ridges` obeys the argument. -/
theorem C169_partial (par : Option Bool) (isPar : Bool) :
    (∀ f : Spec.ParFn, f = .indexedSum ∨ f = .replaceUnderAbs ∨ f = .zeroDenormals → (f.threads par isPar ↔ par = some true ∨ (par = none ∧ isPar = true))) ∧
    (∀ f : Spec.ParFn, f = .phase ∨ f = .buffer ∨ f = .indexedSumOnfly ∨ f = .ssqueezeFast false → (f.threads par isPar ↔ par = some true ∨ isPar = true)) ∧
    ¬ (Spec.ParFn.ssqueezeFast true).threads par isPar ∧
    (∀ smart, (Spec.ParFn.findClosest smart).threads par isPar ↔ par = some true ∧ smart ≠ some true) ∧
    (Spec.ParFn.extractRidges.threads par isPar ↔ par = some true) := by
  refine ⟨?_, ?_, ?_, ?_, ?_⟩
  · rintro f (rfl | rfl | rfl) <;> rcases par with _ | _ | _ <;> cases isPar <;> decide
  · rintro f (rfl | rfl | rfl | rfl) <;> rcases par with _ | _ | _ <;> cases isPar <;> decide
  · rcases par with _ | _ | _ <;> cases isPar <;> decide
  · intro smart
    rcases par with _ | _ | _ <;> rcases smart with _ | _ | _ <;> cases isPar <;> decide
  · rcases par with _ | _ | _ <;> cases isPar <;> decide

/-- **C169, switched off.** With the global switch off, every function but `ssqueeze_fast` of the STFT and `find_closest` with `smart=True` obeys the argument. -/
theorem C169_off_partial (f : Spec.ParFn) (b : Bool) (h1 : f ≠ .ssqueezeFast true) (h2 : f ≠ .findClosest (some true)) : f.threads (some b) false ↔ b = true := by
  rcases f with _ | _ | s | s | _ | _ | _ | _ | _
  case ssqueezeFast =>
    cases s
    · cases b <;> decide
    · exact absurd rfl h1
  case findClosest =>
    rcases s with _ | _ | _
    · cases b <;> decide
    · cases b <;> decide
    · exact absurd rfl h2
  all_goals cases b <;> decide

/-- **C169, GPU.** Tensors are never processed by several CPU threads, whatever the argument. -/
theorem C169_gpu (par : Option Bool) (isPar stft : Bool) :
    replaceUnderAbsExec true par isPar = .gpu ∧ phaseExec true par isPar = .gpu ∧ bufferExec true par isPar = .gpu ∧ onflyExec true par isPar = .gpu ∧
      fastExec true stft par isPar = .gpu := by
  simp [replaceUnderAbsExec, phaseExec, bufferExec, onflyExec, fastExec]

/-- Non-vacuity: a function and arguments for `C169_off_partial`. -/
example : Spec.ParFn.phase.threads (some true) false ∧ ¬ Spec.ParFn.phase.threads (some false) false ∧ Spec.ParFn.phase.threads (some false) true := by decide

end Ssq
