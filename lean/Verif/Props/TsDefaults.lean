import Verif.Model.TsDefaults
import Mathlib.Tactic.Common

/-!
# C130: defaults of a `TestSignals` instance
-/
namespace Ssq

variable {V : Type}

namespace Spec

/-- The program assigns to instance `i`. -/
def AssignsTo (i : ℕ) : TsOp V → Prop
  | .assign j _ _ => j = i
  | _ => False

/-- A fresh session: `DEFAULT_ARGS` is `d`, no instances. -/
def Fresh (d : TsDict V) : TsWorld V := ⟨fun _ => d, 1, []⟩

end Spec
open Spec

/-- The claim: a default of an instance, once set, changes only by assignment to that instance. -/
def C130_full : Prop := ∀ (V : Type) (d : TsDict V) (h h' : List (TsOp V)) (i : ℕ) (k : String) (v : V),
  tsGet (tsRun (Fresh d) h) i k = some v → (∀ o ∈ h', ¬ AssignsTo i o) → tsGet (tsRun (tsRun (Fresh d) h) h') i k = some v

/-- Two instances without arguments share the module's dictionary. -/
theorem C130_refuted : ¬ C130_full := by
  intro h
  have := h ℕ (fun _ => some 1) [.make none, .make none] [.assign 1 "lchirp" 2] 0 "lchirp" 1 (by simp [tsRun, tsStep, tsRef, tsGet, Fresh])
    (by simp [AssignsTo])
  simp [tsRun, tsStep, tsRef, tsGet, Fresh] at this

/-- **C130**: a new instance has the given value for a key that is given, and the module's for others. -/
theorem C130_new (w : TsWorld V) (arg : Option ℕ) (k : String) :
    tsGet (tsStep w (.make arg)) w.insts.length k = (match arg with | some r => (w.heap r k).or (w.heap 0 k) | none => w.heap 0 k) := by
  simp only [tsGet, tsStep]
  rw [List.getElem?_append_right (le_refl _)]
  simp only [Nat.sub_self, List.getElem?_cons_zero, Option.bind_some, Function.update_self]
  unfold tsRef
  cases arg with
  | none => simp
  | some r =>
    simp only
    split
    · rename_i e
      rw [e]; simp
    · rfl

/-- The dictionary of an instance, by number. -/
theorem tsStep_insts (w : TsWorld V) (o : TsOp V) (i r : ℕ) (h : w.insts[i]? = some r) : (tsStep w o).insts[i]? = some r := by
  cases o with
  | dict d => exact h
  | make arg =>
    simp only [tsStep]
    rw [List.getElem?_append_left (List.getElem?_eq_some_iff.1 h).1]; exact h
  | assign j k v =>
    simp only [tsStep]
    split <;> exact h

/-- **C130**, proved part: a default stays unless something is assigned to an instance that has the same dictionary. Instances made in between, from whatever
dictionaries, do not change it. -/
theorem C130_partial (w : TsWorld V) (i r : ℕ) (hi : w.insts[i]? = some r) (hr : r < w.next) (k : String) (v : V) (hv : tsGet w i k = some v)
    (h : List (TsOp V)) (hlegal : ∀ h1 o h2, h = h1 ++ o :: h2 → ∀ j k' v', o = .assign j k' v' → (tsRun w h1).insts[j]? ≠ some r) :
    tsGet (tsRun w h) i k = some v := by
  induction h generalizing w with
  | nil => exact hv
  | cons o h ih =>
    have hv' : w.heap r k = some v := by simpa [tsGet, hi] using hv
    have hi' := tsStep_insts w o i r hi
    refine ih (tsStep w o) hi' ?_ ?_ ?_
    · cases o with
      | dict d => exact Nat.lt_succ_of_lt hr
      | make arg => exact hr
      | assign j k' v' => simp only [tsStep]; split <;> exact hr
    · simp only [tsGet, hi', Option.bind_some]
      cases o with
      | dict d => simp only [tsStep]; rw [Function.update_of_ne hr.ne]; exact hv'
      | make arg =>
        simp only [tsStep]
        by_cases e : tsRef w arg = r
        · rw [e, Function.update_self, hv']; rfl
        · rw [Function.update_of_ne (Ne.symm e)]; exact hv'
      | assign j k' v' =>
        have hne := hlegal [] _ h rfl j k' v' rfl
        simp only [tsStep]
        simp only [tsRun, List.foldl_nil] at hne
        split
        · exact hv'
        · rename_i r' hr'
          have : r ≠ r' := fun e => hne (by rw [hr', e])
          simp only
          rw [Function.update_of_ne this]; exact hv'
    · intro h1 o' h2 e j k' v' he
      exact hlegal (o :: h1) o' h2 (by rw [e]; rfl) j k' v' he

/-- Assigning to an instance made without arguments changes the default of every instance made without arguments, before or after. -/
theorem C130_shared (w : TsWorld V) (i j : ℕ) (hi : w.insts[i]? = some 0) (hj : w.insts[j]? = some 0) (k : String) (v : V) :
    tsGet (tsStep w (.assign i k v)) j k = some v ∧
      tsGet (tsStep (tsStep w (.assign i k v)) (.make none)) w.insts.length k = some v := by
  have e : tsStep w (.assign i k v) = { w with heap := Function.update w.heap 0 (Function.update (w.heap 0) k (some v)) } := by
    simp only [tsStep, hi]
  constructor
  · rw [e]; simp [tsGet, hj]
  · have := C130_new (tsStep w (.assign i k v)) none k
    rw [e] at this ⊢
    simpa using this

/-- Making an instance writes to the caller's dictionary. -/
theorem C130_caller (w : TsWorld V) (r : ℕ) (h : w.heap r ≠ fun _ => none) (k : String) :
    (tsStep w (.make (some r))).heap r k = (w.heap r k).or (w.heap 0 k) := by
  simp [tsStep, tsRef, h]

/-- An instance with a dictionary of its own, one without: assigning to the second leaves the first. -/
example : tsGet (tsRun (Fresh fun _ => some 1) [.dict fun k => if k = "sine" then some 5 else none, .make (some 1), .make none, .assign 1 "sine" 7]) 0 "sine" =
    some 5 := by
  have hne : (fun k : String => if k = "sine" then some 5 else none) ≠ fun _ => none := by
    intro h; have := congrFun h "sine"; simp at this
  simp [tsRun, tsStep, tsRef, tsGet, Fresh, hne]

end Ssq
