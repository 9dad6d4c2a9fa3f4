import Verif.Model.Py
import Mathlib.Logic.Function.Basic

/-!
# Default arguments of `TestSignals` instances — ssqueezepy/_test_signals.py

Dictionaries are shared objects: an instance keeps the dictionary it is given, or the module's own.
-/
namespace Ssq

/-- A dictionary. (ssqueezepy/_test_signals.py:62-76.) -/
abbrev TsDict (V : Type) := String → Option V

/-- All dictionaries by number, the next free number, and the dictionary of each instance in the order of creation. Number 0 is the module's `DEFAULT_ARGS`
(lines 62-75; `DEFAULT_TKW`, line 76, is treated alike). (ssqueezepy/_test_signals.py:141-154.) -/
structure TsWorld (V : Type) where
  heap : ℕ → TsDict V
  next : ℕ
  insts : List ℕ

/-- What a program does: make a dictionary, make an instance from one or without, assign `instance.default_args[k] = v`. (ssqueezepy/_test_signals.py:141-154.) -/
inductive TsOp (V : Type)
  | dict (d : TsDict V)
  | make (arg : Option ℕ)
  | assign (i : ℕ) (k : String) (v : V)

open Classical in
/-- `default_args or DEFAULT_ARGS` — line 145; an empty dictionary counts as none. (ssqueezepy/_test_signals.py:145.) -/
noncomputable def tsRef {V : Type} (w : TsWorld V) (arg : Option ℕ) : ℕ :=
  match arg with
  | none => 0
  | some r => if w.heap r = fun _ => none then 0 else r

/-- One step. `make`: `TestSignals.__init__` — ssqueezepy/_test_signals.py:141-154: every key of `DEFAULT_ARGS` the dictionary lacks is set in it. -/
noncomputable def tsStep {V : Type} (w : TsWorld V) : TsOp V → TsWorld V
  | .dict d => { w with heap := Function.update w.heap w.next d, next := w.next + 1 }
  | .make arg =>
    let r := tsRef w arg
    { w with heap := Function.update w.heap r fun k => (w.heap r k).or (w.heap 0 k), insts := w.insts ++ [r] }
  | .assign i k v =>
    match w.insts[i]? with
    | none => w
    | some r => { w with heap := Function.update w.heap r (Function.update (w.heap r) k (some v)) }

/-- A history. (ssqueezepy/_test_signals.py:141-154.) -/
noncomputable def tsRun {V : Type} (w : TsWorld V) (h : List (TsOp V)) : TsWorld V := h.foldl tsStep w

/-- `instance.default_args.get(k)`. (ssqueezepy/_test_signals.py:743-769.) -/
def tsGet {V : Type} (w : TsWorld V) (i : ℕ) (k : String) : Option V := w.insts[i]?.bind fun r => w.heap r k

end Ssq
