import Verif.Model.Py
import Mathlib.Data.Int.Notation

/-!
# `phase_ssqueeze` and `phase_transform` (`ssqueezepy/experimental.py`)

The transforms themselves are parameters: `W` transforms, `L` phase transforms, `F` frequency arrays, `T` synchrosqueezed transforms.
-/
namespace Ssq

/-- The functions called. `n1Of N` is `p2up(N)[1]`; `slice W a b` is `Wx[:, a:b]`. (ssqueezepy/experimental.py:193-259.) -/
structure PhaseOps (W L F T : Type) where
  cols : W → ℕ
  batched : W → Bool
  n1Of : ℕ → ℤ
  trigdiff : W → Option String → Bool → Option ℕ → ℤ → Py W
  phaseCwt : W → Option W → String → L
  phaseNum : W → L
  phaseStft : W → W → F → L
  makeSfs : W → F
  slice : W → ℤ → ℤ → W
  ssqueeze : W → Option L → Option F → Option F → Option W → String → Py (T × F)

/-- The arguments that decide. `Sfs`, `dWx` as given by the caller; `difftype` is `None` unless given. (ssqueezepy/experimental.py:145-150, 193-197.) -/
structure PhaseArgs (W F : Type) where
  dWx : Option W := none
  ssqFreqs : Option F := none
  Sfs : Option F := none
  rpadded : Bool := false
  padtype : Option String := none
  N : Option ℕ := none
  n1 : Option ℤ := none
  difftype : Option String := none
  getW : Bool := false
  getDWx : Bool := false
  transform : String := "cwt"

variable {W L F T : Type}

/-- `_cwt` — ssqueezepy/experimental.py:199-227. With `rpadded` false `N` is inferred; `difftype` other than the three leaves `w` unbound. -/
def phaseTransformCwt (ops : PhaseOps W L F T) (Wx : W) (a : PhaseArgs W F) : Py (Option L × W × Option W) := do
  let N := match a.N with
    | some N => some N
    | none => if a.rpadded then none else some (ops.cols Wx)
  let n1 ← (match a.n1, N with
    | some n1, _ => .ok n1
    | none, some N => .ok (ops.n1Of N)
    | none, none => .error .typeError : Py ℤ)
  let dWx ← (match a.dWx with
    | some d => .ok d
    | none => ops.trigdiff Wx a.padtype a.rpadded N n1 : Py W)
  if a.getW then
    match a.difftype with
    | some "trig" => return (some (ops.phaseCwt Wx (some dWx) "trig"), Wx, some dWx)
    | some "phase" => return (some (ops.phaseCwt Wx none "phase"), Wx, some dWx)
    | some "numeric" =>
      let Wx := ops.slice Wx (n1 - 4) (n1 + (N.getD 0 : ℕ) + 4)
      return (some (ops.phaseNum Wx), Wx, some dWx)
    | _ => .error .unboundLocalError
  else return (none, Wx, some dWx)

/-- `_stft` — ssqueezepy/experimental.py:229-236. -/
def phaseTransformStft (ops : PhaseOps W L F T) (Wx dWx : W) (Sfs : Option F) (getW : Bool) : Option L × W × W × F :=
  let Sfs := match Sfs with
    | some f => f
    | none => ops.makeSfs Wx
  (if getW then some (ops.phaseStft Wx dWx Sfs) else none, Wx, dWx, Sfs)

/-- `phase_transform` — ssqueezepy/experimental.py:193-259; `gamma` plays no part here. A transform of another name leaves the results
unbound. -/
def phaseTransform (ops : PhaseOps W L F T) (Wx : W) (a : PhaseArgs W F) : Py (Option L × W × Option W × Option F) :=
  if a.transform = "stft" ∧ a.dWx.isNone then .error .notImplementedError
  else if a.rpadded = true ∧ a.N = none then .error .valueError
  else if ops.batched Wx = true ∧ a.getW = true then .error .notImplementedError
  else if a.transform = "cwt" then do
    let r ← phaseTransformCwt ops Wx a
    return (r.1, r.2.1, r.2.2, none)
  else if a.transform = "stft" then
    match a.dWx with
    | none => .error .notImplementedError
    | some d =>
      let r := phaseTransformStft ops Wx d a.Sfs a.getW
      .ok (r.1, r.2.1, some r.2.2.1, some r.2.2.2)
  else .error .unboundLocalError

/-- What `phase_ssqueeze` returns (`scales` apart, which are returned as given). (ssqueezepy/experimental.py:186-191.) -/
structure PhaseOut (W L F T : Type) where
  Tx : T
  Wx : W
  ssqFreqs : F
  Sfs : Option F
  w : Option L
  dWx : Option W

/-- `phase_ssqueeze` — ssqueezepy/experimental.py:145-191. `Sfs` is not handed to `phase_transform`. -/
def phaseSsqueeze (ops : PhaseOps W L F T) (Wx : W) (a : PhaseArgs W F) : Py (PhaseOut W L F T) := do
  let r ← phaseTransform ops Wx { a with Sfs := none }
  let dWx := if r.1.isSome ∧ a.getDWx = false then none else r.2.2.1
  let s ← ops.ssqueeze r.2.1 r.1 a.ssqFreqs r.2.2.2 dWx a.transform
  return ⟨s.1, r.2.1, s.2, r.2.2.2, r.1, dWx⟩

end Ssq
