import Verif.Model.Share

/-!
# Specification for C224, C225
-/
namespace Ssq

/-- The transform that is squeezed: the `squeezing` applied to the transform; a function that returns its argument
gives what it left in it. -/
def Spec.squeezedValue {V : Type} (ops : ShareOps V) : SqArg V → V → V
  | .sum, v => v
  | .lebesgue, v => ops.ones v
  | .abs, v => ops.abs v
  | .fn leaves returns, v => (returns v).getD (leaves v)

/-- The `squeezing` is not a function. -/
def Spec.BuiltIn {V : Type} : SqArg V → Prop
  | .fn _ _ => False
  | _ => True

/-- Returned values. -/
inductive Spec.Ret
  | Tx | Wx | freqs | grid | w | dWx
  deriving DecidableEq

/-- The array returned as a value, if any. -/
def Spec.Ret.of (r : SsqRefs) : Spec.Ret → Option ARef
  | .Tx => some r.Tx
  | .Wx => some r.Wx
  | .freqs => some r.freqs
  | .grid => some r.grid
  | .w => r.w
  | .dWx => some r.dWx

/-- Assigning any values to `p` in place leaves what is read from `q` as it was. -/
def Spec.Apart {V : Type} (ops : ShareOps V) (d : V) (m : AMem V) (p q : ARef) : Prop :=
  ∀ v, q.read ops (p.write ops m v) d = q.read ops m d

/-- Values of the scales `cwt` uses. -/
def Spec.scalesUsed {V : Type} (ops : ShareOps V) (m : AMem V) (d : V) (sc : Option ℕ) (same : Bool) : V :=
  match sc with
  | none => ops.scales
  | some s => if same then m.getD s d else ops.cast (m.getD s d)

/-- Arrays given by the caller exist. -/
def Spec.Given {V : Type} (m : AMem V) (x : ℕ) (sc : Option ℕ) (a : ShareArgs V) : Prop :=
  x < m.length ∧ (∀ s, sc = some s → s < m.length) ∧ ∀ r, a.ssqFreqs = some r → r.buf < m.length

end Ssq
