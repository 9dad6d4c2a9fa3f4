import Verif.Model.Common

/-!
# Specification of the pad schemes

The documented schemes are described by what an infinite extension `E : ℤ → α` of the signal has to
satisfy (position 0 is the first sample); no index arithmetic of the model is used.
-/
namespace Ssq.Spec

/-- `E` extends `x` by the scheme `t`. -/
def IsExtension {α : Type} [Zero α] (t : PadType) (x : List α) (E : ℤ → α) : Prop :=
  (∀ (i : ℕ) (h : i < x.length), E i = x[i]) ∧
  match t with
  | .zero => ∀ i : ℤ, (i < 0 ∨ (x.length : ℤ) ≤ i) → E i = 0
  | .wrap => ∀ i : ℤ, E (i + x.length) = E i
  | .replicate => (∀ i : ℤ, i ≤ 0 → E i = E 0) ∧
      (∀ i : ℤ, (x.length : ℤ) - 1 ≤ i → E i = E (x.length - 1))
  | .reflect =>  -- mirror about the first and about the last sample; one sample is repeated
      (∀ i : ℤ, E (-i) = E i) ∧ (∀ i : ℤ, E ((x.length : ℤ) - 1 + i) = E ((x.length : ℤ) - 1 - i)) ∧
      (x.length = 1 → ∀ i : ℤ, E i = E 0)
  | .symmetric =>  -- mirror between samples: about -1/2 and about N - 1/2
      (∀ i : ℤ, E (-1 - i) = E i) ∧ (∀ i : ℤ, E ((x.length : ℤ) + i) = E ((x.length : ℤ) - 1 - i))

end Ssq.Spec
