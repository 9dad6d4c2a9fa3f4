import Verif.Spec.Padding
import Verif.Model.Dft

/-!
# Specification vocabulary for the continuous wavelet transform
-/
namespace Ssq.Spec

/-- Angular frequency (radians per sample) of DFT bin `k` out of `L`: bins up to and including `L/2`
are non-negative, the others negative. -/
noncomputable def xi (L k : ℕ) : ℝ :=
  2 * Real.pi * (if 2 * k ≤ L then (k : ℝ) else (k : ℝ) - L) / L

/-- The wavelet `f` at scale `s`, sampled at bin `k`, with the Nyquist bin of even lengths halved. -/
noncomputable def wavSample (f : ℝ → ℂ) (L : ℕ) (s : ℝ) (k : ℕ) : ℂ :=
  if 2 * k = L then f (s * xi L k) / 2 else f (s * xi L k)

/-- `xp` is `x` padded by scheme `t` to the default length, `x` starting at `n1`
(`none`: not padded). -/
def Padded (t : Option PadType) (x xp : List ℝ) (n1 : ℕ) : Prop :=
  match t with
  | none => xp = x ∧ n1 = 0
  | some t => xp.length = (p2up x.length).1 ∧ (n1 : ℤ) = (p2up x.length).2.1 ∧
      n1 + x.length ≤ xp.length ∧
      ∀ E, IsExtension t x E → ∀ (p : ℕ) (h : p < xp.length), xp[p] = E ((p : ℤ) - n1)

end Ssq.Spec
