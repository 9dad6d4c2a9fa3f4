import Verif.Model.Rounding

/-!
# `l1_norm=False` in floating point — ssqueezepy/_cwt.py:308-312
-/
namespace Ssq

/-- `Wx *= S.astype(Q.sqrt(scales), Wx.dtype)` with the given product; `roots` are the roots as computed. (ssqueezepy/_cwt.py:308-312.) -/
def l2ScaleWith (F : FloatOps) (roots : List ℂ) (rows : List (List ℂ)) : List (List ℂ) :=
  List.zipWith (fun s r => r.map fun z => F.mul z s) roots rows

/-- The transform of a padded signal with `l1_norm=False`, given the sampled wavelets, the factor of the derivative and the roots of the scales — ssqueezepy/_cwt.py:167-199, 284-312. -/
def cwtRunWithL2 (F : FloatOps) (a : CwtArgs) (N : ℕ) (n1 : ℤ) (psih : List (List ℂ)) (d roots xp : List ℂ) : List (List ℂ) × List (List ℂ) :=
  (l2ScaleWith F roots (cwtRunWith F a N n1 psih d xp).1, l2ScaleWith F roots (cwtRunWith F a N n1 psih d xp).2)

end Ssq
