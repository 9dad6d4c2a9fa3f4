import Verif.Model.Gmw
import Verif.Model.Cwt
import Mathlib.Analysis.SpecialFunctions.Complex.Log
import Mathlib.Data.Real.Sign

/-!
# The other built-in wavelets — ssqueezepy/wavelets.py

Exact numbers, one entry at a time; the serial, parallel and GPU variants are the same expression.
-/
namespace Ssq

/-- `morlet(mu)` — ssqueezepy/wavelets.py:498-530. -/
noncomputable def morletFn (μ w : ℝ) : ℝ :=
  let cs := (1 + Real.exp (-μ ^ 2) - 2 * Real.exp (-(3 / 4) * μ ^ 2)) ^ (-(1 / 2) : ℝ)
  let ks := Real.exp (-(1 / 2) * μ ^ 2)
  Real.sqrt 2 * cs * Real.pi ^ (1 / 4 : ℝ) *
    (Real.exp (-(1 / 2) * (w - μ) ^ 2) - ks * Real.exp (-(1 / 2) * w ^ 2))

/-- `bump(mu, s, om)` — ssqueezepy/wavelets.py:533-563. -/
noncomputable def bumpFn (μ s om w : ℝ) : ℂ :=
  let v := (w - μ) / s
  let ind : ℝ := if |v| < 0.999 then 1 else 0
  Complex.exp (2 * Real.pi * Complex.I * om * w) / s * (ind : ℂ) *
    ((Real.exp (-1 / (1 - (v * ind) ^ 2)) : ℝ) : ℂ) / ((0.443993816053287 : ℝ) : ℂ)

/-- `cmhat(mu, s)` — ssqueezepy/wavelets.py:566-586. -/
noncomputable def cmhatFn (μ s w : ℝ) : ℝ :=
  let v := w - μ
  2 * Real.sqrt (2 / 3) * Real.pi ^ (-(1 / 4) : ℝ) *
    (s ^ (5 / 2 : ℝ) * v ^ 2 * Real.exp (-s ^ 2 * v ^ 2 / 2) * (if 0 ≤ v then 1 else 0))

/-- `hhhat(mu)` — ssqueezepy/wavelets.py:589-608. -/
noncomputable def hhhatFn (μ w : ℝ) : ℝ :=
  let v := w - μ
  2 / Real.sqrt 5 * Real.pi ^ (-(1 / 4) : ℝ) * (v * (1 + v) * Real.exp (-(1 / 2) * v ^ 2)) * (1 + Real.sign v)

/-- `psih.imag.sum() / psih.real.sum() < imag_th` — ssqueezepy/wavelets.py:81-83. A zero denominator gives `-inf`, `nan` or
`inf`. -/
def ImagBelow (th im re : ℝ) : Prop := if re = 0 then im < 0 else im / re < th

open Classical in
/-- `wavelet(w, imag_th=th)` — ssqueezepy/wavelets.py:61-84, for an array `w` (`nohalf=True`). -/
noncomputable def waveletAt (f : WFn) (w : List ℝ) (th : Option ℝ) : List ℂ :=
  let psih := w.map f.eval
  match f, th with
  | .cplx _, some t =>
    if ImagBelow t (psih.map fun z : ℂ => z.im).sum (psih.map fun z : ℂ => z.re).sum
    then psih.map fun z : ℂ => ((z.re : ℝ) : ℂ)
    else psih
  | _, _ => psih

end Ssq
