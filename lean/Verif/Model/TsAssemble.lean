import Verif.Model.MakeSignals
import Mathlib.Analysis.SpecialFunctions.Log.Base

/-!
# What `TestSignals.make_signals` does with carrier, modulator and noise — ssqueezepy/_test_signals.py:545-585

The carrier and the modulator are functions of their keyword arguments; exact reals.
-/
namespace Ssq

/-- `x.var()` — used at ssqueezepy/_test_signals.py:576, 581. -/
noncomputable def npVar (x : List ℝ) : ℝ := (x.map fun v => (v - x.sum / x.length) ^ 2).sum / x.length

/-- `self.snr = snr or DEFAULT_SNR`, `DEFAULT_SNR = None` — ssqueezepy/_test_signals.py:60, 144. -/
noncomputable def tsSnrInit (snr : Option ℝ) : Option ℝ := open Classical in if snr = some 0 then none else snr

/-- The keywords of the time axis, `k in ('tmin', 'tmax', 'endpoint')` — ssqueezepy/_test_signals.py:560. -/
def tsTimeKeys : List PyS := ["tmin", "tmax", "endpoint"].map String.toList

/-- `tkw`: the keywords of the time axis of both dicts, the modulator's last — ssqueezepy/_test_signals.py:557-561. -/
def tsTkw {V : Type} (fp ap : PyDict V) : PyDict V :=
  (fp ++ ap).foldl (fun d e => if e.1 ∈ tsTimeKeys then d.set e.1 e.2 else d) []

/-- The keyword arguments of `afn(len(x), **aparams, **tkw)` — ssqueezepy/_test_signals.py:571. A key in both is a `TypeError`, whatever
the function. -/
def tsAmKw {V : Type} (ap tkw : PyDict V) : Py (PyDict V) :=
  if ap.any fun e => (tkw.find e.1).isSome then .error .typeError else .ok (ap ++ tkw)

/-- `noise_var`, `noise` and the SNR that is reported — ssqueezepy/_test_signals.py:575-583; `r` is what `randn(len(x))` returned. A zero
SNR is falsy. -/
noncomputable def tsAddNoise (snr : Option ℝ) (r : List ℝ) (x : List ℝ) : List ℝ × Option ℝ :=
  open Classical in
  match snr with
  | none => (x, none)
  | some s =>
    if s = 0 then (x, none)
    else
      let noiseVar := npVar x / (10 : ℝ) ^ (s / 10)
      let noise := r.map fun v => Real.sqrt noiseVar * v
      (List.zipWith (· + ·) x noise, some (10 * Real.logb 10 (npVar x / npVar noise)))

/-- One signal: the carrier times the modulator, its reverse added for `#` names (numpy reads the reversed view before it writes), noise
— ssqueezepy/_test_signals.py:568-585. `mod`: the modulator, ones if there is none. Returned: signal, times, reported SNR. -/
noncomputable def tsSignal {V : Type} (carrier : PyDict V → Py (List ℝ × List ℝ)) (mod : ℕ → PyDict V → Py (List ℝ)) (rev : Bool)
    (snr : Option ℝ) (rand : ℕ → List ℝ) (fp ap : PyDict V) : Py (List ℝ × List ℝ × Option ℝ) := do
  let c ← carrier (PyDict.erase fp "snr".toList)
  let kw ← tsAmKw ap (tsTkw fp ap)
  let m ← mod c.1.length kw
  let x := List.zipWith (· * ·) c.1 m
  let x := if rev then List.zipWith (· + ·) x x.reverse else x
  let y := tsAddNoise snr (rand x.length) x
  .ok (y.1, c.2, y.2)

/-- The modulator if there is none: ones — ssqueezepy/_test_signals.py:554-555. -/
def tsOnes {V : Type} (n : ℕ) (_ : PyDict V) : Py (List ℝ) := .ok (List.replicate n 1)

end Ssq
