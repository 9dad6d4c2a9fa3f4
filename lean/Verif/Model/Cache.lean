import Verif.Model.Py
import Verif.Model.Cwt

/-!
# Cached wavelet samples: `Wavelet.Psih` and `Wavelet.N` — ssqueezepy/wavelets.py

A `Wavelet` instance as a state machine. What the instance computes from `scale`, `N` and `nohalf`
(`Wavelet.__call__`) is a parameter `call` of the machine: an arbitrary function into an arbitrary type of arrays.
-/
namespace Ssq

/-- `wavelet(scale=scales, N=N, nohalf=nohalf)` — ssqueezepy/wavelets.py:61-84, rows at the given scales. -/
noncomputable def waveletCall (f : WFn) (N : ℕ) (scales : List ℝ) (nohalf : Bool) : List (List ℂ) :=
  dropImag f (scales.map fun s => if nohalf then sampleRow f N s else halveNyquist (sampleRow f N s))

/-- The `scale` argument of `Psih`: `None`, a Python number, or a 1D array. (ssqueezepy/wavelets.py:111-133.) -/
inductive PScale
  | none
  | num (s : ℝ)
  | arr (l : List ℝ)

/-- The scales at which `Wavelet.__call__` samples: `None` means 1 — ssqueezepy/wavelets.py:118-124. -/
def PScale.toList : PScale → List ℝ
  | .none => [1]
  | .num s => [s]
  | .arr l => l

/-- The attributes of a `Wavelet` that `Psih` reads and writes. `psih = none`: attribute `_Psih` not set;
`some none`: it is `None`. `pN = none`: `_Psih_N` not set (default `array([-1])`, equal to no length); `ps` has the default
`array([-1])` — ssqueezepy/wavelets.py:143-144. -/
structure PsihSt (V : Type) where
  N : ℕ
  psih : Option (Option V) := none
  pN : Option ℕ := none
  ps : List ℝ := [-1]

/-- `np.allclose(a, b)` for arrays of the same length, default tolerances — ssqueezepy/utils/backend.py:6-11. -/
def npAllclose (a b : List ℝ) : Prop := List.Forall₂ (fun x y : ℝ => |x - y| ≤ 1 / 10 ^ 8 + 1 / 10 ^ 5 * |y|) a b

/-- Where an exception interrupts `Psih` (out of memory, keyboard interrupt, a failing wavelet function): while the
samples are computed, or right after the assignment of `_Psih` or `_Psih_N` — ssqueezepy/wavelets.py:150-159. -/
inductive PsihCrash
  | computing
  | afterPsih
  | afterN

/-- `N = N or self.N` — ssqueezepy/wavelets.py:146. -/
def psihN (N : Option ℕ) (selfN : ℕ) : ℕ :=
  match N with
  | some (n + 1) => n + 1
  | _ => selfN

/-- `return self._Psih`. (ssqueezepy/wavelets.py:160.) -/
def PsihSt.get {V : Type} (s : PsihSt V) : Py (Option V) :=
  match s.psih with
  | some v => .ok v
  | none => .error .attributeError

/-- The computing part of `Psih` — ssqueezepy/wavelets.py:150-160: forget, compute, store samples, length and a copy of
the scales. `None` and Python numbers have no `copy`. -/
def psihCompute {V : Type} (call : PScale → ℕ → Bool → V) (s : PsihSt V) (scale : PScale) (N : ℕ) (nohalf : Bool)
    (crash : Option PsihCrash) : PsihSt V × Py (Option V) :=
  let s1 := match s.psih with
    | some (some _) => { s with psih := some none }
    | _ => s
  match crash with
  | some .computing => (s1, .error .exception)
  | some .afterPsih => ({ s1 with psih := some (some (call scale N nohalf)) }, .error .exception)
  | some .afterN => ({ s1 with psih := some (some (call scale N nohalf)), pN := some N }, .error .exception)
  | none =>
    let s2 := { s1 with psih := some (some (call scale N nohalf)), pN := some N }
    match scale with
    | .arr l => ({ s2 with ps := l }, .ok (some (call scale N nohalf)))
    | _ => (s2, .error .attributeError)

open Classical in
/-- `Psih(scale, N, nohalf)` — ssqueezepy/wavelets.py:135-160. `crash` is only looked at when something is computed. -/
noncomputable def psihOp {V : Type} (call : PScale → ℕ → Bool → V) (s : PsihSt V) (scale : PScale) (N : Option ℕ)
    (nohalf : Bool) (crash : Option PsihCrash) : PsihSt V × Py (Option V) :=
  let n := psihN N s.N
  match scale, N with
  | .none, none => (s, s.get)
  | .arr l, _ =>
    if s.pN = some n ∧ l.length = s.ps.length ∧ npAllclose l s.ps then (s, s.get)
    else psihCompute call s scale n nohalf crash
  | _, _ =>
    if s.pN = some n then (s, .error .typeError)
    else psihCompute call s scale n nohalf crash

/-- What a program does with a `Wavelet` between calls: set `wavelet.N` (ssqueezepy/wavelets.py:167-172), call `Psih`, or
modify in place the array `Psih` returned last (it is the cached array itself). -/
inductive PsihStep (V : Type)
  | setN (n : ℕ)
  | psih (scale : PScale) (N : Option ℕ) (nohalf : Bool) (crash : Option PsihCrash)
  | edit (g : V → V)

/-- One step of a program. (ssqueezepy/wavelets.py:135-172.) -/
noncomputable def psihStep {V : Type} (call : PScale → ℕ → Bool → V) (s : PsihSt V) : PsihStep V → PsihSt V
  | .setN n => { s with N := n }
  | .psih scale N nohalf crash => (psihOp call s scale N nohalf crash).1
  | .edit g => { s with psih := s.psih.map fun o => o.map g }

/-- A whole program. (ssqueezepy/wavelets.py:135-172.) -/
noncomputable def psihRun {V : Type} (call : PScale → ℕ → Bool → V) (s : PsihSt V) (h : List (PsihStep V)) : PsihSt V :=
  h.foldl (psihStep call) s

end Ssq
