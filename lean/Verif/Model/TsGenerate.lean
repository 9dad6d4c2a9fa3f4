import Verif.Model.Chirps

/-!
# The generators of `TestSignals` (`ssqueezepy/_test_signals.py`)

Exact real arithmetic; `none` is a NaN or infinite sample. `tmin`, `tmax`, `fmin` are numbers, not `None`.
-/
namespace Ssq

/-- The chirps with a method of their own — ssqueezepy/_test_signals.py:190-264. -/
inductive ChirpKind
  | lchirp | echirp | echirpPc | hchirp

/-- The function each method hands to `_generate` — ssqueezepy/_test_signals.py:197, 217, 239, 264. -/
noncomputable def ChirpKind.fn : ChirpKind → ℝ → ℝ → ℝ → ℝ → ℝ → Py (Option ChirpPt)
  | .lchirp => lchirpFn
  | .echirp => echirpFn
  | .echirpPc => echirpPcFn
  | .hchirp => hchirpFn

/-- `tmin`, `tmax`, `endpoint`. (ssqueezepy/_test_signals.py:146, 626-629, 980.) -/
structure TsTkw where
  tmin : ℝ := 0
  tmax : ℝ := 1
  endpoint : Bool := true

/-- The same as passed by the caller: `none` if left out. (ssqueezepy/_test_signals.py:183, 626-629.) -/
structure TsTkwArg where
  tmin : Option ℝ := none
  tmax : Option ℝ := none
  endpoint : Option Bool := none

/-- `tkw[k] = tkw.get(k, self.default_tkw[k])` — ssqueezepy/_test_signals.py:627-629. -/
def TsTkwArg.fill (a : TsTkwArg) (d : TsTkw) : TsTkw := ⟨a.tmin.getD d.tmin, a.tmax.getD d.tmax, a.endpoint.getD d.endpoint⟩

/-- `_est_N_nonalias` on one of the chirps — ssqueezepy/_test_signals.py:647-664, 636-637. A NaN or infinity in the maximum makes `int` raise; the error
is modelled as `ValueError`. -/
noncomputable def chirpEstN (k : ChirpKind) (tmin tmax fmin fmax : ℝ) : Py ℤ := do
  let ws ← (tVec tmin tmax 50000 true).mapM fun t => do
    match ← k.fn tmin tmax fmin fmax t with
    | some p => pure p.w
    | none => .error .valueError
  return pyInt ((⌈1 + rowMax ws * (tmax - tmin) / Real.pi⌉ : ℤ) : ℝ)

/-- The number of samples that `_process_params` settles on for a chirp — ssqueezepy/_test_signals.py:631-637. -/
noncomputable def tsN (selfN : ℕ) (k : ChirpKind) (tkw : TsTkw) (N : Option ℕ) (fmin : ℝ) (fmax : Option ℝ) : Py ℤ :=
  match N with
  | some n => .ok n
  | none =>
    match fmax with
    | none => .ok selfN
    | some f => chirpEstN k tkw.tmin tkw.tmax fmin f

/-- `np.diff(phi).max() - pi > tol` with `tol = .02` — ssqueezepy/_test_signals.py:157-163; false if there is a NaN, an error if there are fewer than two samples. -/
noncomputable def aliasWarns (phi : List (Option ℝ)) : Py Bool :=
  if phi.length < 2 then .error .valueError
  else if none ∈ phi then .ok false
  else
    let p := phi.map fun x => x.getD 0
    .ok (decide (0.02 < rowMax ((List.range (p.length - 1)).map fun i => p.getD (i + 1) 0 - p.getD i 0) - Real.pi))

/-- What a generator returns, its phase, and whether it warned of aliasing. (ssqueezepy/_test_signals.py:183-188.) -/
structure TsSignal where
  x : List (Option ℝ)
  t : List ℝ
  phi : List (Option ℝ)
  warned : Bool

/-- `_generate` with `_process_params` — ssqueezepy/_test_signals.py:183-188, 626-645. -/
noncomputable def tsGenerate (selfN : ℕ) (dflt : TsTkw) (warn : Bool) (k : ChirpKind) (N : Option ℕ) (fmin : ℝ) (fmax : Option ℝ) (tkwArg : TsTkwArg) :
    Py TsSignal := do
  let tkw := tkwArg.fill dflt
  let n ← tsN selfN k tkw N fmin fmax
  if n < 0 then .error .valueError
  else do
    let fmax := fmax.getD ((n / 2 : ℤ) : ℝ)
    let t := tVec tkw.tmin tkw.tmax n.toNat tkw.endpoint
    let phi ← t.mapM fun s => (k.fn tkw.tmin tkw.tmax fmin fmax s).map fun o => o.map ChirpPt.phi
    let w ← if warn then aliasWarns phi else pure false
    return ⟨phi.map fun o => o.map Real.cos, t, phi, w⟩

/-- `fmax` as it is shown in the title of a chirp of `N` samples — ssqueezepy/_test_signals.py:618-624. -/
noncomputable def titleFmax (N : ℕ) (fmax : Option ℝ) : ℝ := fmax.getD (N / 2)

/-- `sine` (`cosine` with `Real.cos`) — ssqueezepy/_test_signals.py:165-181: without `endpoint`, the end is left out whatever the instance's default. -/
noncomputable def tsTone (fn : ℝ → ℝ) (selfN : ℕ) (dflt : TsTkw) (warn : Bool) (N : Option ℕ) (f phi0 : ℝ) (tkwArg : TsTkwArg) : Py TsSignal := do
  let tkw := { tkwArg with endpoint := some (tkwArg.endpoint.getD false) }.fill dflt
  let n := N.getD selfN
  let t := tVec tkw.tmin tkw.tmax n tkw.endpoint
  let phi := t.map fun s => some (2 * Real.pi * f * s + phi0)
  let w ← if warn then aliasWarns phi else pure false
  return ⟨phi.map fun o => o.map fn, t, phi, w⟩

end Ssq
