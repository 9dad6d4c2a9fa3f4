import Verif.Model.Chirps
import Verif.Model.Py

/-!
# Parallel chirps, jumps, packed tones and polynomial modulations — ssqueezepy/_test_signals.py

Exact real arithmetic.
-/
namespace Ssq

/-- The four frequencies a parallel chirp uses. (ssqueezepy/_test_signals.py:284-354.) -/
structure ParFreqs where
  fmin1 : ℝ
  fmax1 : ℝ
  fmin2 : ℝ
  fmax2 : ℝ

/-- The frequencies of `par_lchirp`, `par_echirp`, `par_hchirp` — ssqueezepy/_test_signals.py:284-354. `up` and `down` are how the second chirp is
put above the first: plus and minus `N/10` for `par_lchirp`, times and over 1.5 for `par_echirp`, 3 for `par_hchirp`. `fdef` is
`default_args[...].get('fmin', ...)`. -/
noncomputable def parFreqs (up down : ℝ → ℝ) (N : ℕ) (fdef : ℝ) (fmin1 fmax1 fmin2 fmax2 : Option ℝ) : ParFreqs :=
  let fmin1 := fmin1.getD fdef
  let fmin2 := fmin2.getD (up fmin1)
  match fmax1, fmax2 with
  | some a, some b => ⟨fmin1, a, fmin2, b⟩
  | none, _ => ⟨fmin1, down ((N : ℝ) / 2), fmin2, (N : ℝ) / 2⟩
  | some a, none => ⟨fmin1, a, fmin2, min ((N : ℝ) / 2) (up a)⟩

/-- `par_lchirp`: `fdiff_default = N/10` — lines 290-302. (ssqueezepy/_test_signals.py:284-306.) -/
noncomputable def parLchirp (N : ℕ) := parFreqs (fun f => f + (N : ℝ) / 10) (fun f => f - (N : ℝ) / 10) N

/-- `par_echirp`: `fratio_default = 1.5` — lines 314-326. (ssqueezepy/_test_signals.py:308-330.) -/
noncomputable def parEchirp (N : ℕ) := parFreqs (fun f => f * (3 / 2)) (fun f => f / (3 / 2)) N

/-- `par_hchirp`: `fratio_default = 3` — lines 338-350. (ssqueezepy/_test_signals.py:332-354.) -/
noncomputable def parHchirp (N : ℕ) := parFreqs (fun f => f * 3) (fun f => f / 3) N

/-- `jumps(N, freqs, tmin=, tmax=, endpoint=)`: the signal and its time vector — ssqueezepy/_test_signals.py:385-405. -/
noncomputable def jumps (N : ℕ) (freqs : Option (List ℝ)) (tmin tmax : ℝ) (endpoint : Bool) : Py (List ℝ × List ℝ) :=
  let n := match freqs with | some fs => fs.length | none => 4
  if n = 0 then .error .zeroDivisionError
  else
    let M := N / n
    let fs := freqs.getD [1, (M : ℝ) / 4, (M : ℝ) / 2, (M : ℝ) / 16]
    let tdiff := tmax - tmin
    let tAll := tVec tmin (tdiff * fs.length) (M * fs.length) endpoint
    let xs := fs.zipIdx.map fun fi => ((tAll.drop (fi.2 * M)).take M).map fun t => Real.cos (2 * Real.pi * fi.1 * t)
    .ok (xs.flatten, tAll)

/-- Does sample `j` of `n` lie in `slice(0, No)` (tones of even number) or `slice(-No, None)` (odd)? As in Python, `-0` is 0 — lines 419-422. (ssqueezepy/_test_signals.py:419-422.) -/
def packedIn (n No i j : ℕ) : Bool :=
  if i % 2 = 0 then j < No else (if No = 0 then true else n - No ≤ j)

/-- `packed(N, freqs, overlap)` at the times `t`, for `overlap >= 0` — ssqueezepy/_test_signals.py:407-424: the loop over tones, each added
to its slice. -/
noncomputable def packed (t : List ℝ) (freqs : List ℝ) (overlap : ℝ) : List ℝ :=
  let No := ⌊overlap * t.length⌋₊
  freqs.zipIdx.foldl
    (fun x fi => (List.range t.length).map fun j =>
      if packedIn t.length No fi.2 j then x.getD j 0 + Real.cos (2 * Real.pi * fi.1 * t.getD j 0) else x.getD j 0)
    (List.replicate t.length 0)

/-! ### Polynomial modulations -/

/-- Times of `packed_poly` and `poly_cubic`: `np.linspace(0, 10, N)` — lines 433, 453. (ssqueezepy/_test_signals.py:433, 453.) -/
noncomputable def polyT (N : ℕ) : List ℝ := tVec 0 10 N true

/-- The three phases of `packed_poly` — ssqueezepy/_test_signals.py:435-443. -/
noncomputable def packedPolyPhase (N : ℕ) : Fin 3 → ℝ → ℝ := fun i t =>
  let adj : ℝ := N / 512
  match i with
  | 0 => 2 * Real.pi * (10 * adj * t - 0.3 * adj * Real.sin t - 1.8 * adj * t ^ (1.5 : ℝ))
  | 1 => 2 * Real.pi * (2.4 * adj * t + 0.5 * adj * t ^ (1.2 : ℝ) + 0.3 * Real.sin t)
  | 2 => 2 * Real.pi * (4.8 * adj * t + 0.2 * adj * t ^ (1.3 : ℝ))

/-- The three amplitudes of `packed_poly` — lines 439-443. (ssqueezepy/_test_signals.py:439-443.) -/
noncomputable def packedPolyAmp : Fin 3 → ℝ → ℝ := fun i t =>
  match i with
  | 0 => 1 + 0.3 * Real.cos t
  | 1 => (1 + 0.2 * Real.cos (2 * t)) * Real.exp (-t / 15)
  | 2 => 1

/-- `packed_poly(N)` — ssqueezepy/_test_signals.py:426-446. -/
noncomputable def packedPoly (N : ℕ) : List ℝ :=
  (polyT N).map fun t => packedPolyAmp 0 t * Real.cos (packedPolyPhase N 0 t) + packedPolyAmp 1 t * Real.cos (packedPolyPhase N 1 t) +
    packedPolyAmp 2 t * Real.cos (packedPolyPhase N 2 t)

/-- The phases of `poly_cubic` — ssqueezepy/_test_signals.py:455-459. `scipy.signal.sweep_poly(t, p)` is `cos(2*pi*P(t))` with `P` the integral of `p`
from zero. -/
noncomputable def polyCubicPhase (N : ℕ) : Fin 3 → ℝ → ℝ := fun i t =>
  match i with
  | 0 => 2 * Real.pi * ((N / 256) * (0.025 * t ^ 4 / 4 - 0.36 * t ^ 3 / 3 + 1.25 * t ^ 2 / 2 + 2 * t))
  | 1 => 2 * Real.pi * (0.5 * N / 256) * t
  | 2 => 2 * Real.pi * ((N / 256) * (0.01 * t ^ 4 / 4 - 0.25 * t ^ 3 / 3 + 1.5 * t ^ 2 / 2 + 4 * t))

/-- `poly_cubic(N)` — ssqueezepy/_test_signals.py:448-462. -/
noncomputable def polyCubic (N : ℕ) : List ℝ :=
  (polyT N).map fun t => Real.cos (polyCubicPhase N 0 t) + Real.sin (polyCubicPhase N 1 t) + Real.cos (polyCubicPhase N 2 t)

end Ssq
