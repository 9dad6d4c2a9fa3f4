import Verif.Model.Py
import Verif.Model.Xifn
import Mathlib.Analysis.SpecialFunctions.Gamma.Basic
import Mathlib.Analysis.SpecialFunctions.Pow.Real
import Mathlib.Data.EReal.Operations

/-!
# Generalized Morse wavelets — ssqueezepy/_gmw.py

Exact reals. `np.log(0)` is `-inf`, kept as `⊥` of the extended reals until `np.exp` maps it to 0. Arrays are evaluated
entry by entry; the three variants of each kernel (serial, parallel, GPU) are the same expression.
-/
namespace Ssq

/-- `np.log` of a non-negative number. (ssqueezepy/_gmw.py:210, 294, 344.) -/
noncomputable def npLog (x : ℝ) : EReal := if x = 0 then ⊥ else ((Real.log x : ℝ) : EReal)

/-- `np.exp` of a number or `-inf`. (`+inf` and NaN do not occur.) (ssqueezepy/_gmw.py:209, 293, 344.) -/
noncomputable def npExp (x : EReal) : ℝ := if x = ⊥ then 0 else Real.exp x.toReal

/-- `gammaln_fn` (`scipy.special.gammaln`): log of the absolute value of the gamma function. (ssqueezepy/_gmw.py:11, 377-387.) -/
noncomputable def gammaln (x : ℝ) : ℝ := Real.log |Real.Gamma x|

/-- The two normalisations. (ssqueezepy/_gmw.py:22-26.) -/
inductive GmwNorm
  | bandpass
  | energy
  deriving DecidableEq

/-- `morsefreq(gamma, beta)` — ssqueezepy/_gmw.py:637. -/
noncomputable def morsefreq (γ β : ℝ) : ℝ := (β / γ) ^ (1 / γ)

/-- `w >= 0` as a number — ssqueezepy/_gmw.py:208. -/
noncomputable def nonneg01 (w : ℝ) : ℝ := if 0 ≤ w then 1 else 0

/-- `_gmw_l1` — ssqueezepy/_gmw.py:204-211 (and 214-226). -/
noncomputable def gmwL1Fn (γ β wc wcl w : ℝ) : ℝ :=
  let nn := nonneg01 w
  let w := w * nn
  2 * npExp (((-β * wcl + wc ^ γ : ℝ) : EReal) + (β : EReal) * npLog w - ((w ^ γ : ℝ) : EReal)) * nn

/-- `_gmw_l2` — ssqueezepy/_gmw.py:245-250 (and 252-264). -/
noncomputable def gmwL2Fn (γ β r rgamma w : ℝ) : ℝ :=
  let nn := nonneg01 w
  let w := w * nn
  Real.sqrt (2 * Real.pi * γ * 2 ^ r / rgamma) * w ^ β * Real.exp (-w ^ γ) * nn

/-- The polynomial `C` — ssqueezepy/_gmw.py:291-293. -/
noncomputable def gmwPoly (γ : ℝ) (kc : List ℝ) (w : ℝ) : ℝ :=
  ((List.range kc.length).map fun m : ℕ => kc.getD m 0 * (2 * w ^ γ) ^ m).sum

/-- `_gmw_l1_k` — ssqueezepy/_gmw.py:286-295. -/
noncomputable def gmwL1kFn (γ β wc : ℝ) (kc : List ℝ) (w : ℝ) : ℝ :=
  let nn := nonneg01 w
  let w := w * nn
  gmwPoly γ kc w *
    npExp (((-β * Real.log wc + wc ^ γ : ℝ) : EReal) + (β : EReal) * npLog w - ((w ^ γ : ℝ) : EReal)) * nn

/-- `_gmw_l2_k` — ssqueezepy/_gmw.py:337-345. -/
noncomputable def gmwL2kFn (γ β : ℝ) (kc : List ℝ) (w : ℝ) : ℝ :=
  let nn := nonneg01 w
  let w := w * nn
  gmwPoly γ kc w * npExp ((β : EReal) * npLog w - ((w ^ γ : ℝ) : EReal)) * nn

/-- Normalisation `coeff` — ssqueezepy/_gmw.py:375-381. -/
noncomputable def gmwCoeff (γ β : ℝ) (k : ℕ) (norm : GmwNorm) : ℝ :=
  let r := (2 * β + 1) / γ
  match norm with
  | .bandpass => Real.sqrt (Real.exp (gammaln r + gammaln (k + 1) - gammaln (k + r)))
  | .energy => Real.sqrt (2 * Real.pi * γ * 2 ^ r * Real.exp (gammaln (k + 1) - gammaln (k + r)))

/-- One Laguerre constant — ssqueezepy/_gmw.py:385-388 and 604-607. -/
noncomputable def laguerreConst (k : ℕ) (c : ℝ) (m : ℕ) : ℝ :=
  (-1) ^ m * Real.exp (gammaln (k + c + 1) - gammaln (c + m + 1) - gammaln ((k : ℝ) - m + 1)) / Real.Gamma (m + 1)

/-- `_gmw_k_constants` — ssqueezepy/_gmw.py:366-394. -/
noncomputable def gmwKConstants (γ β : ℝ) (k : ℕ) (norm : GmwNorm) : List ℝ :=
  (List.range (k + 1)).map fun m : ℕ =>
    laguerreConst k ((2 * β + 1) / γ - 1) m * gmwCoeff γ β k norm * (if norm = .bandpass then 2 else 1)

/-- `_check_args(gamma, beta, allow_zerobeta=…)` — ssqueezepy/_gmw.py:748-761. -/
noncomputable def gmwCheck (allowZero : Bool) (γ β : Option ℝ) : Py Unit :=
  match γ with
  | some g => if g ≤ 0 then .error .valueError else checkBeta
  | none => checkBeta
where
  /-- The part on `beta`. -/
  checkBeta : Py Unit :=
    match β with
    | some b => if b < 0 then .error .valueError else if b = 0 ∧ allowZero = false then .error .valueError else .ok ()
    | none => .ok ()

/-- `w * wc` with `centered_scale` — ssqueezepy/_gmw.py:197-200. -/
noncomputable def gmwArg (centered : Bool) (wc w : ℝ) : ℝ := if centered then w * wc else w

/-- `gmw_l1` — ssqueezepy/_gmw.py:187-200. -/
noncomputable def gmwL1 (γ β : ℝ) (centered : Bool) : Py (ℝ → ℝ) := do
  gmwCheck false (some γ) (some β)
  let wc := morsefreq γ β
  .ok fun w => gmwL1Fn γ β wc (Real.log wc) (gmwArg centered wc w)

/-- `gmw_l2` — ssqueezepy/_gmw.py:228-243. -/
noncomputable def gmwL2 (γ β : ℝ) (centered : Bool) : Py (ℝ → ℝ) := do
  gmwCheck false (some γ) (some β)
  let wc := morsefreq γ β
  let r := (2 * β + 1) / γ
  .ok fun w => gmwL2Fn γ β r (Real.Gamma r) (gmwArg centered wc w)

/-- `gmw_l1_k` — ssqueezepy/_gmw.py:267-284. -/
noncomputable def gmwL1k (γ β : ℝ) (k : ℕ) (centered : Bool) : Py (ℝ → ℝ) := do
  gmwCheck false (some γ) (some β)
  let wc := morsefreq γ β
  .ok fun w => gmwL1kFn γ β wc (gmwKConstants γ β k .bandpass) (gmwArg centered wc w)

/-- `gmw_l2_k` — ssqueezepy/_gmw.py:318-335. -/
noncomputable def gmwL2k (γ β : ℝ) (k : ℕ) (centered : Bool) : Py (ℝ → ℝ) := do
  gmwCheck false (some γ) (some β)
  let wc := morsefreq γ β
  .ok fun w => gmwL2kFn γ β (gmwKConstants γ β k .energy) (gmwArg centered wc w)

/-- The `order` argument: not given, an int, a float, or something else. (ssqueezepy/_gmw.py:765-770.) -/
inductive OrderArg
  | none
  | int (z : ℤ)
  | float (x : ℝ)
  | other

/-- The `norm` argument: not given, a supported name, or another string. (ssqueezepy/_gmw.py:762-763.) -/
inductive NormArg
  | none
  | known (n : GmwNorm)
  | other

open Classical in
/-- `_check_args(order=…)` — ssqueezepy/_gmw.py:766-771. -/
noncomputable def gmwCheckOrder : OrderArg → Py Unit
  | .none => .ok ()
  | .int z => if z < 0 then .error .valueError else .ok ()
  | .float x => if ¬ ∃ z : ℤ, (z : ℝ) = x then .error .typeError else if x < 0 then .error .valueError else .ok ()
  | .other => .error .typeError

/-- `order` after the check and the defaults: 0 selects the base wavelets; a positive float is passed on to
`np.zeros(k + 1)`, which rejects it — ssqueezepy/_gmw.py:117-131, 384. -/
noncomputable def gmwOrder : OrderArg → Py ℕ
  | .none => .ok 0
  | .int z => .ok z.toNat
  | .float x => if x = 0 then .ok 0 else .error .typeError
  | .other => .error .typeError

/-- Dispatch on order and norm — ssqueezepy/_gmw.py:126-131. -/
noncomputable def gmwDispatch (γ β : ℝ) (norm : GmwNorm) (k : ℕ) (centered : Bool) : Py (ℝ → ℝ) :=
  if k = 0 then
    match norm with
    | .bandpass => gmwL1 γ β centered
    | .energy => gmwL2 γ β centered
  else
    match norm with
    | .bandpass => gmwL1k γ β k centered
    | .energy => gmwL2k γ β k centered

/-- Defaults of the `norm` argument, and its check — ssqueezepy/_gmw.py:763-764, configs.ini. -/
def gmwNormOf : NormArg → Py GmwNorm
  | .none => .ok .bandpass
  | .known n => .ok n
  | .other => .error .valueError

/-- `gmw(gamma, beta, norm, order, centered_scale, dtype)` — ssqueezepy/_gmw.py:22-131. `f32` says that `dtype` was given
as float32. The defaults are those of configs.ini. A positive float order is rejected after the check of `gamma` and
`beta` in `gmw_l1_k`. -/
noncomputable def gmw (γ β : Option ℝ) (norm : NormArg) (order : OrderArg) (centered : Option Bool) (f32 : Bool) :
    Py (ℝ → ℝ) := do
  gmwCheck true γ β
  let n ← gmwNormOf norm
  gmwCheckOrder order
  if n = .energy ∧ f32 = true then .error .valueError
  else do
    gmwCheck false (some (γ.getD 3)) (some (β.getD 60))
    let k ← gmwOrder order
    gmwDispatch (γ.getD 3) (β.getD 60) n k (centered.getD false)

/-- A call of the returned function on an array, with the array afterwards: `w *= w_nonneg` acts on the caller's array
when `S.atleast_1d` returned it unchanged (`shared`: same dtype, and not `centered_scale`, which makes a product) —
ssqueezepy/_gmw.py:199-200, 208-209, ssqueezepy/utils/backend.py:26-29, 59-60. -/
noncomputable def gmwApply (f : ℝ → ℝ) (shared : Bool) (w : List ℝ) : List ℝ × List ℝ :=
  (w.map f, if shared then w.map fun x => x * nonneg01 x else w)

/-- `laguerre(x, k, c)` — ssqueezepy/_gmw.py:592-608, one entry. -/
noncomputable def laguerreFn (x : ℝ) (k : ℕ) (c : ℝ) : ℝ :=
  ((List.range (k + 1)).map fun m : ℕ =>
    (-1) ^ m * Real.exp (gammaln (k + c + 1) - gammaln (c + m + 1) - gammaln ((k : ℝ) - m + 1)) * x ^ m /
      Real.Gamma (m + 1)).sum

/-- `morseafun(gamma, beta, k, norm)` — ssqueezepy/_gmw.py:555-589. -/
noncomputable def morseafun (γ β k : ℝ) (norm : GmwNorm) : ℝ :=
  match norm with
  | .energy =>
    let r := (2 * β + 1) / γ
    Real.sqrt (2 * Real.pi * γ * 2 ^ r * Real.exp (gammaln k - gammaln (k + r - 1)))
  | .bandpass =>
    if β = 0 then 2
    else
      let wc := morsefreq γ β
      2 / Real.exp (β * Real.log wc - wc ^ γ)

/-- `morsef` — ssqueezepy/_gmw.py:687-690. -/
noncomputable def morsef (γ β : ℝ) : ℝ := (1 / (2 * Real.pi * γ)) * Real.Gamma ((β + 1) / γ)

/-- `morsemom1` — ssqueezepy/_gmw.py:687-688. -/
noncomputable def morsemom1 (p γ β : ℝ) : ℝ := morseafun γ β 1 .bandpass * morsef γ (β + p)

/-- The moment `Mp` and the energy moment `Np` — ssqueezepy/_gmw.py:692-695. -/
noncomputable def morsemom (p γ β : ℝ) : ℝ × ℝ :=
  (morsemom1 p γ β, (2 / 2 ^ ((1 + p) / γ)) * morsemom1 p γ (2 * β))

/-- `morsefreq(gamma, beta, n_out=3)`: peak, energy and instantaneous frequency — ssqueezepy/_gmw.py:637-644. -/
noncomputable def morsefreq3 (γ β : ℝ) : ℝ × ℝ × ℝ :=
  (morsefreq γ β,
   (1 / 2 ^ (1 / γ)) * (Real.Gamma ((2 * β + 2) / γ) / Real.Gamma ((2 * β + 1) / γ)),
   Real.Gamma ((β + 2) / γ) / Real.Gamma ((β + 1) / γ))

/-- `nCk(n, k)` — ssqueezepy/algos.py:13-19, on non-negative integers: the products over `range(n, n - r, -1)` and
`range(1, r + 1)` with `r = min(k, n - k)`, empty for negative `r`. -/
def nCk (n k : ℕ) : ℚ :=
  let r := (min (k : ℤ) ((n : ℤ) - k)).toNat
  ((List.range r).map fun i : ℕ => (n : ℚ) - (i : ℚ)).prod / ((List.range r).map fun i : ℕ => (i : ℚ) + 1).prod

/-- The loop of `_moments_to_cumulants` — ssqueezepy/_gmw.py:736-744: appends one cumulant. -/
noncomputable def cumStep (M : List ℝ) (K : List ℝ) : List ℝ :=
  let n := K.length
  let coeff := ((List.range' 1 (n - 1)).map fun k : ℕ =>
    (nCk (n - 1) (k - 1) : ℝ) * K.getD k 0 * (M.getD (n - k) 0 / M.getD 0 0)).sum
  K ++ [M.getD n 0 / M.getD 0 0 - coeff]

/-- `_moments_to_cumulants` — ssqueezepy/_gmw.py:721-745. -/
noncomputable def momentsToCumulants (M : List ℝ) : List ℝ :=
  (List.range (M.length - 1)).foldl (fun K _ => cumStep M K) [Real.log (M.getD 0 0)]

/-- The cumulant `Kp` and the energy cumulant `Lp` of `_morsemom` — ssqueezepy/_gmw.py:697-708. -/
noncomputable def morsecum (p : ℕ) (γ β : ℝ) : ℝ × ℝ :=
  ((momentsToCumulants ((List.range (p + 1)).map fun n : ℕ => (morsemom n γ β).1)).getD p 0,
   (momentsToCumulants ((List.range (p + 1)).map fun n : ℕ => (morsemom n γ β).2)).getD p 0)

/-- The curvature `cwi` of `morsefreq(n_out=4)` — ssqueezepy/_gmw.py:645-648. -/
noncomputable def morsecurv (γ β : ℝ) : ℝ := -((morsecum 3 γ β).1 / (morsecum 2 γ β).1 ^ (1.5 : ℝ))

/-- `compute_gmw` without `time` — ssqueezepy/_gmw.py:134-184: `N//2 + 1` samples of the wavelet at `scale·xi`, zeros after.
All values are finite. -/
noncomputable def computeGmw (N : ℕ) (scale γ β : ℝ) (norm : GmwNorm) (k : ℕ) (centered normScale : Bool) :
    Py (List ℝ) := do
  gmwCheck true (some γ) (some β)
  if scale ≤ 0 then .error .valueError
  else do
    let f ← gmw (some γ) (some β) (.known norm) (.int k) (some centered) false
    let w := xifn scale N
    let c := if norm = .energy ∧ normScale = true then
        (if centered then Real.sqrt (morsefreq γ β * scale) else Real.sqrt scale) else 1
    .ok ((List.range N).map fun i : ℕ => (if i < N / 2 + 1 then f (w.getD i 0) else 0) * c)

/-- `psizero` for `beta > 0` — ssqueezepy/_gmw.py:491-503, at frequency `w`. (The `beta == 0` branches are not reached: see
`morsewave`.) -/
noncomputable def psizero (γ β fo : ℝ) (norm : GmwNorm) (w : ℝ) : ℝ :=
  match norm with
  | .energy => npExp ((β : EReal) * npLog w - ((w ^ γ : ℝ) : EReal))
  | .bandpass =>
    2 * npExp (((-β * Real.log fo + fo ^ γ : ℝ) : EReal) + (β : EReal) * npLog w - ((w ^ γ : ℝ) : EReal))

/-- The coefficient of `_morsewave_first_family` for `beta > 0` — ssqueezepy/_gmw.py:541-549. -/
noncomputable def morseCoeff (γ β fact : ℝ) (k : ℕ) (norm : GmwNorm) : ℝ :=
  match norm with
  | .energy => Real.sqrt (1 / fact) * morseafun γ β (k + 1) .energy
  | .bandpass => Real.sqrt (Real.exp (gammaln ((2 * β + 1) / γ) + gammaln (k + 1) - gammaln (k + (2 * β + 1) / γ)))

/-- `_morsewave1`, frequency domain — ssqueezepy/_gmw.py:479-552: sample `n`, order `k`. The Laguerre factor is kept at 0
beyond `N//2`. -/
noncomputable def morsewave1 (N : ℕ) (f γ β : ℝ) (norm : GmwNorm) (n k : ℕ) : ℝ :=
  let fo := morsefreq γ β
  let fact := f / fo
  let w := 2 * Real.pi * ((n : ℝ) / N) / fact
  let L := if n < N / 2 + 1 then laguerreFn (2 * w ^ γ) k ((2 * β + 1) / γ - 1) else 0
  morseCoeff γ β fact k norm * psizero γ β fo norm w * L

/-- `morsewave(N, freqs, gamma, beta, K, norm)`, frequency domain before `squeeze` — ssqueezepy/_gmw.py:463-480, indexed
frequency, sample, order. With `beta == 0`, `fo` is 0 and `f / fo` divides by zero (frequencies are Python numbers). For a
negative frequency an `(N, K)` array is assigned to an `(N, 1, K)` slice, which numpy rejects unless `N = 1` (then nothing
is flipped). Zero frequencies (all entries NaN) are outside the model. -/
noncomputable def morsewave (N : ℕ) (freqs : List ℝ) (γ β : ℝ) (K : ℕ) (norm : GmwNorm) :
    Py (List (List (List ℝ))) := do
  gmwCheck true (some γ) (some β)
  if freqs ≠ [] ∧ β = 0 then .error .zeroDivisionError
  else if N ≠ 1 ∧ ∃ f ∈ freqs, f < 0 then .error .valueError
  else .ok (freqs.map fun f => (List.range N).map fun n : ℕ => (List.range K).map fun k : ℕ =>
    morsewave1 N |f| γ β norm n k)

end Ssq
