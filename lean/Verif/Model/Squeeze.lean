import Verif.Model.Py
import Mathlib.Analysis.SpecialFunctions.Log.Base
import Mathlib.Analysis.SpecialFunctions.Trigonometric.Basic
import Mathlib.Analysis.Complex.Norm

/-!
# Synchrosqueezing kernels (ssqueezepy/algos.py:22-250, 706-984, 1006-1294)

2D arrays are functions of row and column with the sizes `M` (rows) and `N` (columns) explicit.
The in-place update `out[k, j] += v` is an *operation* `AddOp`; a kernel is the list of operations it
performs, so that "which cells are written" is observable (numba does no bounds checking) and
so that parallel runs can be described as interleavings. The output array is a function of an
*integer* row: writes outside `[0, M)` are visible instead of being silently dropped.
Numbers are exact reals / complexes, except that the accumulator type and its `add` are arbitrary
wherever no arithmetic law is needed.
-/
namespace Ssq

/-- `EPS64 = np.finfo(np.float64).eps` — ssqueezepy/utils/common.py:13. -/
noncomputable def eps64 : ℝ := 1 / 2 ^ 52

/-- A value of the phase transform `w[i, j]`: `np.inf` or a finite number.
NaN is not modelled. (ssqueezepy/algos.py:173-252.) -/
inductive Phase
  | inf
  | fin (w : ℝ)

/-- `np.log2` of a finite `w >= 0`: `-inf` (`⊥`) at 0. (For `w < 0` numpy gives NaN; not modelled, the
theorems assume `0 ≤ w`, which `ssqueeze` enforces: ssqueezepy/ssqueezing.py:152.) -/
noncomputable def log2E (w : ℝ) : WithBot ℝ := if w = 0 then ⊥ else (Real.logb 2 w : ℝ)

/-- `max((wl - a) / d, 0)` where `wl` may be `-inf` (and `d > 0`). (ssqueezepy/algos.py:178, 206.) -/
noncomputable def relPos (wl : WithBot ℝ) (a d : ℝ) : ℝ :=
  match wl with
  | ⊥ => 0
  | (x : ℝ) => max ((x - a) / d) 0

/-- The scalar parameters of a kernel — the dictionaries built in
ssqueezepy/algos.py:81-87, 356-374. -/
inductive BinParams
  | lin (vmin dv : ℝ)
  | log (vlmin dvl : ℝ)
  | logPiecewise (vlmin0 vlmin1 dvl0 dvl1 : ℝ) (idx1 : ℤ)

/-- Row index computed by the two-pass kernels, before flipping:
`_indexed_sum_log` (ssqueezepy/algos.py:178), `_indexed_sum_log_piecewise` (:201-205),
`_indexed_sum_lin` (:236), and their `_par` twins. -/
noncomputable def binTwoPass (p : BinParams) (omax : ℤ) (w : ℝ) : ℤ :=
  match p with
  | .lin vmin dv => min (roundHalfEven (max ((w - vmin) / dv) 0)) omax
  | .log vlmin dvl => min (roundHalfEven (relPos (log2E w) vlmin dvl)) omax
  | .logPiecewise vlmin0 vlmin1 dvl0 dvl1 idx1 =>
    match log2E w with
    | ⊥ => roundHalfEven (0 : ℝ)
    | (wl : ℝ) =>
      if vlmin1 < wl then min (roundHalfEven ((wl - vlmin1) / dvl1) + idx1) omax
      else roundHalfEven (max ((wl - vlmin0) / dvl0) 0)

/-- Row index computed by the fused kernels, before flipping: `_ssq_cwt_log_piecewise`
(ssqueezepy/algos.py:870-874, which takes the maximum *after* rounding), `_ssq_cwt_log` (:908),
`_ssq_cwt_lin` and `_ssq_stft` (:938, :972). For `w = 0` the piecewise kernel rounds `-inf` and
converts it to an integer; we take the value used by the hardware (a very negative integer), which the
maximum turns into 0. -/
noncomputable def binFused (p : BinParams) (omax : ℤ) (w : ℝ) : ℤ :=
  match p with
  | .lin vmin dv => min (roundHalfEven (max ((w - vmin) / dv) 0)) omax
  | .log vlmin dvl => min (roundHalfEven (relPos (log2E w) vlmin dvl)) omax
  | .logPiecewise vlmin0 vlmin1 dvl0 dvl1 idx1 =>
    match log2E w with
    | ⊥ => 0
    | (wl : ℝ) =>
      if vlmin1 < wl then min (roundHalfEven ((wl - vlmin1) / dvl1) + idx1) omax
      else max (roundHalfEven ((wl - vlmin0) / dvl0)) 0

/-- Row index computed by the CUDA kernels (both one-pass and two-pass), before flipping:
C `round`, clamped after rounding — ssqueezepy/algos.py:1038-1046, 1080-1084, 1116-1120, 1154-1158,
1190-1198, 1226-1231, 1259-1264. `M - 1 = omax`. For `w = 0` the conversion of `-inf` to `int`
saturates at a negative value, which is clamped to 0. -/
noncomputable def binGpu (p : BinParams) (omax : ℤ) (w : ℝ) : ℤ :=
  let clamp (k : ℤ) : ℤ := if omax + 1 ≤ k then omax else if k < 0 then 0 else k
  match p with
  | .lin vmin dv => clamp (roundHalfAway ((w - vmin) / dv))
  | .log vlmin dvl =>
    match log2E w with
    | ⊥ => 0
    | (wl : ℝ) => clamp (roundHalfAway ((wl - vlmin) / dvl))
  | .logPiecewise vlmin0 vlmin1 dvl0 dvl1 idx1 =>
    match log2E w with
    | ⊥ => 0
    | (wl : ℝ) =>
      if vlmin1 < wl then
        let k := roundHalfAway ((wl - vlmin1) / dvl1) + idx1
        if omax + 1 ≤ k then omax else k
      else
        let k := roundHalfAway ((wl - vlmin0) / dvl0)
        if k < 0 then 0 else k

/-- `if flipud: k = omax - k` — ssqueezepy/algos.py:179-180 (and every other kernel). -/
def flipRow (flipud : Bool) (omax k : ℤ) : ℤ := if flipud then omax - k else k

/-- One `out[row, col] += val`. (ssqueezepy/algos.py:173-252.) -/
structure AddOp (α : Type) where
  row : ℤ
  col : ℕ
  val : α

/-- Effect of one `out[row, col] += val`, with an arbitrary `add`. (ssqueezepy/algos.py:173-252.) -/
def applyAdd {α : Type} (add : α → α → α) (out : ℤ → ℕ → α) (o : AddOp α) : ℤ → ℕ → α :=
  fun r c => if r = o.row ∧ c = o.col then add (out r c) o.val else out r c

/-- Running a list of updates in order. (ssqueezepy/algos.py:173-252.) -/
def runOps {α : Type} (add : α → α → α) (out : ℤ → ℕ → α) (ops : List (AddOp α)) :
    ℤ → ℕ → α :=
  ops.foldl (applyAdd add) out

/-- The serial loop nest `for i in range(M): for j in range(N): …`, where the body performs at
most one update — ssqueezepy/algos.py:173-181 and the other serial kernels. -/
def serialOps {α : Type} (M N : ℕ) (body : ℕ → ℕ → Option (AddOp α)) : List (AddOp α) :=
  (List.range M).flatMap fun i => (List.range N).filterMap fun j => body i j

/-- The iteration `j` of the parallel loop `for j in prange(N): for i in range(M): …` —
ssqueezepy/algos.py:184-192 and the other `_par` kernels; also CUDA thread `j`. -/
def colOps {α : Type} (M : ℕ) (body : ℕ → ℕ → Option (AddOp α)) (j : ℕ) : List (AddOp α) :=
  (List.range M).filterMap fun i => body i j

/-- A memory access of a parallel iteration: `out[row, col] += val` is a load into a private
register followed by a store. (ssqueezepy/algos.py:184-252.) -/
inductive Micro (α : Type)
  | load (row : ℤ) (col : ℕ)
  | store (row : ℤ) (col : ℕ) (val : α)

/-- The column (= parallel iteration) a memory access belongs to. (ssqueezepy/algos.py:184-252.) -/
def Micro.col {α : Type} : Micro α → ℕ
  | .load _ c => c
  | .store _ c _ => c

/-- The two accesses of one update. (ssqueezepy/algos.py:184-252.) -/
def AddOp.micros {α : Type} (o : AddOp α) : List (Micro α) :=
  [.load o.row o.col, .store o.row o.col o.val]

/-- Shared array plus one private register per parallel iteration. (ssqueezepy/algos.py:184-252.) -/
structure Mem (α : Type) where
  out : ℤ → ℕ → α
  reg : ℕ → α

/-- One memory access. (ssqueezepy/algos.py:184-252.) -/
def Mem.step {α : Type} (add : α → α → α) (m : Mem α) : Micro α → Mem α
  | .load r c => { m with reg := fun c' => if c' = c then m.out r c else m.reg c' }
  | .store r c v =>
    { m with out := fun r' c' => if r' = r ∧ c' = c then add (m.reg c) v else m.out r' c' }

/-- A run of the parallel loop under an arbitrary scheduler: any sequence of memory accesses in which
the accesses of each iteration occur in that iteration's program order. (ssqueezepy/algos.py:184-252.) -/
def IsParRun {α : Type} (M N : ℕ) (body : ℕ → ℕ → Option (AddOp α)) (sched : List (Micro α)) :
    Prop :=
  ∀ c, sched.filter (fun m => m.col = c) =
    if c < N then (colOps M body c).flatMap AddOp.micros else []

/-- Body of the two-pass kernels `_indexed_sum_*` — ssqueezepy/algos.py:172-250: skip infinite
phases, otherwise `out[k, j] += Wx[i, j] * const[i]`. `mul` and the element type are arbitrary. -/
def indexedSumBody {α β : Type} (mul : α → β → α) (bin : ℝ → ℤ) (omax : ℤ) (flipud : Bool)
    (Wx : ℕ → ℕ → α) (w : ℕ → ℕ → Phase) (const : ℕ → β) (i j : ℕ) : Option (AddOp α) :=
  match w i j with
  | .inf => none
  | .fin x => some ⟨flipRow flipud omax (bin x), j, mul (Wx i j) (const i)⟩

/-- `abs((B*C - A*D) / ((C**2 + D**2) * 6.283185307179586))` — ssqueezepy/algos.py:731-733 and
the fused CWT kernels. The literal is modelled as `2π`. -/
noncomputable def cwtFreq (W dW : ℂ) : ℝ :=
  |(dW.im * W.re - dW.re * W.im) / ((W.re ^ 2 + W.im ^ 2) * (2 * Real.pi))|

/-- `abs(Sfs[i] - (B*C - A*D) / ((C**2 + D**2) * 6.283185307179586))` —
ssqueezepy/algos.py:801-802 and the fused STFT kernels. -/
noncomputable def stftFreq (f : ℝ) (W dW : ℂ) : ℝ :=
  |f - (dW.im * W.re - dW.re * W.im) / ((W.re ^ 2 + W.im ^ 2) * (2 * Real.pi))|

open Classical in
/-- `_phase_cwt`, `_phase_cwt_par`, `phase_cwt_gpu` (one cell) — ssqueezepy/algos.py:722-761. -/
noncomputable def phaseCwt (gamma : ℝ) (Wx dWx : ℕ → ℕ → ℂ) (i j : ℕ) : Phase :=
  if ‖Wx i j‖ < gamma then .inf else .fin (cwtFreq (Wx i j) (dWx i j))

open Classical in
/-- `_phase_stft`, `_phase_stft_par`, `phase_stft_gpu` (one cell) —
ssqueezepy/algos.py:794-839. -/
noncomputable def phaseStft (gamma : ℝ) (Sfs : ℕ → ℝ) (Wx dWx : ℕ → ℕ → ℂ) (i j : ℕ) : Phase :=
  if ‖Wx i j‖ < gamma then .inf else .fin (stftFreq (Sfs i) (Wx i j) (dWx i j))

open Classical in
/-- Body of the fused CWT kernels `_ssq_cwt_*` — ssqueezepy/algos.py:859-948:
cells with `abs(Wx) > gamma` are moved. -/
noncomputable def ssqCwtBody (bin : ℝ → ℤ) (omax : ℤ) (flipud : Bool) (gamma : ℝ)
    (Wx dWx : ℕ → ℕ → ℂ) (const : ℕ → ℝ) (i j : ℕ) : Option (AddOp ℂ) :=
  if gamma < ‖Wx i j‖ then
    some ⟨flipRow flipud omax (bin (cwtFreq (Wx i j) (dWx i j))), j, Wx i j * (const i : ℂ)⟩
  else none

open Classical in
/-- Body of the fused STFT kernels `_ssq_stft(_par)` — ssqueezepy/algos.py:951-984. -/
noncomputable def ssqStftBody (bin : ℝ → ℤ) (omax : ℤ) (flipud : Bool) (gamma : ℝ) (Sfs : ℕ → ℝ)
    (Wx dWx : ℕ → ℕ → ℂ) (const : ℕ → ℝ) (i j : ℕ) : Option (AddOp ℂ) :=
  if gamma < ‖Wx i j‖ then
    some ⟨flipRow flipud omax (bin (stftFreq (Sfs i) (Wx i j) (dWx i j))), j,
      Wx i j * (const i : ℂ)⟩
  else none

/-- `_ensure_nonzero_nonnegative` — ssqueezepy/algos.py:347-353 (without the warning). -/
noncomputable def ensureNonzeroNonneg (x : ℝ) : ℝ := if x < eps64 then eps64 else x

open Classical in
/-- `np.argmax` of a non-empty list: first index of a maximal element. (ssqueezepy/utils/cwt_utils.py:380, 450.) -/
noncomputable def argmaxL (l : List ℝ) : ℕ := l.findIdx fun x => decide (∀ y ∈ l, y ≤ x)

/-- `np.abs(np.diff(np.log(scales), 2, axis=0))` — ssqueezepy/utils/cwt_utils.py:379. -/
noncomputable def absDiff2Log (v : List ℝ) : List ℝ :=
  (List.range (v.length - 2)).map fun i : ℕ =>
    |(Real.log (v.getD (i + 2) 1) - Real.log (v.getD (i + 1) 1)) -
      (Real.log (v.getD (i + 1) 1) - Real.log (v.getD i 1))|

open Classical in
/-- `logscale_transition_idx` — ssqueezepy/utils/cwt_utils.py:375-394. `th` is the threshold `1e-14`
(float64) or `1e-6`. Fewer than three points: `np.argmax` of an empty array raises
`ValueError`. Elements are assumed positive (otherwise numpy produces NaN). -/
noncomputable def logscaleTransitionIdx (th : ℝ) (v : List ℝ) : Py (Option ℕ) :=
  let d2 := absDiff2Log v
  if d2 = [] then .error .valueError else
  let idx := argmaxL d2 + 2
  let d2max := d2.getD (idx - 2) 0
  let d2' := d2.set (idx - 2) 0
  let mean := d2'.sum / d2'.length
  if ¬ (d2max > 100 * mean) then .ok none
  else if ¬ (∀ y ∈ d2', |y| < th) then .ok none
  else .ok (some idx)

/-- `_get_params_find_closest_log` — ssqueezepy/algos.py:356-374. -/
noncomputable def paramsFindClosestLog (th : ℝ) (v : List ℝ) : Py BinParams := do
  let idx ← logscaleTransitionIdx th v
  let l (i : ℕ) : ℝ := Real.logb 2 (v.getD i 1)
  match idx with
  | none => return .log (l 0) (ensureNonzeroNonneg (l 1 - l 0))
  | some idx =>
    return .logPiecewise (l 0) (l (idx - 1)) (ensureNonzeroNonneg (l 1 - l 0))
      (ensureNonzeroNonneg (l idx - l (idx - 1))) ((idx : ℤ) - 1)

/-- The `const` argument: a scalar or a 1D array. (ssqueezepy/algos.py:66-79.) -/
inductive ConstArg
  | scalar (c : ℝ)
  | array (l : List ℝ)

/-- Processing of `const` in `_process_ssq_params` — ssqueezepy/algos.py:66-78. With one row
(`M = 1`) the squeezed `const` is a scalar and the kernel's `const[i]` fails. A mismatched
length is a broadcasting `ValueError` in `np.full`. -/
def constArr (M : ℕ) : ConstArg → Py (List ℝ)
  | .scalar c => if M = 1 then .error .exception else .ok (List.replicate M c)
  | .array l =>
    if M = 1 then .error .exception
    else if l.length = M then .ok l
    else match l with
      | [c] => .ok (List.replicate M c)
      | _ => .error .valueError

/-- Grid parameters in `_process_ssq_params` — ssqueezepy/algos.py:80-87. -/
noncomputable def processSsqParams (th : ℝ) (v : List ℝ) (logscale : Bool) : Py BinParams :=
  if logscale then paramsFindClosestLog th v
  else match v with
    | v0 :: v1 :: _ => .ok (.lin v0 (ensureNonzeroNonneg (v1 - v0)))
    | _ => .error .indexError

/-- Where the computation runs: CPU serial/parallel, or GPU. Decides which index function is
used. (ssqueezepy/algos.py:44-171.) -/
inductive Device
  | cpu
  | gpu
  deriving DecidableEq

/-- The index function of the two-pass kernels on each device. (ssqueezepy/algos.py:153-252, 1170-1260.) -/
noncomputable def binTP (d : Device) : BinParams → ℤ → ℝ → ℤ :=
  match d with
  | .cpu => binTwoPass
  | .gpu => binGpu

/-- The index function of the fused kernels on each device. (ssqueezepy/algos.py:860-985, 1018-1160.) -/
noncomputable def binF (d : Device) : BinParams → ℤ → ℝ → ℤ :=
  match d with
  | .cpu => binFused
  | .gpu => binGpu

/-- `indexed_sum_onfly`: the loop body it executes — ssqueezepy/algos.py:153-169. -/
noncomputable def onflyBody (d : Device) (th : ℝ) (M : ℕ) (Wx : ℕ → ℕ → ℂ) (w : ℕ → ℕ → Phase)
    (v : List ℝ) (const : ConstArg) (logscale flipud : Bool) :
    Py (ℕ → ℕ → Option (AddOp ℂ)) := do
  let c ← constArr M const
  let p ← processSsqParams th v logscale
  let omax : ℤ := (M : ℤ) - 1
  return indexedSumBody (fun (a : ℂ) (b : ℝ) => a * (b : ℂ)) (binTP d p omax) omax flipud Wx w
    (fun i => c.getD i 0)

/-- `ssqueeze_fast`: the loop body it executes — ssqueezepy/algos.py:126-150.
`Sfs = none` selects the CWT kernels. The STFT kernel is always the linear one. -/
noncomputable def fastBody (d : Device) (th : ℝ) (M : ℕ) (Wx dWx : ℕ → ℕ → ℂ)
    (v : List ℝ) (const : ConstArg) (logscale flipud : Bool) (gamma : ℝ) (Sfs : Option (ℕ → ℝ)) :
    Py (ℕ → ℕ → Option (AddOp ℂ)) := do
  let c ← constArr M const
  let p ← processSsqParams th v logscale
  let omax : ℤ := (M : ℤ) - 1
  match Sfs with
  | none => return ssqCwtBody (binF d p omax) omax flipud gamma Wx dWx (fun i => c.getD i 0)
  | some f =>
    match p with
    | .lin .. => return ssqStftBody (binF d p omax) omax flipud gamma f Wx dWx (fun i => c.getD i 0)
    | _ => .error .typeError

/-- `indexed_sum_onfly` on the CPU, serial — ssqueezepy/algos.py:153-169. -/
noncomputable def indexedSumOnfly (d : Device) (th : ℝ) (M N : ℕ) (out : ℤ → ℕ → ℂ)
    (Wx : ℕ → ℕ → ℂ) (w : ℕ → ℕ → Phase)
    (v : List ℝ) (const : ConstArg) (logscale flipud : Bool) : Py (ℤ → ℕ → ℂ) := do
  let body ← onflyBody d th M Wx w v const logscale flipud
  return runOps (· + ·) out (serialOps M N body)

/-- `ssqueeze_fast` on the CPU, serial — ssqueezepy/algos.py:126-150. -/
noncomputable def ssqueezeFast (d : Device) (th : ℝ) (M N : ℕ) (out : ℤ → ℕ → ℂ)
    (Wx dWx : ℕ → ℕ → ℂ)
    (v : List ℝ) (const : ConstArg) (logscale flipud : Bool) (gamma : ℝ) (Sfs : Option (ℕ → ℝ)) :
    Py (ℤ → ℕ → ℂ) := do
  let body ← fastBody d th M Wx dWx v const logscale flipud gamma Sfs
  return runOps (· + ·) out (serialOps M N body)

/-- `_indexed_sum` and `_indexed_sum_par` — ssqueezepy/algos.py:22-41. The index array is given by
the caller and is not checked. -/
def indexedSumSimpleBody {α : Type} (a : ℕ → ℕ → α) (k : ℕ → ℕ → ℤ) (i j : ℕ) :
    Option (AddOp α) :=
  some ⟨k i j, j, a i j⟩

end Ssq
