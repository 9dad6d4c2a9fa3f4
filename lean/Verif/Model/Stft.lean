import Verif.Model.Common
import Verif.Model.Dft
import Verif.Model.Xifn

/-!
# Model of `ssqueezepy/utils/stft_utils.py` and `ssqueezepy/_stft.py`

2D arrays whose second axis is time are lists of columns. Real arithmetic is exact. `dtype`
conversions, warnings and the torch/numpy distinction are not modelled, except for the CUDA index
map of `buffer`.
-/
namespace Ssq

/-! ## buffer -/

section buffer
variable {α : Type}

/-- One elementary write `out[row, col] = value`. (ssqueezepy/utils/stft_utils.py:70-98.) -/
abbrev Write (α : Type) := ℕ × ℕ × α

/-- `out[r, c] = v` on a list of columns. (ssqueezepy/utils/stft_utils.py:70-98.) -/
def applyWrite (out : List (List α)) (w : Write α) : List (List α) :=
  out.modify w.2.1 fun col => col.set w.1 w.2.2

/-- The writes performed by the slice assignment `out[r0:r0+len, c] = src`: equal lengths, or `src`
of length 1 (broadcast), otherwise `ValueError`. (ssqueezepy/utils/stft_utils.py:70-98.) -/
def sliceWrites (r0 len c : ℕ) (src : List α) : Py (List (Write α)) :=
  if src.length = len then .ok (src.mapIdx fun k v => (r0 + k, c, v))
  else match src with
    | [v] => .ok ((List.range len).map fun k => (r0 + k, c, v))
    | _ => .error .valueError

/-- Body of one iteration of `_buffer` / `_buffer_par` — ssqueezepy/utils/stft_utils.py:71-82, 87-98. -/
def bufferIter (x : List α) (segLen : ℕ) (hop : ℤ) (s20 s21 : ℕ) (modulated : Bool) (i : ℕ) :
    Py (List (Write α)) :=
  if !modulated then
    let start := hop * i
    let stop := start + segLen
    sliceWrites 0 segLen i (pySlice x (some start) (some stop))
  else do
    let start0 := hop * i
    let end0 := start0 + s21
    let start1 := end0
    let end1 := start1 + s20
    let a ← sliceWrites 0 s20 i (pySlice x (some start1) (some end1))
    let b ← sliceWrites s20 (segLen - s20) i (pySlice x (some start0) (some end0))
    return a ++ b

/-- `hop_len`, `n_segs` of `buffer` — ssqueezepy/utils/stft_utils.py:40-41: `//` by zero raises, and a negative
`n_segs` makes `np.zeros` raise. -/
def bufferParams (L segLen : ℕ) (nOverlap : ℤ) : Py (ℤ × ℕ) :=
  let hop : ℤ := segLen - nOverlap
  if hop = 0 then .error .zeroDivisionError
  else
    let n := Int.fdiv ((L : ℤ) - segLen) hop + 1
    if n < 0 then .error .valueError else .ok (hop, n.toNat)

/-- `s20 = ceil(seg_len/2)`, `s21 = s20 - 1 if seg_len odd else s20` — ssqueezepy/utils/stft_utils.py:42-43. -/
def bufferS20 (segLen : ℕ) : ℕ := (segLen + 1) / 2
/-- See `bufferS20`. (ssqueezepy/utils/stft_utils.py:43.) -/
def bufferS21 (segLen : ℕ) : ℕ := if segLen % 2 = 1 then bufferS20 segLen - 1 else bufferS20 segLen

/-- `np.zeros((seg_len, n_segs))`. (ssqueezepy/utils/stft_utils.py:58-65.) -/
def bufferZeros [Zero α] (segLen n : ℕ) : List (List α) :=
  List.replicate n (List.replicate segLen 0)

/-- `buffer(x, seg_len, n_overlap, modulated, parallel=False)` on a 1D numpy array —
ssqueezepy/utils/stft_utils.py:20-82. -/
def buffer [Zero α] (x : List α) (segLen : ℕ) (nOverlap : ℤ) (modulated : Bool) :
    Py (List (List α)) := do
  let (hop, n) ← bufferParams x.length segLen nOverlap
  (List.range n).foldlM (fun out i => do
    let ws ← bufferIter x segLen hop (bufferS20 segLen) (bufferS21 segLen) modulated i
    return ws.foldl applyWrite out) (bufferZeros segLen n)

/-- `buffer` on a 2D array (`n_inputs × len`) — ssqueezepy/utils/stft_utils.py:61-64: row by row. -/
def buffer2 [Zero α] (X : List (List α)) (segLen : ℕ) (nOverlap : ℤ) (modulated : Bool) :
    Py (List (List (List α))) :=
  X.mapM fun x => buffer x segLen nOverlap modulated

/-- Possible results of `_buffer_par` — ssqueezepy/utils/stft_utils.py:85-98. The iterations of the `prange`
loop run concurrently; their elementary writes may be interleaved in any order, so the outcome is
that of *some* permutation of all the writes. -/
def BufferParResult [Zero α] (x : List α) (segLen : ℕ) (nOverlap : ℤ) (modulated : Bool)
    (out : List (List α)) : Prop :=
  ∃ (hop : ℤ) (n : ℕ) (wss : List (List (Write α))) (sched : List (Write α)),
    bufferParams x.length segLen nOverlap = .ok (hop, n) ∧
    (List.range n).mapM (bufferIter x segLen hop (bufferS20 segLen) (bufferS21 segLen) modulated)
      = (.ok wss : Py _) ∧
    sched.Perm wss.flatten ∧ out = sched.foldl applyWrite (bufferZeros segLen n)

/-- The writes of CUDA thread `i` of the `buffer` kernel — ssqueezepy/utils/stft_utils.py:102-126: threads with
`i ≥ W` return. A read outside `x` (undefined behaviour in C) is modelled as an error. -/
def bufferGpuThread (x : List α) (W segLen : ℕ) (hop : ℤ) (s20 s21 : ℕ) (modulated : Bool) (i : ℕ) :
    Py (List (Write α)) :=
  if W ≤ i then .ok []
  else
    let start := hop * i
    (List.range segLen).mapM fun k : ℕ =>
      let j : ℤ := start + k
      let src : ℤ := if !modulated then j else if j < start + s20 then j + s21 else j - s20
      if src < 0 then .error .indexError
      else match x[src.toNat]? with
        | some v => .ok (((j - start).toNat, i, v) : Write α)
        | none => .error .indexError

/-- Possible results of the CUDA path — ssqueezepy/utils/stft_utils.py:46-49, 101-138. `threads` is the number
of threads launched (`blocks * 1024`, at least `W`, see C62). -/
def BufferGpuResult [Zero α] (x : List α) (segLen : ℕ) (nOverlap : ℤ) (modulated : Bool)
    (threads : ℕ) (out : List (List α)) : Prop :=
  ∃ (hop : ℤ) (n : ℕ) (wss : List (List (Write α))) (sched : List (Write α)),
    bufferParams x.length segLen nOverlap = .ok (hop, n) ∧
    (List.range threads).mapM
      (bufferGpuThread x n segLen hop (bufferS20 segLen) (bufferS21 segLen) modulated)
      = (.ok wss : Py _) ∧
    sched.Perm wss.flatten ∧ out = sched.foldl applyWrite (bufferZeros segLen n)

end buffer

/-! ## windows -/

/-- The `window` argument: `None`, a name, an array, or anything else. (ssqueezepy/_stft.py:259-300.) -/
inductive WindowArg
  | none | str (s : String) | arr (w : List ℝ) | other

/-- The library's windows: `sig.get_window(name, win_len, fftbins=True)` (may raise) and
`sig.windows.dpss(win_len, max(4, win_len//8), sym=False)`. Arbitrary. (ssqueezepy/_stft.py:259-300.) -/
structure WinLib where
  named : String → ℕ → Py (List ℝ)
  dpss : ℕ → Py (List ℝ)

/-- `zero_denormals` — ssqueezepy/algos.py:593-613, with `tiny` the dtype's threshold. -/
noncomputable def zeroDenormals (tiny : ℝ) (x : List ℝ) : List ℝ :=
  x.map fun v => if v < tiny ∧ v > -tiny then 0 else v

/-- `get_window(window, win_len, n_fft)` before the derivative and casts — ssqueezepy/_stft.py:259-292. -/
def getWindowRaw (lib : WinLib) (window : WindowArg) (winLen : ℕ) (nFft : Option ℕ) :
    Py (List ℝ) := do
  let (pl, pr) ← match nFft with
    | .none => (.ok (0, 0) : Py (ℕ × ℕ))
    | .some m =>
      if winLen > m then .error .valueError
      else .ok ((m - winLen) / 2, m - winLen - (m - winLen) / 2)
  let w ← match window with
    | .str s => lib.named s winLen
    | .arr w => .ok w
    | .other => .error .valueError
    | .none => lib.dpss winLen
  return if w.length < winLen + pl + pr then List.replicate pl 0 ++ w ++ List.replicate pr 0 else w

/-- `diff_window` — ssqueezepy/_stft.py:294-301: `ifft(fft(window) * 1j * xi).real`, with the Nyquist bin of
`xi` zeroed for even lengths. -/
noncomputable def diffWindow (w : List ℝ) : List ℝ :=
  let n := w.length
  let xi := if n % 2 = 0 then (xifn 1 n).set (n / 2) 0 else xifn 1 n
  (List.range n).map fun j =>
    (idft n (fun k => dft n (fun i => ((w.getD i 0 : ℝ) : ℂ)) k * Complex.I * ((xi.getD k 0 : ℝ) : ℂ))
      j).re

/-- `get_window(window, win_len, n_fft)` — ssqueezepy/_stft.py:259-310. -/
noncomputable def getWindow (lib : WinLib) (tiny : ℝ) (window : WindowArg) (winLen : ℕ)
    (nFft : Option ℕ) : Py (List ℝ) := do
  let w ← getWindowRaw lib window winLen nFft
  return zeroDenormals tiny w

/-- `get_window(..., derivative=True)`: `(window, diff_window)` — ssqueezepy/_stft.py:294-310. -/
noncomputable def getWindowD (lib : WinLib) (tiny : ℝ) (window : WindowArg) (winLen : ℕ)
    (nFft : Option ℕ) : Py (List ℝ × List ℝ) := do
  let w ← getWindowRaw lib window winLen nFft
  return (zeroDenormals tiny w, zeroDenormals tiny (diffWindow w))

/-- `_check_NOLA` — ssqueezepy/_stft.py:313-335: it only warns, except that `sig.check_NOLA` raises
`ValueError` when `noverlap >= nperseg`, i.e. `hop_len = 0` (the `hop_len > len(window)` case is
caught before). -/
def checkNOLA (window : List ℝ) (hop : ℕ) : Py Unit :=
  if hop > window.length then .ok ()
  else if hop = 0 then .error .valueError else .ok ()

/-! ## stft -/

/-- `col * window` under numpy broadcasting of `(L, n) *= (len(window), 1)`. (ssqueezepy/_stft.py:127-147.) -/
def mulWindow (w col : List ℝ) : Py (List ℝ) :=
  if w.length = col.length then .ok (List.zipWith (· * ·) col w)
  else match w with
    | [c] => .ok (col.map (· * c))
    | _ => .error .valueError

/-- `_stft` — ssqueezepy/_stft.py:127-147, 1D case: `(Sx, dSx)` as lists of columns. `fs` multiplies the
differentiated window in the `modulated` branch only (line 135). -/
noncomputable def stftCore (xp window diffWin : List ℝ) (nFft hop : ℕ) (fs : ℝ) (modulated : Bool) :
    Py (List (List ℂ) × List (List ℂ)) := do
  let S ← buffer xp nFft ((nFft : ℤ) - hop) modulated
  let dS ← buffer xp nFft ((nFft : ℤ) - hop) modulated
  let w := if modulated then ifftshiftL window else window
  let dw := if modulated then (ifftshiftL diffWin).map (· * fs) else diffWin
  let S ← S.mapM (mulWindow w)
  let dS ← dS.mapM (mulWindow dw)
  if nFft = 0 then .error .valueError
  return (S.map rfftL, dS.map rfftL)

/-- Arguments of `stft` that matter for the 1D numpy path. `fs` is the value returned by
`_process_fs_and_t` (see `processFsAndT`). (ssqueezepy/_stft.py:13-16.) -/
structure StftArgs where
  window : WindowArg := .none
  nFft : Option ℕ := .none
  winLen : Option ℕ := .none
  hop : ℕ := 1
  fs : ℝ := 1
  padtype : String := "reflect"
  modulated : Bool := true

/-- `n_fft or min(N//hop_len, 512)` — ssqueezepy/_stft.py:153 (`0` is falsy; `//` by zero raises). -/
def stftNfft (N : ℕ) (a : StftArgs) : Py ℕ :=
  match a.nFft with
  | .some (n + 1) => .ok (n + 1)
  | _ => if a.hop = 0 then .error .zeroDivisionError else .ok (min (N / a.hop) 512)

/-- `win_len` default — ssqueezepy/_stft.py:156-158. -/
def stftWinLen (nFft : ℕ) (a : StftArgs) : ℕ :=
  match a.winLen with
  | .some n => n
  | .none => match a.window with
    | .arr w => w.length
    | _ => nFft

/-- `stft(x, …, derivative=True)` — ssqueezepy/_stft.py:149-181 for a 1D numpy `x`. Returns
`(n_fft, Sx, dSx)`; `Sx` has `n_fft//2+1` rows. -/
noncomputable def stft (lib : WinLib) (tiny : ℝ) (x : List ℝ) (a : StftArgs) :
    Py (ℕ × List (List ℂ) × List (List ℂ)) := do
  let N := x.length
  let nFft ← stftNfft N a
  let winLen := stftWinLen nFft a
  let (window, diffWin) ← getWindowD lib tiny a.window winLen (some nFft)
  checkNOLA window a.hop
  let (xp, _, _, _) ← padsignal true x a.padtype (some ((N : ℤ) + nFft - 1))
  let (S, dS) ← stftCore xp window diffWin nFft a.hop a.fs a.modulated
  return (nFft, S, dS)

/-! ## istft -/

/-- `x[n:n+len(v)] += v` — numpy: the slice is clipped at the end of `x`; lengths must then agree
unless `v` has length 1 (broadcast into an empty slice). (ssqueezepy/utils/stft_utils.py:178-191.) -/
def addSlice (x : List ℝ) (n : ℕ) (v : List ℝ) : Py (List ℝ) :=
  let s := (x.drop n).take v.length
  if s.length = v.length then .ok (x.take n ++ List.zipWith (· + ·) s v ++ x.drop (n + v.length))
  else if v.length = 1 then .ok x
  else .error .valueError

/-- `_overlap_add` — ssqueezepy/utils/stft_utils.py:177-181, `window` already raised to `win_exp`. -/
def overlapAdd (x : List ℝ) (xbuf : List (List ℝ)) (wpow : List ℝ) (hop : ℕ) : Py (List ℝ) :=
  (xbuf.zipIdx).foldlM (fun x (c : List ℝ × ℕ) =>
    addSlice x (c.2 * hop) (List.zipWith (· * ·) c.1 wpow)) x

/-- `unbuffer(xbuf, window, hop_len, n_fft, N, win_exp)` — ssqueezepy/utils/stft_utils.py:141-166, with `N`
given (as `istft` does). `window ** 0` and the scalar `1` used for `win_exp == 0` multiply alike. -/
def unbuffer (xbuf : List (List ℝ)) (window : List ℝ) (hop nFft N winExp : ℕ) : Py (List ℝ) :=
  if window.length ≠ nFft then .error .valueError
  else
    let wpow := if winExp = 0 then window.map (fun _ => (1 : ℝ))
      else if winExp ≠ 1 then window.map (· ^ winExp) else window
    overlapAdd (List.replicate (N + nFft - 1) 0) xbuf wpow hop

/-- `window_norm` / `_window_norm` — ssqueezepy/utils/stft_utils.py:169-191. -/
def windowNorm (window : List ℝ) (hop nFft N winExp : ℕ) : Py (List ℝ) := do
  let wn := List.replicate (N + nFft - 1) (0 : ℝ)
  if hop = 0 then .error .zeroDivisionError
  let maxHops := Int.fdiv ((wn.length : ℤ) - nFft) hop + 1
  let wpow := window.map (· ^ (winExp + 1))
  (List.range maxHops.toNat).foldlM (fun wn i => addSlice wn (i * hop) wpow) wn

/-- Division by the window norm — ssqueezepy/_stft.py:241-246: where `wn > th` if some entry is below `th`,
everywhere otherwise. `wn.min()` of an empty array raises. -/
noncomputable def divByNorm (th : ℝ) (x wn : List ℝ) : Py (List ℝ) :=
  if wn = [] then .error .valueError
  else if ∃ v ∈ wn, v < th then
    .ok (List.zipWith (fun a b => if b > th then a / b else a) x wn)
  else .ok (List.zipWith (· / ·) x wn)

/-- Arguments of `istft`. `0` is falsy for the optional integers. (ssqueezepy/_stft.py:184-186.) -/
structure IstftArgs where
  window : WindowArg := .none
  nFft : Option ℕ := .none
  winLen : Option ℕ := .none
  hop : ℕ := 1
  N : Option ℕ := .none
  modulated : Bool := true
  winExp : ℕ := 1

/-- Python's `a or b` on an optional non-negative integer. (ssqueezepy/_stft.py:228-231.) -/
def orElse (a : Option ℕ) (b : ℕ) : ℕ :=
  match a with
  | some (n + 1) => n + 1
  | _ => b

/-- `istft` — ssqueezepy/_stft.py:222-256. `rows = Sx.shape[0]`, `th = np.finfo(dtype).tiny`. -/
noncomputable def istft (lib : WinLib) (tiny th : ℝ) (rows : ℕ) (Sx : List (List ℂ)) (a : IstftArgs) :
    Py (List ℝ) := do
  let nFft := orElse a.nFft ((rows - 1) * 2)
  let winLen := orElse a.winLen nFft
  let N := orElse a.N (a.hop * Sx.length)
  let window ← getWindow lib tiny a.window winLen (some nFft)
  checkNOLA window a.hop
  if nFft = 0 then .error .valueError
  let xbuf := Sx.map (irfftL nFft)
  let xbuf := if a.modulated then xbuf.map fftshiftL else xbuf
  let x ← unbuffer xbuf window a.hop nFft N a.winExp
  let wn ← windowNorm window a.hop nFft N a.winExp
  let x ← divByNorm th x wn
  return pySlice x (some ((nFft / 2 : ℕ) : ℤ)) (some (-(((nFft - 1) / 2 : ℕ) : ℤ)))

end Ssq
