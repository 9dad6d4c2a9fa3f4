import Verif.Model.CwtThreads

/-!
# `cwt` in several threads with `vectorized=False` — ssqueezepy/_cwt.py:179-199, 278-290

The loop over scales, in threads that take turns at every access to the wavelet, beside threads with the vectorized path
(`CwtThreads`).
-/
namespace Ssq

/-- Where a thread is in a call with `vectorized=False`: `N0` is its `wavelet_N_orig`, `left` the scales to come, `rows`
the samples used so far. (ssqueezepy/_cwt.py:179-199, 278-290.) -/
inductive LPc
  | start
  | setN (N0 : ℕ)
  | sample (N0 : ℕ) (left : List ℝ) (rows : List TFb)
  | deriv (N0 : ℕ) (left : List ℝ) (rows : List TFb)
  | restore (N0 : ℕ) (rows : List TFb)
  | done (r : Py (List TFb))

/-- One step: `wavelet_N_orig = wavelet.N`; `wavelet.N = xp.shape[-1]` (ssqueezepy/_cwt.py:278-279); for each scale
`wavelet(scale=scale)`, which reads `xi`, and `psih * xh`, a `ValueError` for another length (lines 193-194; lengths above
1, so that nothing is broadcast); for the derivative `wavelet.xi * psih` (lines 196-198); `wavelet.N = wavelet_N_orig`
(line 290). -/
def lStep (c : TCall) (p : LPc) (w : TWav) : LPc × TWav :=
  match p with
  | .start => (.setN w.N, w)
  | .setN N0 => (.sample N0 c.scales [], { w with N := c.len })
  | .sample N0 [] rows => (.restore N0 rows, w)
  | .sample N0 (s :: left) rows =>
    (if w.N = c.len then
      (if c.derivative then .deriv N0 left (rows ++ [⟨w.N, [s]⟩]) else .sample N0 left (rows ++ [⟨w.N, [s]⟩]))
     else .done (.error .valueError), w)
  | .deriv N0 left rows => (if w.N = c.len then .sample N0 left rows else .done (.error .valueError), w)
  | .restore N0 rows => (.done (.ok rows), { w with N := N0 })
  | .done r => (.done r, w)

/-- Threads of both kinds, and all wavelets. (ssqueezepy/_cwt.py:284-287.) -/
structure MSys where
  pc : ℕ → TPc ⊕ LPc
  wav : ℕ → TWav

/-- A step of a thread of either kind. (ssqueezepy/_cwt.py:284-287.) -/
noncomputable def mStep (c : TCall) (p : TPc ⊕ LPc) (w : TWav) : (TPc ⊕ LPc) × TWav :=
  match p with
  | .inl p => (.inl (tStep c p w).1, (tStep c p w).2)
  | .inr p => (.inr (lStep c p w).1, (lStep c p w).2)

/-- Thread `i`, whose call is `calls i` and whose wavelet is number `of i`, takes a step. (ssqueezepy/_cwt.py:278-290.) -/
noncomputable def mSysStep (calls : ℕ → TCall) (of : ℕ → ℕ) (s : MSys) (i : ℕ) : MSys :=
  let r := mStep (calls i) (s.pc i) (s.wav (of i))
  ⟨Function.update s.pc i r.1, Function.update s.wav (of i) r.2⟩

/-- All threads from the start of their calls, under a schedule; `vec i` is the argument `vectorized` of thread `i`.
(ssqueezepy/_cwt.py:278-290.) -/
noncomputable def mRun (calls : ℕ → TCall) (vec : ℕ → Bool) (of : ℕ → ℕ) (wav : ℕ → TWav) (sched : List ℕ) : MSys :=
  sched.foldl (mSysStep calls of) ⟨fun i => if vec i then .inl .start else .inr .start, wav⟩

end Ssq
