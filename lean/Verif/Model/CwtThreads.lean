import Verif.Model.Cache

/-!
# `cwt` in several threads — ssqueezepy/_cwt.py:167-177, 278-290, ssqueezepy/wavelets.py:86-175

A call of `cwt` with a `Wavelet` instance as a sequence of accesses to the attributes of the wavelet; threads take turns at every access. Vectorized path. Samples of the wavelet are
represented by the length and the scales they were computed for. Not modelled here: the loop over scales (`vectorized=False`), the patience of `FFT_GLOBAL` (C58) and devices (C213).
-/
namespace Ssq

/-- Samples of the wavelet: their length and scales. (ssqueezepy/wavelets.py:154.) -/
structure TFb where
  len : ℕ
  scales : List ℝ

/-- The attributes of a `Wavelet`: `N` (and with it `xi`), `_Psih` (`none`: `None` or not set), `_Psih_N`, `_Psih_scale` with their defaults — ssqueezepy/wavelets.py:143-144, 152-159, 166-172. -/
structure TWav where
  N : ℕ
  psih : Option TFb := none
  pN : Option ℕ := none
  ps : List ℝ := [-1]

/-- Arguments of a call: length of the padded signal, scales, `cache_wavelet`, `derivative`. -/
structure TCall where
  len : ℕ
  scales : List ℝ
  cached : Bool := true
  derivative : Bool := true

/-- Where a thread is in its call; `N0` is its `wavelet_N_orig`. -/
inductive TPc
  | start
  | setN (N0 : ℕ)
  | readXi (N0 : ℕ)
  | readPN (N0 : ℕ)
  | readPs (N0 : ℕ) (pN : Option ℕ)
  | readN (N0 : ℕ) (pN : Option ℕ) (ps : List ℝ)
  | clear (N0 N : ℕ)
  | putPsih (N0 N : ℕ)
  | putN (N0 N : ℕ)
  | putPs (N0 : ℕ)
  | ret (N0 : ℕ)
  | mul (N0 : ℕ) (fb : Option TFb)
  | deriv (N0 : ℕ) (fb : TFb)
  | restore (N0 : ℕ) (fb : TFb)
  | done (r : Py TFb)

open Classical in
/-- One step of a call:
`wavelet_N_orig = wavelet.N`; `wavelet.N = xp.shape[-1]` (ssqueezepy/_cwt.py:278-279); without cache `wavelet(scale=scales)`, which reads `xi` (ssqueezepy/wavelets.py:75, 125); with cache
the steps of `Psih` (ssqueezepy/wavelets.py:143-160): read `_Psih_N`, `_Psih_scale` and `N`, compare, forget, compute (for the length read) and assign, return the attribute;
`* xh` (ssqueezepy/_cwt.py:168-171; `None` raises `TypeError`, another length `ValueError`; lengths above 1, so that nothing is broadcast); for the derivative `* 1j * wavelet.xi`
(ssqueezepy/_cwt.py:175); `wavelet.N = wavelet_N_orig` (ssqueezepy/_cwt.py:290). Result: the samples used. -/
noncomputable def tStep (c : TCall) (p : TPc) (w : TWav) : TPc × TWav :=
  match p with
  | .start => (.setN w.N, w)
  | .setN N0 => (if c.cached then .readPN N0 else .readXi N0, { w with N := c.len })
  | .readXi N0 => (.mul N0 (some ⟨w.N, c.scales⟩), w)
  | .readPN N0 => (.readPs N0 w.pN, w)
  | .readPs N0 pN => (.readN N0 pN w.ps, w)
  | .readN N0 pN ps => (if pN = some w.N ∧ c.scales.length = ps.length ∧ npAllclose c.scales ps then .ret N0 else .clear N0 w.N, w)
  | .clear N0 N => (.putPsih N0 N, { w with psih := none })
  | .putPsih N0 N => (.putN N0 N, { w with psih := some ⟨N, c.scales⟩ })
  | .putN N0 N => (.putPs N0, { w with pN := some N })
  | .putPs N0 => (.ret N0, { w with ps := c.scales })
  | .ret N0 => (.mul N0 w.psih, w)
  | .mul N0 fb => match fb with
    | none => (.done (.error .typeError), w)
    | some e => (if e.len = c.len then (if c.derivative then .deriv N0 e else .restore N0 e) else .done (.error .valueError), w)
  | .deriv N0 e => (if w.N = c.len then .restore N0 e else .done (.error .valueError), w)
  | .restore N0 e => (.done (.ok e), { w with N := N0 })
  | .done r => (.done r, w)

/-- All threads and all wavelets. -/
structure TSys where
  pc : ℕ → TPc
  wav : ℕ → TWav

/-- Thread `i`, whose call is `calls i` and whose wavelet is number `of i`, takes a step. (ssqueezepy/_cwt.py:167-177, 278-290.) -/
noncomputable def tSysStep (calls : ℕ → TCall) (of : ℕ → ℕ) (s : TSys) (i : ℕ) : TSys :=
  let r := tStep (calls i) (s.pc i) (s.wav (of i))
  ⟨Function.update s.pc i r.1, Function.update s.wav (of i) r.2⟩

/-- All threads from the start of their calls, under a schedule. (ssqueezepy/_cwt.py:167-177, 278-290.) -/
noncomputable def tRun (calls : ℕ → TCall) (of : ℕ → ℕ) (wav : ℕ → TWav) (sched : List ℕ) : TSys :=
  sched.foldl (tSysStep calls of) ⟨fun _ => .start, wav⟩

end Ssq
