import Verif.Model.FftState

/-!
# `FFT_GLOBAL.patience` while `cwt` runs in several threads

Each call takes its FFT of the signal, reads the settings, sets its own patience, takes its inverse FFTs and puts the
settings back (ssqueezepy/_cwt.py:268-299). A step is one of these; a schedule says whose step is next. Reading and
putting back both settings is one step here. The FFTs themselves are assumed to succeed (pyfftw installed).
-/
namespace Ssq

/-- A call of `cwt`: its `patience`, and how many inverse FFTs it takes (one, two with a derivative, or that many per
scale with `vectorized=False`). (ssqueezepy/_cwt.py:168-203.) -/
structure PatCall where
  patience : PatArg
  inverse : ℕ

/-- Where a call is. (ssqueezepy/_cwt.py:268-299.) -/
inductive PatPc
  | forward
  | save
  | set
  | inverse (left : ℕ)
  | restore
  | done
  | failed (e : PyErr)

/-- A thread: where it is, the settings it read, and the settings each of its FFTs used so far.
(ssqueezepy/_cwt.py:268-299.) -/
structure PatThread where
  pc : PatPc := .forward
  orig : FftSt := ⟨.int 0, .none⟩
  used : List FftSt := []

/-- All threads and the global settings. (ssqueezepy/_cwt.py:278-298.) -/
structure PatSys where
  glob : FftSt
  th : ℕ → PatThread

/-- One step of a call — ssqueezepy/_cwt.py:269 (FFT), 280 (reading), 281 (setting; it may raise), 283-288 (inverse
FFTs), 291 (putting back). -/
def patStep (c : PatCall) (g : FftSt) (t : PatThread) : FftSt × PatThread :=
  match t.pc with
  | .forward => (g, { t with pc := .save, used := t.used ++ [g] })
  | .save => (g, { t with pc := .set, orig := g })
  | .set =>
    match setPatience g c.patience with
    | (g', .ok ()) => (g', { t with pc := .inverse c.inverse })
    | (g', .error e) => (g', { t with pc := .failed e })
  | .inverse 0 => (g, { t with pc := .restore })
  | .inverse (k + 1) => (g, { t with pc := .inverse k, used := t.used ++ [g] })
  | .restore => ((setPatience g (.tuple [t.orig.patience, t.orig.timelimit])).1, { t with pc := .done })
  | .done => (g, t)
  | .failed _ => (g, t)

/-- A step of thread `i`. (ssqueezepy/_cwt.py:268-299.) -/
def PatSys.step (calls : ℕ → PatCall) (s : PatSys) (i : ℕ) : PatSys :=
  let r := patStep (calls i) s.glob (s.th i)
  ⟨r.1, Function.update s.th i r.2⟩

/-- Running a schedule. (ssqueezepy/_cwt.py:268-299.) -/
def patRun (calls : ℕ → PatCall) (g : FftSt) (sched : List ℕ) : PatSys :=
  sched.foldl (PatSys.step calls) ⟨g, fun _ => {}⟩

end Ssq
