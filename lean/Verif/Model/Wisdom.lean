import Mathlib.Data.Set.Basic
import Mathlib.Data.Set.Lattice

/-!
# FFT wisdom — ssqueezepy/utils/fft_utils.py

Processes that use `FFT` with `patience != 0` and share one wisdom directory, step by step: every `open`, `write` and read
of a file is a step, and a process may end at any point. Wisdom is a set of plans for each precision. pyFFTW itself is assumed
to do as documented: `import_wisdom` adds to the wisdom of the process, `export_wisdom` returns all of it, and a string cut
short is not imported.
-/
namespace Ssq

/-- Precision of a plan: `wisdom32` or `wisdom64`. (ssqueezepy/utils/fft_utils.py:317-331.) -/
inductive WPrec
  | single
  | double
  deriving DecidableEq

/-- Where a process is: in `load_wisdom` (before reading the first file, before reading the second), outside, or in
`save_wisdom` (after the export; after `open` and after `write` of `wisdom32`; after `open` of `wisdom64`) —
ssqueezepy/utils/fft_utils.py:317-331. -/
inductive WPc
  | load32
  | load64
  | idle
  | exported
  | opened32
  | wrote32
  | opened64
  deriving DecidableEq

/-- A process: its place, the wisdom accumulated by pyFFTW and the strings `_wisdom32`, `_wisdom64` to be written. (ssqueezepy/utils/fft_utils.py:116-133, 317-331.) -/
structure WProc (P : Type) where
  pc : WPc
  mem : WPrec → Set P
  buf : WPrec → Set P

/-- The two files, `none` if missing, empty or cut short, and the processes by number. (ssqueezepy/utils/fft_utils.py:317-331.) -/
structure WWorld (P : Type) where
  disk : WPrec → Option (Set P)
  procs : ℕ → Option (WProc P)

/-- A step of process `i`. `start`: the import of ssqueezepy makes `FFT_GLOBAL` (lines 112-128, 364). `reload`: another `FFT()`.
`plan`: `_get_fft_object` (lines 249-260). `stop`: the process ends, by itself or killed. (ssqueezepy/utils/fft_utils.py:116-133, 249-260, 317-331, 364.) -/
inductive WAct (P : Type)
  | start (i : ℕ)
  | reload (i : ℕ)
  | read32 (i : ℕ)
  | read64 (i : ℕ)
  | plan (i : ℕ) (p : WPrec) (a : P)
  | export (i : ℕ)
  | open32 (i : ℕ)
  | write32 (i : ℕ)
  | open64 (i : ℕ)
  | write64 (i : ℕ)
  | stop (i : ℕ)

variable {P : Type}

/-- What a file gives when read. (ssqueezepy/utils/fft_utils.py:317-323.) -/
def wRead (f : Option (Set P)) : Set P := f.getD ∅

/-- Replace process `i`. (ssqueezepy/utils/fft_utils.py:317-331.) -/
def WWorld.setProc (w : WWorld P) (i : ℕ) (s : Option (WProc P)) : WWorld P := { w with procs := Function.update w.procs i s }

/-- Replace file `p`. (ssqueezepy/utils/fft_utils.py:325-331.) -/
def WWorld.setFile (w : WWorld P) (p : WPrec) (f : Option (Set P)) : WWorld P := { w with disk := Function.update w.disk p f }

/-- Process `i` at place `c` goes on by `k`. (ssqueezepy/utils/fft_utils.py:317-331.) -/
def wAt (w : WWorld P) (i : ℕ) (c : WPc) (k : WProc P → WWorld P) : Option (WWorld P) :=
  match w.procs i with
  | some s => if s.pc = c then some (k s) else none
  | none => none

/-- One step, `none` if the process is not at that place. `load_wisdom` — ssqueezepy/utils/fft_utils.py:317-323; reading a file and
importing it are one step here. `save_wisdom` — lines 325-331: export, then for `wisdom32` and after it `wisdom64` the file is
opened with `'wb'`, which empties it, and written. -/
def wStep (w : WWorld P) : WAct P → Option (WWorld P)
  | .start i =>
    match w.procs i with
    | none => some (w.setProc i (some ⟨.load32, fun _ => ∅, fun _ => ∅⟩))
    | some _ => none
  | .reload i => wAt w i .idle fun s => w.setProc i (some { s with pc := .load32 })
  | .read32 i => wAt w i .load32 fun s =>
      w.setProc i (some { s with pc := .load64, mem := Function.update s.mem .single (s.mem .single ∪ wRead (w.disk .single)) })
  | .read64 i => wAt w i .load64 fun s =>
      w.setProc i (some { s with pc := .idle, mem := Function.update s.mem .double (s.mem .double ∪ wRead (w.disk .double)) })
  | .plan i p a => wAt w i .idle fun s => w.setProc i (some { s with mem := Function.update s.mem p (s.mem p ∪ {a}) })
  | .export i => wAt w i .idle fun s => w.setProc i (some { s with pc := .exported, buf := s.mem })
  | .open32 i => wAt w i .exported fun s => (w.setProc i (some { s with pc := .opened32 })).setFile .single none
  | .write32 i => wAt w i .opened32 fun s => (w.setProc i (some { s with pc := .wrote32 })).setFile .single (some (s.buf .single))
  | .open64 i => wAt w i .wrote32 fun s => (w.setProc i (some { s with pc := .opened64 })).setFile .double none
  | .write64 i => wAt w i .opened64 fun s => (w.setProc i (some { s with pc := .idle })).setFile .double (some (s.buf .double))
  | .stop i =>
    match w.procs i with
    | none => none
    | some _ => some (w.setProc i none)

/-- Histories of steps, each of which is allowed. (ssqueezepy/utils/fft_utils.py:317-331.) -/
inductive WRun (allowed : WWorld P → WAct P → Prop) : WWorld P → WWorld P → Prop
  | refl (w : WWorld P) : WRun allowed w w
  | step {w1 w2 w3 : WWorld P} (a : WAct P) : WRun allowed w1 w2 → allowed w2 a → wStep w2 a = some w3 → WRun allowed w1 w3

end Ssq
