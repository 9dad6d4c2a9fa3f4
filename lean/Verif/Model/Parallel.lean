import Verif.Model.Squeeze

/-!
# Which kernels run in parallel (ssqueezepy/algos.py, ssqueezepy/utils/stft_utils.py, ssqueezepy/ridge_extraction.py)

`par` is the argument `parallel` (`none` for `None`); `isPar` is the value of `IS_PARALLEL()`.
-/
namespace Ssq

/-- How a call is executed: one thread, several threads, or the GPU. (ssqueezepy/algos.py:22-29, 44-48.) -/
inductive Exec
  | serial
  | parallel
  | gpu
  deriving DecidableEq

/-- `x or y` of Python for `parallel or IS_PARALLEL()`. (ssqueezepy/algos.py:48, 715, 789; ssqueezepy/utils/stft_utils.py:55.) -/
def pyOr (par : Option Bool) (isPar : Bool) : Bool := if par = some true then true else isPar

/-- Choice of the compiled function. (ssqueezepy/algos.py:25-28.) -/
def execOf (b : Bool) : Exec := if b then .parallel else .serial

/-- `indexed_sum` — ssqueezepy/algos.py:22-29. -/
def indexedSumExec (par : Option Bool) (isPar : Bool) : Exec :=
  execOf (if par = some true then true else if par = none then isPar else false)

/-- `replace_under_abs` — ssqueezepy/algos.py:498-504. -/
def replaceUnderAbsExec (gpu : Bool) (par : Option Bool) (isPar : Bool) : Exec :=
  if gpu then .gpu
  else execOf (if par = some true then true else if par = none then isPar else false)

/-- `zero_denormals` — ssqueezepy/algos.py:593-601. -/
def zeroDenormalsExec (par : Option Bool) (isPar : Bool) : Exec :=
  execOf (match par with
    | some b => b
    | none => isPar)

/-- `phase_cwt_cpu` and `phase_stft_cpu` as called by `phase_cwt` (difftype 'trig') and `phase_stft` — ssqueezepy/algos.py:706-718, 784-792;
ssqueezepy/_ssq_cwt.py:478-498; ssqueezepy/_ssq_stft.py:240-246. -/
def phaseExec (gpu : Bool) (par : Option Bool) (isPar : Bool) : Exec :=
  if gpu then .gpu else execOf (pyOr par isPar)

/-- `buffer` — ssqueezepy/utils/stft_utils.py:46-56. -/
def bufferExec (gpu : Bool) (par : Option Bool) (isPar : Bool) : Exec :=
  if gpu then .gpu else execOf (pyOr par isPar)

/-- The suffix `'_par'` of the kernel's name, chosen by `_process_ssq_params` — ssqueezepy/algos.py:48, 118. -/
def ssqSuffix (gpu : Bool) (par : Option Bool) (isPar : Bool) : Bool := pyOr par isPar && !gpu

/-- `indexed_sum_onfly` — ssqueezepy/algos.py:153-169. -/
def onflyExec (gpu : Bool) (par : Option Bool) (isPar : Bool) : Exec :=
  if gpu then .gpu else execOf (ssqSuffix gpu par isPar)

/-- `ssqueeze_fast` — ssqueezepy/algos.py:126-150. The name of the STFT kernel is built without the suffix. -/
def fastExec (gpu stft : Bool) (par : Option Bool) (isPar : Bool) : Exec :=
  if gpu then .gpu
  else if stft then .serial
  else execOf (ssqSuffix gpu par isPar)

/-- `find_closest` of an array — ssqueezepy/algos.py:303-317, 376-386, 430-437. The search in sorted values is a numpy function: serial. -/
def findClosestExec (par smart : Option Bool) : Exec :=
  let smart := if smart = none ∧ par = none then some true else smart
  if smart = some true then .serial else execOf (par = some true)

/-- `extract_ridges` — ssqueezepy/ridge_extraction.py:105-109, 161-162, 200-201. -/
def ridgeExec (par : Option Bool) : Exec := execOf (par = some true)

end Ssq
